{
 "claims": [
  {
   "property": "C01",
   "status": "proved",
   "theorems": [
    "Jzon.Props.C01_valid_iff_json"
   ],
   "note": "Valid on the model is true exactly on JSON texts of the grammar specification."
  },
  {
   "property": "C02",
   "status": "proved",
   "theorems": [
    "Jzon.Props.C02_skip_iff",
    "Jzon.Props.C02_skip_value",
    "Jzon.Props.C02_skip_number"
   ],
   "note": "Exact characterisation of Skip on any iterator state, with consequences for values and numbers."
  },
  {
   "property": "C03",
   "status": "proved",
   "theorems": [
    "Jzon.Props.C03_same_unread",
    "Jzon.Props.C03_reader_slice",
    "Jzon.Props.C03_readers",
    "Jzon.Props.C03_nil",
    "Jzon.Props.C03_unmarshal"
   ],
   "note": "Holds for every decoding program of the model's language, hence for every modelled operation and every sequence of them. Readers repeat io.EOF once reported."
  },
  {
   "property": "C04",
   "status": "proved",
   "theorems": [
    "Jzon.Props.C04_read_iff"
   ],
   "note": "Both UseNumber and float reading; the float facts assumed of ParseFloat are the two laws in Spec.Lawful."
  },
  {
   "property": "C05",
   "status": "proved",
   "theorems": [
    "Jzon.Props.C05_read_skip_agree",
    "Jzon.Props.C05_read_float",
    "Jzon.Props.C05_valid_read"
   ],
   "note": ""
  },
  {
   "property": "C06",
   "status": "proved",
   "theorems": [
    "Jzon.Props.C06_skipRaw_iff",
    "Jzon.Props.C06_appendRaw_iff",
    "Jzon.Props.C06_readRaw_iff",
    "Jzon.Props.C06_readNumber_iff"
   ],
   "note": ""
  },
  {
   "property": "C07",
   "status": "proved",
   "theorems": [
    "Jzon.Props.C07_offset",
    "Jzon.Props.C07_offset_step"
   ],
   "note": "Holds for every decoding program."
  },
  {
   "property": "C08",
   "status": "proved",
   "theorems": [
    "Jzon.Props.C08_described",
    "Jzon.Props.C08_skip",
    "Jzon.Props.C08_skipArray",
    "Jzon.Props.C08_skipObject",
    "Jzon.Props.C08_skipString",
    "Jzon.Props.C08_skipNumber",
    "Jzon.Props.C08_skipRaw",
    "Jzon.Props.C08_appendRaw",
    "Jzon.Props.C08_readRaw",
    "Jzon.Props.C08_valid",
    "Jzon.Props.C08_read",
    "Jzon.Props.C08_readFloat",
    "Jzon.Props.C08_readNumber",
    "Jzon.Props.C08_readString",
    "Jzon.Props.C08_readStringAndAppend",
    "Jzon.Props.C08_readBool",
    "Jzon.Props.C08_readNull",
    "Jzon.Props.C08_readUint8",
    "Jzon.Props.C08_readUint16",
    "Jzon.Props.C08_readUint32",
    "Jzon.Props.C08_readUint64",
    "Jzon.Props.C08_readInt8",
    "Jzon.Props.C08_readInt16",
    "Jzon.Props.C08_readInt32",
    "Jzon.Props.C08_readInt64",
    "Jzon.Props.C08_nextValueType",
    "Jzon.Props.C08_readArrayBegin",
    "Jzon.Props.C08_readArrayMore",
    "Jzon.Props.C08_readObjectBegin",
    "Jzon.Props.C08_readObjectMore",
    "Jzon.Props.C08_sequence",
    "Jzon.Props.C08_readArrayCB",
    "Jzon.Props.C08_forArray",
    "Jzon.Props.C08_readObjectCB",
    "Jzon.Props.C08_forObject",
    "Jzon.Props.C08_captured",
    "Jzon.Props.C08_readVal",
    "Jzon.Props.C08_unmarshal"
   ],
   "note": "No operation of the modelled reading surface panics (index out of range) or runs out of its loop bound; every operation consumes a prefix and leaves the iterator usable. Byte-scan fast paths are modelled at the level of single byte steps (see DESIGN.md)."
  },
  {
   "property": "C09",
   "status": "proved",
   "theorems": [
    "Jzon.Props.C09_stack_refines"
   ],
   "note": "Any history of pushes and pops, any stale content."
  },
  {
   "property": "C10",
   "status": "proved",
   "theorems": [
    "Jzon.Props.C10_ReadUint16",
    "Jzon.Props.C10_ReadUint32",
    "Jzon.Props.C10_ReadUint64",
    "Jzon.Props.C10_ReadInt16",
    "Jzon.Props.C10_ReadInt32",
    "Jzon.Props.C10_ReadInt64",
    "Jzon.Props.C10_ReadInt",
    "Jzon.Props.C10_ReadUint"
   ],
   "note": "int and uint are taken to be 64 bits wide. A leading zero ends the literal, as in the code."
  },
  {
   "property": "C11",
   "status": "partial",
   "theorems": [
    "Jzon.Props.C11_violated",
    "Jzon.Props.C11_ReadUint8_partial",
    "Jzon.Props.C11_ReadInt8_partial",
    "Jzon.Props.C11_ReadUint8_noWrap_partial"
   ],
   "note": "The property is violated by the code: C11_violated proves it (a fourth digit is never looked at). Proved for literals of at most three digits, and that nothing wraps around."
  },
  {
   "property": "C12",
   "status": "proved",
   "theorems": [
    "Jzon.Props.C12_copy_loops",
    "Jzon.Props.C12_copy_eq",
    "Jzon.Props.C12_readFloat_iff"
   ],
   "note": "ParseFloat is a parameter with the two laws in Spec.Lawful."
  },
  {
   "property": "C13",
   "status": "proved",
   "theorems": [
    "Jzon.Props.C13_copy_eq",
    "Jzon.Props.C13_copy_loops",
    "Jzon.Props.C13_readString_iff",
    "Jzon.Props.C13_readStringAndAppend_iff",
    "Jzon.Props.C13_denotation_unique"
   ],
   "note": ""
  },
  {
   "property": "C14",
   "status": "proved",
   "theorems": [
    "Jzon.Props.C14_skipString_iff",
    "Jzon.Props.C14_read_skip_agree"
   ],
   "note": ""
  },
  {
   "property": "C15",
   "status": "proved",
   "theorems": [
    "Jzon.Props.C15_canonical_unique",
    "Jzon.Props.C15_Uint8",
    "Jzon.Props.C15_Uint16",
    "Jzon.Props.C15_Uint32",
    "Jzon.Props.C15_Uint64",
    "Jzon.Props.C15_Int8",
    "Jzon.Props.C15_Int16",
    "Jzon.Props.C15_Int32",
    "Jzon.Props.C15_Int64"
   ],
   "note": ""
  },
  {
   "property": "C16",
   "status": "proved",
   "theorems": [
    "Jzon.Props.C16_Uint8",
    "Jzon.Props.C16_Int8",
    "Jzon.Props.C16_Uint16",
    "Jzon.Props.C16_Uint32",
    "Jzon.Props.C16_Uint64",
    "Jzon.Props.C16_Int16",
    "Jzon.Props.C16_Int32",
    "Jzon.Props.C16_Int64"
   ],
   "note": ""
  },
  {
   "property": "C17",
   "status": "proved",
   "theorems": [
    "Jzon.Props.C17_string",
    "Jzon.Props.C17_field",
    "Jzon.Props.C17_bytes"
   ],
   "note": ""
  },
  {
   "property": "C18",
   "status": "proved",
   "theorems": [
    "Jzon.Props.C18_string",
    "Jzon.Props.C18_valid",
    "Jzon.Props.C18_sanitized"
   ],
   "note": ""
  },
  {
   "property": "C19",
   "status": "proved",
   "theorems": [
    "Jzon.Props.C19_calls",
    "Jzon.Props.C19_json"
   ],
   "note": "Raw values and raw fields are given by the caller; the theorem takes them as they are."
  },
  {
   "property": "C20",
   "status": "proved",
   "theorems": [
    "Jzon.Props.C20_read_back",
    "Jzon.Props.C20_read_back_all"
   ],
   "note": "Float values are read through the abstract strconv operations; with UseNumber there is no assumption."
  },
  {
   "property": "C21",
   "status": "proved",
   "theorems": [
    "Jzon.Props.C21_flush",
    "Jzon.Props.C21_delivered"
   ],
   "note": "Float arguments are assumed to follow the laws of strconv.AppendFloat stated in Spec/Stream.lean."
  },
  {
   "property": "C22",
   "status": "proved",
   "theorems": [
    "Jzon.Props.C22_sticky",
    "Jzon.Props.C22_encoder"
   ],
   "note": "The effect of Streamer.Value is a parameter that either appends a text or fails; the writer keeps the contract of io.Writer (an error if it accepts less than everything). Without that contract the code loses the rest of the line (see DESIGN.md)."
  },
  {
   "property": "C23",
   "status": "partial",
   "theorems": [
    "Jzon.Props.C23_in_order",
    "Jzon.Props.C23_only_values_partial",
    "Jzon.Props.C23_cut_number_violated",
    "Jzon.Props.C23_stream_iff_partial",
    "Jzon.Props.C23_chunks",
    "Jzon.Props.C23_buffer",
    "Jzon.Props.C23_options",
    "Jzon.Props.C23_options_quiet",
    "Jzon.Props.C23_sticky",
    "Jzon.Props.C23_more",
    "Jzon.Props.C23_buffered",
    "Jzon.Props.C23_end"
   ],
   "note": "Order, completeness, chunk independence, sticky errors, More, Buffered and the end of the stream are proved for all types. The converse (only whole values are delivered) is proved for all types but the integer types and pointers to them (C23_stream_iff_partial); for these the code takes the integer part of a longer number (C23_cut_number_violated)."
  },
  {
   "property": "C24",
   "status": "proved",
   "theorems": [
    "Jzon.Props.C24_after_ReadVal",
    "Jzon.Props.C24_trailing",
    "Jzon.Props.C24_reader"
   ],
   "note": "Stated for decoding into a well-declared variable; the decoded type and configuration are arbitrary."
  },
  {
   "property": "C25",
   "status": "proved",
   "theorems": [
    "Jzon.Props.C25_described",
    "Jzon.Props.C25_value",
    "Jzon.Props.C25_types",
    "Jzon.Props.C25_injective",
    "Jzon.Props.C25_pointer_to_nil",
    "Jzon.Props.C25_invalid_string"
   ],
   "note": "C25_types: for every set of types built from bool, sized integers, string, pointers, slices, arrays, maps and structs (with embedded structs and pointers, omitempty where it does not lose information), every value with valid UTF-8 strings and finite maps is written and read back. Pointers to types with nil values are excluded, since they cannot come back (C25_pointer_to_nil; the same in encoding/json). C25_value covers single values of all other types, e.g. interface{}, json.Number, RawMessage, types with methods. Base64 of the standard library is assumed to decode what it encoded; map iteration order is arbitrary. C25_described: the same for structs whose fields are those that the library computes from Go declarations."
  },
  {
   "property": "C26",
   "status": "partial",
   "theorems": [
    "Jzon.Props.C26_lax_partial",
    "Jzon.Props.C26_noMap_partial",
    "Jzon.Props.C26_noQuotedBool_partial",
    "Jzon.Props.C26_json_partial",
    "Jzon.Props.C26_json_reader_partial",
    "Jzon.Props.C26_null_key_violated",
    "Jzon.Props.C26_space_violated"
   ],
   "note": "False as stated: null map keys and white space in quoted bool literals are accepted (proved). Proved: every accepted text is JSON up to exactly these two deviations, and it is JSON for types without maps and without quoted bool fields."
  },
  {
   "property": "C27",
   "status": "partial",
   "theorems": [
    "Jzon.Props.C27_find_partial",
    "Jzon.Props.C27_one_field_partial",
    "Jzon.Props.C27_find_exact",
    "Jzon.Props.C27_violated_one_field"
   ],
   "note": "Proved for every number of fields other than one; for one field soundness, and completeness for ASCII keys. Violated for one field (Kelvin sign, long s): C27_violated_one_field. Unicode tables abstract with stated laws."
  },
  {
   "property": "C28",
   "status": "partial",
   "theorems": [
    "Jzon.Props.C28_described_names",
    "Jzon.Props.C28_described_path",
    "Jzon.Props.C28_places",
    "Jzon.Props.C28_same_fields",
    "Jzon.Props.C28_encoder_path",
    "Jzon.Props.C28_terminates",
    "Jzon.Props.C28_names",
    "Jzon.Props.C28_candidates",
    "Jzon.Props.C28_order",
    "Jzon.Props.C28_complete",
    "Jzon.Props.C28_dominates",
    "Jzon.Props.C28_fields_partial",
    "Jzon.Props.C28_diamond_violated"
   ],
   "note": "Proved: termination, distinct names, declaration order, every visible field is present, and a field of the result is beaten only by the same member of the same struct embedded in another way. Equality with the Go rule is proved for struct types in which a struct reached by several shortest ways embeds no structs; without this it fails (C28_diamond_violated): a struct two levels below a diamond is not seen as ambiguous. C28_same_fields, C28_encoder_path: encoder and decoder use the same fields and places; C28_places: no field lies inside another."
  },
  {
   "property": "C29",
   "status": "proved",
   "theorems": [
    "Jzon.Props.C29_slice",
    "Jzon.Props.C29_array"
   ],
   "note": "Slices replaced element by element from zero values; arrays filled in place, surplus skipped, missing zeroed or kept exactly as specified."
  },
  {
   "property": "C30",
   "status": "partial",
   "theorems": [
    "Jzon.Props.C30_null_key_violated",
    "Jzon.Props.C30_map_partial",
    "Jzon.Props.C30_last_wins"
   ],
   "note": "Merge and last-duplicate-wins are proved. The part saying that keys are JSON strings is false: an unquoted null is accepted as a key; the theorem describes the accepted keys exactly."
  },
  {
   "property": "C31",
   "status": "proved",
   "theorems": [
    "Jzon.Props.C31_complete",
    "Jzon.Props.C31_unique",
    "Jzon.Props.C31_stable",
    "Jzon.Props.C31_frozen",
    "Jzon.Props.C31_exclusive",
    "Jzon.Props.C31_ends",
    "Jzon.Props.C31_served",
    "Jzon.Props.C31_enc_complete",
    "Jzon.Props.C31_enc_unique",
    "Jzon.Props.C31_enc_stable",
    "Jzon.Props.C31_enc_frozen",
    "Jzon.Props.C31_enc_exclusive",
    "Jzon.Props.C31_enc_ends",
    "Jzon.Props.C31_enc_served"
   ],
   "note": "Decoder and encoder cache, any number of goroutines, any schedule of atomic steps (sequentially consistent); that published objects are never written (C31_frozen, C31_enc_frozen) is what makes this adequate. Custom coders are taken to be not nil."
  },
  {
   "property": "C32",
   "status": "proved",
   "theorems": [
    "Jzon.Props.C32_stack",
    "Jzon.Props.C32_valid",
    "Jzon.Props.C32_unmarshal",
    "Jzon.Props.C32_unmarshal_reader",
    "Jzon.Props.C32_decoder",
    "Jzon.Props.C32_variables",
    "Jzon.Props.C32_variables_reader",
    "Jzon.Props.C32_streamer",
    "Jzon.Props.C32_streamer_model",
    "Jzon.Props.C32_streamer_calls",
    "Jzon.Props.C32_encoder",
    "Jzon.Props.C32_marshal",
    "Jzon.Props.C32_window",
    "Jzon.Props.C32_reader",
    "Jzon.Props.C32_bytes",
    "Jzon.Props.C32_released",
    "Jzon.Props.C32_reader_runs",
    "Jzon.Props.C32_bytes_runs",
    "Jzon.Props.C32_model_reader",
    "Jzon.Props.C32_model_bytes",
    "Jzon.Props.C32_unmarshal_storage"
   ],
   "note": "Every call gives the same result for all recycled stacks, iterators and streamers; iterators with their storage (stale bytes, capacity, chunk sizes limited by the slice handed to Read) are refined to the iterator of the model. sync.Pool itself and tmpBuffer are not modelled."
  },
  {
   "property": "C33",
   "status": "partial",
   "theorems": [
    "Jzon.Props.C33_acyclic",
    "Jzon.Props.C33_acyclic_value",
    "Jzon.Props.C33_endless_exact",
    "Jzon.Props.C33_cycle_partial",
    "Jzon.Props.C33_null",
    "Jzon.Props.C33_lasso_violated",
    "Jzon.Props.C33_lasso_space",
    "Jzon.Props.C33_after_reset",
    "Jzon.Props.C33_retry_violated"
   ],
   "note": "The property is violated by the code: C33_lasso_violated (a cycle that does not contain the starting variable is not recognised, the recursion never ends) and C33_retry_violated (a second ReadVal at the same position after a reader error reports a loop that is not there). Proved: chains that end never report a loop and always finish (fresh iterator, every input), the value is stored at the end of the chain, cycles through the starting variable are reported, and the exact outcome for every endless chain. Memory of interface and pointer variables; the content of other variables is handled by the typed decoder."
  },
  {
   "property": "C34",
   "status": "proved",
   "theorems": [
    "Jzon.Props.C34_readArrayCB",
    "Jzon.Props.C34_forArray",
    "Jzon.Props.C34_readObjectCB",
    "Jzon.Props.C34_forObject"
   ],
   "note": "Array and object callback reading (ReadArrayCB, ReadObjectCB, ReadArrayBegin/More, ReadObjectBegin/More loops), for callbacks that consume exactly one value."
  },
  {
   "property": "C35",
   "status": "partial",
   "theorems": [
    "Jzon.Props.C35_encodes",
    "Jzon.Props.C35_clean_partial",
    "Jzon.Props.C35_types_partial",
    "Jzon.Props.C35_raw_violated",
    "Jzon.Props.C35_number_violated",
    "Jzon.Props.C35_method_violated"
   ],
   "note": "False as stated: empty json.RawMessage, unchecked json.Number and results of MarshalJSON are written as they are (three witnesses). Proved: what is written is described exactly type by type, it is JSON if all ready-made texts in the value are, and always for types without ready-made texts."
  },
  {
   "property": "C36",
   "status": "partial",
   "theorems": [
    "Jzon.Props.C36_described_partial",
    "Jzon.Props.C36_omits_partial",
    "Jzon.Props.C36_no_panic_partial",
    "Jzon.Props.C36_struct_violated",
    "Jzon.Props.C36_receiver_violated",
    "Jzon.Props.C36_panic_violated"
   ],
   "note": "Proved for all types without own encoding methods other than structs without fields. Violated: a struct without fields is omitted, a zero value whose pointer type has the method is not, and string kinds with a method panic."
  },
  {
   "property": "C37",
   "status": "proved",
   "theorems": [
    "Jzon.Props.C37_upper_canonical",
    "Jzon.Props.C37_fold_func"
   ],
   "note": "Unicode tables abstract with stated laws; a table with these laws is given."
  },
  {
   "property": "C38",
   "status": "partial",
   "theorems": [
    "Jzon.Props.C38_skipped",
    "Jzon.Props.C38_all_known",
    "Jzon.Props.C38_never",
    "Jzon.Props.C38_reported",
    "Jzon.Props.C38_flat",
    "Jzon.Props.C38_first_partial",
    "Jzon.Props.C38_empty_violated"
   ],
   "note": "False for structs without fields (proved: UnexpectedByteError). For structs with fields: success is characterised exactly in both modes; for all types and at any depth an UnknownFieldError is reported exactly when everything before some key is in order and that key selects no field, and for that key."
  },
  {
   "property": "C39",
   "status": "proved",
   "theorems": [
    "Jzon.Props.C39_null_keeps",
    "Jzon.Props.C39_null_nil",
    "Jzon.Props.C39_pointer_through",
    "Jzon.Props.C39_pointer_allocates"
   ],
   "note": ""
  },
  {
   "property": "C40",
   "status": "proved",
   "theorems": [
    "Jzon.Props.C40_nextValueType",
    "Jzon.Props.C40_exact"
   ],
   "note": ""
  },
  {
   "property": "C41",
   "status": "proved",
   "theorems": [
    "Jzon.Props.C41_float",
    "Jzon.Props.C41_same_value",
    "Jzon.Props.C41_not_finite"
   ],
   "note": "strconv.AppendFloat is abstract: its texts are assumed to have the documented format."
  },
  {
   "property": "C42",
   "status": "proved",
   "theorems": [
    "Jzon.Props.C42_described",
    "Jzon.Props.C42_well_typed",
    "Jzon.Props.C42_well_typed_reader"
   ],
   "note": "Typed decoding leaves values of the type of the variable."
  },
  {
   "property": "C43",
   "status": "proved",
   "theorems": [
    "Jzon.Props.C43_dash",
    "Jzon.Props.C43_tag",
    "Jzon.Props.C43_shown"
   ],
   "note": ""
  },
  {
   "property": "C44",
   "status": "proved",
   "theorems": [
    "Jzon.Props.C44_described",
    "Jzon.Props.C44_errors",
    "Jzon.Props.C44_typed",
    "Jzon.Props.C44_succeeds"
   ],
   "note": "C44_described: for computed struct fields the conditions on field paths hold."
  },
  {
   "property": "C45",
   "status": "partial",
   "theorems": [
    "Jzon.Props.C45_encodes_partial",
    "Jzon.Props.C45_empty_direct_violated",
    "Jzon.Props.C45_decodes"
   ],
   "note": "Decoders: proved for all types of the model (C45_decodes). Encoders: proved for all types except structs without encodable fields that Go stores directly in interfaces; there the code writes null for a nil word instead of {} (C45_empty_direct_violated). Types whose method has a pointer receiver are assumed to be structs or named slices, arrays, maps. No user supplied coders."
  },
  {
   "property": "C46",
   "status": "proved",
   "theorems": [
    "Jzon.Props.C46_one_owner",
    "Jzon.Props.C46_only_owner_writes",
    "Jzon.Props.C46_kept",
    "Jzon.Props.C46_lent_bytes",
    "Jzon.Props.C46_lent_reader",
    "Jzon.Props.C46_lent_temp",
    "Jzon.Props.C46_temp_bytes",
    "Jzon.Props.C46_env",
    "Jzon.Props.C46_bytes",
    "Jzon.Props.C46_reader",
    "Jzon.Props.C46_run_steps",
    "Jzon.Props.C46_bytes_runs"
   ],
   "note": "Slices and arrays of bytes only; memory of decoded values other than bytes is not in this model. A RawMessage given by the caller is appended to in place, which counts as a write by the program. The reader may write to all of the slice it is given, and to nothing else of the library."
  },
  {
   "property": "C47",
   "status": "partial",
   "theorems": [
    "Jzon.Props.C47_in_bounds",
    "Jzon.Props.C47_collections",
    "Jzon.Props.C47_collections_partial",
    "Jzon.Props.C47_slice_violated",
    "Jzon.Props.C47_value",
    "Jzon.Props.C47_value_collections",
    "Jzon.Props.C47_value_collections_partial"
   ],
   "note": "In bounds and well-typed: proved for all types. Garbage collections: proved for types without slices, and for all types with the slice header that the code has in a comment (eface.go:37-41); false for slices with reflect.SliceHeader (C47_slice_violated). The value that is left in memory: proved for all types (variables without sharing)."
  },
  {
   "property": "C48",
   "status": "proved",
   "theorems": [
    "Jzon.Props.C48_wrap",
    "Jzon.Props.C48_no_panic",
    "Jzon.Props.C48_returned",
    "Jzon.Props.C48_result",
    "Jzon.Props.C48_location_bytes",
    "Jzon.Props.C48_location_reader",
    "Jzon.Props.C48_ends",
    "Jzon.Props.C48_reason",
    "Jzon.Props.C48_receiver",
    "Jzon.Props.C48_receiver_iterator"
   ],
   "note": "Proved on the iterators with their storage. For a reader the location may show bytes that came together with the reader's own error. The text made by Error() is not modelled."
  },
  {
   "property": "C49",
   "status": "partial",
   "theorems": [
    "Jzon.Props.C49_value_partial",
    "Jzon.Props.C49_ends_partial",
    "Jzon.Props.C49_no_panic_partial",
    "Jzon.Props.C49_memory_partial",
    "Jzon.Props.C49_interface_partial",
    "Jzon.Props.C49_variable_partial",
    "Jzon.Props.C49_element_partial",
    "Jzon.Props.C49_empty_partial",
    "Jzon.Props.C49_determined",
    "Jzon.Props.C49_marshaler_interface_violated",
    "Jzon.Props.C49_custom_direct_violated",
    "Jzon.Props.C49_empty_struct_violated",
    "Jzon.Props.C49_text_pointer_violated",
    "Jzon.Props.C49_interface_key_violated",
    "Jzon.Props.C49_direct_key_violated",
    "Jzon.Props.C49_omitempty_violated",
    "Jzon.Props.C49_omitempty_odd"
   ],
   "note": "Proved for all types but those in Types.Clear, for which the code goes wrong (theorems ..._violated): interface types of the user with MarshalJSON/MarshalText, encoders of the user for types stored directly in interfaces, empty structs that are pointers, nil *encoding.TextMarshaler, keys of interface type with MarshalText, keys that are pointers of non-pointer type, fields with omitempty of types whose IsEmpty is wrong or missing (Types.OmitOk). Outside the model: errors of methods. Cyclic values: C57."
  },
  {
   "property": "C50",
   "status": "partial",
   "theorems": [
    "Jzon.Props.C50_value_partial",
    "Jzon.Props.C50_sticky",
    "Jzon.Props.C50_text_partial",
    "Jzon.Props.C50_error_partial",
    "Jzon.Props.C50_ends_partial",
    "Jzon.Props.C50_memory_partial",
    "Jzon.Props.C50_json_partial",
    "Jzon.Props.C50_source_partial"
   ],
   "note": "Proved for all types but those in Types.Clear (see C49), for which the code goes wrong. Bytes, errors and their order are proved for all values; user methods are arbitrary but do not change memory; a user encoder writes one text or fails. Values that contain themselves: C57."
  },
  {
   "property": "C51",
   "status": "proved",
   "theorems": [
    "Jzon.Props.C51_null",
    "Jzon.Props.C51_error",
    "Jzon.Props.C51_new",
    "Jzon.Props.C51_end",
    "Jzon.Props.C51_value",
    "Jzon.Props.C51_unmarshal"
   ],
   "note": "Over the memory of variables of C33. That the content of a variable of another type may hold pointers again is not modelled."
  },
  {
   "property": "C52",
   "status": "partial",
   "theorems": [
    "Jzon.Props.C52_write",
    "Jzon.Props.C52_name_method",
    "Jzon.Props.C52_name_string",
    "Jzon.Props.C52_name_int",
    "Jzon.Props.C52_write_error",
    "Jzon.Props.C52_unsupported",
    "Jzon.Props.C52_read",
    "Jzon.Props.C52_restores",
    "Jzon.Props.C52_string_violated",
    "Jzon.Props.C52_pointer_violated"
   ],
   "note": "Writing, reading and coming back are proved (C52_write, C52_read, C52_restores), the latter for keys that UnmarshalText gives back from the names that are written. The claim as stated is false for string types, where UnmarshalText is called but MarshalText is not (C52_string_violated), and for types whose MarshalText has a pointer as receiver (C52_pointer_violated)."
  },
  {
   "property": "C53",
   "status": "partial",
   "theorems": [
    "Jzon.Props.C53_skip",
    "Jzon.Props.C53_string",
    "Jzon.Props.C53_on_the_fly",
    "Jzon.Props.C53_raw",
    "Jzon.Props.C53_number",
    "Jzon.Props.C53_delivered",
    "Jzon.Props.C53_retained_violated",
    "Jzon.Props.C53_shrunk_violated"
   ],
   "note": "Proved: the size is kept where no text is needed (C53_skip, C53_string, C53_on_the_fly for all types without floats, Number, RawMessage, interface{}, []byte, UnmarshalJSON), one text adds at most its length and 512 bytes (C53_raw, C53_number), the total is bounded by what was delivered (C53_delivered). The first sentence is false: a reader whose chunks end with numbers makes the iterator keep the whole stream (C53_retained_violated); also the slice handed to the reader can get as small as 3 bytes (C53_shrunk_violated). Capacities are not bounded, since the growth of append is not specified; tmpBuffer (the longest string) is not part of it."
  },
  {
   "property": "C54",
   "status": "proved",
   "theorems": [
    "Jzon.Props.C54_byte_left",
    "Jzon.Props.C54_decode",
    "Jzon.Props.C54_not_number",
    "Jzon.Props.C54_skip",
    "Jzon.Props.C54_skipRaw",
    "Jzon.Props.C54_read",
    "Jzon.Props.C54_more",
    "Jzon.Props.C54_dialogue"
   ],
   "note": "For all types and all chunkings (C54_decode, C54_read, C54_skip, C54_skipRaw, C54_more, C54_dialogue); C54_byte_left covers every other reading function as long as a delivered byte is left."
  },
  {
   "property": "C55",
   "status": "proved",
   "theorems": [
    "Jzon.Props.C55_written",
    "Jzon.Props.C55_received",
    "Jzon.Props.C55_live",
    "Jzon.Props.C55_types"
   ],
   "note": "C55_written for every writer, every value and both escape settings; C55_received and C55_live for values whose texts restore them (Restores, shown for the types of C25_types); C55_types for those types without further hypotheses about values."
  },
  {
   "property": "C56",
   "status": "proved",
   "theorems": [
    "Jzon.Props.C56_loop",
    "Jzon.Props.C56_Skip",
    "Jzon.Props.C56_SkipRaw",
    "Jzon.Props.C56_Valid",
    "Jzon.Props.C56_Read",
    "Jzon.Props.C56_ReadVal",
    "Jzon.Props.C56_Unmarshal",
    "Jzon.Props.C56_UnmarshalFromReader",
    "Jzon.Props.C56_callback",
    "Jzon.Props.C56_slice"
   ],
   "note": "The work counts calls of primitives, bytes looked at and bytes of texts cut out; not counted are the allocation and copying of results (growing slices, appending to strings), the search for a field name, unquoting of `,string` strings, conversions of the standard library and methods of user types."
  },
  {
   "property": "C57",
   "status": "partial",
   "theorems": [
    "Jzon.Props.C57_returns_partial",
    "Jzon.Props.C57_endless",
    "Jzon.Props.C57_contains_itself",
    "Jzon.Props.C57_pointer_violated",
    "Jzon.Props.C57_slice_violated",
    "Jzon.Props.C57_map_violated"
   ],
   "note": "Violated by the code (C57_pointer_violated, C57_slice_violated, C57_map_violated): a value that contains itself is followed without end. Proved: an output exists exactly for finite content (C57_returns_partial), none for content that goes on for ever (C57_endless) or contains itself (C57_contains_itself). Restricted to types in Types.ByKind, since methods and encoders of the user may cut a cycle; in the model a run that does not end and one that reads a wrong word are both without output."
  },
  {
   "property": "C58",
   "status": "partial",
   "theorems": [
    "Jzon.Props.C58_marshal_partial",
    "Jzon.Props.C58_types_partial",
    "Jzon.Props.C58_encoder_partial",
    "Jzon.Props.C58_raw_violated",
    "Jzon.Props.C58_number_violated",
    "Jzon.Props.C58_method_violated",
    "Jzon.Props.C58_line_violated"
   ],
   "note": "Proved for Marshal and for sequences of Encode calls on any writer, for every value whose ready-made texts (json.RawMessage, json.Number, results of MarshalJSON) are themselves embeddable, and for all values of types without ready-made texts. False for ready-made texts: they are written as they are, without escaping and without removing line feeds (the *_violated theorems; encoding/json escapes and compacts them). Assumption besides EncLaws: base64 texts consist of the base64 alphabet."
  },
  {
   "property": "C59",
   "status": "proved",
   "theorems": [
    "Jzon.Props.C59_last_wins_if_accepted",
    "Jzon.Props.C59_last_wins",
    "Jzon.Props.C59_again",
    "Jzon.Props.C59_again_if_accepted",
    "Jzon.Props.C59_unexported_fails"
   ],
   "note": "For Unmarshal. Assumptions: embedded structs reached by fields are exported (AllExported; C59_unexported_fails shows the claim is false without it, encoding/json behaves the same) and the UnmarshalJSON/UnmarshalText methods of the program give the same result for every old value or keep it (MethodsOverwrite). The *_if_accepted theorems need neither AllExported nor a well-typed variable."
  },
  {
   "property": "C60",
   "status": "proved",
   "theorems": [
    "Jzon.Props.C60_readBool_iff",
    "Jzon.Props.C60_readNull_iff",
    "Jzon.Props.C60_skipArray_iff",
    "Jzon.Props.C60_skipObject_iff",
    "Jzon.Props.C60_skipNumber_iff"
   ],
   "note": ""
  },
  {
   "property": "C61",
   "status": "partial",
   "theorems": [
    "Jzon.Props.C61_spacing",
    "Jzon.Props.C61_denotation_partial",
    "Jzon.Props.C61_bytes_violated",
    "Jzon.Props.C61_number_violated",
    "Jzon.Props.C61_keys_violated"
   ],
   "note": "White space: proved for all types without json.RawMessage and UnmarshalJSON (C61_spacing). Escapes: proved for types without byte slices, json.Number, map keys other than strings, and quoted fields (C61_denotation_partial); false for byte slices, json.Number and integer map keys (the *_violated theorems: the library looks at the text between the quotation marks, so a digit or letter that is written as an escape is refused; encoding/json accepts it)."
  },
  {
   "property": "C62",
   "status": "proved",
   "theorems": [
    "Jzon.Props.C62_comes_back",
    "Jzon.Props.C62_same_document",
    "Jzon.Props.C62_typed"
   ],
   "note": "The text must be UTF-8: otherwise invalid bytes are replaced (example in Props/Reformat). C62_comes_back without UseNumber needs the contract of strconv that a formatted float is parsed to the same float (FloatsBack). C62_typed is about Plain types (C25), and needs a well-typed old value whose strings are UTF-8 and whose floats are finite, and the same of what the program's own key methods give (TidyProgram)."
  },
  {
   "property": "C63",
   "status": "proved",
   "theorems": [
    "Jzon.Props.C63_reordered",
    "Jzon.Props.C63_any_order",
    "Jzon.Props.C63_keys"
   ],
   "note": "Assumptions: the fields of a struct are at different places, none within another, and paths with the same beginning go through the same embedded pointers (Layout); the case folding tables obey their laws. For map keys with UnmarshalText the claim needs that different names give different keys (DistinctKeys); strings and integers are proved (C63_keys). json.RawMessage and UnmarshalJSON get the text itself and are excluded. Which error is returned when both texts are refused may differ."
  },
  {
   "property": "C64",
   "status": "proved",
   "theorems": [
    "Jzon.Props.C64_skip",
    "Jzon.Props.C64_skipRaw",
    "Jzon.Props.C64_read",
    "Jzon.Props.C64_readString",
    "Jzon.Props.C64_readVal",
    "Jzon.Props.C64_unmarshal",
    "Jzon.Props.C64_refused_for_good",
    "Jzon.Props.C64_no_continuation"
   ],
   "note": "Two runs are compared, with a reader that fails behind the bytes that have arrived and with one that goes on in any way (Spec/Decided). C64_refused_for_good and C64_no_continuation state the consequence for Unmarshal. Assumptions as in C08: the variable holds a value of its type, methods and parsers given by the caller do not panic."
  },
  {
   "property": "C65",
   "status": "proved",
   "theorems": [
    "Jzon.Props.C65_skip_waits",
    "Jzon.Props.C65_skip",
    "Jzon.Props.C65_skip_eof",
    "Jzon.Props.C65_skip_wrong"
   ],
   "note": "For Skip; the completion is constructed from the place in the grammar where the skipping stopped."
  },
  {
   "property": "C66",
   "status": "partial",
   "theorems": [
    "Jzon.Props.C66_calls_partial",
    "Jzon.Props.C66_new",
    "Jzon.Props.C66_set",
    "Jzon.Props.C66_option_partial",
    "Jzon.Props.C66_quoted_violated"
   ],
   "note": "Proved for structs in which no string has the option \"string\" (all other types and options without restriction). For strings with that option the claim is false in the code: the inner streamer takes the option of the configuration (C66_quoted_violated)."
  },
  {
   "property": "C67",
   "status": "proved",
   "theorems": [
    "Jzon.Props.C67_later",
    "Jzon.Props.C67_text",
    "Jzon.Props.C67_elements"
   ],
   "note": "The relation Deferred tells which types and which values belong together. In structs the replaced fields are own members (not fields of embedded structs) without the option \"string\"; the other members may be anything. Without repeated names because a second member with the same name is merged into a struct but replaces a kept text; an example shows it."
  },
  {
   "property": "C68",
   "status": "partial",
   "theorems": [
    "Jzon.Props.C68_newer_partial",
    "Jzon.Props.C68_older_partial",
    "Jzon.Props.C68_zero",
    "Jzon.Props.C68_same",
    "Jzon.Props.C68_members",
    "Jzon.Props.C68_written_partial",
    "Jzon.Props.C68_one_field_violated",
    "Jzon.Props.C68_text_violated"
   ],
   "note": "Proved for all pairs of types in the relation GrownBy (closed under P, so recursive types too). Fields of embedded structs are the same in both types or further ones. Two exclusions, both proved to be necessary: a struct with one field whose name has other spellings outside ASCII (C68_one_field_violated), and texts that are not JSON (C68_text_violated). In (2) the names of further fields must not occur as names anywhere in the text, also not in maps."
  },
  {
   "property": "C69",
   "status": "proved",
   "theorems": [
    "Jzon.Props.C69_succeeds",
    "Jzon.Props.C69_fails",
    "Jzon.Props.C69_equal",
    "Jzon.Props.C69_reordered",
    "Jzon.Props.C69_read",
    "Jzon.Props.C69_name",
    "Jzon.Props.C69_unsorted"
   ],
   "note": "For the model of Marshal, in which the order of every map is any permutation that may depend on the state of the streamer. The error of a failing call may depend on the order."
  },
  {
   "property": "C70",
   "status": "proved",
   "theorems": [
    "Jzon.Props.C70_skip",
    "Jzon.Props.C70_reader",
    "Jzon.Props.C70_unique"
   ],
   "note": "Skip, for input that ends and for readers that fail; the specification of the right beginnings is that of C65 (Viable), the byte an error names is read off its constructor."
  },
  {
   "property": "C71",
   "status": "partial",
   "theorems": [
    "Jzon.Props.C71_text",
    "Jzon.Props.C71_report",
    "Jzon.Props.C71_one_line_partial",
    "Jzon.Props.C71_skip",
    "Jzon.Props.C71_filled",
    "Jzon.Props.C71_unmarshal",
    "Jzon.Props.C71_location_violated"
   ],
   "note": "That different errors have different texts is proved, with the location too (C71_text, C71_report), and for the errors of Unmarshal and Skip without assumptions about their fields (C71_unmarshal, C71_skip, C71_filled). That texts stay on one line is violated by the location, which is copied from the input (C71_location_violated), and proved for everything else (C71_one_line_partial). TypeNotSupportedError is left out, the model does not keep the name of its type."
  },
  {
   "property": "C72",
   "status": "partial",
   "theorems": [
    "Jzon.Props.C72_ReadInt16_partial",
    "Jzon.Props.C72_ReadInt32_partial",
    "Jzon.Props.C72_ReadInt64_partial",
    "Jzon.Props.C72_ReadInt8_partial",
    "Jzon.Props.C72_unsigned_violated",
    "Jzon.Props.C72_violated"
   ],
   "note": "The property is violated by the code: numbers beyond the unsigned range of the same width give the text \"overflow : \" (C72_violated, C72_unsigned_violated for every such literal). Proved for the signed readers and numbers whose absolute value fits the unsigned type (for int8: literals of at most three digits, see C11)."
  }
 ]
}