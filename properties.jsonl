{"id": "C01", "title": "Valid decides the JSON grammar", "statement": "Valid(data) returns true exactly when data is one JSON text of RFC 8259 (whitespace, one value, whitespace; byte level, string contents are not required to be UTF-8).", "quantifier": "every byte string, of any length and nesting depth", "why_tests_cant": "The language is infinite and recursive; a test suite samples finitely many accepted and rejected strings, and over-acceptance hides in strings nobody wrote down.", "anchors": ["iterator.go:Valid", "iterator.go:Iterator.Valid", "iterator_skip.go:Skip", "iterator_skip.go:skipWithStack", "iterator_skip_array.go", "iterator_skip_object.go", "iterator_skip_number.go", "iterator_skip_str.go"]}
{"id": "C02", "title": "Skip consumes exactly one value", "statement": "On an iterator positioned before optional whitespace and a JSON value, Skip succeeds and leaves the iterator exactly behind that value (for numbers: behind the longest number prefix); if it succeeds, what it consumed is whitespace followed by one JSON value.", "quantifier": "every remaining input and every following byte sequence", "why_tests_cant": "Depends on what follows the value (number prefixes, closing brackets), an unbounded context.", "anchors": ["iterator_skip.go:Skip", "iterator_skip.go:skipWithStack", "iterator_skip_number.go:skipNumber"]}
{"id": "C03", "title": "Results do not depend on how the reader splits the input", "statement": "Decoding from an io.Reader gives the same value, the same error and the same amount of consumed input as decoding the same bytes from one slice, however the reader cuts the bytes into chunks (empty reads, EOF together with the last data or after it).", "quantifier": "every input, every partition into read results, every decoding operation of the model", "why_tests_cant": "The number of partitions is exponential in the input; bugs sit at a boundary inside one token (for example between the bytes of an escape).", "anchors": ["iterator.go:readMore", "iterator.go:nextToken", "iterator.go:nextByte", "iterator.go:expectBytes", "iterator_str.go:readStringAsSlice", "iterator_skip_number.go", "iterator_int16.go:readUint16"]}
{"id": "C04", "title": "Read returns the value the text denotes", "statement": "Read on a JSON text returns null/bool/number/string/list/map with exactly the content the text denotes: elements in order, object members by key with the last duplicate winning, strings unescaped.", "quantifier": "every JSON text of any depth", "why_tests_cant": "Value construction uses two explicit stacks; mistakes show only for particular nestings and depths.", "anchors": ["iterator_read.go:Read", "iterator_read.go:readWithStack", "iterator_read_array.go", "iterator_read_object.go", "node.go"]}
{"id": "C05", "title": "Read, Skip and Valid accept the same inputs", "statement": "With numbers kept as text (UseNumber) Read succeeds exactly when Skip succeeds and both leave the same remaining input; without UseNumber the only additional failure is a number strconv.ParseFloat rejects.", "quantifier": "every input", "why_tests_cant": "Two independent state machines have to agree on an infinite language.", "anchors": ["iterator_read.go", "iterator_skip.go"]}
{"id": "C06", "title": "Raw capture returns the exact source text", "statement": "SkipRaw / ReadRaw / AppendRaw / ReadNumber return precisely the bytes of the value in the input (leading whitespace removed), even when the value spans many reader chunks; AppendRaw appends them to its argument.", "quantifier": "every value text, every chunking, nested captures", "why_tests_cant": "Capture mode switches the buffer policy of every lower-level routine; the failing case needs a refill at a specific point while capturing.", "anchors": ["iterator_raw.go:SkipRaw", "iterator_raw.go:AppendRaw", "iterator_raw.go:ReadRaw", "iterator_number.go:readNumberAsString", "iterator.go:readMore"]}
{"id": "C07", "title": "Input offset accounting", "statement": "After any successful sequence of decoding operations Decoder.InputOffset equals the number of bytes of the stream consumed so far, and the unread buffer followed by the unread stream is exactly the rest of the input: no byte is skipped, repeated or invented.", "quantifier": "every input, every chunking, every sequence of operations", "why_tests_cant": "A history property over refills; a wrong offset by one chunk appears only after particular refill sequences.", "anchors": ["iterator.go:readMore", "decoder.go:InputOffset", "decoder.go:Buffered"]}
{"id": "C08", "title": "Decoding never indexes outside its buffer and always terminates", "statement": "On a reader that delivers finitely many read results, every decoding operation terminates and never accesses the buffer outside [0,tail); malformed or truncated input gives an error, not a panic or a hang.", "quantifier": "every byte sequence and chunking, including truncated ones", "why_tests_cant": "Absence of panics and hangs over all inputs is not observable by finitely many runs.", "anchors": ["iterator.go", "iterator_skip.go", "iterator_str.go", "iterator_read.go"]}
{"id": "C09", "title": "The nesting stack is a faithful stack of unbounded depth", "statement": "The bit stack used for skipping and reading nested containers behaves as an ordinary stack of container kinds for every push/pop history, at any depth, and independent of whatever content a recycled stack from the pool still carries.", "quantifier": "every sequence of pushes and pops, every stale content of the recycled storage", "why_tests_cant": "Depth crosses the 64-bit word boundaries and stale words depend on the history of other goroutines.", "anchors": ["stack.go"]}
{"id": "C10", "title": "Integer decoding is exact or an overflow error (16, 32, 64 bit)", "statement": "ReadUint16/32/64 and ReadInt16/32/64 on a digit sequence of any length return the mathematical value when it fits the type and an IntOverflowError when it does not; they never wrap around.", "quantifier": "every digit sequence, any length, any following bytes, every chunking", "why_tests_cant": "Overflow decisions depend on 20-digit prefixes near the maximum; exhaustive testing at 64 bits is impossible.", "anchors": ["iterator_int16.go", "iterator_int32.go", "iterator_int64.go", "iterator_int.go"]}
{"id": "C11", "title": "Integer decoding is exact or an overflow error (8 bit)", "statement": "ReadUint8 and ReadInt8 on a digit sequence of any length return the mathematical value when it fits and an IntOverflowError when it does not.", "quantifier": "every digit sequence of any length", "why_tests_cant": "Needs sequences longer than the three digits the unit tests use.", "anchors": ["iterator_int8.go:readUint8", "iterator_int8.go:readInt8"]}
{"id": "C12", "title": "Float decoding hands the exact literal to strconv.ParseFloat", "statement": "ReadFloat32/64 accept exactly the JSON number grammar (longest prefix) and the result is ParseFloat of that literal, negated for a minus sign; the literal is assembled correctly over any number of refills.", "quantifier": "every number literal, every chunking", "why_tests_cant": "The literal is assembled across refills in a scratch buffer; there are unboundedly many literals and splits.", "anchors": ["iterator_float.go", "iterator_float32.go", "iterator_float64.go", "iterator_read.go:readFunctions"]}
{"id": "C13", "title": "String decoding implements JSON unescaping", "statement": "ReadString returns the byte sequence the JSON string denotes: unescaped bytes verbatim, short escapes, \\uXXXX as UTF-8, surrogate pairs combined, every unpaired surrogate replaced by U+FFFD.", "quantifier": "every string body, all sequences of escapes including runs of surrogates", "why_tests_cant": "Surrogate pairing is a lookahead over unbounded runs of escapes.", "anchors": ["iterator_str.go:readEscapedChar", "iterator_str.go:readU4", "iterator_str.go:appendRune", "iterator_str.go:readStringAsSlice", "iterator_str.go:readStringAsSliceSlow"]}
{"id": "C14", "title": "String decoding accepts exactly the JSON string grammar", "statement": "ReadString succeeds exactly when SkipString succeeds and exactly on the JSON string grammar (no raw control bytes, only the defined escapes, four hex digits after \\u), both stopping behind the same closing quote.", "quantifier": "every byte sequence", "why_tests_cant": "Two parsers with different control flow must agree on all inputs.", "anchors": ["iterator_str.go", "iterator_skip_str.go"]}
{"id": "C15", "title": "Integer encoding is canonical decimal", "statement": "Streamer.Int*/Uint* append the canonical decimal representation of the value (no leading zeros, minus sign only for negatives), including the most negative value of each width.", "quantifier": "every value of all eight integer types", "why_tests_cant": "2^64 values per type; the code works in base 1000 with several branches.", "anchors": ["streamer_int.go"]}
{"id": "C16", "title": "Integer round trip", "statement": "Encoding an integer of any width and decoding the produced text with the reader of the same width returns the original value and consumes the whole text.", "quantifier": "every value of all eight integer types", "why_tests_cant": "2^64 values.", "anchors": ["streamer_int.go", "iterator_int8.go", "iterator_int16.go", "iterator_int32.go", "iterator_int64.go"]}
{"id": "C17", "title": "String encoding is safe JSON", "statement": "The text written for any string is a JSON string of the grammar; it contains no raw control byte, no raw U+2028/U+2029 and is valid UTF-8; with EscapeHTML on it contains none of < > &.", "quantifier": "every byte string, valid UTF-8 or not, both EscapeHTML settings", "why_tests_cant": "Injection safety is a statement over all strings.", "anchors": ["streamer_str.go:encodeString"]}
{"id": "C18", "title": "String round trip", "statement": "Decoding the encoding of a string returns the string with each invalid UTF-8 byte replaced by U+FFFD; for valid UTF-8 it returns the string unchanged.", "quantifier": "every byte string, both EscapeHTML settings", "why_tests_cant": "All byte strings including malformed UTF-8 at every position.", "anchors": ["streamer_str.go:encodeString", "iterator_str.go"]}
{"id": "C19", "title": "Streamer output is well-formed JSON", "statement": "Every correctly nested sequence of Streamer calls (values, ObjectStart/Field/ObjectEnd, ArrayStart/ArrayEnd) produces exactly the compact JSON text of the described value: commas between, and only between, siblings.", "quantifier": "every value tree of any shape and depth", "why_tests_cant": "Comma placement is driven by one flag carried across calls; the failing shapes are combinations of empty and non-empty containers at arbitrary depth.", "anchors": ["streamer.go:onVal", "streamer.go:ObjectStart", "streamer.go:Field", "streamer.go:ObjectEnd", "streamer.go:ArrayStart", "streamer.go:ArrayEnd"]}
{"id": "C20", "title": "Streamed values read back", "statement": "Reading with Iterator.Read the text produced by the Streamer for a value tree returns that value tree (object members as a map with last duplicate winning).", "quantifier": "every value tree", "why_tests_cant": "Composition of two unbounded recursive processes.", "anchors": ["streamer.go", "iterator_read.go"]}
{"id": "C21", "title": "Flush neither loses nor duplicates output", "statement": "For any writer behaviour (partial writes, errors at any point) the bytes accepted by the writer followed by the bytes still buffered are always exactly the bytes emitted so far, so retrying Flush after an error delivers the stream intact.", "quantifier": "every sequence of emits and flushes, every sequence of writer results", "why_tests_cant": "Fault schedules of the writer are unbounded.", "anchors": ["streamer.go:Flush"]}
{"id": "C22", "title": "Encoder writes whole lines or nothing, and errors are sticky", "statement": "Each successful Encode writes the value's text followed by one newline; an Encode whose value fails writes nothing; after a failure every later Encode returns the same error and writes nothing.", "quantifier": "every sequence of Encode calls, values and writer results", "why_tests_cant": "History property over arbitrary call sequences and writer faults.", "anchors": ["encoder.go:Encode", "encoder.go:encodeInternal"]}
{"id": "C23", "title": "Decoder reads a stream value by value, errors are sticky", "statement": "Successive Decode calls on a reader deliver the successive JSON values of the stream in order independent of chunking; after an error every later Decode returns that error and consumes nothing.", "quantifier": "every stream of values, every chunking, every number of calls", "why_tests_cant": "History property; the buffered rest after one value is the start of the next.", "anchors": ["decoder.go:Decode", "decoder.go:More", "decoder.go:Buffered"]}
{"id": "C24", "title": "Trailing data is reported", "statement": "Unmarshal of a text whose value decodes without error returns ErrDataRemained exactly when a non-whitespace byte follows the value, and succeeds exactly when only whitespace follows.", "quantifier": "every value and every suffix", "why_tests_cant": "All suffixes.", "anchors": ["iterator.go:unmarshal", "iterator.go:Unmarshal", "iterator.go:UnmarshalFromReader", "iterator.go:Valid"]}
{"id": "C25", "title": "Marshal then Unmarshal is the identity on typed data", "statement": "For Go types built from bool, the sized integers, string, pointers, slices, arrays, string-keyed and integer-keyed maps and structs, unmarshalling the marshalled text into a fresh variable gives back the value (strings valid UTF-8; nil and empty as documented).", "quantifier": "every type of that universe and every value of it", "why_tests_cant": "Types and values are both unbounded and recursive.", "anchors": ["val_encoder.go", "val_encoder_direct.go", "val_encoder_json_marshaler.go", "val_encoder_json_number.go", "val_encoder_json_rawmessage.go", "val_encoder_native.go", "val_encoder_native_array.go", "val_encoder_native_base64.go", "val_encoder_native_float.go", "val_encoder_native_int.go", "val_encoder_native_interface.go", "val_encoder_native_map.go", "val_encoder_native_map_above_go118.go", "val_encoder_native_map_below_go118.go", "val_encoder_native_ptr.go", "val_encoder_native_slice.go", "val_encoder_native_struct.go", "val_encoder_native_uint.go", "val_encoder_text_marshaler.go", "val_decoder.go", "val_decoder_json_number.go", "val_decoder_json_rawmessage.go", "val_decoder_json_unmarshaler.go", "val_decoder_native.go", "val_decoder_native_array.go", "val_decoder_native_float.go", "val_decoder_native_int.go", "val_decoder_native_interface.go", "val_decoder_native_map.go", "val_decoder_native_ptr.go", "val_decoder_native_slice.go", "val_decoder_native_struct.go", "val_decoder_native_struct_one_field.go", "val_decoder_native_struct_small.go", "val_decoder_native_uint.go", "val_decoder_skip.go", "val_decoder_text_unmarshaler.go", "encoder_config.go:Marshal", "decoder_config.go:Unmarshal"]}
{"id": "C26", "title": "Typed decoding accepts only JSON", "statement": "If Unmarshal into a Go value succeeds, the input was a JSON text.", "quantifier": "every target type of the modelled universe and every input", "why_tests_cant": "Over-acceptance lives in inputs outside any test corpus; each typed decoder has its own hand-written scanner.", "anchors": ["val_decoder_native_map.go", "val_decoder_native.go", "val_decoder_native_struct.go", "val_decoder_native_struct_one_field.go", "val_decoder_native_struct_small.go", "val_decoder_native_slice.go"]}
{"id": "C27", "title": "Struct key matching does not depend on the number of fields", "statement": "A JSON key selects the field with exactly that name, else (unless CaseSensitive) a field whose name is equal under Unicode case folding; the three struct decoders (one field, up to ten, more than ten) make the same choice.", "quantifier": "every set of field names and every key", "why_tests_cant": "Three implementations, all keys, including the non-ASCII characters folding to ASCII letters.", "anchors": ["val_decoder_native_struct_one_field.go", "val_decoder_native_struct_small.go", "val_decoder_native_struct.go", "struct_field_fold.go", "struct_field_upper.go"]}
{"id": "C28", "title": "Embedded struct field dominance", "statement": "The set of JSON fields of a struct type follows Go's embedding rules: for each JSON name the candidate with the fewest index steps wins, a tagged one beats untagged ones at that depth, and an unresolved tie hides the name altogether; each name occurs at most once and fields come in index order.", "quantifier": "every struct type, any embedding depth and name collisions", "why_tests_cant": "Type graphs are unbounded.", "anchors": ["struct.go:describeStruct", "struct_field.go:dominantField", "struct_field.go:byIndex"]}
{"id": "C29", "title": "Slice decoding keeps all elements", "statement": "Decoding an array into a slice yields exactly the decoded elements in order for any number of elements, at every growth of the backing storage and whatever capacity the target had; decoding into a fixed array keeps the first n, ignores surplus and zeroes missing elements.", "quantifier": "every element count, every initial capacity and content", "why_tests_cant": "Growth happens at unboundedly many sizes.", "anchors": ["val_decoder_native_slice.go", "val_decoder_native_array.go", "link_reflect.go:unsafeGrowSlice"]}
{"id": "C30", "title": "Map decoding merges with last duplicate winning", "statement": "Decoding an object into a map keeps existing entries, and for every key of the object the map afterwards holds the value of its last occurrence; object keys are JSON strings.", "quantifier": "every object, every previous map content", "why_tests_cant": "Unbounded keys, duplicates and previous contents.", "anchors": ["val_decoder_native_map.go"]}
{"id": "C31", "title": "Coder cache is safe under concurrency", "statement": "Whatever the interleaving of concurrent decoder (encoder) lookups and constructions, every caller obtains a complete coder for the requested type, all callers obtain the same coder per type, and an entry once visible never changes or disappears.", "quantifier": "every number of goroutines and every schedule", "why_tests_cant": "Schedules are unbounded and races are rare.", "anchors": ["decoder_config.go:createDecoder", "decoder_config.go:getDecoderFromCache", "encoder_config.go:createEncoder", "encoder_config.go:getEncoderFromCache"]}
{"id": "C32", "title": "Recycled iterators and streamers behave as fresh ones", "statement": "The result of an operation does not depend on which operations an iterator, streamer or stack object served before it was returned to its pool.", "quantifier": "every previous history of the recycled object", "why_tests_cant": "Histories are unbounded and pool reuse is nondeterministic.", "anchors": ["iterator_pool.go", "streamer_pool.go", "iterator.go:Reset", "iterator.go:ResetBytes", "iterator.go:reset", "streamer.go:reset", "decoder_config.go:returnIterator", "encoder_config.go:ReturnStreamer"]}
{"id": "C33", "title": "Decoding into self-referencing interfaces terminates", "statement": "Decoding into an interface{} whose pointer chain is cyclic returns ErrEfaceLooping instead of recursing forever; acyclic chains never report looping.", "quantifier": "every finite pointer graph of interfaces", "why_tests_cant": "All pointer graphs; the failing shape needs a cycle not containing the starting variable.", "anchors": ["val_decoder_native_interface.go:efaceDecoder", "val_decoder_native_interface.go:checkLoop"]}
{"id": "C34", "title": "Array and object callbacks see every element once, in order", "statement": "ReadArrayCB, ReadObjectCB and the Begin/More pairs visit every element (member) of the container exactly once, in order, with the decoded member name, and stop exactly behind the closing bracket.", "quantifier": "every container text and every callback that consumes exactly its value", "why_tests_cant": "Unbounded containers, arbitrary callbacks.", "anchors": ["iterator_array.go", "iterator_object.go"]}
{"id": "C35", "title": "Marshal output is always valid JSON", "statement": "When Marshal returns no error for a value of the modelled types, the output is a JSON text (Valid returns true).", "quantifier": "every type and value of the modelled universe", "why_tests_cant": "Unbounded types and values.", "anchors": ["val_encoder.go", "val_encoder_direct.go", "val_encoder_json_marshaler.go", "val_encoder_json_number.go", "val_encoder_json_rawmessage.go", "val_encoder_native.go", "val_encoder_native_array.go", "val_encoder_native_base64.go", "val_encoder_native_float.go", "val_encoder_native_int.go", "val_encoder_native_interface.go", "val_encoder_native_map.go", "val_encoder_native_map_above_go118.go", "val_encoder_native_map_below_go118.go", "val_encoder_native_ptr.go", "val_encoder_native_slice.go", "val_encoder_native_struct.go", "val_encoder_native_uint.go", "val_encoder_text_marshaler.go", "streamer.go"]}
{"id": "C36", "title": "omitempty never panics and omits exactly empty values", "statement": "For every field type supporting omitempty the field is omitted exactly if the value is false, 0, nil or a zero-length array/slice/map/string; evaluating emptiness never panics.", "quantifier": "every kind of field type, including types with custom marshalers, and every value", "why_tests_cant": "The emptiness function is picked from a table indexed by kind; a missing kind is only seen by a type of that kind.", "anchors": ["is_empty.go", "val_encoder_json_marshaler.go", "val_encoder_text_marshaler.go", "val_encoder_native_array.go", "val_encoder_native_base64.go", "val_encoder_native_float.go", "val_encoder_native_int.go", "val_encoder_native_interface.go", "val_encoder_native_map.go", "val_encoder_native_map_above_go118.go", "val_encoder_native_map_below_go118.go", "val_encoder_native_ptr.go", "val_encoder_native_slice.go", "val_encoder_native_struct.go", "val_encoder_native_uint.go"]}
{"id": "C37", "title": "Upper-case key is a canonical representative of case folding", "statement": "Two keys have the same stored upper-case form exactly if they are equal under simple case folding, rune by rune.", "quantifier": "every pair of byte strings and every fold-orbit table", "why_tests_cant": "All pairs of strings.", "anchors": ["struct_field_upper.go:toUpper", "struct_field_fold.go"]}
{"id": "C38", "title": "Unknown fields", "statement": "With DisallowUnknownFields a struct decode fails with UnknownFieldError exactly at the first key matching no field; otherwise unknown members are skipped without affecting the result.", "quantifier": "every object text and field set", "why_tests_cant": "Unbounded objects.", "anchors": ["val_decoder_native_struct_one_field.go", "val_decoder_native_struct_small.go", "val_decoder_native_struct.go"]}
{"id": "C39", "title": "null handling in typed decoding", "statement": "null leaves a scalar unchanged, sets pointers, slices, maps and interfaces to nil, and a non-null value for a nil pointer allocates; a non-nil pointer is decoded through, not replaced.", "quantifier": "every type of the modelled universe, every previous value", "why_tests_cant": "All type constructors and previous contents.", "anchors": ["val_decoder_native_ptr.go", "val_decoder_native_array.go", "val_decoder_native_float.go", "val_decoder_native_int.go", "val_decoder_native_interface.go", "val_decoder_native_map.go", "val_decoder_native_slice.go", "val_decoder_native_struct.go", "val_decoder_native_struct_one_field.go", "val_decoder_native_struct_small.go", "val_decoder_native_uint.go", "iterator_null.go"]}
{"id": "C40", "title": "NextValueType predicts the reader", "statement": "NextValueType returns the kind of the next value without consuming it: whenever Read then succeeds, the value has that kind; InvalidValue means Read and Skip fail.", "quantifier": "every input", "why_tests_cant": "All inputs.", "anchors": ["iterator.go:NextValueType", "value_type.go"]}
{"id": "C41", "title": "Float encoding is a JSON number", "statement": "Streamer.Float32/Float64 of a finite number append a JSON number that denotes what strconv's shortest text denotes, using exponent notation exactly for nonzero magnitudes below 1e-6 or from 1e21, with no superfluous zero in a one-digit negative exponent; infinities and NaN set an error and write nothing. The edit of the exponent never touches earlier output.", "quantifier": "every float, every buffer content before it", "why_tests_cant": "All floats; the exponent is edited in place in a buffer with arbitrary earlier content.", "anchors": ["streamer_float.go:Float32", "streamer_float.go:Float64"]}
{"id": "C42", "title": "Typed decoding keeps variables well typed", "statement": "If Unmarshal (or UnmarshalFromReader) succeeds on a variable that holds a value of its type, it leaves a value of that type: integers lie in the range of their type, arrays keep their length, map keys belong to the key type, struct members to their field types, at every depth.", "quantifier": "every type of the modelled universe including recursive ones, every old value of the type and every input", "why_tests_cant": "The decoders write through unsafe pointers, so a width or offset error corrupts memory silently; types nest without bound and only induction over types and values covers them.", "anchors": ["val_decoder_native_int.go", "val_decoder_native_uint.go", "val_decoder_native_slice.go", "val_decoder_native_array.go", "val_decoder_native_map.go", "val_decoder_native_struct.go", "decoder_config.go"]}
{"id": "C43", "title": "Struct tags", "statement": "The tag of a struct field has the meaning that encoding/json documents: the text before the first comma is the JSON name if it is not empty and consists of letters, digits and the allowed punctuation, otherwise the Go name counts; omitempty and string are recognised exactly when they are one of the comma separated options, string only for booleans, numbers and strings; the tag - drops the field, while -, names it -; other fields that are exported and have a unique name are never dropped.", "quantifier": "every struct type, every tag text, every embedding depth", "why_tests_cant": "Tag texts and struct types are unbounded; names may be any Unicode text including invalid UTF-8.", "anchors": ["struct_tag.go:parseTag", "struct_tag.go:tagOptions.Contains", "struct_tag.go:isValidTag", "struct.go:describeStruct"]}
{"id": "C44", "title": "Marshal ends and fails only for a reason", "statement": "Marshal of any finite value of the supported types returns, without panicking. It returns an error only if the value contains an infinity or NaN, a value of an unsupported type, or a method of the value fails; if none of these occurs it succeeds. Fields with omitempty whose type has an own encoding method are excluded (C36).", "quantifier": "every type of the modelled universe including recursive ones, every value of it, every state of the recycled streamer", "why_tests_cant": "The recursion follows types and values that nest without bound; a missing case only shows for one combination of type and value.", "anchors": ["encoder_config.go:Marshal", "streamer_val.go", "val_encoder.go", "val_encoder_direct.go", "val_encoder_json_marshaler.go", "val_encoder_json_number.go", "val_encoder_json_rawmessage.go", "val_encoder_native.go", "val_encoder_native_array.go", "val_encoder_native_base64.go", "val_encoder_native_float.go", "val_encoder_native_int.go", "val_encoder_native_interface.go", "val_encoder_native_map.go", "val_encoder_native_map_above_go118.go", "val_encoder_native_map_below_go118.go", "val_encoder_native_ptr.go", "val_encoder_native_slice.go", "val_encoder_native_struct.go", "val_encoder_native_uint.go", "val_encoder_text_marshaler.go"]}
{"id": "C45", "title": "Coders taken from the cache act as the coder of their type", "statement": "For every set of types, recursive ones included, the decoder (encoder) that any goroutine obtains for a type at any time treats every input (every value held in an interface) exactly as the type prescribes by recursion over its structure: a struct by its fields, a slice by its elements, and so on, at any depth; no part of it is missing, belongs to another type, or is applied to the wrong memory word.", "quantifier": "every environment of types, every schedule of goroutines, every later moment, every depth of nesting", "why_tests_cant": "Coders of recursive types are cyclic object graphs completed in several passes; a wrong or missing link shows only for one combination of types, request order and nesting depth.", "anchors": ["decoder_config.go:createDecoderInternal", "encoder_config.go:createEncoderInternal", "val_encoder_direct.go", "streamer_val.go", "iterator_val.go"]}
{"id": "C46", "title": "Nobody writes to the memory of others", "statement": "Whatever any number of goroutines do with iterators, decoders, encoders and streamers, new or recycled: the library never writes to the bytes it is given as input (so a string may be decoded in place), never changes a result that it has returned as a copy, and no two of its objects share storage. A slice handed out without a copy keeps its bytes as documented: from bytes input, until the caller changes the input; from a reader, until the iterator reads on or is reset; a string slice, until the next string or float is read from the same iterator. Decoding gives the same result whatever the rest of the program does to other memory.", "quantifier": "every program, i.e. every interleaving of steps of any number of iterators, streamers and callers, every input and every way storage grows", "why_tests_cant": "Aliasing shows only for particular capacities, chunkings and interleavings after the first result was taken.", "anchors": ["iterator.go:ResetBytes", "iterator.go:readMore", "iterator_raw.go:SkipRaw", "iterator_str.go:readStringAsSlice", "iterator_pool.go", "streamer_pool.go", "streamer.go:Flush", "encoder_config.go:Marshal", "convert.go"]}
{"id": "C47", "title": "Decoding is memory-safe, also under garbage collection", "statement": "Decoding into a variable of any type made of numbers, strings, pointers, slices, maps, arrays and structs (with embedded pointers), whatever the variable points to before, only reads and writes words that belong to the target or were allocated for it, and only as the types say; every object of the program keeps its type. A garbage collection may happen at any time: it never takes away memory that the decoder still uses, so that the result is the same as without collections: if the variable shares no memory with others, it holds the value that the input stands for, and no other memory is changed.", "quantifier": "every type, every well-typed content of memory (aliasing and cycles included), every input, an error at any point, garbage collections at any points with any reuse of the memory that they free", "why_tests_cant": "A premature collection needs the collector to run between two particular instructions and the memory to be reused before the end of the call; such failures are rare and look like random corruption.", "anchors": ["val_decoder_native_slice.go:sliceDecoder.Decode", "link_reflect.go:unsafeMakeSlice", "link_reflect.go:unsafeGrowSlice", "link_reflect.go:unsafeSliceChildPtr", "eface.go:sliceHeader", "val_decoder_native_ptr.go", "val_decoder_native_map.go", "val_decoder_native_array.go", "val_decoder_native_struct.go"]}
{"id": "C48", "title": "Errors are reported with the text around a position of the input", "statement": "Unmarshal, UnmarshalFromString and UnmarshalFromReader on a configuration always end; on failure they return a report with the error of the iterator's call as its reason and a piece of the input as its location: for input in memory (bytes, string, *bytes.Buffer) exactly the up to 20 bytes before and the up to 20 bytes after one position of the input, for other readers the same within the bytes still buffered, never stale bytes of an earlier use. Making the report never panics, wrapping a report again changes nothing, the value and the reason do not depend on how the input is supplied. A nil argument or one that is no pointer gives the error for that without reading anything.", "quantifier": "every input, every reader and chunking, every reader error, every type and old value, every recycled iterator after any history of calls", "why_tests_cant": "The location is cut out of the buffer after an arbitrary failure; whether its bounds are in range and whether it shows stale bytes depends on the chunk boundaries, the capture mode and what the pooled iterator held before.", "anchors": ["iterator.go:errorLocation", "iterator.go:WrapError", "iterator.go:Reset", "iterator_val.go:ReadVal", "decoder_config.go:Unmarshal", "decoder_config.go:UnmarshalFromString", "decoder_config.go:UnmarshalFromReader", "errors_decoder.go:DecodeError"]}
{"id": "C49", "title": "Values with dynamic types are encoded by what they are, however they are stored", "statement": "Writing an interface value of any dynamic type (basic, pointer, slice, array, map, struct with embedded pointers, interfaces with and without methods, json.Number, json.RawMessage, types with MarshalJSON or MarshalText on the value or on the pointer, types with an encoder of the user) ends without a panic, reads only memory that belongs to the value and only as its type says, and writes what its type and value stand for: the same in an interface, behind a pointer, in a variable or directly in the data word of an interface; a method of a value type is called with the value, a method of a pointer type with the pointer or, for elements and fields, with the address of the variable. The output depends only on the value, not on its place in memory.", "quantifier": "every set of types, every type, every well-typed content of memory without cycles, every argument", "why_tests_cant": "Whether an encoder gets a pointer to the value or the value itself depends on the combination of the type, the way it is reached and two caches; a wrong word is read as an address, which may look right by accident.", "anchors": ["encoder_config.go:createEncoderInternal", "encoder_config.go:preferPtrEncoder", "val_encoder_direct.go:directEncoder", "val_encoder_json_marshaler.go", "val_encoder_text_marshaler.go", "val_encoder_native_map.go", "val_encoder_native_interface.go", "val_encoder_native_ptr.go", "val_encoder_native_struct.go:structEncoder.Encode", "streamer_val.go:Value", "eface.go:packEFace", "iface.go:packIFace"]}
{"id": "C50", "title": "The bytes Marshal returns for a value of any dynamic type, and its error", "statement": "For a value with any dynamic types inside (structs, maps, slices, arrays, pointers, interfaces, types with MarshalJSON or MarshalText, user encoders, omitempty and the option string), Marshal either returns a JSON text that is put together from the texts of the parts of the value in order (strings escaped according to EscapeHTML, integers in decimal, floats as strconv formats them, base64 for byte slices, answers of methods as they are), or it returns the error of the first part that cannot be written: an infinite or NaN float, an unsupported type, or an error of the user's own code. It never panics by itself. The result depends on the value only, not on its place in memory, on sharing, or on what the recycled streamer was used for before, and the text is valid JSON if the texts supplied by the user are.", "quantifier": "all type systems, memories, values, user methods and encoders, streamers from the pool", "why_tests_cant": "The space of dynamic types nested in each other and of memory layouts is infinite; which pointer an encoder gets depends on the whole path of types to it, and error order and recycled state multiply with it.", "anchors": ["streamer_val.go:8-29", "encoder_config.go:85-99", "val_encoder_native_struct.go:68-110", "val_encoder_native_map_above_go118.go:9-36", "val_encoder_native_slice.go", "val_encoder_native_interface.go", "val_encoder_text_marshaler.go", "val_encoder_json_marshaler.go"]}
{"id": "C51", "title": "Decoding into an interface with methods", "statement": "For a variable of an interface type with methods, null makes the interface nil and changes nothing else. A value other than null is decoded into the variable that the pointer held by the interface points to, with the same result and the same error as decoding into that variable, and the interface keeps its pointer; the same holds for every chain of pointers and interfaces in front of that variable. If the interface is nil, holds a nil pointer, or holds something that is not a pointer, the call returns ErrEmptyIFace, ErrNilPointerReceiver or ErrPointerReceiver, no variable changes and the value is left unread.", "quantifier": "all inputs, split over reads in any way, all contents of the interface, all chains of pointers and interfaces, all types at their end", "why_tests_cant": "Contents, chains and inputs combine without bound; tests try a few.", "anchors": ["val_decoder_native_interface.go:117-135", "iface.go:17-23", "iterator_val.go:9-23"]}
{"id": "C52", "title": "Map keys with MarshalText and UnmarshalText", "statement": "A map whose keys have MarshalText is written as an object with one member per entry, named by what the method returns for the key; if the method fails for a key, Marshal fails. Reading an object into such a map calls UnmarshalText of a new key with every member name. If UnmarshalText gives back every key from what MarshalText returns for it, and the values come back, the map comes back.", "quantifier": "all key types with these methods, all element types, all maps, all methods, all inputs", "why_tests_cant": "Which method is called depends on the kind of the key type, the receiver of the method and the direction; keys and methods are unbounded.", "anchors": ["val_encoder_native_map.go:14-100", "val_decoder_native_map.go:13-45", "val_decoder_text_unmarshaler.go"]}
{"id": "C53", "title": "Storage for reading from a reader", "statement": "Reading values from an io.Reader takes storage that depends on the size of the single values, not on the length of the stream. While values are skipped, or decoded into booleans, integers, strings and containers of them, the slice handed to the reader keeps its size. Handing out one value as text, or reading a number as text, lets the storage reach at most 512 bytes behind the text. Whatever is done, the storage is never larger than what it was and what the reader delivered together.", "quantifier": "all streams, all ways the reader cuts them, all types, all sequences of calls", "why_tests_cant": "The storage depends on where the chunks of the reader end relative to the values over the whole stream; leaks show only on long streams with particular chunks.", "anchors": ["iterator.go:79-94", "iterator.go:142-182", "iterator_raw.go", "iterator_number.go", "val_decoder_native_slice.go:54-73"]}
{"id": "C54", "title": "A value is handed out as soon as it has arrived", "statement": "When the bytes of a value have been delivered by the reader, Decode, Read, Skip and SkipRaw return without calling the Read method of the reader again; More answers true as soon as the first byte of the next value has been delivered. For a number one more byte is needed, since only that shows where the number ends. So a program that reads one value at a time over a connection never waits for bytes behind the value: a partner that sends its next message only after it has seen an answer to the last one is not blocked.", "quantifier": "all types, all values, all ways the reader cuts the stream into pieces, all numbers of messages, whatever the reader would return later", "why_tests_cant": "Whether the reader is asked too early depends on where each piece ends relative to each token of the value, for every decoder; a test that delivers the whole text at once never sees it.", "anchors": ["iterator.go:142-182", "decoder.go:37-62", "iterator_skip.go", "iterator_read.go", "val_decoder_native_struct.go", "val_decoder_native_map.go"]}
{"id": "C55", "title": "What an Encoder writes comes back from a Decoder", "statement": "Values sent by successive calls of Encode on one Encoder come out of successive Decode calls of a Decoder at the other end, in order and unchanged, however the bytes are cut into pieces on the way. Up to the first call of Encode that fails each value is a line of its own; from then on all calls return the same error, and at most a beginning of the failed value's line is in the stream. When the line of a value has arrived, Decode returns it without waiting for the next line. If the writer takes everything and the values are finite, valid UTF-8 and of types made of booleans, integers, strings, pointers, slices, arrays, maps and structs, then all calls of Encode succeed and More is false after the last value.", "quantifier": "all lists of types and values, both settings of SetEscapeHTML, all results of the writer, all ways the reader cuts the stream into pieces", "why_tests_cant": "The combinations of value boundaries, piece boundaries and points of failure are unbounded; the property needs that no value's text can merge with the text of the next.", "anchors": ["encoder.go:17-36", "encoder_config.go:101-108", "streamer.go", "decoder.go:37-62"]}
{"id": "C56", "title": "The work of decoding is proportional to the text", "statement": "Counting every call of a reading primitive, every byte looked at and every byte of a text that is handed out, Skip, SkipRaw, Valid, Read and decoding into a variable of any type do an amount of work that is at most a constant times the number of bytes read, whether they succeed or fail. The constant is 18 for Skip and Read; for typed decoding it depends only on how many pointers follow each other in the types, not on the types' size or nesting, the depth of the text, the old value, or what follows the value in the stream. No input, however nested or malformed, makes decoding take quadratic time.", "quantifier": "all inputs, valid or not, all types, all old values, all ways the reader cuts the stream", "why_tests_cant": "A test sees the time of some inputs; a superlinear input for one of the many loops can be rare and only shows at large sizes.", "anchors": ["iterator.go:187-240", "iterator_skip.go", "iterator_skip_array.go", "iterator_skip_object.go", "iterator_read.go", "iterator_str.go", "val_decoder_native_slice.go", "val_decoder_native_map.go", "val_decoder_native_struct.go"]}
{"id": "C57", "title": "Encoding returns, also for values that contain themselves", "statement": "Marshal, Encode and Streamer.Value return for every value of a program, with an output or with an error: also for a value that leads back to itself through a pointer, a slice, a map or an interface. For types without methods and without encoders of the user, whose fields are all written, they return an output exactly if the content of the value is finite, that is, if following its pointers, slices, maps and interfaces comes to an end on every way.", "quantifier": "all types without methods, all memories that the language allows, all values in them, shared or cyclic", "why_tests_cant": "A test can show one cycle; that every finite value, however deep and however shared, is written and that nothing else is needs an argument over all memories.", "anchors": ["val_encoder_native_ptr.go:28-34", "val_encoder_native_slice.go:35-62", "val_encoder_native_map_above_go118.go:9-37", "val_encoder_native_interface.go:13-36", "val_encoder_native_struct.go:64-109", "streamer_val.go:8-29"]}
{"id": "C58", "title": "Output can be embedded in a web page and in a line", "statement": "The whole output of Marshal, and every line that an Encoder writes, is UTF-8 text without control characters and without U+2028 and U+2029, whatever strings, byte slices, map keys, field names and results of MarshalText the value contains; with HTML escaping (the default, or SetEscapeHTML(true)) it contains none of the characters <, > and &. In particular every successful call of Encode writes exactly one line, and a call that fails in the middle of writing has not written anything dangerous either.", "quantifier": "all types, all values, all settings, all behaviours of the writer", "why_tests_cant": "Characters get into the output by many ways (strings, quoted strings, keys of each kind, field names, methods, numbers); a test covers some characters on some ways.", "anchors": ["encoder.go:38-47", "streamer_str.go:12-94", "streamer.go:52-62", "val_encoder_native_struct.go:36-62", "val_encoder_native_struct.go:90-100", "val_encoder_json_rawmessage.go", "val_encoder_json_marshaler.go", "encoder.go:18-36"]}
{"id": "C59", "title": "Decoding the same text again changes nothing", "statement": "If Unmarshal decodes a text into a variable, then decoding the same text into the same variable once more succeeds and leaves the variable as it is. More generally, decoding a text first, then any other texts, then the first text again, gives the same as leaving out the first step. So what a text does to a variable does not depend on what the variable held, place by place, although pointers, slices, maps and structs are filled where they are.", "quantifier": "all types (recursive ones too) whose embedded structs are exported and whose own Unmarshal methods overwrite, all texts, all values of the variable, all sequences of further texts", "why_tests_cant": "A test decodes few texts into few old values; a decoder that merges (for example appends to a slice, or keeps elements that should go) is only seen with the right old value at the right depth.", "anchors": ["decoder_config.go:77-101", "val_decoder_native_slice.go", "val_decoder_native_array.go", "val_decoder_native_map.go", "val_decoder_native_ptr.go", "val_decoder_native_struct.go", "val_decoder_native_interface.go"]}
{"id": "C60", "title": "Functions for one kind of value accept exactly this kind", "statement": "ReadBool, ReadNull, SkipNumber, SkipArray and SkipObject succeed exactly if the unread input begins, after white space, with a text of that kind (a boolean, null, a number that goes as far as it can, an array, an object); ReadBool returns the boolean that is written; and all leave exactly what follows the text.", "quantifier": "all inputs, however the reader cuts them, all states of the iterator", "why_tests_cant": "A test tries some texts of the kind and some others; that no text outside the grammar is accepted and none inside refused, wherever a buffer ends, is a claim about all of them.", "anchors": ["iterator_bool.go", "iterator_null.go", "iterator_skip_number.go", "iterator_skip_array.go", "iterator_skip_object.go"]}
{"id": "C61", "title": "Only what a text denotes counts", "statement": "Two texts that denote the same JSON value with the same numerals, but differ in white space and in how characters of strings and keys are escaped, are decoded alike: into every variable, both are accepted with the same result or both are refused. The only exceptions are json.RawMessage and UnmarshalJSON, which get the text itself.", "quantifier": "all types without json.RawMessage and UnmarshalJSON methods, all pairs of texts of the same value, all old values", "why_tests_cant": "There are infinitely many ways of writing a value; a test tries few, and mostly without white space in odd places and without needless escapes.", "anchors": ["iterator_str.go", "iterator_object.go", "val_decoder_native_slice.go", "val_decoder_json_number.go", "val_decoder_native_map.go", "val_decoder_native_struct.go", "iterator.go:187-240"]}
{"id": "C62", "title": "Documents that are read and written again keep their meaning", "statement": "A document in UTF-8 that was read can be written, what is written is a JSON text, and reading that text gives the value again. For an interface{} variable with UseNumber the text written denotes the same document as the text read: the same literals, the same strings, the same elements in order, and for each name the member that counts. For a document that is not in UTF-8 this need not hold, because invalid bytes are replaced when a string is written.", "quantifier": "all documents in UTF-8, all old values of the variable, interface{} and all types made of booleans, integers, strings, pointers, slices, arrays, maps and structs", "why_tests_cant": "A test compares a few documents; that no document loses or changes something on the way through both directions depends on all strings, nesting shapes and repeated names.", "anchors": ["iterator_read.go", "iterator_read_array.go", "iterator_read_object.go", "iterator_str.go", "streamer_str.go", "val_decoder_native_interface.go", "val_encoder_native_interface.go", "encoder_config.go", "decoder_config.go:77-101"]}
{"id": "C63", "title": "The order of the members of an object makes no difference", "statement": "Members of objects, at any depth of a text, whose names do not belong together may change places without any effect on decoding: both texts are accepted with the same result, or both are refused. In particular an object without two members that belong together may be written in any order. Names belong together if they are equal, or equal under case folding unless names are case sensitive; the keys 0 and -0 of a map with integer keys belong together too.", "quantifier": "all types without json.RawMessage and UnmarshalJSON methods, all texts and all their reorderings, all old values", "why_tests_cant": "The number of orders grows with the factorial of the number of members, and fields reached through embedded pointers are allocated by whichever member comes first; tests try one order.", "anchors": ["val_decoder_native_struct.go", "val_decoder_native_struct_small.go", "val_decoder_native_struct_one_field.go", "val_decoder_native_map.go", "iterator_read_object.go", "struct_field_fold.go"]}
{"id": "C64", "title": "A result that is settled is reported without waiting for more input", "statement": "When bytes have arrived from a reader, a decoding operation asks for more only if it has to: if the reader would fail instead of delivering more and the operation does not report this failure, then its result, value or error, is the same whatever arrives later, and it is returned without another call of Read. So an error found in the bytes that have arrived is reported at once, and it is the error Unmarshal reports for every text that begins with these bytes; no continuation would have been accepted.", "quantifier": "all bytes, all ways they are cut into reads, everything that may follow them; Skip, SkipRaw, Read, ReadString, ReadVal and UnmarshalFromReader with all types", "why_tests_cant": "A test fixes one input and one continuation; that no continuation matters and no unnecessary Read is made is a statement about all of them at once.", "anchors": ["iterator.go", "iterator_skip.go", "iterator_read.go", "iterator_str.go", "iterator_skip_str.go", "iterator_float.go", "val_decoder_native_struct.go", "val_decoder_native_map.go", "val_decoder_native_slice.go"]}
{"id": "C65", "title": "Wrong input is told from input that is only cut off", "statement": "Skip reports an error of the syntax exactly if the bytes that have arrived are not the beginning of any input with a JSON value at its front. If it reports the failure of the reader instead, the bytes can be completed to a JSON text. On input that ends, io.EOF is reported exactly if there is no value at the front, but some continuation would have one; every other error says that no continuation helps.", "quantifier": "for all byte strings, all ways a reader delivers them before it fails or ends, all positions of the iterator and all recycled stacks", "why_tests_cant": "That bytes cannot be completed is a statement about all continuations, and that they can be completed needs a completion for each of infinitely many prefixes of nested texts; tests try a few prefixes.", "anchors": ["iterator_skip.go", "iterator_skip_array.go", "iterator_skip_object.go", "iterator_skip_str.go", "iterator_skip_number.go", "iterator.go"]}
{"id": "C66", "title": "The setting of an encoder stands for the option of the configuration", "statement": "A new Encoder has the EscapeHTML option of its configuration; SetEscapeHTML changes it for all values encoded afterwards, until it is called again, and writes nothing itself. Every line that Encode writes is a text of the value as Marshal writes it under the same configuration with the option EscapeHTML as last set: an encoder on which SetEscapeHTML(b) was called does, call by call and byte by byte, what an encoder of a configuration with EscapeHTML = b does. After an error nothing is written any more, whatever is set.", "quantifier": "all types and values, all configurations, all sequences of Encode and SetEscapeHTML, all writers that keep the contract of io.Writer, all recycled streamers", "why_tests_cant": "The setting has to reach every encoder of every type, also the inner streamer that some of them take from the pool; a test sets it once and looks at one string.", "anchors": ["encoder.go", "encoder_config.go", "streamer.go", "val_encoder_native.go", "val_encoder_native_struct.go"]}
{"id": "C67", "title": "Keeping a text for later and decoding it then gives the same as decoding at once", "statement": "Take a type and the same type with json.RawMessage in some places: in place of own fields of structs without the option string, of the values of maps, of elements of slices (other than []byte) and arrays, of what pointers point to, or of the whole. On a JSON text whose objects have no two members with names that belong together (and no two keys that are the same key of a map, such as 0 and -0), Unmarshal into a zero variable of the first type succeeds with a value exactly if Unmarshal into a zero variable of the second type succeeds and the value results from it by calling Unmarshal on each of the kept texts, where places without a text have their zero value. For a whole text and for the elements of a slice this holds for all JSON texts.", "quantifier": "all types and all choices of places, at any depth, all JSON texts without repeated names, all configurations, all recycled iterators and pools in both steps", "why_tests_cant": "The two ways must agree on every text, accepted or refused, for every choice of places in every type; a test decodes one envelope.", "anchors": ["val_decoder_json_rawmessage.go", "val_decoder_native_struct.go", "val_decoder_native_map.go", "val_decoder_native_slice.go", "val_decoder_native_array.go", "val_decoder_native_ptr.go", "iterator_raw.go", "iterator_skip.go", "decoder_config.go"]}
{"id": "C68", "title": "Programs with and without further struct fields understand each other's texts", "statement": "Take a type and a newer version of it, in which struct types, at any depth and also in recursive types, have further fields anywhere, with names that do not belong together with those of the old fields. (1) If Unmarshal into a variable of the newer type accepts a JSON text and unknown fields are not forbidden, Unmarshal into a corresponding variable of the older type accepts it too, and the new value is that of the newer type without the further members. (2) If the names of the further fields do not occur in a JSON text, the older type accepts it exactly if the newer one does; the values are the same in the members that both have, and further members that had their zero values keep them; this holds also if unknown fields are forbidden. (3) What Marshal writes for a value of the newer type, made of booleans, integers, strings, pointers, slices, arrays, maps and structs, is read into a fresh variable of the older type as that value without the further members.", "quantifier": "all pairs of types related by adding fields, including recursive ones, all JSON texts, all old values of the variables, all configurations, all recycled iterators and pools", "why_tests_cant": "The two versions of a type must agree on every text and every old value, also on case folded, repeated and escaped names and on refusals; a test compares two versions on a few texts.", "anchors": ["val_decoder_native_struct.go", "val_decoder_native_struct_one_field.go", "val_decoder_native_struct_small.go", "struct_field_fold.go", "val_decoder_native_ptr.go", "val_decoder_native_slice.go", "val_decoder_native_map.go", "val_decoder_native_array.go", "iterator_skip.go", "decoder_config.go"]}
{"id": "C69", "title": "The order in which Go visits maps changes only the places of members", "statement": "Go visits the entries of a map in an order that may be another one each time. Let Marshal write the same value twice, with any two such orders, recycled streamers and nesting limits. (1) If it succeeds with one order it succeeds with every other, and the texts consist of the same bytes in another order, so they have the same length; whether it fails does not depend on the order either. (2) If no map in the value has more than one entry, the two texts are equal. (3) If the ready-made texts in the value (json.RawMessage, json.Number, results of MarshalJSON) are JSON, the texts differ only in the places of members that were written for entries of maps: members of structs and elements of slices and arrays stay where they are. (4) If moreover the names written for different keys of the same map do not belong together, Unmarshal of the two texts into a variable of any type for which the order of members makes no difference (C63) gives the same value, or refuses both. (5) The keys are not sorted: the two texts of a map with two entries can be different.", "quantifier": "all types, all values, all pairs of orders, all encoder and decoder configurations, all recycled streamers and iterators, all old values of the variables", "why_tests_cant": "Go chooses the order at random; a test sees a few orders of a few maps, never the ones in which an entry is lost, a comma is missing or the streamer is left in another state.", "anchors": ["val_encoder_native_map.go", "val_encoder_native_map_above_go118.go", "val_encoder_native_map_below_go118.go", "encoder_config.go", "streamer.go", "val_encoder_native_interface.go"]}
{"id": "C70", "title": "A syntax error of Skip names the first wrong byte", "statement": "When Skip fails with an error other than the end of the input or the failure of the reader, the error carries a byte of the input, and that byte is the first wrong one: the bytes before it can be continued so that Skip succeeds, and together with it they cannot. If the error says which bytes would have been right in its place, each of them would: with it instead, the beginning can be completed. There is exactly one such byte in the input, and the same holds for a stream that breaks off with an error of its reader.", "quantifier": "every input, every partition into read results, every state of the recycled stack, every error", "why_tests_cant": "A test compares the byte in the error with the one the author of the test had in mind; that no continuation whatever of the bytes up to the named one is a JSON text, and that some continuation of those before it is, are statements about all texts.", "anchors": ["iterator_skip.go", "iterator_skip_array.go", "iterator_skip_object.go", "iterator_skip_str.go", "iterator_skip_number.go", "iterator_object.go", "iterator.go", "errors_decoder.go"]}
{"id": "C71", "title": "The text of an error tells which error it is", "statement": "Two different errors of the package (other than unsupported types) have different texts: from the result of Error() one can tell the kind of the error and the bytes, names, types and numbers it carries, and for the errors that the decoding calls return also the location they show, whatever the Unicode tables say about printable characters. The texts contain no control characters of the input, so they stay on one line, provided that control characters do not count as printable.", "quantifier": "all pairs of errors, all bytes, names and locations they carry, including names that are not valid UTF-8, all tables of printable characters; for Unmarshal and Skip all inputs, types and old values", "why_tests_cant": "A test compares the texts of a few errors; two names that look the same when quoted, or two kinds of errors whose texts meet, show up only among all pairs.", "anchors": ["errors_decoder.go", "iterator.go", "decoder_config.go", "iterator_skip.go"]}
{"id": "C72", "title": "An overflow error tells the type and the number", "statement": "When an integer literal in the input does not fit the type that is read, the text of the error is \"overflow T: N\" with the name T of the type and the number N of the literal.", "quantifier": "all integer literals outside the range, all inputs and partitions into read results, all integer readers", "why_tests_cant": "There are infinitely many literals outside the range; tests check that some error comes, for a few of them.", "anchors": ["iterator_int8.go", "iterator_int16.go", "iterator_int32.go", "iterator_int64.go", "errors_decoder.go"]}
