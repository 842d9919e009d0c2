# Formal model of zerosnake0/jzon in Lean 4

`properties.jsonl` states the properties, `MANIFEST.json` names the theorems for each of them, `lean/` is the Lake project
(`cd lean && lake build`), `seeded/LOG.jsonl` records the wrong programs the theorems were tested with.

## 1. Architecture

Decoding:

* **Iterator** (`Model/Iter.lean`): `buffer[0:tail]`, `head`, `offset`, `capture`, reader; `readMore` as coded. An `io.Reader`
  is any list of read results (bytes, optional error); theorems quantify over all of them.
* **Programs** (`Model/Prog.lean`): each decoding function is a program over a few primitive operations (peek a token or a
  byte and decide, a byte scanning loop with refill, raw capture, input offset). A program has two interpreters: `runM` over
  the iterator, **which is the model of the code**, and `runF` over the list of remaining bytes, which is a proof device. One theorem
  (`Prog.agree`, `Proof/Sim.lean`) relates them for every program. All property theorems are about `runM`.
* `Model/Stack, Str, Num, Int, Float, Skip, Read, Container`: the untyped reading surface.
* `Model/Typed, Fold, Struct, Decoder, Eface`: typed decoding, key lookup, field collection, the stream decoder, interfaces
  that hold pointers.
* `Model/Cache, EncCache`: the coder caches as transition systems over goroutine steps.
* `Model/Pool`: the iterator with its real storage (stale bytes, capacities) and the object pools.

Encoding: `Model/Encode` (integers over `BitVec`, strings as an index loop), `Model/Streamer` (state machine over a byte list,
writer with arbitrary partial writes, `Encoder`), `Model/Marshal` (the value encoders of all kinds), `Model/Setting`
(`NewEncoder`, `SetEscapeHTML`).

Specifications are in `Spec/*` and do not use the model, except for the types of its inputs and results: the JSON grammar
with what a text denotes (`Spec/Json`), what a reader delivers (`Spec/Reader`), decimal numerals (`Spec/Int`, `Spec/Encode`),
valid UTF-8, typed decoding as a relation between texts and values (`Spec/Typed`), Go's embedding rule (`Spec/Struct`), and so on.
`Proof/*` has the lemmas, `Props/*` the property theorems `Cnn_…`, each with `example`s that meet its hypotheses.

Errors are values. A run time panic (index, slice or nil) is the value `panic`; a loop or recursion that outruns the bound given to
it in the model is the value `hang`; both are proved not to occur where a property says so.

## 2. Trusted base

* The Lean 4.33.0 kernel. Axioms used: `propext`, `Classical.choice`, `Quot.sound`, nothing else, for every theorem in the
  manifest (`vcheck` checks it). No `sorry`, `native_decide`, `bv_decide`, own axioms. Finite tables are checked with
  `decide +kernel` over all 256 bytes (or all entries).
* The reading of the Go code. Every model definition cites file and lines; `/repo` was not compiled or run.
* Parts of the Go standard library and runtime, taken as follows.

| Part | How |
| --- | --- |
| `strconv.ParseFloat` | any function with the two laws `Spec.Lawful` |
| `strconv.AppendFloat` | any function whose texts have the documented format (`Spec/Float`) |
| `unicode.SimpleFold`, `bytes.EqualFold` | any functions with the laws in `Spec/Fold`; a table with these laws is given |
| `unicode.IsLetter`, `IsDigit` | any predicate false for U+FFFD |
| `unicode/utf8`, `unicode/utf16` | modelled (`decodeRune`, `appendRune`, `utf16DecodeRune`) |
| `encoding/base64` | any pair of functions; decoding inverts encoding where C25 needs it |
| `io.Reader` | any list of results; after `io.EOF` it repeats `io.EOF`; after another error anything |
| `io.Writer` | any list of partial writes and errors |
| `sort.Slice`, `sort.Sort` | insertion sort (elements that are not distinguished are equal) |
| maps | partial functions; the iteration order is any permutation, chosen anew in each state |
| `sync.Mutex`, `atomic.Value` | atomic steps, sequentially consistent; no published object is written (`C31_frozen`, `C31_enc_frozen`) |
| `sync.Pool` | returns any object that was put there, or a new one |
| `reflect`, `unsafe` | abstract typed values (`Val`, `Ty`); words and pointers in `Gc` (decoding) and `Words` (encoding) only; no write barriers |
| garbage collection | (`Gc`) between any two steps; keeps what pointers lead to, changes the rest at will; local variables are roots as long as they are used |
| user code (`MarshalJSON` …) | any functions; they do not touch the iterator or the streamer |

`int` and `uint` have 64 bits. `append` never fails.

## 3. What is modelled

| Go files | Model |
| --- | --- |
| `iterator.go` | `Iter`, `Prog`, `Pool`, `Mem`; `WrapError` and `Reset` (`Report`) |
| `iterator_val.go`, `decoder_config.go:77-101` | `Report` |
| `iterator_{skip,skip_array,skip_object,skip_str,skip_number,raw,number}.go`, `stack.go` | `Skip`, `Str`, `Num`, `Stack` |
| `iterator_{str,bool,null,float,float32,float64,int,int8,int16,int32,int64}.go` | `Str`, `Read`, `Float`, `Int` |
| `iterator_{read,read_array,read_object,array,object}.go`, `value_type.go`, `node.go` | `Read`, `Container` |
| `val_decoder*.go`, `decoder_config.go` | `Typed`, `Eface`, `Cache`, `Linked` |
| `decoder.go`, `decoder_config_adaptor.go`, `iterator_pool.go` | `Decoder`, `Pool` |
| `struct*.go` | `Struct`, `Fold` |
| `link_reflect.go`, `eface.go` | growth and copying of slices (`Typed`); pointers and memory (`Gc`) |
| `streamer*.go`, `encoder.go` | `Encode`, `Streamer`, `Pool` |
| `val_encoder*.go`, `encoder_config.go`, `is_empty.go` | `Marshal`, `EncCache`, `EncLinked`, `Words`, `WordsWrite` |

Simplifications, besides the table above:

* `Str` and `Float` collect the bytes of a run one by one. `Copy` models the loops as they are, with the index `i`, the slices
  `it.buffer[it.head:i]` and a `tmpBuffer` with left-over content, and `Proof/Copy` shows that they are the same functions (for the
  string reader and the float reader, with all their callers).
* Results are byte lists in all models but `Mem`, which has arrays and slices and shows (C46) that this makes no difference.
* `nodeStack` (`node.go`) is a list of nodes; the slices under construction in it are values, without shared storage.
* `Gc` has the words and pointers of the decoders of pointers, slices, maps, arrays, structs and strings. The input is a list of
  events there, not bytes. Map keys are numbers, structs are pairs (nested pairs for more fields), a string is one word, and types are
  finite.
* Recursive types: Go ties the knot with pointers between coder objects (modelled in `Cache`, `EncCache`); `Typed` and `Marshal`
  unfold a named type on demand, with a bound which is proved sufficient. `Linked` and `EncLinked` say how the objects act, and C45
  proves that this is the same.
* An `interface{}` holds nil, bool, number, string, `[]interface{}`, `map[string]interface{}`; pointers in it are modelled in
  `Eface` (decoding), all dynamic types and interfaces with methods in `Words` (encoding). Decoding into interfaces with methods is
  in `Eface`, for variables that pointers lead to, not for fields and elements. On the decoding side other dynamic types in
  interfaces are not modelled.
* Map keys with text methods are in `Typed` and `Marshal`; how the key lies in memory (`directTextMarshalerKeyEncoder`) only in
  `Words`. `TyEnv.isKey` says which keys a key type has; it is used by the specifications only.
* `Words` has the encoders on untyped pointers. A string, a slice header and an interface value are one cell each; the content of a
  map is one cell. The output is a tree; an unsupported type or a panic leaves a mark in it. `WordsWrite` says what is done with the
  streamer for the tree, up to the first error. Methods of the user answer with a text or an error and do not change memory; an
  encoder of the user writes one text or sets an error.
* `Error()` texts are modelled for the decoder errors (`Model/ErrText`), except for `TypeNotSupportedError`, whose name the model does not keep; the location in `DecodeError` is that of `Report`. Of `fmt` the verbs `%s`, `%x` and `%q` are written down as far as they are used there, `%q` with `strconv.IsPrint` as a parameter. Texts of encoder errors are not modelled.
* Values that contain themselves: decoding in `Eface`, encoding in `Words` (C57). There a run that never ends and a run that reads
  a wrong word are the same: no rule gives an output. `Marshal` has finite trees only.
* `Context`, `SetIndent` (commented out), `ValDecoders`/`ValEncoders` with nil entries.

## 4. Where the code does not have the property

Each is a theorem with a concrete witness; the true part is kept as a theorem `…_partial`.

| Theorem | What happens |
| --- | --- |
| `C11_violated` | `ReadUint8`, `ReadInt8` look at three digits only: `1234` reads as 123 and leaves `4` |
| `C23_cut_number_violated` | an integer `Decode` on `1.5` returns 1 and leaves `.5` |
| `C26_null_key_violated`, `C30_null_key_violated` | `{null:1}` is accepted when decoding into a map |
| `C26_space_violated` | `" true"` is accepted for a bool field with the option `string` |
| `C27_violated_one_field` | a struct with one field calls the fold function with swapped arguments; the Kelvin sign and long s do not match there |
| `C28_diamond_violated` | a struct two levels below a diamond of embedded structs is not seen as ambiguous |
| `C33_lasso_violated` | a pointer cycle that does not contain the starting variable is not noticed; endless recursion |
| `C33_retry_violated` | a second `ReadVal` at the same position after a reader error reports a loop that is not there |
| `C35_raw_violated`, `C35_number_violated`, `C35_method_violated` | empty `json.RawMessage`, unchecked `json.Number`, unchecked result of `MarshalJSON` |
| `C36_struct_violated` | a struct without fields is omitted by `omitempty` |
| `C36_receiver_violated` | with a pointer receiver marshaler a zero value is never omitted |
| `C36_panic_violated` | `omitempty` on a string, pointer or interface kind with an own method: nil function call |
| `C38_empty_violated` | with `DisallowUnknownFields` a struct without fields reports `UnexpectedByteError` |
| `C45_empty_direct_violated` | `Marshal(struct{ p *int }{})` writes `null`, not `{}`: the encoder takes the word in the interface for an address |
| `C47_slice_violated` | `reflect.SliceHeader` holds the array of a slice under construction as `uintptr`; a garbage collection between two elements frees the array, and the result holds foreign memory |
| `C49_marshaler_interface_violated` | a value in an interface type of the user whose method set has `MarshalJSON` (or `MarshalText`): the variable is taken for a value with the method, the type assertion panics |
| `C49_custom_direct_violated` | an encoder in `ValEncoders` for a pointer, map or one-pointer type gets the address of a variable in some places and the pointer itself in others |
| `C49_empty_struct_violated` | the same as `C45_empty_direct_violated`, on memory |
| `C49_text_pointer_violated` | a nil `*encoding.TextMarshaler` is dereferenced |
| `C49_interface_key_violated` | a map with keys of type `encoding.TextMarshaler` panics |
| `C49_omitempty_violated` | a field with `omitempty` of a string type with `MarshalText`: nil function call (the same as `C36_panic_violated`, on memory) |
| `C49_direct_key_violated` | a map key of type `struct{ p *int }` with `MarshalText` and p nil is written as `""`, the method is not called |
| `C52_string_violated` | a key of a string type is read with `UnmarshalText` but written without `MarshalText`; the map does not come back |
| `C52_pointer_violated` | a map whose key type has `MarshalText` with a pointer as receiver can be read but not written |
| `C53_retained_violated` | a reader whose chunks end where numbers end makes the iterator keep all of the stream in its buffer: it is refilled only while a number is being kept |
| `C53_shrunk_violated` | a refill while text is kept cuts `it.buffer` to what is in it; all further `Read` calls get that short slice |
| `C57_pointer_violated`, `C57_slice_violated`, `C57_map_violated` | a value that contains itself through a pointer, a slice or a map: encoding does not return, it ends with the stack (`encoding/json` reports an error) |
| `C58_raw_violated`, `C58_number_violated`, `C58_method_violated` | HTML escaping is on, but a `json.RawMessage`, a `json.Number` or the result of a method `MarshalJSON` is written with its `<`, `>`, `&` (`encoding/json` escapes them) |
| `C58_line_violated` | a `json.RawMessage` with a line feed between its tokens makes one call of `Encode` write two lines (`encoding/json` removes white space) |
| `C61_bytes_violated`, `C61_number_violated`, `C61_keys_violated` | base64 texts, a `json.Number` in quotation marks and integer keys of maps are taken from the text between the quotation marks: with a character written as an escape they are refused (`encoding/json` accepts them) |
| `C25_pointer_to_nil` | a pointer to a nil pointer (slice, map) comes back as a nil pointer (as in `encoding/json`) |
| `C66_quoted_violated` | after `SetEscapeHTML(false)` a string with the option `string` is still escaped (`"\"\\u003c\""` for `<`): the inner streamer takes the option of the configuration, not the setting of the encoder (`val_encoder_native.go:37-56`) |
| `C68_one_field_violated` | after adding a field to a struct with the single field `k`, the key `K` (Kelvin sign) selects it; before it does not (consequence of `C27_violated_one_field`) |
| `C68_text_violated` | `{"m":{null:1}}` is accepted by a struct with a map field `m` (see `C30_null_key_violated`) and refused by one without it, where the member is skipped |
| `C71_location_violated` | the text of a `DecodeError` shows the bytes around the position as they are, control characters included (`%s` in `errors_decoder.go:15`): for the bytes `[`, line feed, `?` it has two lines |
| `C72_violated`, `C72_unsigned_violated` | `65536` for `uint16` or `int16` gives the text `overflow : `, without type and number: the unsigned readers return `IntOverflowError{}` (`iterator_int16.go:47`) |

Seen in the code, outside the properties or the model: `More` is true
in front of `]` and `}`; an `Encoder` loses the rest of a line if a writer breaks its contract (`n < len(p)` without an error); a
broken base64 string leaves `capture` set; escapes in base64 strings are not decoded; `"null"` is not accepted for quoted integers;
floats ignore the option `string` when decoding; inner quoting of strings uses the configuration's `escapeHTML`, not the streamer's;
a nil pointer to an unsupported type is an error, not `null`; a growing slice is also copied when it becomes exactly full (`newLength < cap` instead of `≤`), so twice for each capacity; `type P *P` recurses for ever when its coder is made.

## 5. How each property is proved

* **C01, C02** the skip machine is sound and complete for the inductive grammar, with an arbitrary rest of the input (longest match for numbers).
* **C03** simulation of the chunked by the flat interpreter, by induction on the program and the reader script.
* **C04, C05** the machine of `Read` against the denotation; agreement with `Skip`.
* **C06** the capture frame is part of the simulation. **C07** so is the byte account.
* **C08** `panic` and `hang` are unreachable for every program built from the operations that descends in its input.
* **C09** refinement of the word array to a list of container kinds, for any stale content.
* **C10, C11, C16** `BitVec` digit loops against the decimal value.
* **C12** the literal given to `ParseFloat` is the source literal. **C13, C14** the escape reader against the string grammar and its denotation.
* **C15** base-1000 digit writer against canonical decimals. **C17, C18** the index loop of `encodeString` against the grammar, UTF-8 validity and the denotation.
* **C19, C20** the streamer on the calls for a value tree writes its compact rendering, which reads back.
* **C21, C22, C23** state machines over histories of calls.
* **C24, C26, C29, C30, C38, C39, C42** the typed decoders are characterised exactly by a relation between text, old and new value (`Spec/Typed`), by induction over types and texts.
* **C53** the size of the storage in `Model/Pool`, by induction over runs; the decoders that never keep text are found by going through their programs (`Prog.Plain`).
* **C54** programs whose last operation takes a byte (`Prog.Tight`, found by going through all programs) and an invariant over the refills: the reader is asked for its later results only when all bytes before them are consumed (`Zone`).
* **C55** the cases of one call of `Encode` (encoders leave writer and settings alone, `kept_value`), induction over the calls, then `C25`'s restoring relation for each line and `C23`/`C54` for the decoder.
* **C56** a credit argument (`Prog.Pays`, one lemma per program): every operation costs a credit, every byte taken earns some, no program runs out of them; the work is then bounded by the bytes taken. Growing slices: an invariant that remembers the capacity before the last growth. The work counts operations, bytes looked at and texts cut out; copying of strings, the search for field names, the standard library and user methods are not counted.
* **C25, C52** decode after encode, by induction over types. **C35, C36, C44** the encoders against a relation between value and text (`Spec/Marshal`).
* `Described`, `EncDescribed` (in `Spec`) link the fields used by `Typed` and `Marshal` with those that `Struct` computes from declarations; `Props/Described`, `Props/EncDescribed` discharge the conditions on fields in the other theorems.
* **C27, C37** orbits of case folding. **C28, C43** breadth-first field collection against Go's rule over paths.
* **C31** invariants over all schedules; termination of the construction by a measure.
* **C45** the graph of coder objects in any reachable cache state, unfolded to depth n, is the coder of the type.
* **C32** results do not depend on pool contents; the iterator with storage refines the iterator of the model.
* **C46** ownership of arrays is an invariant of all interleavings; the iterator in memory, with an arbitrary environment, refines the iterator with storage.
* **C47** well-typed memory is an invariant of the machine of decoder calls; runs with and without collections are related by agreement on what pointers lead to. The value in memory after decoding is characterised with footprints, by induction over the input.
* **C48** that the bytes before the buffer, the buffer and the bytes to come make up the input is an invariant of all runs, also of those that fail. Position and location are those of the iterator when the call ends; nothing is said about how far this is from the byte that caused the error (the code reports the start of the token in many cases, and for a reader at its end the buffer, hence the location, is empty).
* **C33, C51** the pointer graph machine, exact outcome for every chain.
* **C34, C40, C41** decision logic over the grammar.
* **C49** soundness (whatever a run writes is what the specification says) by induction over runs, totality by induction over the size of values, uniqueness of the specified output by induction over its rules. The three together give the equivalence.
* **C50** induction over trees: writing one has the effect of `Raw` with a text of it, or ends with the error of its first part that fails; the texts and errors are inductive relations of their own. Together with C49 this gives the bytes for a value in memory.
* **C57** induction over runs: a variable that has been written holds a finite value. An encoder of the root cache works on a new variable for the word it is given; the new variable keeps memory well-typed, and what is held beside it was held before. Parts of a finite value are smaller than the value, so nothing that contains itself is finite. The other direction is C49.
* **C58** induction over the texts of `Encodes` (as C35, both are instances of `encodes_holds`): a property of texts that the texts of scalars and strings have and that goes through brackets and members, is true of the text of every value whose ready-made texts have it. For the encoder: C55.
* **C59** what a text does to a variable is a patch (`Proof/Patch`): a tree that says for each place whether it is kept, replaced, or changed inside; patches of one type compose, and a patch absorbs what it did before. That a text which is accepted once is accepted for every value of the type is shown apart (`Proof/Again`); it needs that embedded structs are exported (`C59_unexported_fails`).
* **C60** the exact descriptions of the skip machine and of the literals, lifted to the iterator by C03.
* **C61** induction over the relation of texts that differ in white space (and escapes) only (`Spec/Alike`); two texts of the same value are so related.
* **C62** the strings of a UTF-8 text are UTF-8 (`Proof/Utf8Text`), so the values decoded from it are encodable (C44) and come back (C25); two JSON values with the same Go value are the same document (`Spec/Reformat`).
* **C63** induction over the relation of texts that differ in the order of members (`Spec/Reorder`); changes at two places of a struct commute (`atPath_swap`), integer literals other than 0 and -0 are determined by their values (`Proof/DecInj`).
* **C64** relation `Prog.Grows` between the programs for a shorter and a longer input (they differ in loop bounds only), by induction over the programs; two iterators that differ in what their readers do later run in step (`grows_twin` in `Proof/Decided`).
* **C65** where skipping stops for want of bytes, the place in the program says what completes them (`stuck_skip` in `Proof/Viable`, induction over the loops with the stack of open containers); `Proof/Cut` compares the runs on input that fails and input that ends.
* **C66** the encoders of two configurations that differ in `EscapeHTML` only are equal without the option `string` (`Proof/Setting`, induction over the bound of unfolding and the type); then induction over the calls.
* **C67** induction over `Deferred`; for structs both decoders visit the same members in step, with the places still to come holding their zero values (`InStep` in `Proof/Deferred`).
* **C68** induction over the length of the text, for pointers over the type (`Proof/Grown`); for structs the two variables stay related after every member (`Beside`), where the selection of fields in the two lists is compared (`selects_up`, `selects_down`).
* **C69** the encoders are compared with those of the same program with another order of maps (`OrderTwin`, `Proof/Order`), once for every relation of texts that is reflexive, transitive, respected by arrays and objects, and holds for permuted entries of maps (`OrderRel`): permutation of bytes, equality, and the relation of C63.
* **C70** programs are run with a record of the bytes nobody has looked at (`Prog.runX`, `Proof/Blame`). Every error names the last byte looked at (`Says`, piece by piece for all of `Skip`), and what has not been looked at can be cut off without changing the result (`grows_cut`). With C64 and C65 the byte must then be the last of the shortest beginning that cannot be completed. For the bytes an error asks for, two runs on bytes that differ in the last one only are compared (`WouldFit`, `Proof/Expected`).
* **C71, C72** the quoted forms can be read back character by character (`unquoteChar`, `Proof/ErrText`), the kinds are told by beginnings of which none begins another (`textHead_apart`). That errors of `Unmarshal` have their fields filled in as assumed there is one of the three uses of the walk through all decoders in `Proof/Safe` and `Proof/TypedSafe` (`Watch`; the others are C08 and C38). C72 is the overflow part of C10 with the fields of the error kept.
