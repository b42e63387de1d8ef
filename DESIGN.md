# Formal model of zerialize: design

Subject: the C++ header library in `/repo/include/zerialize` (read as text, never built).
Prover: Lean 4.33.0. The Lake project is `/verif/lean`; modules live under `lean/Verif`.

## Trusted base

* Lean's kernel (the gate replays every constant through it).
* Axioms: at most `propext`, `Classical.choice`, `Quot.sound`. No own axioms, no `sorry`,
  no `native_decide`, no `bv_decide`. The per-theorem axiom list is printed by
  `lean/Verif/Audit.lean` at build time and summarised at the end of this file.
* The transcription of C++ into Lean definitions. Every definition cites file and lines.
* Assumptions about code that is not in the repository (third-party libraries) are either
  explicit structure parameters with laws, or concrete models of the documented wire format.
  They are listed in the section "External code".

## Conventions

* `Bytes = List UInt8`. A pointer into a buffer is an offset from the buffer's start; reading
  an offset outside the buffer is undefined behaviour.
* `Res α = ok a | err e | ub | diverge`. `err e` is a C++ exception of class `e`
  (`deser` = DeserializationError, `ser` = SerializationError, `logic`, `runtime`, ...);
  `ub` is undefined behaviour (out-of-bounds read, violated `std::span` precondition, use after
  free); `diverge` means that the fuel of a loop/recursion ran out. Fuel is only used where the
  C++ code loops or recurses on data; each such function comes with a theorem saying that the
  supplied fuel suffices, or a theorem that no fuel suffices.
* Fixed-width arithmetic is done on `Nat` with an explicit `% 2^32` / `% 2^64` wherever a C++
  expression can wrap.
* Doubles are their 64 bit patterns; the library only moves them around, except for the
  widening of singles and halves and the narrowing of doubles in `asFloat`, which are modelled
  on bit patterns. The narrowing assumes IEC 559 in the default rounding mode (to nearest).
* Exception messages are not modelled, only exception classes.
* When a property is false of the code, the negation is proved on a concrete witness
  (suffix `_refuted`) and the strongest true part is proved (suffix `_partial`).

## Specification layer (independent of any protocol)

* `Val`: null, bool, int64, uint64, double bits, string bytes, blob bytes, array, map (ordered
  list of key/value pairs, repeated keys allowed). `Val.Same`: equality up to int/uint kind.
* `Ev`: the calls of the `Writer` concept. `emit : Val → List Ev`: the calls that a dynamic
  value makes.
* `Tree`: an abstract machine that consumes writer calls and builds a `Val`; it is the
  specification of what a call sequence means and which sequences are malformed.
* `Reader ρ`: the operations of the `Reader` concept. `Agrees R r v`: "reader position `r`
  presents value `v`", defined only through reader operations.

Round trip of protocol P then reads: if `run P (emit v)` then `finish` gives `b`, opening `b`
gives a reader position `r` with `Agrees P r v`.

## Properties: model and proof plan

| id | modelled by | proof |
|----|-------------|-------|
| C01 | byte-level ZERA writer and reader | writer refines `Tree` (simulation over all call sequences); representation relation between (envelope, arena, 16-byte reference) and `Val`; reader agrees with represented value by induction on `Val` |
| C02 | same | size measure on `Val`; induction |
| C03 | same | simulation in both directions, by induction over the call sequence |
| C04 | ZERA reader with `ub` outcome | invariant "view lies in buffer" kept by `operator[]`; each accessor `≠ ub`. False for buffers of 4 GiB or more (32-bit wrap in the header check): partial plus witness |
| C05 | key iterator | false (2-byte read before the bound check): witness; partial: safe if the envelope is followed by at least two bytes |
| C06 | ZERA reader | from the accessor equations |
| C07 | ZERA reader | false for corrupt counts ≥ 2^28 (offset truncated to 32 bits): witness; partial: true below, and whenever arraySize() succeeds |
| C08, C09 | ZERA writer/reader | from the simulation invariant |
| C10, C11, C20, C26 | integer accessors of each reader | case analysis, arithmetic; refutations for wrapping accessors |
| C12 | corollary of C01/C17 | `Agrees` determines the value |
| C13–C15 | `base64Encode`/`base64Decode` | induction over groups of three bytes; C15 is false for bad padding/length: witness and exact characterisation of the accepted texts |
| C16, C17 | MessagePack format as a relation `Enc`; reader; msgpack-c packer | mutual induction on `Val`; skip lemma `skip (enc v ++ rest) = length` |
| C18 | reader on arbitrary bytes | false (unchecked lengths): witnesses; partial for the accessors that are safe |
| C19 | `mp_skip` with fuel | fuel = length+1 suffices |
| C21–C23 | CBOR format relation, reader, jsoncons encoder | as C16; C22 key iteration over indefinite maps is false: witness |
| C24, C25 | reader on arbitrary bytes | false (64-bit wrap): witnesses incl. a divergence proof for all fuels; partial under a no-wrap hypothesis |
| C27–C30 | `write_value` generic over `Reader` and writer | induction on `Val` from `Agrees`; C28 false for cyclic ZERA and Flex buffers: divergence proof for all fuels; C29 false for CBOR/JSON sources; C30 false: witness and exact result (`first value wins`) |
| C31–C33 | JSON writer as DOM builder, reader over the DOM; yyjson text layer is a parameter with a law | simulation; C31 false for the empty key; C33 false: witness |
| C34, C35 | binary search over the keys in the buffer, `lo + hi` as `size_t`; flexbuffers builder and reader on bytes | loop invariant; layout of every vector, map and string in the buffer, kept by every later step of the builder; the reader at a position answers as the document it holds. Non-termination on a crafted buffer |
| C36 | `emit` for dyn values, builders, containers | structural induction |
| C37–C41 | tensor code generic over `Reader`; tensors at any path of a document that was written, translated as a whole or in parts (`ArrivesDoc` in `Props/Nested.lean`) | algebra of products modulo 2^64; C38 false (wrap): witness |
| C42 | tables | decide over the finite table, lifted |
| C43–C45, C47, C48 | ownership state machines over histories | invariant by induction on the history; C44, C45, C47 false: witnesses |
| C46 | `hexdump` rows | induction; width 0 diverges |
| C49, C50 | bit-level widening | dyadic value semantics of the three formats |
| C51 | `esc` / `json_escape`; JSON string grammar as specification | all byte strings; false for CBOR, which does not escape |
| C52 | `to_string` of each reader with its text, `ostream` formatting as a parameter | text shows the value: MsgPack, Flex, ZERA; JSON: the text is JSON again (`Json/Pretty.lean`); CBOR false for all objects that contain lists, chunked strings and blobs shown whole |
| C53, C54 | per protocol | computation / from round trip; MessagePack and JSON parts refuted |
| C55 | readers on arbitrary bytes | case analysis; partial for MessagePack: exact list of accessors that leave an empty view |
| C57 | `skip`/`mp_skip` over the format relation | from the skip lemmas; CBOR simple values false: witness |
| C58 | CBOR reader on arbitrary bytes | every successful skip ends inside the buffer; induction over paths; views unless the call is undefined |
| C59 | JSON and Flex integer accessors | case analysis; false for JSON from 2^63 on |
| C60 | JSON writer with a heap of nodes, strings by address, caller memory per call | refinement to the tree model; false: witness, and undefined behaviour for every history with a destroyed string |
| C61 | flexbuffers builder on bytes, with and without assertions | simulation; false for malformed sequences: witnesses |
| C62 | `key` over an allocation and a view into it | false: witness; exact condition |
| C63 | `GetRoot` reads | false for every one-byte buffer |
| C64 | documents with typed vectors | false: every typed vector |
| C65 | builder objects holding references, temporaries flagged | false: witness; exact condition |
| C66 | element types incl. an open family without specialisation | false: witness in every protocol; supported types for all documents |
| C67 | narrow accessors of each reader | false for JSON, Flex; the rest for any bytes |
| C68 | `isTensor` over any reader | false: witness; all values with a small first element |
| C69 | containers as memory + shape + strides + offset | false: witnesses; row-major / same order for all shapes |
| C70 | debug texts as a relation between values and bytes | MsgPack, Flex, JSON for all values; false for CBOR, ZERA |
| C71 | writers as functions state -> result and state, so that what an exception leaves behind is visible (`Verif/Catch`); proved to agree with the plain writers | false for ZERA closing calls; proved for other refusals, JSON, Flex; CBOR encoder after an error not modelled |
| C72 | sessions of calls and `finish` | ZERA, JSON; false for MsgPack, CBOR, Flex |
| C73 | histories of root serializers, `Verif/Buffer/Roots.lean` | false with copies and for JSON when writing raises; otherwise proved |
| C74 | `Res.Le`: what a call returns on a prefix it returns on the whole (`Verif/Prefix`) | CBOR; MsgPack, ZERA without repeated keys, false with them; JSON except single numbers, false for these; false for Flex |
| C75 | `Reader.Extends`: simulation between a reader and the reader of a longer buffer | MsgPack, CBOR, ZERA for arbitrary bytes; JSON only for white space (refuted otherwise); Flex only for bytes in front (refuted for bytes behind) |
| C76 | each pair of functions walks the entries with the same steps: induction over the entries | JSON all documents; MsgPack, CBOR, ZERA arbitrary bytes up to values that are cut off; Flex everything written, documents in key order, what holds of any bytes; refuted beyond |
| C77 | a writer that counts its calls; `writeValue_run` turns translation into the calls of one value; nested maps with a repeated key for the refutation | all readers without repeated keys; refuted for all five protocols |
| C78 | `Reader.Fits`: the answers of a reader fit together; induction over the recursion of `write_value` rebuilds the value from the answers | MsgPack, ZERA and Flex arbitrary bytes; JSON, CBOR under conditions, refuted beyond |
| C79 | recursion depth as the budget of the recursive functions (`mpSkip`, `skipIn`, `writeValue`), exact depth by monotonicity in the budget and induction over encodings; the stack of the CBOR encoder bounds the recursion of `write_value` | refuted for every stack size; exact depths for arbitrary bytes; translations to CBOR bounded |
| C80 | `valAt` follows a path in the value, `readAt` follows it with `operator[]`; agreement of a reader with a value transfers along paths; typed accessors as range checks on the 64-bit ones (`Acc`) | all protocols within the domain of their round trips; CBOR for all integers; kinds kept by ZERA and Flex only |
| C81 | `narrow32` rounds the bit pattern; compared with every single by distances of exact integers (units of 2^-1074) | every reader, every double |
| C82 | the events of a translation are those of a value that is the same up to the sign type of integers (`writeValue_run`); C80 of the destination is closed under this | into ZERA, MsgPack, CBOR, JSON from all; into Flex from ZERA and Flex, refuted from MsgPack and JSON |
| C83 | memory reserved in advance (`reserve` of the ZERA writer and of `tensor_shape`) with a limit; translation with the limit equals translation without | any source that presents a value, encodings of all three binary protocols; refuted for MessagePack and CBOR bytes that announce what they do not contain |
| C84 | the functions of the models with a step for every call of `mp_skip`/`skip` and every chunk (`Verif/Cost`); forgetting the steps gives the models back (`costs_of`, `skipC_res`) | one step per byte for bytes without wrapping lengths and for encodings; refuted by items that take no bytes |
| C85 | `write_value` with the steps of its lookups (`writeValueC`), the calls of the writer counted by `counter` | refuted (quadratic: exact count for arrays of nulls, MessagePack and CBOR; lower bound for every ZERA map of different keys); quadratic upper bound for encodings without repeated keys; bounds in calls of the writer for any bytes (ZERA, Flex: logarithmic factor) |
| C86 | the grammar of RFC 8259 as inductive predicates (`Json/Grammar.lean`), UTF-8 of RFC 3629 (`Json/Utf8.lean`), numbers rounded to nearest (`Json/Number.lean`); a reader proved to accept exactly the texts | all byte strings; refuted for arrays that look like blobs and integers from 2^63 on |
| C87 | the writer of texts (`Json/Print.lean`), proved to satisfy `Text.Law` and the grammar | every call sequence |
| C88 | a translation in which views of strings come with the byte behind them (`Flex/Behind.lean`), undefined outside the allocation; the writer copies it as flexbuffers does | any source reader; CBOR, MessagePack and ZERA documents in full (MessagePack spans with the bytes behind them: `MsgPack/Behind.lean`; ZERA messages of the writer: `Zera/Behind.lean`); **false** exactly when a visited string ends its allocation |
| C89 | bytes of a translation (`Transcode.lean`: `recode`, `route`), protocols that carry a value | chains of any length; false through protocols that lose the signedness, for Flex with unsorted maps, and with repeated keys |
| C90 | the encodings of MessagePack and CBOR as relations, JSON texts as the grammar; how much longer the writer's bytes are | all encodings; false for doubles that are singles or halves, and for ZERA (sharing) |
| C91 | `ZERA.md` restated as relations between bytes and values (`Zera/Spec.lean`); writer, reader and the relations compared (`Zera/Conform.lean`) | all messages and buffers; the bound of 4 GiB is false; other typed arrays than blobs have no value |
| C92 | inversion of the readers: heads, numbers, strings, then containers by following lookups (`MsgPack/Exact.lean`, `Cbor/Exact.lean`, converse in `Cbor/Dialect.lean`) | all buffers, distinct keys; CBOR also takes 0x1f and 0x3f, and needs lengths that do not wrap |
| C93 | the FlexBuffers description as a relation with rules that can be dropped (`Flex/Spec.lean`); the writer's builder invariant concludes it, the reader's invariant follows from it (`Flex/Read.lean`), and inversion of the reader gives the weakest rules (`Flex/Present.lean`) | all layouts; typed vectors and keys as values are **not** read; the exact rules of what is read for buffers below 2^56 bytes |
| C94 | `print_ref` over references (`Text/Dump.lean`) follows the relation of `Flex/Spec.lean` under the rules without typed vectors and indirect numbers; the text has one reading up to `LooksLike` (`Text/DumpUnique.lean`) | all such buffers; `std::cout <<` of numbers is a parameter with stated laws; `std::quoted` by its documented behaviour; indentation as a natural number |
| C95 | the lookups of the ZERA and Flex models with a step for every entry looked at (`Cost/Zera.lean`, `Cost/Flex.lean`); forgetting the steps gives the models back (`costs_of`) | all bytes (ZERA below 2^32 - 20; Flex: at most 2^63 claimed keys, or keys that can be listed); comparing and copying the bytes of keys is not counted |
| C96 | where the views that key iterators return point to, and what iterators hold and compare (`Listing.lean`): views into the buffer or into the iterator's `scratch`, ZERA's pointer to the reader, Flex's pointer to the range | all bytes from which keys can be listed; lifetimes as in the C++ standard, with and without the extension of temporaries in range-for of C++23; the JSON range (`JsonKeys.lean`): iterators hold nodes of the document by value, compared by the yyjson iterator's position; the keys live as long as the document's owners |
| C97 | three measures of values that know no format (`Val.items`, `Val.texts`, `Val.keyBytes` in `Props/Size.lean`) against the lengths of the messages that the writer models produce | all values that can be written; JSON with any text of doubles of bounded length; Flex key pool as modelled in `Flex/Model.lean` |
| C98 | the exceptions that leave the models of all reader operations, writer calls and translations, against the two classes of errors.hpp (`Only` in `Props/Errors.lean`) | all bytes, positions, call sequences; exceptions of failing allocations left out (`Memory.lean` has them); where an operation is undefined or does not end nothing is said (C04, C18, C24, C34) |
| C99 | two readers of any kind against the values they present (`AgreesW`), two translations against each other (`Proto.rewrite` in `Props/Normal.lean`) | all bytes the readers accept; generic in both readers and the target |
| C100 | the kinds as code that asks in the order of `write_value` sees them (`Reader.settled` in `Settle.lean`), paths (`Val.at`, `Reader.goto`) and chains of translations (`c100_route`) | all values in the domains of the round-trip theorems; all paths; all chains; Flex in chains also for keys out of order (`Props/Route.lean`) |
| C101 | the data pointers of ZERA blobs (`blobAddr`) against the address the message lies at, through the tensor readers (`Props/Aligned.lean`) | all writer calls, positions, types, addresses; addresses are natural numbers, allocation is outside the model |
| C102 | the checks of `isTensor`, `tensor_shape` and the two tensor readers on any presented document (`Props/Accept.lean`); false as the README states it: longer arrays are accepted, and the sign of the code decides in ZERA and Flex | all documents, paths, types, ranks, five formats |
| C103 | the tensor readers on bytes of any origin, over the safety of the accessors (C04, C18, C24) (`Props/Hostile.lean`); false for truncated MessagePack, CBOR lengths of nearly 2^64 and Flex, where the accessors are already undefined | ZERA below 4 GiB - 20, complete MessagePack, CBOR without such lengths, all JSON; memory reserved for dimensions is C83 |
| C104 | texts with the pointer they come with (`Txt`, null or bytes) through every writer call, the copies of ZERA `finish`, the key comparison of ZERA and JSON lookups, and the copies of the tensor readers (`Props/Null.lean`); false for JSON strings, Flex strings and keys, lookups of an empty key in ZERA and JSON, ZERA messages without arena data and tensors without elements | all call sequences, positions, bytes, documents; that a vector without storage has a null pointer is a parameter (`nul`); MessagePack, CBOR and Flex look keys up with `string_view` comparisons, which take null with size 0 |
| C105 | the beginning of a message up to the end of a value (`Here`): heads that announce more, or indefinite lengths, complete elements and entries before it, nothing said about what comes behind (`Props/Arrived.lean`); false for MessagePack inside an element that is not whole (`operator[]` passes over the element it returns), for ZERA before the envelope is whole, for JSON and Flex | all documents, encodings, paths, bytes behind; keys of other types than text before the value are not included |
| C106 | two runs of a writer side by side that differ in the bytes of one `binary` call (`Props/Patch.lean`): ZERA with another arena of the same length, Flex with another buffer that holds the same keys at the same offsets, MessagePack and CBOR with another output; JSON by recursion over the printed document | all call sequences (ZERA, MessagePack, CBOR), well-formed ones (Flex; the sort of `EndMap` reads what stands in the place of keys), all values (JSON, with the printer `std`) |
| C107 | documents with a hole (`Hole`, `Val.set`); for each format an induction over the hole that gives the bytes before and behind it, which do not depend on what is put there (`Props/Splice.lean`) | MessagePack and JSON: all documents and replacements that can be written alone; CBOR: also the nesting limit of the encoder, exactly; the MessagePack reader on any encoding with strings and blobs below 2^32-5 bytes; false for ZERA and Flex |
| C108 | which bytes an operation depends on (`LooksAt`): a list of places such that all bytes of the same number that are the same there give the same outcome; composed over the steps of each operation (`Props/Lazy.lean`) | ZERA and Flex: any bytes, any path of indexes, numbers, booleans, sizes, strings and blobs (`Props/LazyText.lean`: besides their own bytes a fixed number); MessagePack and CBOR: opening; false for their elements (arrays of nulls, one of which is made an array) and for JSON (a zero byte anywhere) |
| C109 | programs as trees of questions and steps with any continuation (`Prog`, `Props/Program.lean`), run on a `Reader` and on a value; accessors of the wrong kind raise at every position that presents a value (`Raises`, from C55) | induction on the program, for any reader; values equal up to the kind of integers, or up to the order of keys, give the same result; all five formats and translations. False for `isInt`, `asInt64`, `isArray` alone and for the order of keys |
| C110 | the value without the members of a set of keys (`Val.without`), values that have grown (`Val.Grown`), programs that ignore these keys (`Prog.Ignores`) or find what they look for (`Prog.Finds`), `Props/Evolve.lean` | induction on the program: same result on both values, hence on any two messages that hold them. False for programs that list or count |
| C111 | `fixed_string`, `zmapOf` (the template with its keys), `dynMapOf`, `Reader.getLit` (`Props/Literal.lean`) | the copy loop by induction; `strlen` of a literal without NULs is its text; round trips. False with NULs inside and for arrays without a terminating NUL |
| C112 | `Heap`, `Arg` (what a `dyn::Value` is made from), `Kept` (what it keeps), `Obj` (what a `Serializable` holds), `Arg.make`, `Kept.now` (`Props/Owning.lean`). Simplified: objects that own their data are `Src` values | induction on the argument: what is found at any later time is the value at the time of making. False for `dyn::serializable(std::string_view)` |
| C113 | `Order` (little or big), `store`, `load` of numbers in memory, `DType.parts` (complex numbers have two), elements in memory (`Props/Hosts.lean`). Assumed: floating-point numbers are in the order of integers of their size | what one machine stored and another loads, by induction on the bytes; with C69 for tensors and matrices through every format. False between different orders |
| C114 | `Ordered` (the same keys in the same order, or sorted), `Halt` (a stop of a route and what it does to the order of keys) (`Props/Order.lean`) | invariant of the route at any path: kept by every stop but Flex, sorted from the first Flex on; sorted permutations are unique. False with Flex on the route |
| C115 | `Reader.Honest` (the accessors of the kind that is answered with yes return), `numLen` (bytes of a number of MessagePack by its first byte), `Flex.Sure` (no exception) (`Props/Promise.lean`, `Props/PromiseMore.lean`, `Props/PromiseZera.lean`, `Props/PromiseKeys.lean`) | by cases of what is presented, at any path; on other bytes from the outcomes of the reads behind the questions (C04, C15, C18). False on bytes that hold no value: witnesses in all formats |
| C116 | fixed points of `recode P P` (`Props/Again.lean`) | `writeValue_run` strengthened: members under one key are read at one position and so written alike (`writeValue_alike`); then the round trip of the target, and `Blind` or strict readers for the sign of integers. Sizes for MessagePack from C97. False into Flex (keys put in order) and CBOR (numbers from 2^63 on) |
| C117 | `Val.at`, `Reader.goto` (C100) and `Proto.rewrite` (C99) (`Props/Parts.lean`) | every position presents one value with the signs `write_value` sees (`Reader.Agrees.settles`); paths go through `firstWins` and `Same`; then C99 for the two positions. False into Flex (keys put in order) |
| C56 | MessagePack reader | each lookup returns a sub-range at an offset of at least one; induction over paths |

Not expressible: allocation failure (except of tensor copies and of memory reserved in advance), thread interleavings (the library has no shared mutable state), compile-time constraints
(`concepts.hpp`), and the numeric text produced by `to_string`.

## External code

* msgpack-c packer: modelled by its documented minimal encodings.
* jsoncons CBOR encoder: modelled by its documented encodings (shortest heads, floats shrunk to
  single precision when exact, definite lengths).
* yyjson: the DOM operations used are modelled; printing and parsing is a parameter with the
  law "parse (print d) = d with non-negative signed integers reread as unsigned", for documents
  with finite floats and valid UTF-8. `Json.std` is an instance: the texts of RFC 8259, read and written as yyjson
  documents it (no flags). `Json.std_law` proves the law for it, so that everything proved from the law holds of it. The
  digits of doubles stay a parameter (`FmtOk`, met by `exact_fmtOk`). Not modelled: yyjson refuses numbers whose exponent has
  19 or more digits even if they are zero, and reads them as zero if the exponent is negative.
* flexbuffers: the parts of `flexbuffers.h` that `flex.hpp` calls are transcribed on bytes (`Flex/Format.lean`): references,
  widths and offsets, the builder with its key pool, in builds with and without `FLATBUFFERS_ASSERT`. Left open, as a parameter
  (`Flex.Lib`) with the law `Flex.Lib.Law`, is the order in which `std::sort` puts entries with equal keys; `Flex.std_law` shows
  that the law can be met. `Flex.Holds r d` says that a position in a buffer holds a document; `Holds.same` proves that the reader
  then answers as for the document, `serialize_holds` that what the builder writes holds what was written (buffers below 2^64
  bytes, `Fits`). Documents may contain typed vectors and stray keys. Not modelled: `FLATBUFFERS_ASSERT` in the reader, the
  shared-string pool (off by default), reading past the null reference that is returned behind the end of a vector.
* xtensor and Eigen containers: memory, shape, strides and offset; `data()`, `size()`, `shape()` by their
  documented meaning. `xt::adapt` and `Eigen::Map` are element pointers with row-major strides, respectively the
  strides of the storage order. Allocation of an owning container fails if the number of bytes is no `size_t`.
  The address of a blob is a parameter. Signed overflow of `Eigen::Index` is not modelled.
* Writers after an exception (`Verif/Catch`): a moved-from `std::vector` is empty, a moved-from `std::optional` keeps
  its value. Flex calls after `finish()` and the jsoncons encoder after an error are not modelled.
* C++ standard library containers, `memcpy`, `std::function`, `unique_ptr`: modelled by their
  specified effect.

## Validation against the project's own tests

`Verif/Conform.lean` restates the cases of test/test_zerialize.cpp line by line and evaluates them in the kernel, in the models of the five
protocols: builders, dynamic values, custom types, tensors, failure modes, translation between all 25 pairs, the alignment sweep. They are no
proofs of properties. They check the transcription: a test that passes upstream must pass here. Differences from the C++ tests: the vector
of 256 elements has 40, the translated tensor six elements instead of sixteen; for JSON the text is left out (the reader gets the document
that the writer built, canonical as `Json.Text.Law` says); the checks behind `return true;` in two of the translation tests are made.

## Mutation log

`seeded/LOG.jsonl` records wrong programs tried in a scratch copy. `failed` lists the property
theorems that no longer check after the edit, directly or because a lemma they use fails.

## Findings: where the code does not have the property

Each row is a theorem; the witness is in its statement.

| theorem | what happens |
|---|---|
| `Cbor.c116_cbor_refuted` | C116 is false into CBOR for numbers from 2^63 on: they come back as negative. |
| `Cbor.c99_from_cbor_refuted` | C99 is false of CBOR as a source: a map that contains a key is translated into the bytes of the empty map, whatever the format. |
| `Flex.c107_flex_refuted` | C107 is false for Flex. |
| `Flex.c116_flex_refuted` | C116 is false into Flex: a map whose keys are not in order is written in the order of the source, and read in the order of the keys, so that the second translation moves its values. |
| `Flex.c117_flex_refuted` | C117 is false into Flex: the member `{"b": 2, "a": 1}` of an array, translated alone, has its values in the order of the source; found in the translation, in the order of its keys. |
| `Json.c99_from_json_refuted` | C99 is false of JSON as a source: the texts 18446744073709551615 and -1 are translated into the same bytes, whatever the format, and every number above `INT64_MAX` into the bytes of a negative one; as unsigned numbers they are read as they are. |
| `Zera.c107_zera_refuted` | C107 is false for ZERA: the message of a part is not found in the message. |
| `c04_zera_reader_safe_refuted` | C04 is false without the size bound: on a buffer of 2^32 - 20 bytes the 32-bit sum in the header check wraps, the reader opens, and the first access reads past the end. |
| `c05_zera_keys_refuted` | C05 is false: `KeysView::iterator::operator*` reads the key length before any bound check. |
| `c07_zera_element_refuted` | C07 is false: index 2^28 of a corrupt array returns element 0, because the element offset is truncated to 32 bits before the bound check. |
| `c101_foreign_refuted` | C101 is false of messages of other writers: the reader accepts blobs at any place of the arena, and views of them are copies however the message is aligned. |
| `c101_others_refuted` | C101 is a property of ZERA: a tensor of doubles in a MessagePack message, in a CBOR message and in a Flex message that lie at multiples of 16 is copied. |
| `c102_longer_refuted` | README.md:168 "arrays of size 3" is refuted: an array of four elements is read as a tensor, and the fourth is ignored. |
| `c102_sign_refuted` | The signs of the codes matter in some protocols only: the same document is read as a tensor from MessagePack and refused from ZERA. |
| `c103_cbor_refuted` | C103 is false of CBOR: a blob that announces 2^64 - 13 bytes. |
| `c103_flex_refuted` | C103 is false of Flex: the root is an array that lies before the start of the message. |
| `c103_msgpack_refuted` | C103 is false of MessagePack: a tensor of two elements whose last three bytes are missing is taken beyond its end even by asking. |
| `c104_flex_write_refuted` | C104 does not hold of Flex: a string or a key that is a null pointer is read through. |
| `c104_json_lookup_refuted` | C104 does not hold of JSON objects with an empty key: it is found as `""` and not as a null pointer. |
| `c104_json_write_refuted` | C104 does not hold of JSON: a string that is a null pointer raises `std::bad_alloc` wherever it comes, also where the empty string can be written. |
| `c104_tensor_refuted` | C104 does not hold of tensors without elements: an array of doubles in JSON, `[11,[0],["~b","","base64"]]`. |
| `c104_zera_finish_refuted` | C104 does not hold of `finish`: the number 7 is such a value; a blob of one byte is not. |
| `c104_zera_lookup_refuted` | C104 does not hold of ZERA lookups: in a map with an empty key the lookup is undefined, in one without it is not. |
| `c105_flex_refuted` | C105 is false for Flex: the root is found from the last bytes. Of `[1, 2]` all but the last byte is there, and what is taken for the width of the root is the type of the array. |
| `c105_json_refuted` | C105 is false for JSON: the text is read as a whole. Of `[1,2]` all but the bracket is there. |
| `c105_msgpack_refuted` | C105 is false for MessagePack inside an element that has not arrived whole: `operator[]` passes over the element it returns. Of `[[1, 2]]` all but the last byte is there, the 1 included, and `v[0]` raises. |
| `c105_zera_refuted` | C105 is false for ZERA: the parts of a message are referred to from its first bytes, and a message whose envelope is not whole is refused. Of `[1, 2]` all but the last byte is there, the 1 included. For every document: `c74_zera_refused`. |
| `c108_cbor_refuted` | C108 is false for CBOR. |
| `c108_json_refuted` | C108 is false for JSON: opening any text looks at every byte of it. |
| `c108_msgpack_refuted` | C108 is false for MessagePack: to say whether an element is null, every element before it is looked at. |
| `c109_refuted` | C109 is false for four questions asked as they stand in the concept. (1) `isInt`: of the signed number 200, yes in ZERA, no in MessagePack. (2) `asInt64`: of the unsigned number 5, it raises in Flex and not in MessagePack. (3) `isArray`: of a blob, yes in JSON, no in MessagePack. (4) The order of `mapKeys`: Flex sorts. |
| `c110_refuted` | C110 is false of programs that list keys or count elements: the keys of the old and the new message differ, and so does the size of an array that has grown. |
| `c111_literal_refuted` | C111 is false in three cases. (1) NULs inside: `zmap<"a\0b", "a">(1, 2)` writes both members, and `d["a\0b"]` is the second; `d["a\0b"]` of `zmap<"a\0b">(1)` raises, although the key is listed. (2) `dyn::map({{"a\0b", 1}})` is not `zmap<"a\0b">(1)`. (3) Arrays without a NUL at the end, which `fixed_string` accepts, lose their last character: with `constexpr char ab[2] = {'a', 'b'}, ac[2] = {'a', 'c'}`, `zmap<ab, ac>(1, 2)` has the key `a` twice. |
| `c112_view_refuted` | C112 is false for `dyn::serializable(sv)` of a `std::string_view`, although `dyn::Value(sv)` copies the text: after the buffer has changed other bytes are written, and after it is gone it is read all the same. |
| `c113_complex_refuted` | C113 is false of complex numbers in the same way: each part has its bytes swapped, and the parts keep their places. Stated with the parts that `DType.parts` gives. |
| `c113_tensor_refuted` | C113 is false of tensors: `{1.0}`, written in ZERA on a machine of either order, is read without an error on a machine of the other as 3.03865e-319. |
| `c114_flex_refuted` | C114 is false with Flex on the route: `{"b": 200, "a": 5}` comes out of Flex, MessagePack and ZERA as a map that lists "a" before "b". |
| `c115_cbor_refuted` | C115 is false for CBOR: -2^64 says it is an integer and `asInt64` raises; a string that is cut says it is a string and raises; a double that is cut says it is a number and is read outside of the buffer. |
| `c115_flex_refuted` | C115 is false for Flex: three bytes say they are a string, and reading it leaves the buffer. |
| `c115_json_refuted` | C115 is false for JSON: an array of three strings says it is a blob and cannot be read as one. |
| `c115_msgpack_refuted` | C115 is false for MessagePack: a number that is cut says it is a number and raises; a string that is cut says it is a string and is read outside of the buffer. |
| `c115_zera_refuted` | C115 is false for ZERA: the message of 5 with a flag set says it is a number, and `asInt64` raises. |
| `c11_cbor_narrow_refuted` | C11 is false for CBOR: a stored 2^64 - 1 reads as -1 through `asInt8`. |
| `c11_flex_narrow_refuted` | C11 is false for Flex: 300 reads as 44 through `asInt8` or `asUInt8`. |
| `c11_json_narrow_refuted` | C11 is false for JSON: 300 reads as 44 through `asInt8` and through `asUInt8`. |
| `c11_msgpack_narrow_refuted` | C11 is false for MessagePack: a stored 2^64 - 1 reads as -1 through `asInt8`. |
| `c12_flex_order_refuted` | The converse is false: the keys lie in the buffer in the order in which they were written, so that equal values have different bytes. |
| `c12_msgpack_injective_refuted` | C12 is false for strings of 2^32 bytes and more, whose length the writer truncates: two different pairs of strings give the same bytes. |
| `c15_base64_rejects_refuted` | C15 is false: texts that are not well-formed are accepted. A lone letter, a letter after the padding, bytes outside the alphabet after the padding. |
| `c16_msgpack_reader_refuted` | C16 is false: for every string of 2^32 - 5 bytes, the array holding it is misread. |
| `c17_msgpack_round_trip_refuted` | C17 is false: an array of one string of 2^32 - 5 bytes does not read back. |
| `c18_msgpack_reader_safe_refuted` | C18 is false: on truncated input the reader leaves the buffer. A string header without its bytes, a string header without its length, an empty view, an element after a truncated one, a key of a truncated map. |
| `c20_msgpack_int_refuted` | C20 is false: a stored 2^64 - 1 reads as -1 through `asInt64`, a stored -1 reads as 2^64 - 1 through `asUInt64`. |
| `c21_cbor_hardened_refuted` | C21 is false under a hardened library: an empty string at the end of the buffer. |
| `c22_cbor_keys_refuted` | C22 is false for key iteration: over every map of indefinite length it ends with an exception, although the same map of definite length yields its keys. |
| `c22_cbor_views_refuted` | C22 is false for `asStringView` and `asBlob`: they refuse every chunked string. |
| `c23_cbor_round_trip_refuted` | C23 is false: 2^64 - 1 is written correctly and presented as -1, because `isInt` holds too. |
| `c24_cbor_reader_safe_refuted` | C24 is false. A string of length 2^64 - 9 passes the bound check because the sum wraps; a float head without its bytes and the keys of truncated maps are read without a check. |
| `c25_cbor_terminates_refuted` | C25 is false: on eleven bytes, `operator[](1)` does not return; on thirteen bytes, neither does `mapKeys`. |
| `c26_cbor_int_refuted` | C26 is false: `asInt64` of the stored number 2^64 - 1 is -1. |
| `c27_flex_nul_refuted` | C27 into Flex is false for every map with a NUL in a key: translation succeeds, and the result does not present the map, in any order of its entries. |
| `c27_json_refuted` | C27 is false for JSON: the array ["~b", "AA==", "base64"] becomes a blob in MessagePack, and comes out of MessagePack, through JSON, as a blob. |
| `c28_cbor_source_refuted` | C28 is false for CBOR sources: thirteen bytes on which translation, into any protocol, does not return. |
| `c28_flex_source_refuted` | C28 is false for Flex: on this buffer of six bytes `write_value` calls itself without end, into every writer that accepts arrays. |
| `c28_translate_terminates_refuted` | C28 is false: there is a 72-byte ZERA buffer on which the recursion of `write_value` has no bound. No depth suffices, into MessagePack (whose writer never refuses a call). |
| `c29_cbor_uint_refuted` | C29 is false for CBOR sources: 2^64 - 1, written as an unsigned integer, is translated to -1. |
| `c29_json_uint_refuted` | C29 is false for JSON sources: 2^64 - 1, written as an unsigned integer, is translated to -1. |
| `c30_repeated_keys_refuted` | C30 is false: in a map that stores two values under one key, the translation holds the first value twice. |
| `c31_json_calls_refuted` | C31 is false. An open array is written as if it were closed; the empty string is not usable as a key; a map whose only key has no value is written; in a build without debug checks a key is cut at a NUL, in one with debug checks it is refused. |
| `c32_json_round_trip_refuted` | C32 is false: 2^64 - 1 reads as -1, a three-element array reads as a blob, an empty key cannot be written; without debug checks two different keys are written as the same one. |
| `c33_json_blob_confusion_refuted` | C33 is false: the array ["~b", "AA==", "base64"] and the blob of one zero byte are written as the same bytes, and these read as a blob. |
| `c34_flex_search_refuted` | C34: lookup does not terminate on every buffer. `contains` and `operator[]` never return on this one: the position of the root is found, it is a map, and the search for "b" goes around in a circle. |
| `c35_flex_nul_refuted` | C35 cannot be had without the conditions: a key is cut at its first NUL, so that what was written reads as another value. |
| `c37_tensor_empty_refuted` | C37 fails for some empty tensors: four dimensions below 2^32, no elements, written and translated in any way, cannot be read. |
| `c37_truncated_refuted` | C37: dimensions of 2^32 and more do not come back: an empty tensor of shape [2^32, 0] is read with shape [0, 0]. |
| `c38_view_refuted` | C38 fails: a document of a few bytes is read, by both libraries, as a zero-copy view of 2^61 elements of 8 bytes without any data; reading its first element is undefined behaviour. |
| `c44_observers_refuted` | C44 does not hold of moved-from buffers: `count` is a plain number and survives the move, so an adopted buffer that was moved from announces its old size with a null pointer, and reading its `buf()` is undefined. |
| `c45_late_refuted` | C45 The other two constructors do not notice an empty deleter: it is wrapped, the construction succeeds, and the program ends when the buffer is destroyed. |
| `c45_reported_refuted` | C45 does not hold: adopting a pointer with an empty deleter ends the program — the check throws, and the half-built `unique_ptr` calls the empty deleter during unwinding. |
| `c46_hexdump_refuted` | C46 does not hold for row width 0: the loop never advances on a buffer that is not empty. |
| `c47_copied_refuted` | C47 does not hold of copies: a copy has its own bytes but keeps pointing to those of the original, and cannot be read once the original is destroyed. |
| `c51_cbor_refuted` | C51 is false for CBOR: strings are printed as they are, so that a list of one string and a list of two have the same text. |
| `c52_cbor_arrays_refuted` | C52 is false for CBOR whenever the value contains an array but is none itself: `to_string` never returns a text (it asks for the array size of the root). |
| `c52_cbor_text_refuted` | C52 is false for CBOR, with any fuel: an object holding a list raises; so does an empty object; a list of lists of one element shows what is not there; hardened libraries abort on an empty string; and a truncated string is read out of bounds. |
| `c52_flex_text_safe_refuted` | Not on every buffer: a string that lies outside of it, and a vector that contains itself. |
| `c52_msgpack_text_refuted` | C52 is false: a map whose key has 2^32 - 5 bytes is serialized, and `to_string` takes the first byte of an empty view. |
| `c52_msgpack_text_safe_refuted` | Not on every input: a truncated string. |
| `c53_msgpack_empty_refuted` | C53 is false for MessagePack: a serialization without any call is an empty buffer, and the reader of an empty buffer reports no kind at all. |
| `c54_json_kinds_refuted` | C54 is false for JSON: a blob is also an array. |
| `c55_msgpack_wrong_kind_refuted` | C55 is false of MessagePack: an empty view (a reader of no bytes, say) is of no kind, but these accessors do not raise, they read outside of it. |
| `c57_cbor_skip_refuted` | C57 is false: the two bytes of a simple value are passed as three. In the array [simple(32), 5, 7], element 1 is reported to be 7, and a simple value at the end of the buffer cannot be passed at all. |
| `c58_cbor_views_refuted` | C58 is false of CBOR: a position with such a length can be reached, and its text is no part of the input. |
| `c59_flex_int64_refuted` | C59 is false for Flex: 5, written as unsigned, cannot be read as a signed integer, nor the other way round. |
| `c59_json_int64_refuted` | C59 is false for JSON: `asInt64` wraps numbers of 2^63 and more. |
| `c60_json_borrow_refuted` | C60 is false for JSON: the same string call is followed by different bytes when the caller reuses the buffer before `finish()`. |
| `c60_json_dangling_refuted` | C60 is false for JSON in every document with a non-empty string: if the string is destroyed after the calls, `finish()` has undefined behaviour. |
| `c61_flex_calls_refuted` | C61 is false. Of two roots the second is dropped without assertions; an array that is never closed reads outside the builder's stack; a key without value is dropped; one value without a key is stored under some string that happens to stand there, two make the builder compare keys outside its buffer; a key in an array is accepted and gives an element of no kind. With assertions all but the last end the process instead of raising. |
| `c62_flex_key_view_refuted` | C62 is false: the byte behind the view is read. If the view ends its allocation, this is outside of it; if the byte is not NUL, what is stored is not the key: it goes on until a NUL byte follows in the buffer. |
| `c63_flex_constructor_refuted` | C63 is false: constructing a reader from any one-byte buffer reads outside the buffer, and so does looking at the root of a buffer whose last byte is larger than the rest of it. Of buffers that are opened, the accessors follow offsets out of the bytes. |
| `c64_flex_typed_vector_refuted` | C64 is false: a typed vector (as other flexbuffers writers produce; of integers, unsigned integers, doubles, keys and strings, 11 to 15, fixed-size ones, 16 to 24, and of bools, 36) is an array, but of size 0: its elements cannot be reached, in any buffer. |
| `c64_flex_typed_written_refuted` | C64 is false, on documents: whatever (and however many) signed integers a flexbuffers builder has put into a typed vector, the reader shows an array without elements. |
| `c65_builder_lifetime_refuted` | C65 is false: `auto b = zvec(1, std::string("x")); serialize<P>(b)` reads a destroyed object, on every writer that accepts the start of an array. |
| `c66_other_type_refuted` | C66 fails: types without a specialisation (`bool`, `char`, `long long`, ...) all have the code -1, so that a tensor of one is read as a tensor of another, in every protocol, with other elements if the sizes differ: one element of 8 bytes is not told apart from one element of another type of 8 bytes. |
| `c67_flex_refuted` | C67 fails for Flex in the same way. |
| `c67_json_refuted` | C67 fails for JSON: its narrow accessors reduce modulo 2^8 and 2^32, so that 2^32 + code is accepted. |
| `c68_asking_refuted` | C68 fails: ZERA raises DeserializationError on [300, [], blob] instead of answering. |
| `c69_elements_refuted` | C69 fails: a column-major matrix, the default of Eigen, is read transposed by xtensor, and a view that does not start at `data()` is written from there on. |
| `c70_json_moved_refuted` | C70: a reader left behind by a move prints as null does. |
| `c70_json_values_refuted` | C70 without that condition is false: a blob and the array of three strings that stands for it print the same. |
| `c70_zera_refuted` | C70 is false for ZERA: `to_string` is a summary. |
| `c71_zera_refuted` | C71 is false for ZERA: (1) after the refused `end_map` of `early` the value is refused too and the document cannot be finished, although without the refused call the same calls make a document; (2) the refused `end_array` of `keyless` removes the array, whose `begin_array` and element were accepted: the accepted calls do not spell a document, and yet one is made, without the array. |
| `c72_cbor_refuted` | C72 is false for CBOR: a second `finish()` returns an empty buffer, on which every accessor raises. |
| `c72_flex_refuted` | C72 is false for Flex: whatever was written, a second `finish()` returns an empty buffer, which reads as null. |
| `c72_msgpack_refuted` | C72 is false for MessagePack: a second `finish()` returns an empty buffer, which has no kind at all (and asking its type in another way is undefined, C18). |
| `c73_json_copy_refuted` | C73 is false for JSON: a copied (or moved) root serializer shares the document; finishing both frees it twice. |
| `c73_json_leak_refuted` | C73 is false for JSON: what happens when writing raises. The object is gone and the document is not freed. |
| `c73_json_move_refuted` | Moving is copying: the temporary that was moved from may well be destroyed, but a writer call on it after the other has finished uses a freed document. |
| `c73_msgpack_copy_refuted` | C73 is false for MessagePack: the destructors of an object and its copy free the same memory. |
| `c73_msgpack_move_refuted` | C73 is false for MessagePack: even a copy of an empty object writes into the original, which may be gone (returning a root serializer from a function by move). |
| `c74_flex_refuted` | C74 is false of Flex: whatever value is serialized, the bytes are readable as null when all of them are lost; and every value that can be serialized is what a proper prefix of the serialization of another value presents. |
| `c74_json_refuted` | C74 is false of JSON: a prefix of the text of a number is a number. |
| `c74_msgpack_refuted` | C74 is false for MessagePack when a key is repeated: the last value is shadowed, and its loss is not noticed. |
| `c74_zera_refuted` | C74 is false for ZERA when a key is repeated. |
| `c75_flex_refuted` | C75 is false of Flex, for every input: bytes can be put behind any buffer so that it presents any value that can be serialized. Of several messages in a row the last one is read. |
| `c75_json_refuted` | C75 is false of JSON: two texts in a row are refused, and digits after a number make another number. |
| `c76_cbor_refuted` | C76 is false for CBOR. (1) In the well-formed map `{"a": simple(32), "b": null}`, followed by two bytes, `mapKeys` lists `b` and `contains` denies it. (2) A length that wraps: `mapKeys` lists nothing and `contains` has `a`. (3) An element that is counted but not there. |
| `c76_flex_refuted` | A map that is not in the order of its keys: a key that is listed is denied. A map with a key that `contains` has, whose value is not in the buffer. An array whose elements are not in the buffer. |
| `c76_msgpack_refuted` | A key that is listed and found, and an element that is counted, cannot be looked up. |
| `c76_zera_refuted` | A key that is found and cannot be looked up. |
| `c77_calls_refuted` | C77 is false for every reader: at a position that presents `d` nested maps, written with `5 * d + 1` calls, the translation makes `2 ^ d` or more. |
| `c77_cbor_refuted` | A serialization of `6 * d + 1` bytes takes `2 ^ d` calls or more to translate. |
| `c77_flex_refuted` | A buffer of `5 * d + 8` bytes takes `2 ^ d` calls or more to translate, without any repeated key: elements are stored as offsets, and two of them may lead to the same place. |
| `c77_json_refuted` | A document with `2 * d + 1` nodes takes `2 ^ d` calls or more to translate. |
| `c77_msgpack_refuted` | A serialization of `6 * d + 1` bytes takes `2 ^ d` calls or more to translate. |
| `c77_zera_refuted` | A serialization of `46 * d + 51` bytes at most takes `2 ^ d` calls or more to translate. |
| `c77_zera_shared_refuted` | No repeated key is needed: a buffer that is not a serialization, of `36 * d + 51` bytes at most, presents nested arrays that share their elements. |
| `c78_cbor_refuted` | Part of C78 is false for CBOR: a map whose translation is an empty map contains a key. |
| `c78_json_refuted` | C78 is false for JSON: a number above `INT64_MAX` is both an `isInt` and an `isUInt`, of different values, and is translated to the negative one. |
| `c79_cbor_refuted` | C79 is false of the CBOR `skip`: whatever room there is, a message of one more byte takes more; arrays in arrays, or tags on tags, where the value is a null all the while. |
| `c79_msgpack_refuted` | C79 is false of `mp_skip`: whatever room there is, a message of one more byte, which is valid and which `mp_skip` accepts given more room, takes more. |
| `c79_translate_refuted` | C79 is false of translations: whatever room there is, translating a message of one more byte to MessagePack takes more. |
| `c80_msgpack_kind_refuted` | C80 does not extend to the kind: MessagePack presents a signed 200 as unsigned only. |
| `c82_json_flex_refuted` | C82 is false into Flex: a `uint64_t` 5 written to JSON and translated raises in `asUInt64`. |
| `c82_msgpack_flex_refuted` | C82 is false into Flex: an `int32_t` 200 written to MessagePack and translated raises in `asInt32`. |
| `c83_cbor_refuted` | C83 is false of CBOR: no limit below `2^63 - 12` is enough for a message of nine bytes, which would be refused otherwise; another one raises `std::length_error` whatever the limit is. |
| `c83_msgpack_refuted` | C83 is false of MessagePack: five bytes that are no message, and are refused as such if there is memory enough, make the translation reserve nearly 64 GiB, and reading them as a tensor shape nearly 16 GiB. |
| `c84_cbor_refuted` | C84 is false: eighteen bytes take `2 ^ 64` steps. |
| `c84_msgpack_refuted` | C84 is false with a factor of one or of any size below `2 ^ 32 / 11`: ten bytes take `2 ^ 32` calls. |
| `c85_cbor_refuted` | C85 is false: an array of `n` nulls, of `n + 9` bytes, takes `n * (n - 1) / 2` steps to translate. |
| `c85_msgpack_refuted` | C85 is false: an array of `n` nulls, of `n + 5` bytes, takes `n * (n + 1) / 2` calls to translate, because every element is looked up from the start. |
| `c85_zera_map_refuted` | Every translation of a map with `m` different keys takes `m * (m + 1) / 2` steps or more to find them, whatever is done with them: they are looked up one by one from the start. |
| `c85_zera_refuted` | C85 is false for ZERA: a serialization of `24 * n + 55` bytes at most, of a map of `n` keys without repetition, takes `n * (n + 1) / 2` steps or more to translate. |
| `c86_json_reader_refuted` | C86 is false: an array of three strings is presented as a blob, 2^63 as a negative number. |
| `c88_cbor_to_flex_refuted` | C88, CBOR to Flex, any value with any definite-length encoding, in a buffer that ends with it: the byte behind the buffer is read exactly if the value ends in a string (`Val.endsInStr`); otherwise the value is translated. |
| `c88_msgpack_to_flex_refuted` | C88, MessagePack to Flex, any value with any encoding, `t` behind it in its allocation: a byte outside the allocation is read exactly if the value ends in a string and nothing follows; otherwise the value is translated. |
| `c88_zera_to_flex_refuted` | C88, ZERA to Flex, any value that serializes, with any inline threshold: a byte outside the message is read exactly if its arena ends with a string (`strEnd`); otherwise the value is translated. |
| `c89_flex_refuted` | C89 is false for Flex: keys that were not in order are put in order. |
| `c89_repeated_refuted` | C89 is false for repeated keys: the second value under a key becomes the first. |
| `c89_signs_refuted` | C89 is false by way of formats that do not show the signedness: the number 200, written as signed into ZERA, comes back from MessagePack as unsigned, and the bytes differ. The number 5, written as unsigned, comes back from CBOR as signed. |
| `c90_cbor_refuted` | C90 is false for CBOR: 1.5 takes five bytes, three suffice. Every array of 256 elements or more has a shorter encoding, of indefinite length. |
| `c90_flex_refuted` | C90 is false for Flex: offsets may share what they lead to, the writer stores every string again. `["abc", "abc"]` takes 18 bytes; 13 suffice. |
| `c90_msgpack_refuted` | C90 is false for MessagePack: 1.5 takes nine bytes, five suffice; a message of five bytes grows when it is translated. |
| `c90_zera_refuted` | C90 is false for ZERA: references may share what they point to, the writer stores it again each time. Three empty arrays in an array take 112 bytes; 96 suffice. |
| `c91_zera_size_refuted` | C91: "v1 messages are < 4 GiB" (ZERA.md) is false: lengths and offsets are bounded separately, so a blob of 2^32 - 1 bytes is written. |
| `c92_cbor_length_refuted` | C92 needs the condition on lengths: this message is presented as the map of one entry, though it announces two and the second is not there. |
| `c92_cbor_reserved_refuted` | C92 is false for CBOR as it stands: the byte 0x1f is read as the integer 0, and is not an encoding of anything. |
| `c93_flex_key_refuted` | C93 is false for keys as values, which the format has: no value is presented. |
| `c93_flex_typed_refuted` | C93 is false for typed vectors: every slot of such a type, whatever it leads to, is presented as the empty array. |
| `c93_flex_view_refuted` | C93 is false for strings given as views, as translation gives them: of "ab" in memory that "c" follows, the document ends with "c" in place of NUL. |
| `c94_flex_dump_blob_refuted` | C94 is false for contents of blobs: two blobs of the same size print the same, though their readers tell them apart. |
| `c94_flex_dump_empty_refuted` | C94 is false without bytes: the reader presents null, the dump reads in front of the buffer. |
| `c94_flex_dump_refuted` | C94 is false for indirect numbers, which the reader reads: of the document `[7, 7]` nothing but unknowns is printed. |
| `c94_flex_dump_typed_refuted` | C94 is false for typed vectors: the dump of the vector of integers `[1, 2]` shows no elements, that of the pair of integers (a type of fixed size) not even a vector. |
| `c96_cbor_kept_refuted` | C96 is false of CBOR: the map `{"a": 1}` whose key is written in one chunk lists its key, but a kept view of the key dangles. |
| `c96_flex_two_calls_refuted` | C96 is false of Flex for every map there is, even the empty one: from the `begin()` of one call of `mapKeys` to the `end()` of another, the iterators never arrive. |
| `c96_zera_temporary_refuted` | `{"m": {"k": null}}`: the keys of `doc["m"]` are listed when the reader has a name, and listing them is undefined when it has none. |
| `c97_flex_grows_refuted` | C97 fails from Flex to the other formats: messages of Flex can become larger by any factor when they are translated, since equal keys are written once in Flex and every time in the others. |
| `c98_cbor_refuted` | C98 is false of CBOR: a text that is not UTF-8 raises something that is not a `SerializationError`. |
| `c98_flex_refuted` | C98 is false of Flex: closing what is not open raises what is not even a `std::runtime_error`. |
| `c98_json_refuted` | C98 is false of JSON: an empty key raises what is not even a `std::runtime_error`. |
| `c98_translate_json_refuted` | A MessagePack document with an empty key, translated into JSON, raises what `catch (const std::runtime_error&)` lets pass. |
| `c98_translate_refuted` | A translation that meets the byte MessagePack never uses raises `std::runtime_error` and nothing more precise, whatever it translates into. |
| `c99_zera_refuted` | C99 is false of ZERA as the common format, and of Flex: the number 5 in one byte of MessagePack is translated as signed, in two bytes as unsigned. |

Seen while reading, outside the model (compile time, or external code):

* Two-phase lookup: `serialize` overloads for containers are found only for arguments declared earlier, so that
  `std::list<std::vector<T>>` and `std::vector<std::map<K, V>>` compile only for MessagePack, whose writer is in
  namespace `zerialize` and is found by its arguments (serializers.hpp).
* The branch for tensors stored as maps (`TensorIsMap`, tensor/utils.hpp) does not compile when enabled.
* `fixed_string::c_str` calls `.data()` on an array and does not compile when used (internals/fixed_string.hpp).
* With yyjson 0.14 or later, json.hpp:370 passes a node where `yyjson_mut_obj_add_str` expects a `const char *`.
* `JsonSerializer::string` of a `string_view` with a null pointer raises `bad_alloc`, because yyjson returns NULL.

## Axioms

`lean/Verif/Audit.lean` prints the axioms of every theorem named in MANIFEST.json. Last build:

* `Quot.sound`: 1 theorems
* `propext`: 81 theorems
* `propext, Classical.choice, Quot.sound`: 499 theorems
* `propext, Quot.sound`: 159 theorems
* none: 1 theorems
