{"id": "C01", "title": "ZERA round trip", "statement": "If serializing a dynamic value with the ZERA protocol returns a buffer, then a ZERA reader opened on that buffer presents exactly that value: same kind at every node, same integers (signedness kept), same float bits, same string and blob bytes, same array length and element order, same map keys in the same order, contains() true for exactly the present keys, and operator[] returning the value stored first under a key.", "quantifier": "every value tree of any depth and width, every string/blob/key content, every inline-string threshold 0..12", "why_tests_cant": "Tests write a handful of literals; offsets, inline/arena string cutoffs and nested payload order depend on the whole value.", "anchors": ["include/zerialize/protocols/zera.hpp: RootSerializer::finish", "include/zerialize/protocols/zera.hpp: Serializer", "include/zerialize/protocols/zera.hpp: ZeraViewBase", "include/zerialize/protocols/zera.hpp: ZeraViewBase::operator[]"]}
{"id": "C02", "title": "ZERA serialization succeeds within the format limits", "statement": "Serializing a value with ZERA succeeds whenever every map key is at most 65535 bytes and the whole serialization fits 32-bit offsets; a longer key is always reported as SerializationError.", "quantifier": "every value tree whose encoded size bound is below 2^32, every key length", "why_tests_cant": "Limits of 64 KiB keys and 4 GiB buffers are not reachable by sampling.", "anchors": ["include/zerialize/protocols/zera.hpp: Serializer::key", "include/zerialize/protocols/zera.hpp: RootSerializer::arena_alloc", "include/zerialize/protocols/zera.hpp: RootSerializer::finish"]}
{"id": "C03", "title": "ZERA writer accepts exactly the well-bracketed call sequences", "statement": "For any sequence of writer calls followed by finish(), either the calls spell exactly one complete value (or nothing at all) and the buffer reads back as that value (or null), or a SerializationError is raised. No sequence of calls yields a buffer for a malformed document, and none causes undefined behaviour.", "quantifier": "every finite sequence of writer calls, including misuse (values without keys, dangling keys, mismatched ends, several roots)", "why_tests_cant": "The number of call interleavings is infinite; tests cover a few misuse sequences.", "anchors": ["include/zerialize/protocols/zera.hpp: Serializer::begin_array", "include/zerialize/protocols/zera.hpp: Serializer::end_map", "include/zerialize/protocols/zera.hpp: RootSerializer::deliver_vr", "include/zerialize/protocols/zera.hpp: RootSerializer::write_root_vr"]}
{"id": "C04", "title": "ZERA reader never reads outside the buffer", "statement": "Opening any byte string with the ZERA reader and applying any chain of accessors other than key iteration either returns a value or raises DeserializationError; it never reads memory outside the supplied buffer.", "quantifier": "every byte string, every chain of operator[] calls, every accessor", "why_tests_cant": "Only exhaustive reasoning covers all corrupt offsets, lengths and counts; fuzzing samples.", "anchors": ["include/zerialize/protocols/zera.hpp: ZeraViewBase", "include/zerialize/protocols/zera.hpp: ZeraDeserializer::init_from", "include/zerialize/protocols/zera.hpp: env_ptr_at", "include/zerialize/protocols/zera.hpp: arena_bytes_view"]}
{"id": "C05", "title": "ZERA key iteration never reads outside the buffer", "statement": "Iterating mapKeys() over any buffer accepted by the ZERA reader never reads memory outside the supplied buffer.", "quantifier": "every byte string, every reachable object view", "why_tests_cant": "Needs every corrupt entry count and every envelope length.", "anchors": ["include/zerialize/protocols/zera.hpp: ZeraViewBase::KeysView::iterator::operator*", "include/zerialize/protocols/zera.hpp: ZeraViewBase::KeysView::iterator::operator++"]}
{"id": "C06", "title": "ZERA strings and blobs are views into the input", "statement": "Whenever the ZERA reader returns a string view or blob, the returned bytes are a contiguous range of the input buffer, and it lies inside the envelope or the arena that the header declares.", "quantifier": "every byte string and every reachable view", "why_tests_cant": "Must hold for every corrupt offset/length pair.", "anchors": ["include/zerialize/protocols/zera.hpp: asStringView", "include/zerialize/protocols/zera.hpp: asBlob", "include/zerialize/protocols/zera.hpp: inline_bytes_view", "include/zerialize/protocols/zera.hpp: arena_bytes_view"]}
{"id": "C07", "title": "ZERA element access is bounded by the stored array", "statement": "If operator[](i) succeeds on a ZERA array, the element returned is the i-th 16-byte reference of the stored payload and that reference lies wholly inside the envelope.", "quantifier": "every byte string, every index", "why_tests_cant": "A wrong answer needs a corrupt count above 2^28, which tests never build.", "anchors": ["include/zerialize/protocols/zera.hpp: ZeraViewBase::operator[](std::size_t)", "include/zerialize/protocols/zera.hpp: arraySize"]}
{"id": "C08", "title": "ZERA layout invariants", "statement": "Every buffer ZERA serialization returns has the documented header, an arena offset that is a multiple of 16 and directly follows the zero-padded envelope, and total length = arena offset + arena size.", "quantifier": "every accepted sequence of writer calls", "why_tests_cant": "Padding and alignment depend on the total length of everything written before.", "anchors": ["include/zerialize/protocols/zera.hpp: RootSerializer::finish", "include/zerialize/protocols/zera.hpp: parse_header", "include/zerialize/protocols/zera.hpp: align_up"]}
{"id": "C09", "title": "ZERA blobs are 16-byte aligned", "statement": "Every blob read back from a ZERA serialization starts at a buffer offset that is a multiple of 16, so typed zero-copy views are possible when the buffer itself is 16-aligned.", "quantifier": "every value tree and every blob inside it", "why_tests_cant": "Alignment depends on all strings and blobs written earlier.", "anchors": ["include/zerialize/protocols/zera.hpp: RootSerializer::arena_alloc", "include/zerialize/protocols/zera.hpp: Serializer::binary", "include/zerialize/protocols/zera.hpp: asBlob"]}
{"id": "C10", "title": "ZERA integer accessors are exact or throw", "statement": "asInt64/asUInt64 on a ZERA integer return the stored number if it is representable in the requested type and raise DeserializationError otherwise; they never wrap.", "quantifier": "every 64-bit pattern under either integer tag", "why_tests_cant": "2^65 cases.", "anchors": ["include/zerialize/protocols/zera.hpp: asInt64", "include/zerialize/protocols/zera.hpp: asUInt64"]}
{"id": "C11", "title": "Narrow integer accessors never truncate", "statement": "asInt8/16/32 and asUInt8/16/32 return the number only if it fits the requested width and raise DeserializationError otherwise.", "quantifier": "every stored number, every width, every protocol reader", "why_tests_cant": "Each reader has its own conversion; all 64-bit inputs must be covered.", "anchors": ["include/zerialize/protocols/zera.hpp: asInt8", "include/zerialize/protocols/zera.hpp: asUInt32", "include/zerialize/protocols/msgpack.hpp: asInt8", "include/zerialize/protocols/msgpack.hpp: asUInt32", "include/zerialize/protocols/cbor.hpp: asInt8", "include/zerialize/protocols/cbor.hpp: asUInt32", "include/zerialize/protocols/json.hpp: asInt8", "include/zerialize/protocols/flex.hpp: asInt8"]}
{"id": "C12", "title": "Different values never serialize to the same bytes", "statement": "Two value trees that serialize to the same ZERA (or MessagePack) buffer are the same value (up to the signed/unsigned kind of an integer for MessagePack).", "quantifier": "every pair of value trees", "why_tests_cant": "Quantifies over all pairs.", "anchors": ["include/zerialize/protocols/zera.hpp: RootSerializer::finish", "include/zerialize/protocols/msgpack.hpp: serializer"]}
{"id": "C13", "title": "Base64 round trip", "statement": "Decoding the base64 encoding of any byte string returns that byte string.", "quantifier": "every byte string of any length", "why_tests_cant": "All lengths and contents, including every remainder modulo 3.", "anchors": ["include/zerialize/internals/base64.hpp: base64Encode", "include/zerialize/internals/base64.hpp: base64Decode"]}
{"id": "C14", "title": "Base64 encoding shape", "statement": "The base64 encoding of n bytes has length 4*ceil(n/3), uses only the RFC 4648 alphabet with '=' only in the last positions, and equals the RFC 4648 encoding.", "quantifier": "every byte string", "why_tests_cant": "Needs all lengths and contents.", "anchors": ["include/zerialize/internals/base64.hpp: base64Encode"]}
{"id": "C15", "title": "Base64 decoding rejects malformed text", "statement": "Base64 decoding raises DeserializationError for every text that is not valid base64 (character outside the alphabet, bad padding, bad length).", "quantifier": "every byte string given as text", "why_tests_cant": "Infinitely many malformed texts.", "anchors": ["include/zerialize/internals/base64.hpp: base64Decode"]}
{"id": "C16", "title": "MessagePack reader agrees with every valid encoding", "statement": "For every valid MessagePack encoding of a value, minimal or not, the reader presents that value: kind, numbers, string/blob bytes, array length and elements, map keys, contains() and operator[].", "quantifier": "every value tree and every valid encoding of it", "why_tests_cant": "Every node can use several encodings; skip offsets compose over the whole document.", "anchors": ["include/zerialize/protocols/msgpack.hpp: mp_skip", "include/zerialize/protocols/msgpack.hpp: str_info", "include/zerialize/protocols/msgpack.hpp: arr_info", "include/zerialize/protocols/msgpack.hpp: map_info", "include/zerialize/protocols/msgpack.hpp: operator[]"]}
{"id": "C17", "title": "MessagePack round trip", "statement": "A value written through the MessagePack writer reads back as the same value (integers compared as numbers).", "quantifier": "every value tree with lengths below 2^32", "why_tests_cant": "Width selection thresholds and nesting interact.", "anchors": ["include/zerialize/protocols/msgpack.hpp: MsgPackRootSerializer", "include/zerialize/protocols/msgpack.hpp: MsgPackSerializer", "include/zerialize/protocols/msgpack.hpp: MsgPackViewBase"]}
{"id": "C18", "title": "MessagePack reader never reads outside the buffer", "statement": "Applying any accessor to any byte string either returns a value or raises an exception; it never reads outside the supplied bytes.", "quantifier": "every byte string, every accessor", "why_tests_cant": "All truncated and corrupt inputs.", "anchors": ["include/zerialize/protocols/msgpack.hpp: mp_skip", "include/zerialize/protocols/msgpack.hpp: str_info", "include/zerialize/protocols/msgpack.hpp: bin_info", "include/zerialize/protocols/msgpack.hpp: asStringView", "include/zerialize/protocols/msgpack.hpp: asBlob"]}
{"id": "C19", "title": "MessagePack skipping terminates", "statement": "Locating an element or key in any byte string terminates.", "quantifier": "every byte string", "why_tests_cant": "Nested counts up to 2^32 in every position.", "anchors": ["include/zerialize/protocols/msgpack.hpp: mp_skip"]}
{"id": "C20", "title": "MessagePack integer accessors are exact or throw", "statement": "asInt64/asUInt64 return the stored number when representable and raise DeserializationError otherwise.", "quantifier": "every integer encoding", "why_tests_cant": "All 64-bit payloads under all integer tags.", "anchors": ["include/zerialize/protocols/msgpack.hpp: asInt64", "include/zerialize/protocols/msgpack.hpp: asUInt64"]}
{"id": "C21", "title": "CBOR reader agrees with every valid encoding", "statement": "For every valid CBOR encoding (definite lengths, any head width) of a value built from null, bool, integers below 2^63, floats, text, bytes, arrays and text-keyed maps, the reader presents that value.", "quantifier": "every value tree and every valid definite-length encoding", "why_tests_cant": "Any head width at every node.", "anchors": ["include/zerialize/protocols/cbor.hpp: read_head", "include/zerialize/protocols/cbor.hpp: skip", "include/zerialize/protocols/cbor.hpp: CborViewBase"]}
{"id": "C22", "title": "CBOR indefinite-length values", "statement": "Indefinite-length strings, arrays and maps read the same as their definite-length equivalents, including key iteration.", "quantifier": "every chunking of every value", "why_tests_cant": "All chunkings and nesting.", "anchors": ["include/zerialize/protocols/cbor.hpp: skip", "include/zerialize/protocols/cbor.hpp: asString", "include/zerialize/protocols/cbor.hpp: arraySize", "include/zerialize/protocols/cbor.hpp: KeysView"]}
{"id": "C23", "title": "CBOR round trip", "statement": "A value written through the CBOR writer reads back as the same value (integers compared as numbers, floats bit for bit unless NaN).", "quantifier": "every value tree whose text is acceptable to the encoder", "why_tests_cant": "The writer shrinks floats and integer heads depending on the value.", "anchors": ["include/zerialize/protocols/cbor.hpp: RootSerializer", "include/zerialize/protocols/cbor.hpp: Serializer", "include/zerialize/protocols/cbor.hpp: CborViewBase"]}
{"id": "C24", "title": "CBOR reader never reads outside the buffer", "statement": "Applying any accessor to any byte string either returns a value or raises an exception; it never reads outside the supplied bytes.", "quantifier": "every byte string, every accessor", "why_tests_cant": "Length fields up to 2^64-1 and truncations at every position.", "anchors": ["include/zerialize/protocols/cbor.hpp: read_head", "include/zerialize/protocols/cbor.hpp: skip", "include/zerialize/protocols/cbor.hpp: asDouble", "include/zerialize/protocols/cbor.hpp: asStringView", "include/zerialize/protocols/cbor.hpp: contains", "include/zerialize/protocols/cbor.hpp: KeysView"]}
{"id": "C25", "title": "CBOR skipping terminates", "statement": "Locating an element, key or the end of any byte string terminates.", "quantifier": "every byte string", "why_tests_cant": "Needs 64-bit wrap-around lengths.", "anchors": ["include/zerialize/protocols/cbor.hpp: skip"]}
{"id": "C26", "title": "CBOR integer accessors are exact or throw", "statement": "asInt64/asUInt64 return the stored number when representable and raise otherwise.", "quantifier": "every integer head", "why_tests_cant": "All 64-bit heads.", "anchors": ["include/zerialize/protocols/cbor.hpp: asInt64", "include/zerialize/protocols/cbor.hpp: asUInt64"]}
{"id": "C27", "title": "Translation preserves the value", "statement": "Translating a buffer from one protocol to another yields a buffer that reads as the same value, for every value with distinct map keys.", "quantifier": "every ordered pair of protocols and every value tree representable in both", "why_tests_cant": "25 pairs times all values.", "anchors": ["include/zerialize/translate.hpp: write_value", "include/zerialize/translate.hpp: translate"]}
{"id": "C28", "title": "Translation terminates", "statement": "translate() terminates on every input buffer.", "quantifier": "every byte string, every source protocol", "why_tests_cant": "Self-referential buffers are never sampled.", "anchors": ["include/zerialize/translate.hpp: write_value", "include/zerialize/protocols/zera.hpp: operator[]"]}
{"id": "C29", "title": "Translation of unsigned integers", "statement": "An unsigned integer, however large, translates to the same number.", "quantifier": "every uint64 and every source protocol", "why_tests_cant": "Values at and above 2^63.", "anchors": ["include/zerialize/translate.hpp: write_value", "include/zerialize/protocols/cbor.hpp: isInt", "include/zerialize/protocols/cbor.hpp: asInt64", "include/zerialize/protocols/json.hpp: isInt"]}
{"id": "C30", "title": "Translation with repeated keys", "statement": "Translating a map with repeated keys keeps every entry with its own value.", "quantifier": "every map", "why_tests_cant": "Infinitely many maps; repeated keys are rarely tested.", "anchors": ["include/zerialize/translate.hpp: write_value"]}
{"id": "C31", "title": "JSON writer builds the document it was told to", "statement": "For any sequence of writer calls, finish() yields the JSON document spelled by the calls or raises an exception; in particular every string is usable as a key and unterminated documents are rejected.", "quantifier": "every sequence of writer calls", "why_tests_cant": "All call interleavings and key contents.", "anchors": ["include/zerialize/protocols/json.hpp: Serializer::key", "include/zerialize/protocols/json.hpp: Serializer::push_value", "include/zerialize/protocols/json.hpp: RootSerializer::finish"]}
{"id": "C32", "title": "JSON round trip", "statement": "A value written through the JSON writer and read back through the JSON reader presents the same value (integers as numbers), for finite floats.", "quantifier": "every value tree with finite floats and valid UTF-8 text", "why_tests_cant": "Blob encoding shares the array syntax with user data, so correctness depends on the whole value.", "anchors": ["include/zerialize/protocols/json.hpp: isBlob", "include/zerialize/protocols/json.hpp: asBlob", "include/zerialize/protocols/json.hpp: Serializer::binary"]}
{"id": "C33", "title": "JSON never confuses user arrays with blobs", "statement": "A user array of three strings reads back as an array of strings and never as a blob.", "quantifier": "every array of strings", "why_tests_cant": "Only the one magic shape fails.", "anchors": ["include/zerialize/protocols/json.hpp: isBlob", "include/zerialize/protocols/json.hpp: asBlob"]}
{"id": "C34", "title": "Flex key lookup finds exactly the stored keys", "statement": "On a map whose keys are sorted, contains(k) is true and operator[](k) returns the value stored under k if and only if k was stored; otherwise operator[] raises DeserializationError. Lookup terminates.", "quantifier": "every sorted key list of any length, every probe", "why_tests_cant": "Binary search must be right for all lengths and probes.", "anchors": ["include/zerialize/protocols/flex.hpp: contains", "include/zerialize/protocols/flex.hpp: operator[](const std::string_view)"]}
{"id": "C35", "title": "Flex round trip", "statement": "A value with distinct NUL-free keys written through the Flex writer reads back as the same value with map keys in sorted order.", "quantifier": "every value tree", "why_tests_cant": "Key sorting at every level.", "anchors": ["include/zerialize/protocols/flex.hpp: Serializer", "include/zerialize/protocols/flex.hpp: FlexViewBase"]}
{"id": "C36", "title": "Dynamic values, builders and containers emit the same writer calls", "statement": "A value described as a dyn value, with zvec/zmap, or as nested standard containers drives the writer with the same call sequence, hence yields the same bytes in every protocol; begin_array/begin_map announce exactly the number of children that follow.", "quantifier": "every value tree, every way of mixing the three styles", "why_tests_cant": "Nesting is unbounded.", "anchors": ["include/zerialize/dynamic.hpp: serialize", "include/zerialize/dynamic.hpp: WriterView", "include/zerialize/zbuilders.hpp: zvec", "include/zerialize/zbuilders.hpp: zmap", "include/zerialize/internals/serializers.hpp: serialize"]}
{"id": "C37", "title": "Tensor round trip", "statement": "A tensor serialized as [dtype, shape, bytes] and read back yields the same element type, shape and bytes, through every protocol and after translation.", "quantifier": "every dtype, every shape with dimensions below 2^32, every content", "why_tests_cant": "All shapes and contents and protocols.", "anchors": ["include/zerialize/tensor/xtensor.hpp: serialize", "include/zerialize/tensor/xtensor.hpp: asXTensorView", "include/zerialize/tensor/eigen.hpp: serialize", "include/zerialize/tensor/eigen.hpp: asEigenMatrixView"]}
{"id": "C38", "title": "Tensor views never exceed their data", "statement": "If a tensor view is returned, the number of bytes of its backing data equals the product of its dimensions times the element size.", "quantifier": "every input document, every dtype, every shape", "why_tests_cant": "Overflow needs dimensions whose product exceeds 2^61.", "anchors": ["include/zerialize/tensor/xtensor.hpp: asXTensorView", "include/zerialize/tensor/xtensor.hpp: checked_element_count", "include/zerialize/tensor/eigen.hpp: asEigenMatrixView"]}
{"id": "C39", "title": "Zero-copy is used only for aligned spans", "statement": "A tensor view reports zero-copy and aliases the input exactly when the protocol returned a span whose address is aligned for the element type; otherwise it owns an aligned copy with the same bytes.", "quantifier": "every address, alignment and content", "why_tests_cant": "Depends on runtime addresses.", "anchors": ["include/zerialize/tensor/xtensor.hpp: asXTensorView", "include/zerialize/tensor/eigen.hpp: asEigenMatrixView"]}
{"id": "C40", "title": "Tensor shape decoding", "statement": "tensor_shape returns the dimensions exactly if the node is an array of integers in 0..2^32-1, and raises DeserializationError otherwise.", "quantifier": "every array of values", "why_tests_cant": "All element values.", "anchors": ["include/zerialize/tensor/utils.hpp: tensor_shape"]}
{"id": "C41", "title": "Element counting", "statement": "The element count of a shape is the mathematical product of its dimensions or an error; it never wraps.", "quantifier": "every list of 32-bit dimensions", "why_tests_cant": "Products near 2^64.", "anchors": ["include/zerialize/tensor/xtensor.hpp: checked_element_count"]}
{"id": "C42", "title": "Tensor dtype codes are unambiguous", "statement": "Different supported element types have different codes, and every code has a printable name.", "quantifier": "all dtype codes", "why_tests_cant": "Finite, but it is the lookup used for arbitrary integer codes.", "anchors": ["include/zerialize/tensor/utils.hpp: tensor_dtype_index", "include/zerialize/tensor/utils.hpp: type_name_from_code"]}
{"id": "C43", "title": "Buffers release their memory exactly once", "statement": "However a ZBuffer is moved, move-assigned and destroyed, each adopted allocation is released exactly once, and never while a live ZBuffer still owns it.", "quantifier": "every history of construct/move/assign/destroy over any number of ZBuffers", "why_tests_cant": "Histories are unbounded.", "anchors": ["include/zerialize/zbuffer.hpp: ZBuffer", "include/zerialize/zbuffer.hpp: ManagedPtr"]}
{"id": "C44", "title": "ZBuffer observers are consistent", "statement": "data(), size() and buf() of any ZBuffer describe readable memory: if size() > 0 then data() points to size() readable bytes.", "quantifier": "every history, including moved-from objects", "why_tests_cant": "Moved-from states after arbitrary histories.", "anchors": ["include/zerialize/zbuffer.hpp: size", "include/zerialize/zbuffer.hpp: data", "include/zerialize/zbuffer.hpp: buf"]}
{"id": "C45", "title": "ZBuffer adoption errors are reported", "statement": "Adopting a pointer with no deleter raises std::invalid_argument (and does not terminate the program).", "quantifier": "every pointer/size/deleter combination and every constructor", "why_tests_cant": "Exception path through a member destructor.", "anchors": ["include/zerialize/zbuffer.hpp: ZBuffer::ZBuffer"]}
{"id": "C46", "title": "hexdump terminates and shows every byte", "statement": "to_debug_string/hexdump terminates for every buffer and row width and shows each byte exactly once in order.", "quantifier": "every buffer and every row width", "why_tests_cant": "Includes width 0.", "anchors": ["include/zerialize/zbuffer.hpp: hexdump"]}
{"id": "C47", "title": "Owning readers survive moves and copies", "statement": "A reader that owns its bytes can be moved or copied, and the moved-to or copied reader stays usable after the source is destroyed.", "quantifier": "every history of construct/copy/move/destroy", "why_tests_cant": "Lifetime histories are unbounded.", "anchors": ["include/zerialize/protocols/msgpack.hpp: MsgPackDeserializer", "include/zerialize/protocols/zera.hpp: ZeraDeserializer", "include/zerialize/protocols/cbor.hpp: CborDeserializer"]}
{"id": "C48", "title": "JSON documents are freed exactly once", "statement": "For every history of constructing, moving and destroying JSON readers each parsed document is freed exactly once and no live owning reader refers to a freed document.", "quantifier": "every history", "why_tests_cant": "Unbounded histories.", "anchors": ["include/zerialize/protocols/json.hpp: JsonDeserializer"]}
{"id": "C49", "title": "Half-precision floats decode exactly", "statement": "Every IEEE 754 half-precision value in CBOR decodes to the double of the same mathematical value (with sign of zero, infinities and NaN kept).", "quantifier": "all 65536 half patterns", "why_tests_cant": "Relates code to real-number semantics for every exponent class.", "anchors": ["include/zerialize/protocols/cbor.hpp: decode_f16"]}
{"id": "C50", "title": "Single-precision floats widen exactly", "statement": "Every IEEE 754 single in MessagePack or CBOR reads as the double of the same value; the float-shrinking of the CBOR writer is lossless.", "quantifier": "all 2^32 singles, all 2^64 doubles", "why_tests_cant": "Too many to enumerate.", "anchors": ["include/zerialize/protocols/cbor.hpp: asDouble", "include/zerialize/protocols/msgpack.hpp: asDouble"]}
{"id": "C51", "title": "Debug output stays well-formed", "statement": "String escaping for to_string emits no raw quote, backslash or control character except as part of an escape, and different strings escape differently.", "quantifier": "every byte string", "why_tests_cant": "All contents.", "anchors": ["include/zerialize/protocols/msgpack.hpp: esc", "include/zerialize/protocols/flex.hpp: json_escape"]}
{"id": "C52", "title": "to_string works on every serialized value", "statement": "to_string() on a reader over any successfully serialized value does not raise.", "quantifier": "every value tree, every protocol", "why_tests_cant": "Nested containers of every shape.", "anchors": ["include/zerialize/protocols/cbor.hpp: dump_rec", "include/zerialize/protocols/msgpack.hpp: dump", "include/zerialize/protocols/zera.hpp: to_string"]}
{"id": "C53", "title": "An empty serialization reads as null", "statement": "serialize<P>() with no argument gives a buffer whose reader reports null.", "quantifier": "all protocols", "why_tests_cant": "A cross-protocol contract.", "anchors": ["include/zerialize/serialize.hpp: serialize", "include/zerialize/protocols/msgpack.hpp: finish"]}
{"id": "C54", "title": "Kinds are exclusive", "statement": "For every value a writer produced, exactly one of isNull, isBool, isInt-or-isUInt, isFloat, isString, isBlob, isMap, isArray is true.", "quantifier": "every value tree, every protocol", "why_tests_cant": "All values.", "anchors": ["include/zerialize/protocols/zera.hpp: isNull", "include/zerialize/protocols/json.hpp: isBlob", "include/zerialize/protocols/json.hpp: isArray"]}
{"id": "C55", "title": "Accessors of the wrong kind raise", "statement": "Calling an accessor that does not match the kind of a value raises DeserializationError (contains() answers false); it never returns a value of another kind and never reads outside the buffer.", "quantifier": "every byte string, every view, every accessor", "why_tests_cant": "The quantifier is over all malformed inputs, including empty and truncated ones.", "anchors": ["include/zerialize/protocols/zera.hpp: asString", "include/zerialize/protocols/zera.hpp: asBlob", "include/zerialize/protocols/msgpack.hpp: info", "include/zerialize/protocols/msgpack.hpp: asString"]}
{"id": "C56", "title": "Byte-buffer views are parts of the input", "statement": "Every view obtained by indexing a MessagePack reader, and every string or blob it hands out, is a contiguous part of the input buffer.", "quantifier": "every byte string, every path of element and key lookups", "why_tests_cant": "All inputs and all depths.", "anchors": ["include/zerialize/protocols/msgpack.hpp: operator[](std::size_t)", "include/zerialize/protocols/msgpack.hpp: operator[](std::string_view)", "include/zerialize/protocols/msgpack.hpp: asStringView"]}
{"id": "C57", "title": "Skipping passes exactly one item", "statement": "Locating an element steps over each preceding item by exactly its encoded length, so element i of an array is the i-th item, whatever the items before it are.", "quantifier": "every well-formed item, every following bytes, MessagePack and CBOR", "why_tests_cant": "All item kinds, widths and nestings.", "anchors": ["include/zerialize/protocols/cbor.hpp: skip", "include/zerialize/protocols/msgpack.hpp: mp_skip"]}
{"id": "C58", "title": "CBOR positions and views are parts of the input", "statement": "Every position obtained by indexing a CBOR reader lies inside the input, and every string or blob view it hands out is a contiguous part of the input.", "quantifier": "every byte string, every path of element and key lookups", "why_tests_cant": "All inputs, including corrupt lengths, and all depths.", "anchors": ["include/zerialize/protocols/cbor.hpp: operator[]", "include/zerialize/protocols/cbor.hpp: asStringView", "include/zerialize/protocols/cbor.hpp: asBlob"]}
{"id": "C59", "title": "Schema-free integer accessors are exact or throw", "statement": "asInt64/asUInt64 of the JSON and Flex readers return the stored number if it is representable in the requested type and raise DeserializationError otherwise.", "quantifier": "every stored integer, JSON and Flex readers", "why_tests_cant": "All 2^64 numbers under both kinds.", "anchors": ["include/zerialize/protocols/json.hpp: asInt64", "include/zerialize/protocols/json.hpp: asUInt64", "include/zerialize/protocols/flex.hpp: asInt64", "include/zerialize/protocols/flex.hpp: asUInt64"]}
{"id": "C60", "title": "Writer calls do not keep references to their arguments", "statement": "The bytes produced by finish() depend only on the contents the strings, keys and blobs had at the time of the writer calls; the caller may destroy or reuse them afterwards.", "quantifier": "every interleaving of writer calls with changes to the caller's buffers, JSON writer", "why_tests_cant": "Tests pass literals and long-lived strings, so the dangling pointers still point to the right bytes.", "anchors": ["include/zerialize/protocols/json.hpp: string", "include/zerialize/protocols/json.hpp: yyjson_mut_strn", "include/zerialize/protocols/json.hpp: yyjson_mut_strncpy"]}
{"id": "C61", "title": "Flex writer builds the document it was told to", "statement": "For any sequence of writer calls, finish() of the Flex writer yields the document spelled by the calls (map entries in the order of their keys) or raises an exception.", "quantifier": "every sequence of writer calls, builds with and without assertions", "why_tests_cant": "All call interleavings; malformed sequences are rarely tested.", "anchors": ["include/zerialize/protocols/flex.hpp: RootSerializer", "include/zerialize/protocols/flex.hpp: Serializer", "include/zerialize/protocols/flex.hpp: key", "include/zerialize/protocols/flex.hpp: end_map"]}
{"id": "C62", "title": "Flex keys are taken from the view only", "statement": "Serializer::key(string_view) stores exactly the characters of the view and reads no memory outside of it.", "quantifier": "every view into every allocation", "why_tests_cant": "Depends on the memory behind the view; literals always have a NUL there.", "anchors": ["include/zerialize/protocols/flex.hpp: key"]}
{"id": "C63", "title": "The Flex reader rejects invalid buffers", "statement": "Constructing a Flex reader from bytes that are not a flexbuffers document raises an exception; it never reads outside the bytes.", "quantifier": "every byte string", "why_tests_cant": "All malformed inputs.", "anchors": ["include/zerialize/protocols/flex.hpp: FlexDeserializer"]}
{"id": "C64", "title": "The Flex reader reaches every element of an array", "statement": "If isArray() is true, arraySize() is the number of elements and operator[] returns each of them, for any flexbuffers document, whoever wrote it.", "quantifier": "every flexbuffers document", "why_tests_cant": "Typed vectors are never produced by this library's writer.", "anchors": ["include/zerialize/protocols/flex.hpp: isArray", "include/zerialize/protocols/flex.hpp: arraySize", "include/zerialize/protocols/flex.hpp: operator[](std::size_t)"]}
{"id": "C65", "title": "A builder can be kept and used later", "statement": "zvec/zmap builders stored in a variable write, when finally passed to serialize, the values they were given, whatever happened to the arguments' temporaries in between.", "quantifier": "every builder, every nesting, every lifetime of its arguments", "why_tests_cant": "Use after the end of a temporary's lifetime often appears to work; it depends on stack layout and optimisation.", "anchors": ["include/zerialize/zbuilders.hpp: zvec", "include/zerialize/zbuilders.hpp: zmap", "include/zerialize/zbuilders.hpp: kv"]}
{"id": "C66", "title": "A tensor is never read as another element type", "statement": "A tensor written with one element type is not accepted when it is read with another.", "quantifier": "every pair of element types, every shape and content, every protocol", "why_tests_cant": "The set of element types is open; tests use float and double.", "anchors": ["include/zerialize/tensor/utils.hpp: tensor_dtype_index", "include/zerialize/tensor/utils.hpp: isTensor", "include/zerialize/tensor/xtensor.hpp: asXTensorView"]}
{"id": "C67", "title": "Only the exact element type code is accepted", "statement": "A document is accepted as a tensor of a type only if its first element is exactly the code of the type.", "quantifier": "every document, every 64-bit number in the first place, every protocol", "why_tests_cant": "2^64 numbers; the wrong ones differ by multiples of 2^32.", "anchors": ["include/zerialize/tensor/utils.hpp: isTensor", "include/zerialize/protocols/json.hpp: asInt8", "include/zerialize/protocols/json.hpp: asInt32", "include/zerialize/protocols/flex.hpp: asInt8"]}
{"id": "C68", "title": "isTensor answers without raising", "statement": "isTensor returns true or false for every document; it never raises.", "quantifier": "every document, every protocol", "why_tests_cant": "Arbitrary documents in the first place of an array.", "anchors": ["include/zerialize/tensor/utils.hpp: isTensor"]}
{"id": "C69", "title": "Tensor elements keep their places", "statement": "The element at every index of the tensor that is read is the element at the same index of the tensor that was written, whatever the memory layout of the container was.", "quantifier": "every shape, every layout (strides and offset), every pair of libraries", "why_tests_cant": "Tests use row-major xtensor containers and symmetric reads.", "anchors": ["include/zerialize/tensor/utils.hpp: span_from_data_of", "include/zerialize/tensor/xtensor.hpp: serialize", "include/zerialize/tensor/eigen.hpp: serialize"]}
{"id": "C70", "title": "Debug text identifies the value", "statement": "If to_string() prints the same text for two serialized values, the values are the same, apart from blob contents (only sizes are shown), signedness of integers and doubles that print alike.", "quantifier": "every pair of values, readers that print whole trees", "why_tests_cant": "All pairs of trees; strings may imitate the layout of the text.", "anchors": ["include/zerialize/protocols/msgpack.hpp: dump", "include/zerialize/protocols/flex.hpp: dump_rec", "include/zerialize/protocols/cbor.hpp: dump_rec"]}
{"id": "C71", "title": "A refused writer call has no effect", "statement": "If a writer call raises and the caller catches the exception, the document that is finally produced is the one produced without that call; the calls that follow are accepted or refused exactly as if it had not been made.", "quantifier": "every sequence of writer calls with handlers, every point of refusal", "why_tests_cant": "All interleavings of refused and accepted calls; the state left behind by an exception is not observable by looking at the exception.", "anchors": ["include/zerialize/protocols/zera.hpp: end_array", "include/zerialize/protocols/zera.hpp: end_map", "include/zerialize/protocols/zera.hpp: key", "include/zerialize/protocols/json.hpp: end_array", "include/zerialize/protocols/json.hpp: end_map", "include/zerialize/protocols/json.hpp: key", "include/zerialize/protocols/flex.hpp: ensure_in"]}
{"id": "C72", "title": "finish() again returns the same document or raises", "statement": "Calling finish() a second time on a root serializer either returns a buffer that presents the same value or raises; it never returns a buffer with another value.", "quantifier": "every sequence of writer calls and finish() calls", "why_tests_cant": "Protocols differ in what finish() leaves behind; tests call it once.", "anchors": ["include/zerialize/protocols/zera.hpp: finish", "include/zerialize/protocols/msgpack.hpp: finish", "include/zerialize/protocols/cbor.hpp: finish", "include/zerialize/protocols/json.hpp: finish", "include/zerialize/protocols/flex.hpp: finish"]}
{"id": "C73", "title": "What root serializers own is released exactly once", "statement": "Every document and buffer made by a root serializer is released exactly once, or handed out exactly once, however root serializers are created, used, copied, moved, finished and destroyed.", "quantifier": "every history of root serializers", "why_tests_cant": "Leaks and double frees depend on the history; exceptions during serialization are rarely tested.", "anchors": ["include/zerialize/protocols/json.hpp: struct RootSerializer", "include/zerialize/protocols/json.hpp: finish", "include/zerialize/protocols/msgpack.hpp: class MsgPackRootSerializer", "include/zerialize/protocols/msgpack.hpp: ~MsgPackRootSerializer"]}
{"id": "C74", "title": "A truncated message is not mistaken for a complete one", "statement": "No proper prefix of a serialization is read as a value: opening it raises, or some part of what it shows cannot be read.", "quantifier": "every value, every proper prefix of its serialization", "why_tests_cant": "All cut points of all values; the interesting ones fall inside lengths and shadowed entries.", "anchors": ["include/zerialize/protocols/msgpack.hpp: mp_skip", "include/zerialize/protocols/msgpack.hpp: operator[](std::string_view)", "include/zerialize/protocols/cbor.hpp: skip", "include/zerialize/protocols/cbor.hpp: contains", "include/zerialize/protocols/zera.hpp: init_from", "include/zerialize/protocols/zera.hpp: arena_bytes"]}
{"id": "C75", "title": "Bytes after a message are not part of it", "statement": "A buffer that presents a value presents the same value, and no other, whatever bytes follow it, so that messages can be read from larger buffers.", "quantifier": "every byte string (not only serialized ones), every following bytes", "why_tests_cant": "All inputs and all continuations.", "anchors": ["include/zerialize/protocols/msgpack.hpp: MsgPackDeserializer", "include/zerialize/protocols/msgpack.hpp: operator[](std::size_t)", "include/zerialize/protocols/cbor.hpp: operator[]", "include/zerialize/protocols/cbor.hpp: mapKeys", "include/zerialize/protocols/zera.hpp: init_from"]}
{"id": "C76", "title": "Listing, asking and looking up agree", "statement": "mapKeys(), contains() and operator[] tell the same story: keys are listed iff contains() has them iff operator[] returns their values; operator[] refuses every index that arraySize() does not count and returns every element it counts.", "quantifier": "every position of every byte string (not only serialized ones), every key, every index", "why_tests_cant": "All malformed inputs; each of the functions walks the bytes on its own.", "anchors": ["include/zerialize/protocols/msgpack.hpp: mapKeys", "include/zerialize/protocols/msgpack.hpp: contains", "include/zerialize/protocols/msgpack.hpp: operator[](std::string_view)", "include/zerialize/protocols/cbor.hpp: mapKeys", "include/zerialize/protocols/cbor.hpp: contains", "include/zerialize/protocols/cbor.hpp: operator[]", "include/zerialize/protocols/zera.hpp: mapKeys", "include/zerialize/protocols/zera.hpp: contains", "include/zerialize/protocols/flex.hpp: mapKeys", "include/zerialize/protocols/flex.hpp: contains"]}
{"id": "C77", "title": "Translation makes no more work than the source took to write", "statement": "translate() makes at most as many writer calls as were needed to write its source; the work is linear in the size of the source.", "quantifier": "every value, every byte string, every source protocol", "why_tests_cant": "The blow-up needs nesting and repeated keys together; tests translate small flat documents.", "anchors": ["include/zerialize/translate.hpp: write_value", "include/zerialize/protocols/msgpack.hpp: operator[](std::string_view)", "include/zerialize/protocols/zera.hpp: operator[]"]}
{"id": "C78", "title": "A translation that succeeds wrote what the source presents", "statement": "Whatever the source bytes are: if translate() returns, the source presents a value (all questions about it have consistent answers) and the result presents that same value.", "quantifier": "every byte string (not only serialized ones), every source protocol, every destination with a round trip", "why_tests_cant": "All malformed inputs that happen to be translated without an exception.", "anchors": ["include/zerialize/translate.hpp: write_value", "include/zerialize/translate.hpp: translate", "include/zerialize/protocols/msgpack.hpp: mapKeys", "include/zerialize/protocols/msgpack.hpp: contains", "include/zerialize/protocols/cbor.hpp: mapKeys", "include/zerialize/protocols/cbor.hpp: contains", "include/zerialize/protocols/cbor.hpp: isInt", "include/zerialize/protocols/zera.hpp: init_from", "include/zerialize/protocols/flex.hpp: contains"]}
{"id": "C79", "title": "A message cannot exhaust the stack", "statement": "The recursion of skipping, of lookups and of translate() is bounded by a constant, whatever the message is: no input makes the program overflow its stack.", "quantifier": "every byte string, every depth of nesting, every source and destination protocol", "why_tests_cant": "Stack overflow needs messages nested deeper than any test has; how deep depends on the platform.", "anchors": ["include/zerialize/protocols/msgpack.hpp: mp_skip", "include/zerialize/protocols/cbor.hpp: skip", "include/zerialize/translate.hpp: write_value"]}
{"id": "C80", "title": "A value reads back through the accessor of its type", "statement": "Whatever is serialized, at any depth: operator[] with the same keys and indices leads to it, and the accessor of the C++ type it was written with (asInt8 ... asUInt64, asFloat, asDouble, asString, asBlob, asBool) returns what was written; integers also come back through the accessors of other integer types that can hold them.", "quantifier": "every source value (all C++ types the library serializes), every path, every protocol", "why_tests_cant": "All values of all widths at all depths; the encodings change signedness and width at boundaries.", "anchors": ["include/zerialize/protocols/msgpack.hpp: asInt8", "include/zerialize/protocols/msgpack.hpp: asFloat", "include/zerialize/protocols/msgpack.hpp: operator[](std::string_view)", "include/zerialize/protocols/cbor.hpp: asInt8", "include/zerialize/protocols/zera.hpp: asInt8", "include/zerialize/protocols/zera.hpp: asFloat", "include/zerialize/protocols/json.hpp: asInt8", "include/zerialize/protocols/json.hpp: asFloat", "include/zerialize/protocols/flex.hpp: asInt8", "include/zerialize/protocols/flex.hpp: asFloat", "include/zerialize/internals/serializers.hpp: serialize"]}
{"id": "C81", "title": "asFloat rounds to nearest", "statement": "asFloat() returns the single precision number nearest to what asDouble() returns (ties to even, infinity beyond the range), and raises exactly when asDouble() raises; it is exact when the stored number is a float.", "quantifier": "every reader, every stored double", "why_tests_cant": "All 2^64 doubles, in particular ties, subnormals and the overflow threshold.", "anchors": ["include/zerialize/protocols/msgpack.hpp: asFloat", "include/zerialize/protocols/cbor.hpp: asFloat", "include/zerialize/protocols/zera.hpp: asFloat", "include/zerialize/protocols/json.hpp: asFloat", "include/zerialize/protocols/flex.hpp: asFloat"]}
{"id": "C82", "title": "Typed access survives translation", "statement": "After translate() to another protocol, every part of the value still comes back through the accessor of the C++ type it was first written with.", "quantifier": "every source value, every path, every pair of protocols", "why_tests_cant": "All values and pairs of protocols; signedness is lost in one protocol and required in the other.", "anchors": ["include/zerialize/translate.hpp: write_value", "include/zerialize/translate.hpp: translate", "include/zerialize/protocols/flex.hpp: asInt8", "include/zerialize/protocols/flex.hpp: asUInt64", "include/zerialize/protocols/msgpack.hpp: isInt"]}
{"id": "C83", "title": "Announced sizes do not make the library allocate", "statement": "The memory reserved in advance because of the element counts a message announces is bounded by the size of the message.", "quantifier": "every byte string, translate() to ZERA and reading of tensor shapes, every source protocol", "why_tests_cant": "A few bytes announcing 2^32 or 2^60 elements; whether it fails depends on the memory of the machine.", "anchors": ["include/zerialize/protocols/zera.hpp: begin_array", "include/zerialize/protocols/zera.hpp: begin_map", "include/zerialize/protocols/zera.hpp: reserve", "include/zerialize/tensor/utils.hpp: tensor_shape", "include/zerialize/translate.hpp: write_value"]}
{"id": "C84", "title": "Skipping and looking up take time linear in the bytes", "statement": "Skipping an item, and finding a key or an element, takes at most a constant number of steps for every byte of the buffer, whatever the bytes are.", "quantifier": "every byte string (not only serialized ones), every key and index, MessagePack and CBOR readers", "why_tests_cant": "Ten bytes that take 2^32 calls; a test that met them would only seem to hang.", "anchors": ["include/zerialize/protocols/msgpack.hpp: mp_skip", "include/zerialize/protocols/msgpack.hpp: contains", "include/zerialize/protocols/msgpack.hpp: operator[](std::string_view)", "include/zerialize/protocols/msgpack.hpp: operator[](std::size_t)", "include/zerialize/protocols/msgpack.hpp: mapKeys", "include/zerialize/protocols/cbor.hpp: skip", "include/zerialize/protocols/cbor.hpp: contains", "include/zerialize/protocols/cbor.hpp: arraySize", "include/zerialize/protocols/cbor.hpp: operator[]"]}
{"id": "C85", "title": "Visiting a whole document takes time linear in its size", "statement": "translate() takes at most a constant number of steps for every byte of the source.", "quantifier": "every byte string, every source protocol", "why_tests_cant": "Growth is only visible over all sizes; small documents are fast either way.", "anchors": ["include/zerialize/translate.hpp: write_value", "include/zerialize/protocols/msgpack.hpp: operator[](std::size_t)", "include/zerialize/protocols/msgpack.hpp: mp_skip", "include/zerialize/protocols/cbor.hpp: operator[]", "include/zerialize/protocols/cbor.hpp: skip"]}
{"id": "C86", "title": "JSON reader agrees with every JSON text", "statement": "Every JSON text of RFC 8259, however it is spelled (white space, escapes, surrogate pairs, any spelling of numbers), is accepted and presented as the document it stands for; everything else is refused with a deserialization error.", "quantifier": "every byte string", "why_tests_cant": "All texts; escapes, white space and nesting combine freely.", "anchors": ["include/zerialize/protocols/json.hpp: JsonDeserializer", "include/zerialize/protocols/json.hpp: yyjson_read", "include/zerialize/protocols/json.hpp: isBlob", "include/zerialize/protocols/json.hpp: asInt64"]}
{"id": "C87", "title": "JSON output is one line of JSON", "statement": "Whatever writer calls were made: if finish() returns, it returns a JSON text in UTF-8 without control characters, so that messages can be kept one per line.", "quantifier": "every sequence of writer calls, every string and key", "why_tests_cant": "All strings and keys; the escapes depend on each byte.", "anchors": ["include/zerialize/protocols/json.hpp: finish", "include/zerialize/protocols/json.hpp: yyjson_mut_write", "include/zerialize/protocols/json.hpp: key", "include/zerialize/protocols/json.hpp: string"]}
{"id": "C88", "title": "Writing reads only what it is handed", "statement": "Writing a string, key or blob, and translating a document, reads no byte outside the views that are handed over, nor outside the source buffer.", "quantifier": "every string view in every allocation, every source document, every pair of protocols", "why_tests_cant": "One byte behind the end of an allocation: whether it is noticed depends on the allocator; tests pass literals, which end with a NUL.", "anchors": ["include/zerialize/protocols/flex.hpp: string", "include/zerialize/translate.hpp: write_value", "include/zerialize/protocols/cbor.hpp: asStringView", "include/zerialize/protocols/zera.hpp: asStringView", "include/zerialize/protocols/msgpack.hpp: asStringView"]}
{"id": "C89", "title": "Translation back gives the same bytes", "statement": "Translating what serialize() wrote through any protocols that carry the value, and back into the first one, gives the bytes it started from; translating into the same protocol changes nothing, and translating twice is the same as translating once.", "quantifier": "every value, every chain of protocols, every spelling of the source", "why_tests_cant": "Chains of any length and all values; bytes differ only in signedness, key order or width at boundaries.", "anchors": ["include/zerialize/translate.hpp: write_value", "include/zerialize/translate.hpp: translate", "include/zerialize/protocols/msgpack.hpp: int64", "include/zerialize/protocols/msgpack.hpp: uint64", "include/zerialize/protocols/flex.hpp: begin_map"]}
{"id": "C90", "title": "Messages are as short as the format permits", "statement": "No encoding of a value in the same format is shorter than what is written; translating a message into its own format never makes it longer.", "quantifier": "every value, every other encoding of it", "why_tests_cant": "All encodings of all values; widths change at boundaries.", "anchors": ["include/zerialize/protocols/msgpack.hpp: int64", "include/zerialize/protocols/msgpack.hpp: double_", "include/zerialize/protocols/msgpack.hpp: string", "include/zerialize/protocols/msgpack.hpp: begin_map", "include/zerialize/protocols/cbor.hpp: double_", "include/zerialize/protocols/cbor.hpp: int64", "include/zerialize/protocols/json.hpp: finish", "include/zerialize/protocols/json.hpp: string"]}
{"id": "C91", "title": "ZERA is the format its document describes", "statement": "What the library writes as ZERA is a message as ZERA.md describes it, standing for the value that was written; every message the document allows is read as the value it stands for, and nothing else is; no message stands for two values; messages are below 4 GiB.", "quantifier": "every value, every sequence of writer calls, every byte string, every message another implementation may write", "why_tests_cant": "All messages, also those this writer never produces; tests read only what the same code wrote.", "anchors": ["include/zerialize/protocols/zera.hpp: init_from", "include/zerialize/protocols/zera.hpp: finish", "include/zerialize/protocols/zera.hpp: asStringView", "include/zerialize/protocols/zera.hpp: asBlob", "include/zerialize/protocols/zera.hpp: make_vr", "include/zerialize/protocols/ZERA.md: Buffer Layout", "include/zerialize/protocols/ZERA.md: ValueRef16", "include/zerialize/protocols/ZERA.md: Objects", "include/zerialize/protocols/ZERA.md: Typed arrays"]}
{"id": "C92", "title": "Nothing but an encoding is read as a value", "statement": "Whatever the bytes are: where the reader presents a value (all questions about it have consistent answers), the bytes are an encoding of that value as the specification of the format defines it.", "quantifier": "every byte string (not only serialized ones), every position, every value", "why_tests_cant": "Fuzzing shows crashes, not acceptance of what should be refused; the format has to be defined independently.", "anchors": ["include/zerialize/protocols/msgpack.hpp: MsgPackDeserializer", "include/zerialize/protocols/msgpack.hpp: skip", "include/zerialize/protocols/msgpack.hpp: operator[]", "include/zerialize/protocols/cbor.hpp: read_head", "include/zerialize/protocols/cbor.hpp: skip", "include/zerialize/protocols/cbor.hpp: KeysView"]}
{"id": "C93", "title": "Flex is the FlexBuffers format", "statement": "What the library writes as Flex is a FlexBuffers document, standing for the value that was written with its keys in order; every FlexBuffers document is read as the value it stands for, and nothing else is; no bytes stand for two documents.", "quantifier": "every value, every sequence of writer calls, every byte string, every document another FlexBuffers implementation may write", "why_tests_cant": "All layouts (shared keys and strings, widths, indirect scalars, typed vectors), also those this writer never produces; tests read only what the same code wrote.", "anchors": ["include/zerialize/protocols/flex.hpp: FlexDeserializer", "include/zerialize/protocols/flex.hpp: isArray", "include/zerialize/protocols/flex.hpp: asString", "include/zerialize/protocols/flex.hpp: contains", "include/zerialize/protocols/flex.hpp: string", "include/zerialize/protocols/flex.hpp: key", "include/zerialize/protocols/flex.hpp: finish"]}
{"id": "C94", "title": "dump_flex shows the document", "statement": "The debugging function dump_flex prints, for every Flex buffer, the text of the document in it (JSON with one element or entry per line, two spaces per level, blobs by their size), it ends, and two buffers print the same text only if their documents look alike: the same except for the types of numbers that print alike, keys in place of strings, and the contents of blobs of the same size.", "quantifier": "every value, every buffer of the format", "why_tests_cant": "The printer does not go through the reader; nested documents of any shape, quotes and backslashes and newlines in strings and keys, typed vectors and indirect numbers of other writers.", "anchors": ["include/zerialize/protocols/flex.hpp: print_ref", "include/zerialize/protocols/flex.hpp: print_map", "include/zerialize/protocols/flex.hpp: print_vector", "include/zerialize/protocols/flex.hpp: print_blob", "include/zerialize/protocols/flex.hpp: dump_flex"]}
{"id": "C95", "title": "Few keys are looked at to find one", "statement": "Finding a key in a ZERA object looks at the entries up to the first one with that key, never at more than one for every 20 bytes of the buffer; finding a key in a Flex map of n keys reads at most log2(n) + 1 of them; listing the keys takes one step for each; elements are found without looking at others.", "quantifier": "every byte string (not only serialized ones), every reachable position, every key, whatever number of keys the bytes claim, ZERA and Flex readers", "why_tests_cant": "The claimed number of keys is read from the bytes and may be anything; tests use small maps whose counts are right.", "anchors": ["include/zerialize/protocols/zera.hpp: contains", "include/zerialize/protocols/zera.hpp: operator[](std::string_view)", "include/zerialize/protocols/zera.hpp: mapKeys", "include/zerialize/protocols/zera.hpp: KeysView", "include/zerialize/protocols/zera.hpp: env_ptr_at", "include/zerialize/protocols/flex.hpp: contains", "include/zerialize/protocols/flex.hpp: operator[](std::string_view)", "include/zerialize/protocols/flex.hpp: mapKeys", "include/zerialize/protocols/flex.hpp: operator[](std::size_t)"]}
{"id": "C96", "title": "Listed keys can be kept, from any reader", "statement": "The range that mapKeys() returns can be used like any forward range of string views: the views can be kept and read after the loop as long as the message lives, the map may be named by an expression such as doc[\"m\"], and begin() and end() may come from two calls on the same reader.", "quantifier": "every byte string (not only serialized ones), every map that can be listed, every protocol", "why_tests_cant": "Dangling views and readers usually still hold the old bytes, so tests pass; the iterators of two calls differ only in an address.", "anchors": ["include/zerialize/protocols/cbor.hpp: KeysView", "include/zerialize/protocols/cbor.hpp: scratch", "include/zerialize/protocols/cbor.hpp: mapKeys", "include/zerialize/protocols/msgpack.hpp: KeysView", "include/zerialize/protocols/msgpack.hpp: mapKeys", "include/zerialize/protocols/zera.hpp: KeysView", "include/zerialize/protocols/zera.hpp: mapKeys", "include/zerialize/protocols/zera.hpp: env_ptr_at", "include/zerialize/protocols/flex.hpp: KeysView", "include/zerialize/protocols/flex.hpp: mapKeys"]}
{"id": "C97", "title": "Messages are as long as what they hold", "statement": "The length of a message is proportional to what the value holds: at least a byte for every value, every key and every byte of strings, blobs and keys, and at most a constant for each of them. So a message translated into another format is longer by a constant factor at most.", "quantifier": "every value that can be written, every protocol, all pairs of protocols", "why_tests_cant": "Sizes depend on all of the value: head widths, alignment, padding, offset widths chosen from distances, escapes, pooled keys. Tests compare a few sizes of fixed values.", "anchors": ["include/zerialize/protocols/msgpack.hpp: serialize", "include/zerialize/protocols/cbor.hpp: CBORRootSerializer", "include/zerialize/protocols/zera.hpp: finish", "include/zerialize/protocols/zera.hpp: align", "include/zerialize/protocols/json.hpp: finish", "include/zerialize/protocols/json.hpp: binary", "include/zerialize/protocols/flex.hpp: finish", "include/zerialize/protocols/flex.hpp: key", "include/zerialize/protocols/flex.hpp: end_map"]}
{"id": "C98", "title": "Errors are raised as the documented exceptions", "statement": "errors.hpp offers SerializationError and DeserializationError. Whatever bytes are read, an operation that raises raises a DeserializationError, so that a program that catches it survives bad input; whatever is written, an operation that raises raises a SerializationError; a translation raises one of the two.", "quantifier": "all bytes, all positions, all operations of every reader, all sequences of writer calls, all pairs of protocols", "why_tests_cant": "Which exception leaves an operation depends on the place where a malformed input is noticed, on the library underneath, and on the state of the writer; tests expect one exception for each of a few malformed inputs.", "anchors": ["include/zerialize/errors.hpp: SerializationError", "include/zerialize/errors.hpp: DeserializationError", "include/zerialize/translate.hpp: unsupported source type", "include/zerialize/protocols/msgpack.hpp: DeserializationError", "include/zerialize/protocols/cbor.hpp: ensure", "include/zerialize/protocols/zera.hpp: SerializationError", "include/zerialize/protocols/zera.hpp: write_u32_le_at", "include/zerialize/protocols/json.hpp: logic_error", "include/zerialize/protocols/json.hpp: runtime_error", "include/zerialize/protocols/flex.hpp: logic_error"]}
{"id": "C99", "title": "Messages with the same content translate to the same bytes", "statement": "Two messages, in any two formats and any spelling, can be compared by translating both into one format: the bytes are equal exactly if the messages present the same document (the first value under repeated keys; integers compared as numbers where the target does not store the sign).", "quantifier": "all messages of all formats, all values, every target format", "why_tests_cant": "Programs hash or compare translated messages; equal documents have many spellings in every format, so no set of examples shows that the target's bytes depend on the document alone.", "anchors": ["include/zerialize/translate.hpp: write_value", "include/zerialize/translate.hpp: translate", "include/zerialize/protocols/zera.hpp: finish", "include/zerialize/protocols/msgpack.hpp: finish", "include/zerialize/protocols/cbor.hpp: finish", "include/zerialize/protocols/json.hpp: finish", "include/zerialize/protocols/flex.hpp: finish"]}
{"id": "C100", "title": "Which sign an integer comes back with", "statement": "isInt() and isUInt() of an integer in a message that the library wrote are determined by the format: ZERA and Flex answer as it was written, MessagePack answers signed exactly below 128, CBOR and JSON always signed. Along a chain of translations the sign is that of the last format with a rule, and the bytes at the end are exactly those the last format writes for the value with these signs.", "quantifier": "all values, all paths into them, all chains of translations through the five formats", "why_tests_cant": "The sign depends on the width chosen for every integer and on the order in which write_value asks; tests use one integer in one format.", "anchors": ["include/zerialize/translate.hpp: write_value", "include/zerialize/protocols/msgpack.hpp: isInt", "include/zerialize/protocols/msgpack.hpp: isUInt", "include/zerialize/protocols/cbor.hpp: isInt", "include/zerialize/protocols/cbor.hpp: isUInt", "include/zerialize/protocols/json.hpp: isInt", "include/zerialize/protocols/json.hpp: isUInt", "include/zerialize/protocols/zera.hpp: isInt", "include/zerialize/protocols/zera.hpp: isUInt", "include/zerialize/protocols/flex.hpp: isInt", "include/zerialize/protocols/flex.hpp: isUInt"]}
{"id": "C101", "title": "Tensors in ZERA messages are viewed without copying", "statement": "In every message the ZERA writer makes, at every position and at every depth, a tensor view of a type whose alignment divides 16 is a view of the bytes of the message themselves exactly if the message lies at an address aligned for the type; the view never leaves the message. For a whole document with a tensor at any path: the view has the shape, the type and the bytes written and needs no copy (README).", "quantifier": "all sequences of writer calls, all positions, all element types, ranks and addresses", "why_tests_cant": "Tests read a few tensors from buffers the allocator has placed; whether a view needs a copy depends on the address and on everything written into the arena before.", "anchors": ["README.md: For **ZERA**, tensor payload bytes are stored in a 16-byte", "include/zerialize/protocols/zera.hpp: asBlob", "include/zerialize/tensor/xtensor.hpp: asXTensorView", "include/zerialize/tensor/eigen.hpp: asEigenMatrixView"]}
{"id": "C102", "title": "A document is accepted as a tensor exactly if it holds one", "statement": "At any path of any document that was written to one of the five formats or translated between them, asXTensorView and asEigenMatrixView return a view exactly if the value there is an array of the type code, of dimensions of the wanted rank and of a blob whose size is the product of the dimensions and of the element size (README: arrays of size 3); the view then has these dimensions and these bytes. In every other case DeserializationError is raised, never undefined behaviour.", "quantifier": "all documents, paths, element types, ranks, formats and chains of translations", "why_tests_cant": "Tests read back tensors they have written and a few broken ones; which of all documents pass the checks depends on every kind of value at every place.", "anchors": ["README.md: are stored as arrays of size 3", "include/zerialize/tensor/utils.hpp: isTensor", "include/zerialize/tensor/utils.hpp: tensor_shape", "include/zerialize/tensor/xtensor.hpp: asXTensorView", "include/zerialize/tensor/eigen.hpp: asEigenMatrixView"]}
{"id": "C103", "title": "Reading a tensor from any bytes is safe", "statement": "Whatever bytes are read, at whatever position: isTensor returns or raises DeserializationError; asXTensorView and asEigenMatrixView return a view, raise DeserializationError, or raise std::bad_alloc because the dimensions found need 2^64 bytes or more; a view without a copy is a view of bytes of the message. None of it reads outside the message.", "quantifier": "all byte strings, positions, element types, ranks and addresses", "why_tests_cant": "Malformed tensors are malformed in their array, code, dimensions or blob, each in its own way in each format; tests try a handful of them.", "anchors": ["include/zerialize/tensor/utils.hpp: isTensor", "include/zerialize/tensor/utils.hpp: tensor_shape", "include/zerialize/tensor/xtensor.hpp: asXTensorView", "include/zerialize/tensor/eigen.hpp: asEigenMatrixView"]}
{"id": "C104", "title": "Empty texts and tensors need no pointer", "statement": "A default-constructed std::string_view or std::span, whose data() is null, is written and looked up like any other empty text: every sequence of writer calls gives the same message or exception as with a pointer to nothing, every lookup the same answer. Writing a message and reading a tensor pass no null pointer to memcpy or memcmp, also when there is nothing to copy.", "quantifier": "all sequences of writer calls, all values, all bytes, positions and keys, all tensors", "why_tests_cant": "Tests write literals, which have an address; copying nothing from null is undefined but goes unnoticed without a sanitizer.", "anchors": ["include/zerialize/protocols/zera.hpp: std::memcpy(out.data() + arena_ofs", "include/zerialize/protocols/zera.hpp: std::memcmp(key_bytes", "include/zerialize/protocols/json.hpp: yyjson_mut_strn", "include/zerialize/protocols/json.hpp: yyjson_obj_getn", "include/zerialize/protocols/flex.hpp: r->fbb.String", "include/zerialize/protocols/flex.hpp: r->fbb.Key", "include/zerialize/protocols/msgpack.hpp: msgpack_pack_str_body", "include/zerialize/tensor/xtensor.hpp: std::memcpy", "include/zerialize/tensor/eigen.hpp: std::memcpy"]}
{"id": "C105", "title": "What has arrived can be read", "statement": "Reading is lazy: a value of a document can be read, by indexes and keys at any depth, as soon as its bytes and those before them are there, whatever bytes come behind, missing or damaged.", "quantifier": "all documents, encodings, paths and bytes behind", "why_tests_cant": "Tests read complete messages; where a reader looks further than it must shows only on messages that are cut or damaged behind the value, for every value and every position.", "anchors": ["include/zerialize/protocols/cbor.hpp: operator[]", "include/zerialize/protocols/msgpack.hpp: operator[]", "README.md: zero-work, lazy deserialization"]}
{"id": "C106", "title": "Blobs can be overwritten in place", "statement": "In a message written for a document, the bytes of a blob have a place, and the rest of the message depends on their number only: writing other bytes of the same number into the place gives the message that is written for the document with the other blob, in ZERA, MessagePack, CBOR and Flex; in JSON the place holds the Base64 text of the blob, and the rest of the text does not depend on the blob at all. In ZERA the place is 16-byte aligned, and it is where the view that asBlob returns points.", "quantifier": "all documents, paths, blobs; in ZERA, MessagePack and CBOR all sequences of writer calls", "why_tests_cant": "Whether some length, offset, width or sorted key elsewhere in the message depends on the bytes of a blob cannot be seen from messages with chosen blobs.", "anchors": ["include/zerialize/protocols/zera.hpp: Serializer::binary", "include/zerialize/protocols/zera.hpp: RootSerializer::arena_alloc", "include/zerialize/protocols/msgpack.hpp: msgpack_pack_bin_body", "include/zerialize/protocols/cbor.hpp: byte_string_value", "include/zerialize/protocols/flex.hpp: r->fbb.Blob", "include/zerialize/protocols/json.hpp: base64Encode"]}
{"id": "C107", "title": "A part of a message is a message", "statement": "The bytes that a message holds for an element or entry are the message that is written for this element or entry alone, and if another message of the format is put in their place, the result is the message of the document with the other part; so documents can be put together from messages and taken apart without being read. In MessagePack the lookups of a path arrive at exactly these bytes.", "quantifier": "all documents, paths and replacements", "why_tests_cant": "Tests compare chosen messages; that no length, offset, width or table elsewhere depends on the part needs an argument over all documents.", "anchors": ["include/zerialize/protocols/msgpack.hpp: operator[]", "include/zerialize/protocols/msgpack.hpp: msgpack_pack_array", "include/zerialize/protocols/cbor.hpp: begin_array", "include/zerialize/protocols/json.hpp: yyjson_mut_write", "include/zerialize/protocols/zera.hpp: finish", "include/zerialize/protocols/flex.hpp: EndVector"]}
{"id": "C108", "title": "Opening and indexing look at few bytes", "statement": "Opening a message and following indexes into it looks at a number of bytes that depends on the number of steps only, not on the length of the message or of the arrays passed, and changing any other byte of the message does not change the answer: ZERA looks at 20 bytes to open, at most 11 for each step and at most 29 to read a number or size or to find a string or blob, Flex at 2, 17 and 16; MessagePack and CBOR look at nothing to open.", "quantifier": "all bytes, all paths of indexes, all other bytes of the same number", "why_tests_cant": "A benchmark on chosen messages shows speed, not which bytes an answer depends on; the claim is about all buffers, also malformed ones, and all changes of them.", "anchors": ["README.md: zero-work, lazy deserialization", "include/zerialize/protocols/zera.hpp: operator[](std::size_t idx)", "include/zerialize/protocols/zera.hpp: parse_header", "include/zerialize/protocols/flex.hpp: operator[](std::size_t idx)", "include/zerialize/protocols/msgpack.hpp: operator[](size_t idx)", "include/zerialize/protocols/cbor.hpp: operator[]", "include/zerialize/protocols/json.hpp: yyjson_read"]}
{"id": "C109", "title": "A program that reads gives the same result in every format", "statement": "A program written against the Reader concept, which holds positions, asks about them, goes to members and elements, decides by the answers and may catch DeserializationError anywhere, gets the same result from a document in every format it is written in or translated to, and nothing but its own end ends it. It may ask in any order, for kinds that are not there, and as often as it likes.", "quantifier": "all programs, documents, pairs of formats", "why_tests_cant": "Tests of generic code run chosen programs on chosen documents; that no question tells the formats apart is a claim about all programs that can be written.", "anchors": ["include/zerialize/concepts.hpp: concept Reader", "include/zerialize/translate.hpp: write_value", "README.md: zero-work, lazy deserialization"]}
{"id": "C110", "title": "Old programs read new messages", "statement": "A program that reads gives the same result on a message of a later version of its format of data: members under keys that the program never asks for, added or removed anywhere in the document, make no difference, also if the message is in another format; and what a program found in an old message it finds in one whose arrays are longer and whose maps have more members.", "quantifier": "all programs over the Reader concept, all sets of new keys, all documents, all formats and pairs of formats", "why_tests_cant": "Tests read messages of the version they were written with. The claim is about every program, every place where a member can be added, and about failures and fallbacks as well as successes.", "anchors": ["include/zerialize/protocols/zera.hpp: operator[]", "include/zerialize/protocols/msgpack.hpp: operator[]", "include/zerialize/protocols/cbor.hpp: operator[]", "include/zerialize/protocols/json.hpp: operator[]", "include/zerialize/protocols/flex.hpp: operator[]", "include/zerialize/concepts.hpp: concept ValueView"]}
{"id": "C111", "title": "A literal names the same member when writing and when reading", "statement": "What zmap<\"k\">(x) writes is what d[\"k\"] reads, and dyn::map({{\"k\", x}}) writes the same; zmap takes as many keys as values, and each key goes with its value", "quantifier": "for all lists of string literals and values, all formats", "why_tests_cant": "zmap takes its keys by the size of the array, d[...] and dyn::map by the first NUL; tests use keys of letters", "anchors": ["include/zerialize/internals/fixed_string.hpp: fixed_string", "include/zerialize/internals/fixed_string.hpp: view", "include/zerialize/zbuilders.hpp: zmap", "include/zerialize/dynamic.hpp: map", "include/zerialize/concepts.hpp: Reader"]}
{"id": "C112", "title": "A dynamic value owns what it holds", "statement": "A dyn::Value that was made from strings, views, spans, pointers, numbers, arrays and maps is serialized, at any later time and whatever has become of the buffers it was made from, to the bytes of the value it was made from.", "quantifier": "for all dynamic values, at any depth, all contents of memory when it is made and when it is serialized, all formats", "why_tests_cant": "Tests serialize a value while everything it was made from is alive and unchanged; a view that was kept instead of copied shows only in other memory.", "anchors": ["include/zerialize/dynamic.hpp: class Value", "include/zerialize/dynamic.hpp: struct Serializable", "include/zerialize/dynamic.hpp: std::make_shared<V>", "README.md: Dynamic serialization (runtime-built)"]}
{"id": "C113", "title": "Numbers mean the same on machines of either byte order", "statement": "A message that is written on one machine and read on another shows the same numbers, also in tensors, whatever the byte order of the machines.", "quantifier": "for all numbers, tensors, element types and formats, both byte orders on either side", "why_tests_cant": "Tests write and read on one machine; the order of the bytes of a tensor shows only between machines.", "anchors": ["include/zerialize/tensor/utils.hpp: span_from_data_of", "include/zerialize/tensor/xtensor.hpp: memcpy", "include/zerialize/tensor/eigen.hpp: memcpy", "include/zerialize/protocols/zera.hpp: read_u64_le", "include/zerialize/protocols/ZERA.md: little-endian"]}
{"id": "C114", "title": "Members come in the order in which they were written", "statement": "mapKeys() lists the keys of a map, at any path of a message, in the order in which they were written, also after any number of translations; nothing is left out, and repeated keys are listed as often as they were written.", "quantifier": "for all documents, all paths to maps, all routes through any formats", "why_tests_cant": "The comment in write_value promises the order the reader exposes; tests have few keys, mostly in alphabetical order, and one translation.", "anchors": ["include/zerialize/translate.hpp: order the reader exposes", "include/zerialize/protocols/zera.hpp: mapKeys", "include/zerialize/protocols/msgpack.hpp: mapKeys", "include/zerialize/protocols/cbor.hpp: mapKeys", "include/zerialize/protocols/json.hpp: mapKeys", "include/zerialize/protocols/flex.hpp: mapKeys", "include/zerialize/protocols/flex.hpp: EndMap"]}
{"id": "C115", "title": "What a position says it is, it can be read as", "statement": "Where isBool(), isInt(), isUInt(), isFloat(), isString() or isBlob() is true, the accessor of that kind returns; where isMap() is true, all keys are listed and found; where isArray() is true, all elements are counted and reached.", "quantifier": "for all bytes, all positions in them, all formats", "why_tests_cant": "Tests ask well-formed messages; the questions look at the first byte of a value only, and what they promise depends on all the others.", "anchors": ["include/zerialize/protocols/zera.hpp: isInt", "include/zerialize/protocols/zera.hpp: asInt64", "include/zerialize/protocols/zera.hpp: require_flags_ok", "include/zerialize/protocols/msgpack.hpp: isInt", "include/zerialize/protocols/msgpack.hpp: asInt64", "include/zerialize/protocols/cbor.hpp: isInt", "include/zerialize/protocols/cbor.hpp: asInt64", "include/zerialize/protocols/json.hpp: isBlob", "include/zerialize/protocols/json.hpp: asBlob", "include/zerialize/protocols/flex.hpp: isString", "include/zerialize/protocols/flex.hpp: asString", "include/zerialize/concepts.hpp: concept ValueView"]}
{"id": "C116", "title": "What has been translated is left as it is", "statement": "Translating any message into a format, and the result into the same format again, gives the same bytes the second time: also if the message was longer than it need be, had repeated keys, numbers of either sign or bytes behind it.", "quantifier": "for all bytes in all source formats, all target formats", "why_tests_cant": "Tests translate single documents once, mostly ones that were written by the same library; whether the result is a fixed point depends on every choice the source format leaves open.", "anchors": ["include/zerialize/translate.hpp: write_value", "include/zerialize/translate.hpp: translate", "include/zerialize/protocols/msgpack.hpp: asInt64", "include/zerialize/protocols/zera.hpp: isUInt"]}
{"id": "C117", "title": "The translation of a part is the part of the translation", "statement": "A member or element of a message can be translated alone, or the whole message can be translated and the member found in the result: serialized, both are the same bytes.", "quantifier": "for all bytes in all source formats, all target formats, all paths", "why_tests_cant": "Tests translate whole documents; whether parts and wholes commute depends on nesting, repeated keys and on how each position shows its numbers.", "anchors": ["include/zerialize/translate.hpp: write_value", "include/zerialize/translate.hpp: translate", "include/zerialize/protocols/zera.hpp: operator[]", "include/zerialize/protocols/msgpack.hpp: operator[]"]}
