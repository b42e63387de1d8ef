{
 "claims": [
  {
   "property": "C01",
   "status": "proved",
   "theorems": [
    "Zer.Zera.c01_zera_round_trip",
    "Zer.Zera.c01_zera_round_trip_default"
   ],
   "note": "For every value, every inline threshold."
  },
  {
   "property": "C02",
   "status": "proved",
   "theorems": [
    "Zer.Zera.c02_zera_success_iff",
    "Zer.Zera.c02_zera_long_key",
    "Zer.Zera.c08_zera_length"
   ],
   "note": "Exact success condition over all call sequences; exact output length."
  },
  {
   "property": "C03",
   "status": "proved",
   "theorems": [
    "Zer.Zera.c03_zera_calls",
    "Zer.Zera.c03_zera_malformed",
    "Zer.Zera.c02_zera_success_iff"
   ],
   "note": "All finite call sequences."
  },
  {
   "property": "C04",
   "status": "partial",
   "theorems": [
    "Zer.Zera.c04_zera_open_clean",
    "Zer.Zera.c04_zera_reader_safe_partial",
    "Zer.Zera.c04_zera_default_clean",
    "Zer.Zera.c04_zera_reader_safe_refuted"
   ],
   "note": "True for buffers below 2^32-20 bytes; false above (32-bit wrap in init_from), shown by a witness."
  },
  {
   "property": "C05",
   "status": "partial",
   "theorems": [
    "Zer.Zera.c05_zera_keys_partial",
    "Zer.Zera.c05_zera_keys_refuted"
   ],
   "note": "False as stated: the key iterator reads two bytes before its bound check. True if two bytes follow the envelope."
  },
  {
   "property": "C06",
   "status": "proved",
   "theorems": [
    "Zer.Zera.c06_zera_string_view",
    "Zer.Zera.c06_zera_blob_view"
   ],
   "note": "Any buffer, any reachable view."
  },
  {
   "property": "C07",
   "status": "partial",
   "theorems": [
    "Zer.Zera.c07_zera_element_partial",
    "Zer.Zera.c07_zera_element_of_size",
    "Zer.Zera.c07_zera_element_refuted"
   ],
   "note": "False for corrupt counts of 2^28 and more (offset truncated to 32 bits); true when the offset fits and whenever arraySize() succeeds."
  },
  {
   "property": "C08",
   "status": "proved",
   "theorems": [
    "Zer.Zera.c08_zera_layout",
    "Zer.Zera.c08_zera_length"
   ],
   "note": ""
  },
  {
   "property": "C09",
   "status": "proved",
   "theorems": [
    "Zer.Zera.c09_zera_blob_aligned"
   ],
   "note": ""
  },
  {
   "property": "C10",
   "status": "proved",
   "theorems": [
    "Zer.Zera.c10_zera_signed",
    "Zer.Zera.c10_zera_unsigned"
   ],
   "note": "All 64-bit patterns under both tags."
  },
  {
   "property": "C100",
   "status": "partial",
   "theorems": [
    "Zer.c100_recode",
    "Zer.c100_route",
    "Zer.c100_asked",
    "Zer.c100_settled",
    "Zer.c100_example",
    "Zer.Zera.c100_zera",
    "Zer.MsgPack.c100_msgpack",
    "Zer.Cbor.c100_cbor",
    "Zer.Json.c100_json",
    "Zer.Flex.c100_flex",
    "Zer.c100_route_any",
    "Zer.c100_route_sign",
    "Zer.c100_route_example"
   ],
   "note": "Routes through any formats, Flex also where the keys are not in order (c100_route_any, c100_route_sign), for values which at every stop are in the domain of the format's round trip (C09, C17, C23, C32, C35)."
  },
  {
   "property": "C101",
   "status": "partial",
   "theorems": [
    "Zer.Tensor.c101_zera",
    "Zer.Tensor.c101_zera_matrix",
    "Zer.Tensor.c101_document_partial",
    "Zer.Tensor.c101_foreign_refuted",
    "Zer.Tensor.c101_others_refuted"
   ],
   "note": "Alignment and containment: proved for every writer output, position, address and type whose alignment divides 16. Whole documents: missing the shapes of C37 whose leading dimensions multiply to 2^64 or more before a zero. False for ZERA messages of other writers and for the other binary formats (witnesses)."
  },
  {
   "property": "C102",
   "status": "partial",
   "theorems": [
    "Zer.Tensor.c102_xtensor",
    "Zer.Tensor.c102_matrix",
    "Zer.Tensor.c102_document_partial",
    "Zer.Tensor.c102_document_matrix",
    "Zer.Tensor.c102_longer_refuted",
    "Zer.Tensor.c102_sign_refuted",
    "Zer.Tensor.zera_codes",
    "Zer.Tensor.msgpack_codes",
    "Zer.Tensor.cbor_codes",
    "Zer.Tensor.flex_codes",
    "Zer.Tensor.json_codes"
   ],
   "note": "The exact outcome for any document in all five protocols. False as the README states it: arrays of more than three elements are accepted, and codes written unsigned are accepted in some protocols and refused in others (witnesses). c102_document_partial leaves out tensors of 2^64 bytes and more, for which c102_xtensor gives the outcome."
  },
  {
   "property": "C103",
   "status": "partial",
   "theorems": [
    "Zer.Tensor.c103_outcomes",
    "Zer.Tensor.c103_zera_partial",
    "Zer.Tensor.c103_msgpack_partial",
    "Zer.Tensor.c103_cbor_partial",
    "Zer.Tensor.c103_json",
    "Zer.Tensor.c103_msgpack_refuted",
    "Zer.Tensor.c103_cbor_refuted",
    "Zer.Tensor.c103_flex_refuted"
   ],
   "note": "Any position of: any ZERA buffer below 4 GiB - 20, any complete MessagePack message, any CBOR bytes without string lengths of nearly 2^64, any JSON. False for truncated MessagePack, for such CBOR lengths and for Flex (witnesses), where the accessors themselves are undefined. The reserve of tensor_shape is C83."
  },
  {
   "property": "C104",
   "status": "partial",
   "theorems": [
    "Zer.Zera.c104_zera_write",
    "Zer.Zera.c104_zera_finish",
    "Zer.Zera.c104_zera_finish_refuted",
    "Zer.Zera.View.c104_zera_lookup",
    "Zer.Zera.View.c104_zera_lookup_refuted",
    "Zer.MsgPack.c104_msgpack_write",
    "Zer.Cbor.c104_cbor_write",
    "Zer.Json.c104_json_write_partial",
    "Zer.Json.c104_json_write_refuted",
    "Zer.Json.c104_json_lookup_partial",
    "Zer.Json.c104_json_lookup_refuted",
    "Zer.Flex.c104_flex_write_partial",
    "Zer.Flex.c104_flex_write_refuted",
    "Zer.Tensor.c104_tensor_views",
    "Zer.Tensor.c104_tensor_refuted"
   ],
   "note": "Writing: proved for ZERA, MessagePack and CBOR; false for JSON strings (bad_alloc) and Flex strings and keys (read through null). Lookup: ZERA undefined exactly where an empty key is found, JSON never finds it. finish of ZERA copies from null exactly for values without arena data, tensor readers for copies without elements, both where empty containers have null pointers. Exact conditions are proved."
  },
  {
   "property": "C105",
   "status": "partial",
   "theorems": [
    "Zer.Cbor.c105_cbor",
    "Zer.Cbor.c105_cbor_arrives",
    "Zer.MsgPack.c105_msgpack_partial",
    "Zer.MsgPack.c105_msgpack_arrives",
    "Zer.MsgPack.c105_msgpack_refuted",
    "Zer.Zera.c105_zera_partial",
    "Zer.Zera.c105_zera_arrives",
    "Zer.Zera.c105_zera_refuted",
    "Zer.Json.c105_json_refuted",
    "Zer.Flex.c105_flex_refuted"
   ],
   "note": "CBOR: proved at any depth, for definite and indefinite lengths. MessagePack: proved for every value whose element or entry of the root has arrived whole, false inside an element of which part is missing. ZERA: proved once the envelope is there, for any message of the format: every path can be followed, and what is not in the missing part of the arena read; false before that (c74_zera_refused for every document). False for JSON and Flex (witnesses)."
  },
  {
   "property": "C106",
   "status": "proved",
   "theorems": [
    "Zer.MsgPack.c106_msgpack",
    "Zer.Cbor.c106_cbor",
    "Zer.Zera.c106_zera_calls",
    "Zer.Zera.c106_zera",
    "Zer.Zera.c106_zera_place",
    "Zer.Flex.c106_flex",
    "Zer.Flex.c106_flex_value",
    "Zer.Json.c106_json",
    "Zer.Proto.Overwrites.put",
    "Zer.c106_example"
   ],
   "note": "All call sequences in ZERA (any inline limit), MessagePack and CBOR, well-formed ones in Flex, every value in JSON. Overwrites.put takes the theorems about calls to values and paths."
  },
  {
   "property": "C107",
   "status": "partial",
   "theorems": [
    "Zer.MsgPack.c107_msgpack",
    "Zer.MsgPack.c107_msgpack_parts",
    "Zer.MsgPack.c107_msgpack_view",
    "Zer.Cbor.c107_cbor",
    "Zer.Json.c107_json",
    "Zer.Zera.c107_zera_refuted",
    "Zer.Flex.c107_flex_refuted",
    "Zer.Proto.Splices.part",
    "Zer.c107_example"
   ],
   "note": "Proved for MessagePack, CBOR (parts that do not nest deeper than the encoder allows, which is exact) and JSON, for every document, path and replacement; MessagePack lookups arrive at the message of the part. False for ZERA and Flex, where a message has a header or ends in its root (witnesses); blobs there are C106."
  },
  {
   "property": "C108",
   "status": "partial",
   "theorems": [
    "Zer.Zera.c108_zera_open",
    "Zer.Zera.c108_zera_path",
    "Zer.Zera.c108_zera_read",
    "Zer.Zera.c108_zera_scalars",
    "Zer.Flex.c108_flex_open",
    "Zer.Flex.c108_flex_path",
    "Zer.Flex.c108_flex_read",
    "Zer.Flex.c108_flex_scalars",
    "Zer.MsgPack.c108_msgpack_open",
    "Zer.Cbor.c108_cbor_open",
    "Zer.MsgPack.c108_msgpack_refuted",
    "Zer.Cbor.c108_cbor_refuted",
    "Zer.Json.c108_json_refuted",
    "Zer.c108_example",
    "Zer.Zera.c108_zera_text",
    "Zer.Flex.c108_flex_text"
   ],
   "note": "Proved for ZERA and Flex, for any bytes (texts and blobs: their own bytes besides), and for opening MessagePack and CBOR. False for elements of MessagePack and CBOR arrays: every element before is looked at (for every k a message of which no k bytes decide). False for JSON: opening any text looks at every byte of it."
  },
  {
   "property": "C109",
   "status": "partial",
   "theorems": [
    "Zer.c109_program",
    "Zer.c109_written",
    "Zer.c109_translated",
    "Zer.c109_flex",
    "Zer.c109_formats",
    "Zer.c109_refuted",
    "Zer.c109_example",
    "Zer.c109_arrived",
    "Zer.c109_terminals"
   ],
   "note": "Proved for all programs that ask whether something is a blob before they ask about arrays, take a number through the accessor that isInt and isUInt point to, and (with Flex, unless keys are in order) do not depend on the order of listed keys, and all documents in the domains of the round trips. False for programs that call isInt, asInt64 or isArray alone or look at the order of keys (witnesses)."
  },
  {
   "property": "C11",
   "status": "partial",
   "theorems": [
    "Zer.Zera.c11_zera_narrow_signed",
    "Zer.Zera.c11_zera_narrow_signed_throws",
    "Zer.Zera.c11_zera_narrow_unsigned",
    "Zer.Zera.c11_zera_narrow_unsigned_throws",
    "Zer.Zera.c11_zera_narrow_signed",
    "Zer.Zera.c11_zera_narrow_signed_throws",
    "Zer.Zera.c11_zera_narrow_unsigned",
    "Zer.Zera.c11_zera_narrow_unsigned_throws",
    "Zer.MsgPack.c11_msgpack_narrow_signed",
    "Zer.MsgPack.c11_msgpack_narrow_unsigned",
    "Zer.MsgPack.c11_msgpack_narrow_stored",
    "Zer.MsgPack.c11_msgpack_narrow_refuted",
    "Zer.Cbor.c11_cbor_narrow_signed",
    "Zer.Cbor.c11_cbor_narrow_unsigned",
    "Zer.Cbor.c11_cbor_narrow_stored",
    "Zer.Cbor.c11_cbor_narrow_refuted",
    "Zer.Json.c11_json_narrow_refuted",
    "Zer.Json.c11_json_narrow_partial",
    "Zer.Flex.c11_flex_narrow_refuted",
    "Zer.Flex.c11_flex_narrow_partial"
   ],
   "note": "ZERA: proved. MessagePack and CBOR: relative to the 64-bit accessor, and for every stored number below 2^64-2^31; false above, because the 64-bit accessor wraps. JSON and Flex: false, numbers are reduced modulo 2^w; exact if they fit."
  },
  {
   "property": "C110",
   "status": "partial",
   "theorems": [
    "Zer.c110_new_members",
    "Zer.c110_written",
    "Zer.c110_grown",
    "Zer.c110_grown_written",
    "Zer.c110_flex",
    "Zer.c110_example",
    "Zer.c110_refuted",
    "Zer.c110_arrived"
   ],
   "note": "Proved for all programs of C109 that make nothing of new keys when keys are listed (new members), and for those that find what they look for and list and count nothing (longer arrays too), in the domains of the round trips. False for programs that list keys or count elements (witness)."
  },
  {
   "property": "C111",
   "status": "partial",
   "theorems": [
    "Zer.Dyn.c111_builder",
    "Zer.Dyn.c111_literal_partial",
    "Zer.Dyn.c111_flex_partial",
    "Zer.Dyn.c111_dyn_partial",
    "Zer.Dyn.c111_literal_refuted"
   ],
   "note": "Proved for all literals without NULs inside, in all formats within the domains of the round trips. False for literals with NULs inside (zmap keeps them, d[...] and dyn::map stop at the first) and for character arrays without a NUL at the end, whose last character fixed_string::view drops (witnesses)."
  },
  {
   "property": "C112",
   "status": "partial",
   "theorems": [
    "Zer.Dyn.c112_owns_partial",
    "Zer.Dyn.c112_view_refuted"
   ],
   "note": "Proved for all dynamic values whose Serializables hold objects that own their data; views, spans and pointers may be given to the other constructors. False for dyn::serializable of a string_view, span or pointer (witness)."
  },
  {
   "property": "C113",
   "status": "partial",
   "theorems": [
    "Zer.Tensor.c113_memcpy",
    "Zer.Tensor.c113_tensor_exact",
    "Zer.Tensor.c113_matrix_exact",
    "Zer.Tensor.c113_tensor_partial",
    "Zer.Tensor.c113_tensor_refuted",
    "Zer.Tensor.c113_complex_refuted"
   ],
   "note": "Integers are put together from bytes by shifts, bits of doubles survive memcpy on either machine. Tensors: proved between machines of the same order and for elements of one byte; false between different orders, where every number comes out with its bytes swapped, exactly, without an error (raw memory, no mark of its order in the message)."
  },
  {
   "property": "C114",
   "status": "partial",
   "theorems": [
    "Zer.c114_route",
    "Zer.c114_written",
    "Zer.c114_flex_exact",
    "Zer.c114_flex_refuted"
   ],
   "note": "Routes of any length through any formats, for values which at every stop are in the domain of the format's round trip. False with Flex on the route, which sorts: exactly then the keys come in the order of their bytes, and the order is kept if and only if they were written so."
  },
  {
   "property": "C115",
   "status": "partial",
   "theorems": [
    "Zer.c115_presented",
    "Zer.c115_written",
    "Zer.Json.c115_json_partial",
    "Zer.Json.c115_json_blob_exact",
    "Zer.Json.c115_json_refuted",
    "Zer.Cbor.c115_cbor_numbers",
    "Zer.Cbor.c115_cbor_refuted",
    "Zer.MsgPack.c115_msgpack_numbers",
    "Zer.MsgPack.c115_msgpack_refuted",
    "Zer.Zera.c115_zera_numbers",
    "Zer.Zera.c115_zera_refuted",
    "Zer.Flex.c115_flex_sure",
    "Zer.MsgPack.c115_msgpack_bytes",
    "Zer.Cbor.c115_cbor_bytes",
    "Zer.Zera.c115_zera_strings",
    "Zer.Zera.c115_zera_bool",
    "Zer.Zera.c115_zera_array",
    "Zer.Zera.c115_zera_blob",
    "Zer.Zera.c115_zera_elements",
    "Zer.Zera.c115_zera_keys",
    "Zer.Flex.c115_flex_refuted"
   ],
   "note": "Proved at every position that presents a value, so for everything written and every valid message (C16, C21, C86, C91, C93). On any bytes: JSON except blobs, whose exact condition is proved; exact conditions for booleans, numbers, strings, blobs and array sizes of ZERA, whose elements are there below the size and whose keys listed are exactly the keys found, for numbers, strings, blobs and array sizes of MessagePack, for booleans, integers, strings and blobs of CBOR; Flex never raises. False otherwise, with witnesses for all five formats. Missing: when the keys of a map of ZERA can be listed; in the other binary formats the elements and keys of containers that are no valid message, where accessors also raise or leave the buffer (C04, C15, C18)."
  },
  {
   "property": "C116",
   "status": "partial",
   "theorems": [
    "Zer.c116_again",
    "Zer.Zera.c116_zera",
    "Zer.MsgPack.c116_msgpack",
    "Zer.Cbor.c116_cbor_partial",
    "Zer.Json.c116_json_partial",
    "Zer.Flex.c116_flex_partial",
    "Zer.MsgPack.c116_any",
    "Zer.Zera.c116_any",
    "Zer.Flex.c116_flex_refuted",
    "Zer.Cbor.c116_cbor_refuted"
   ],
   "note": "From any bytes of any reader whose answers fit together (C78). Into ZERA: without condition. Into MessagePack: if less than 4 GiB - 5 come out. Into CBOR: without unsigned numbers from 2^63 on (false with them, witness). Into JSON: for what JSON can carry (C32). Into Flex: false for keys that are not in order (witness); the third translation changes nothing, for distinct keys without NUL."
  },
  {
   "property": "C117",
   "status": "partial",
   "theorems": [
    "Zer.c117_part",
    "Zer.c117_any",
    "Zer.Zera.c117_zera",
    "Zer.MsgPack.c117_msgpack",
    "Zer.Cbor.c117_cbor_partial",
    "Zer.Json.c117_json_partial",
    "Zer.Flex.c117_flex_partial",
    "Zer.Flex.c117_flex_refuted"
   ],
   "note": "From any bytes of any reader whose answers fit together (C78), along any path of what they present. Into ZERA: without condition. Into MessagePack: if less than 4 GiB - 5 come out. Into CBOR: without unsigned numbers from 2^63 on. Into JSON: for what JSON can carry (C32). Into Flex: for distinct keys in order; false otherwise (witness)."
  },
  {
   "property": "C12",
   "status": "partial",
   "theorems": [
    "Zer.Zera.c12_zera_injective",
    "Zer.Zera.c12_zera_injective",
    "Zer.MsgPack.c12_msgpack_injective_partial",
    "Zer.MsgPack.c12_msgpack_prefix_free",
    "Zer.MsgPack.c12_msgpack_injective_refuted",
    "Zer.Cbor.c12_cbor_injective",
    "Zer.Cbor.c12_cbor_same",
    "Zer.Cbor.c12_cbor_prefix_free",
    "Zer.Json.c12_json_injective_partial",
    "Zer.Flex.c12_flex_injective",
    "Zer.Flex.c12_flex_order_refuted"
   ],
   "note": "ZERA: proved. CBOR: proved up to integer signedness, which CBOR does not store. MessagePack: within the format's 32-bit lengths; false beyond, because the writer truncates lengths. JSON: without arrays that look like blobs. Flex: up to the order of map entries; the same value written in another order of entries gives other bytes (keys are stored in the order they are written)."
  },
  {
   "property": "C13",
   "status": "proved",
   "theorems": [
    "Zer.Base64.c13_base64_round_trip",
    "Zer.Base64.c13_base64_injective"
   ],
   "note": "All byte strings."
  },
  {
   "property": "C14",
   "status": "proved",
   "theorems": [
    "Zer.Base64.c14_base64_rfc4648",
    "Zer.Base64.c14_base64_shape"
   ],
   "note": "All byte strings, against an independent statement of RFC 4648 section 4."
  },
  {
   "property": "C15",
   "status": "partial",
   "theorems": [
    "Zer.Base64.c15_base64_rejects_partial",
    "Zer.Base64.c15_base64_rejects_refuted",
    "Zer.Base64.c15_base64_accepts_wellFormed",
    "Zer.Base64.c15_base64_encoder_wellFormed"
   ],
   "note": "False: bad lengths and text after padding are accepted. Exact description of what is accepted, with result, for all texts."
  },
  {
   "property": "C16",
   "status": "partial",
   "theorems": [
    "Zer.MsgPack.c16_msgpack_reader_partial",
    "Zer.MsgPack.c16_msgpack_reader_refuted"
   ],
   "note": "False for strings of 2^32-5 bytes and more (32-bit wrap in mp_skip); true below, for every permitted encoding."
  },
  {
   "property": "C17",
   "status": "partial",
   "theorems": [
    "Zer.MsgPack.c17_msgpack_round_trip_partial",
    "Zer.MsgPack.c17_msgpack_root_string",
    "Zer.MsgPack.c17_msgpack_concat",
    "Zer.MsgPack.c17_msgpack_round_trip_refuted"
   ],
   "note": "False for nested strings of 2^32-5 bytes and more; true below, and for any length below 2^32 at the root."
  },
  {
   "property": "C18",
   "status": "partial",
   "theorems": [
    "Zer.MsgPack.c18_msgpack_scalars",
    "Zer.MsgPack.c18_msgpack_reader_safe_partial",
    "Zer.MsgPack.c18_msgpack_reader_safe_refuted"
   ],
   "note": "False on truncated input. Proved for scalars on any bytes, and for all accessors on input that starts with a complete element."
  },
  {
   "property": "C19",
   "status": "proved",
   "theorems": [
    "Zer.MsgPack.c19_msgpack_skip_terminates",
    "Zer.MsgPack.c19_msgpack_locating_terminates",
    "Zer.MsgPack.c19_msgpack_skip_bound"
   ],
   "note": "Any bytes."
  },
  {
   "property": "C20",
   "status": "partial",
   "theorems": [
    "Zer.MsgPack.c20_msgpack_int_partial",
    "Zer.MsgPack.c20_msgpack_int_refuted"
   ],
   "note": "Exact when representable; wraps silently otherwise."
  },
  {
   "property": "C21",
   "status": "partial",
   "theorems": [
    "Zer.Cbor.c21_cbor_reader_partial",
    "Zer.Cbor.c21_cbor_reader_hardened_partial",
    "Zer.Cbor.c21_cbor_hardened_refuted"
   ],
   "note": "Every permitted definite encoding of integers below 2^63. Unsigned integers from 2^63 on: see C26. With bounds-checked spans empty strings at the end of the buffer are a precondition violation: refuted, and proved without empty strings."
  },
  {
   "property": "C22",
   "status": "partial",
   "theorems": [
    "Zer.Cbor.c22_cbor_indefinite_partial",
    "Zer.Cbor.c22_cbor_keys_refuted",
    "Zer.Cbor.c22_cbor_views_refuted"
   ],
   "note": "False for mapKeys of every indefinite map (iteration runs past the break) and for the view accessors; proved for everything else."
  },
  {
   "property": "C23",
   "status": "partial",
   "theorems": [
    "Zer.Cbor.c23_cbor_accepts",
    "Zer.Cbor.c23_cbor_round_trip_partial",
    "Zer.Cbor.c23_cbor_format",
    "Zer.Cbor.c23_cbor_uint",
    "Zer.Cbor.c23_cbor_round_trip_refuted"
   ],
   "note": "False for unsigned integers from 2^63 on as far as asInt64/isInt are concerned; round trip proved for all other values."
  },
  {
   "property": "C24",
   "status": "partial",
   "theorems": [
    "Zer.Cbor.c24_cbor_scalars",
    "Zer.Cbor.c24_cbor_wellformed_partial",
    "Zer.Cbor.c24_cbor_checked_partial",
    "Zer.Cbor.c24_cbor_reader_safe_refuted"
   ],
   "note": "False on malformed input. Proved for scalars on any bytes, for everything on well-formed input, and for most accessors on any bytes without lengths of nearly 2^64."
  },
  {
   "property": "C25",
   "status": "partial",
   "theorems": [
    "Zer.Cbor.c25_cbor_terminates_partial",
    "Zer.Cbor.c25_cbor_keys_terminate_partial",
    "Zer.Cbor.c25_cbor_terminates_refuted"
   ],
   "note": "False: chunk lengths that wrap make the loop stand still. Proved without such lengths."
  },
  {
   "property": "C26",
   "status": "partial",
   "theorems": [
    "Zer.Cbor.c26_cbor_int_partial",
    "Zer.Cbor.c26_cbor_int_refuted",
    "Zer.Cbor.c26_cbor_malformed"
   ],
   "note": "asUInt64 exact or raises; asInt64 exact or raises below 2^63, wraps from there on."
  },
  {
   "property": "C27",
   "status": "partial",
   "theorems": [
    "Zer.c27_translate",
    "Zer.c27_translate_pair",
    "Zer.Zera.c27_zera_to_zera",
    "Zer.c27_translate",
    "Zer.c27_translate_pair",
    "Zer.Zera.c27_zera_to_zera",
    "Zer.MsgPack.c27_to_msgpack",
    "Zer.MsgPack.c27_zera_to_msgpack",
    "Zer.MsgPack.c27_msgpack_to_zera",
    "Zer.MsgPack.c27_msgpack_to_msgpack",
    "Zer.Cbor.c27_to_cbor",
    "Zer.Cbor.c27_from_cbor",
    "Zer.Cbor.c27_cbor_to_all",
    "Zer.Cbor.c27_all_to_cbor",
    "Zer.Json.c27_to_json",
    "Zer.Json.c27_from_json",
    "Zer.Json.c27_json_to_all",
    "Zer.Json.c27_all_to_json",
    "Zer.Json.c27_json_refuted",
    "Zer.Flex.c27_to_flex",
    "Zer.Flex.c27_from_flex",
    "Zer.Flex.c27_flex_to_all",
    "Zer.Flex.c27_all_to_flex",
    "Zer.Flex.c27_flex_nul_refuted"
   ],
   "note": "All 25 ordered pairs of protocols, each on the values both sides can represent. False for JSON and arrays that look like blobs, for CBOR and JSON unsigned integers from 2^63 on, for keys with NUL into JSON or Flex."
  },
  {
   "property": "C28",
   "status": "partial",
   "theorems": [
    "Zer.c28_translate_terminates_partial",
    "Zer.Zera.c28_translate_terminates_refuted",
    "Zer.c28_translate_terminates_partial",
    "Zer.Zera.c28_translate_terminates_refuted",
    "Zer.MsgPack.c28_msgpack_source",
    "Zer.MsgPack.c28_msgpack_to_zera",
    "Zer.Cbor.c28_cbor_source_partial",
    "Zer.Cbor.c28_cbor_to_all_partial",
    "Zer.Cbor.c28_cbor_source_refuted",
    "Zer.Json.c28_json_source",
    "Zer.Json.c28_json_to_all",
    "Zer.Flex.c28_flex_source_partial",
    "Zer.Flex.c28_flex_source_refuted",
    "Zer.Flex.c28_flex_to_all_partial",
    "Zer.Cbor.c28_to_cbor"
   ],
   "note": "False for corrupt ZERA buffers (self-referential array) and corrupt CBOR (standing chunk loop). True for every position that presents a value, for any bytes read as MessagePack or JSON, any valid Flex document, and for any bytes read as CBOR without numbers of nearly 2^64. False for Flex buffers that refer to themselves. Into CBOR true from any ZERA and any Flex bytes as well: the limit of the encoder ends the recursion."
  },
  {
   "property": "C29",
   "status": "partial",
   "theorems": [
    "Zer.Zera.c29_zera_uint",
    "Zer.MsgPack.c29_msgpack_uint",
    "Zer.Cbor.c29_cbor_uint_partial",
    "Zer.Cbor.c29_cbor_uint_refuted",
    "Zer.Json.c29_json_uint_partial",
    "Zer.Json.c29_json_uint_refuted",
    "Zer.Flex.c29_flex_uint",
    "Zer.Flex.c29_to_flex"
   ],
   "note": "ZERA, MessagePack and Flex sources: every 64-bit number. False for CBOR and JSON sources from 2^63 on."
  },
  {
   "property": "C30",
   "status": "partial",
   "theorems": [
    "Zer.c30_repeated_keys_partial",
    "Zer.Zera.c30_repeated_keys_refuted",
    "Zer.Flex.c30_flex_repeated_partial"
   ],
   "note": "False as stated: the first value under a key is written for all its repetitions. Flex itself: a lookup returns one of the values written under the key."
  },
  {
   "property": "C31",
   "status": "partial",
   "theorems": [
    "Zer.Json.c31_json_calls_partial",
    "Zer.Json.c31_json_calls_refuted"
   ],
   "note": "False: open containers are written as if closed, empty keys are refused, keys with NUL are cut or refused. Exact for all other call sequences (relative to the law of the yyjson text layer)."
  },
  {
   "property": "C32",
   "status": "partial",
   "theorems": [
    "Zer.Json.c32_json_round_trip_partial",
    "Zer.Json.c32_json_refuses",
    "Zer.Json.c32_json_uint",
    "Zer.Json.c32_json_round_trip_refuted",
    "Zer.Json.c32_json_rfc_partial"
   ],
   "note": "False for unsigned integers from 2^63 on, for arrays that look like blobs, for empty keys and keys with NUL; proved for all other values, relative to the law of the yyjson text layer, and for the texts of RFC 8259, which satisfy it (std_law)."
  },
  {
   "property": "C33",
   "status": "partial",
   "theorems": [
    "Zer.Json.c33_json_blob_confusion_refuted",
    "Zer.Json.c33_json_strings_partial"
   ],
   "note": "False; the exact condition is proved."
  },
  {
   "property": "C34",
   "status": "proved",
   "theorems": [
    "Zer.Flex.c34_flex_lookup",
    "Zer.Flex.c34_flex_lookup_distinct",
    "Zer.Flex.c34_flex_lookup_any",
    "Zer.Flex.c34_flex_search_refuted",
    "Zer.Flex.c34_flex_search_ends"
   ],
   "note": "On the bytes of the format: any sorted map; for any bytes whatever is returned is stored under the key. The search ends in every map of at most 2^63 keys and wherever the keys can be listed; it never ends on a crafted buffer that claims more."
  },
  {
   "property": "C35",
   "status": "proved",
   "theorems": [
    "Zer.Flex.c35_flex_round_trip",
    "Zer.Flex.c35_sort_keeps",
    "Zer.Flex.c35_flex_nul_refuted"
   ],
   "note": "On the bytes of the flexbuffers format, whose builder and reader are transcribed; std::sort only has to sort (the order of equal keys is open). The NUL-freedom is necessary. Buffers below 2^64 bytes (Fits)."
  },
  {
   "property": "C36",
   "status": "proved",
   "theorems": [
    "Zer.Dyn.c36_same_calls",
    "Zer.Dyn.c36_same_bytes",
    "Zer.Dyn.c36_announced_sizes",
    "Zer.Dyn.c36_numbers",
    "Zer.Dyn.c36_dyn_construct",
    "Zer.Dyn.c36_std_map",
    "Zer.Dyn.c36_bad_arguments",
    "Zer.Dyn.c36_flex_std_map"
   ],
   "note": "Every nesting of dynamic values, builders, sequences, maps and custom types; every writer. Arguments outside the domain (null C strings, empty dynamic writers) are characterised separately."
  },
  {
   "property": "C37",
   "status": "partial",
   "theorems": [
    "Zer.Tensor.c37_tensor_round_trip_partial",
    "Zer.Tensor.c37_matrix_round_trip",
    "Zer.Tensor.c37_tensor_empty_refuted",
    "Zer.Tensor.c37_truncated_refuted",
    "Zer.Tensor.c37_domains",
    "Zer.Tensor.c37_xtensor_written",
    "Zer.Tensor.c37_eigen_written",
    "Zer.Tensor.c37_xtensor_end_to_end_partial",
    "Zer.Tensor.c37_eigen_end_to_end",
    "Zer.Tensor.c37_nested_partial",
    "Zer.Tensor.c37_nested_matrix"
   ],
   "note": "All five protocols and any chain of translations, the tensor as a whole message or at any path inside a document that is translated as a whole or in parts. False for xtensor shapes whose leading dimensions multiply to 2^64 or more before a zero; dimensions of 2^32 and more are truncated."
  },
  {
   "property": "C38",
   "status": "partial",
   "theorems": [
    "Zer.Tensor.c38_xtensor_view_partial",
    "Zer.Tensor.c38_eigen_view_partial",
    "Zer.Tensor.c38_xtensor_owned",
    "Zer.Tensor.c38_eigen_owned",
    "Zer.Tensor.c38_view_defined",
    "Zer.Tensor.c38_view_refuted"
   ],
   "note": "False: count * sizeof wraps, so a document without data becomes a zero-copy view of 2^61 doubles. Proved whenever the number of bytes is below 2^64 or the view owns its data."
  },
  {
   "property": "C39",
   "status": "proved",
   "theorems": [
    "Zer.Tensor.c39_xtensor_zero_copy",
    "Zer.Tensor.c39_eigen_zero_copy",
    "Zer.Tensor.c39_formats"
   ],
   "note": "Any reader, any address; the reported reason, address, alignment and size too."
  },
  {
   "property": "C40",
   "status": "proved",
   "theorems": [
    "Zer.Tensor.c40_tensor_shape",
    "Zer.Tensor.c40_tensor_shape_other",
    "Zer.Tensor.c40_tensor_shape_sound",
    "Zer.Tensor.c40_json_blob"
   ],
   "note": "Proved for every reader at every position that presents a value; a JSON blob presents itself as an array of strings and is refused all the same."
  },
  {
   "property": "C41",
   "status": "proved",
   "theorems": [
    "Zer.Tensor.c41_count_product",
    "Zer.Tensor.c41_count_exact",
    "Zer.Tensor.c41_count_iff"
   ],
   "note": "Every list of dimensions."
  },
  {
   "property": "C42",
   "status": "proved",
   "theorems": [
    "Zer.Tensor.c42_dtype_codes"
   ],
   "note": "All supported element types, all integers."
  },
  {
   "property": "C43",
   "status": "proved",
   "theorems": [
    "Zer.Buf.c43_balance",
    "Zer.Buf.c43_released_once",
    "Zer.Buf.c43_nothing_else"
   ],
   "note": "Every history of constructors, moves, move assignments and destructions; also that the deleter called is the one handed over with the pointer."
  },
  {
   "property": "C44",
   "status": "partial",
   "theorems": [
    "Zer.Buf.c44_observers_partial",
    "Zer.Buf.c44_owned",
    "Zer.Buf.c44_alive",
    "Zer.Buf.c44_copies",
    "Zer.Buf.c44_observers_refuted"
   ],
   "note": "False for moved-from adopted buffers (old size, null pointer). Proved for every other live buffer of every history; the copying observers are defined on all."
  },
  {
   "property": "C45",
   "status": "partial",
   "theorems": [
    "Zer.Buf.c45_adoption",
    "Zer.Buf.c45_reported_partial",
    "Zer.Buf.c45_reported_refuted",
    "Zer.Buf.c45_late_refuted"
   ],
   "note": "False: an empty deleter with a pointer ends the program, at construction or at destruction depending on the constructor. Everything else is reported."
  },
  {
   "property": "C46",
   "status": "partial",
   "theorems": [
    "Zer.Buf.c46_hexdump_partial",
    "Zer.Buf.c46_hexdump_injective",
    "Zer.Buf.c46_hexdump_refuted"
   ],
   "note": "False for row width 0 (never ends). Proved for every other width."
  },
  {
   "property": "C47",
   "status": "partial",
   "theorems": [
    "Zer.Life.c47_moved_partial",
    "Zer.Life.c47_usable_iff",
    "Zer.Life.c47_balance",
    "Zer.Life.c47_copied_refuted"
   ],
   "note": "False for copies of owning readers. Proved for owning readers and any chain of moves; exact condition for all others."
  },
  {
   "property": "C48",
   "status": "proved",
   "theorems": [
    "Zer.Life.c48_json_balance",
    "Zer.Life.c48_json_alive",
    "Zer.Life.c48_json_no_leak",
    "Zer.Life.c48_json_views_dangle",
    "Zer.Life.c48_json_usable_iff"
   ],
   "note": "Every history."
  },
  {
   "property": "C49",
   "status": "proved",
   "theorems": [
    "Zer.c49_half_exact"
   ],
   "note": "All half patterns; the model of decode_f16 assumes that its floating-point operations, all exact, give the exact result."
  },
  {
   "property": "C50",
   "status": "proved",
   "theorems": [
    "Zer.c50_single_exact",
    "Zer.c50_shrink_lossless",
    "Zer.c50_shrink_complete"
   ],
   "note": "Singles widen exactly; shrinking is lossless and happens whenever possible (test of the jsoncons encoder)."
  },
  {
   "property": "C51",
   "status": "partial",
   "theorems": [
    "Zer.Text.c51_escape_form",
    "Zer.Text.c51_escape_clean",
    "Zer.Text.c51_escape_injective",
    "Zer.Cbor.c51_cbor_refuted",
    "Zer.Json.c51_json_escape"
   ],
   "note": "Escaping of MsgPack and Flex: proved for every byte string; JSON (yyjson, by its documented behaviour): for every string in UTF-8. CBOR does not escape: two different lists with the same text."
  },
  {
   "property": "C52",
   "status": "partial",
   "theorems": [
    "Zer.MsgPack.c52_msgpack_text_partial",
    "Zer.MsgPack.c52_msgpack_text_refuted",
    "Zer.MsgPack.c52_msgpack_text_ends",
    "Zer.MsgPack.c52_msgpack_text_safe_partial",
    "Zer.MsgPack.c52_msgpack_text_safe_refuted",
    "Zer.Flex.c52_flex_text_partial",
    "Zer.Flex.c52_flex_text",
    "Zer.Flex.c52_flex_text_safe_refuted",
    "Zer.Zera.c52_zera_text",
    "Zer.Zera.c52_zera_text_safe_partial",
    "Zer.Cbor.c52_cbor_text_partial",
    "Zer.Cbor.c52_cbor_arrays_refuted",
    "Zer.Cbor.c52_cbor_text_refuted",
    "Zer.Json.c52_json_text",
    "Zer.Json.c52_json_again",
    "Zer.Json.c52_json_compact",
    "Zer.Cbor.c52_cbor_chunked",
    "Zer.Cbor.c52_cbor_chunked_string"
   ],
   "note": "ZERA and Flex: proved for everything serialized. JSON: proved for every part of every document that can be opened (yyjson_val_write by its documented behaviour); the text is JSON again and stands for the part, and without layout it is the serialization itself. MsgPack: except keys of 2^32 - 5 bytes. CBOR: false for every object that contains a list, for empty objects and for lists in lists; exact text where it works."
  },
  {
   "property": "C53",
   "status": "partial",
   "theorems": [
    "Zer.Zera.c53_zera_empty_null",
    "Zer.Zera.c53_zera_empty_null",
    "Zer.MsgPack.c53_msgpack_empty_refuted",
    "Zer.Cbor.c53_cbor_empty",
    "Zer.Json.c53_json_empty",
    "Zer.Flex.c53_flex_empty"
   ],
   "note": "ZERA, CBOR, JSON and Flex: proved. False for MessagePack: the buffer is empty and has no kind."
  },
  {
   "property": "C54",
   "status": "partial",
   "theorems": [
    "Zer.Zera.c54_zera_kinds_exclusive",
    "Zer.Zera.c54_zera_kinds_exclusive",
    "Zer.MsgPack.c54_msgpack_kinds_exclusive",
    "Zer.MsgPack.c54_msgpack_some_kind",
    "Zer.Cbor.c54_cbor_kinds_exclusive",
    "Zer.Json.c54_json_kinds_refuted",
    "Zer.Json.c54_json_kinds_partial",
    "Zer.Flex.c54_flex_kinds",
    "Zer.Flex.c54_flex_kinds_any"
   ],
   "note": "ZERA, MessagePack, CBOR and Flex proved. False for JSON: every blob is also an array."
  },
  {
   "property": "C55",
   "status": "partial",
   "theorems": [
    "Zer.Zera.c55_zera_wrong_kind",
    "Zer.MsgPack.c55_msgpack_wrong_kind_partial",
    "Zer.Cbor.c55_cbor_wrong_kind",
    "Zer.Json.c55_json_wrong_kind",
    "Zer.Flex.c55_flex_wrong_kind",
    "Zer.MsgPack.c55_msgpack_wrong_kind_refuted",
    "Zer.MsgPack.c55_msgpack_empty"
   ],
   "note": "ZERA, CBOR, JSON and Flex: any view. MessagePack: any non-empty view (an empty one is read outside its bounds)."
  },
  {
   "property": "C56",
   "status": "proved",
   "theorems": [
    "Zer.MsgPack.c56_msgpack_views_inside"
   ],
   "note": "Any bytes."
  },
  {
   "property": "C57",
   "status": "partial",
   "theorems": [
    "Zer.MsgPack.c57_msgpack_skip_partial",
    "Zer.Cbor.c57_cbor_skip_partial",
    "Zer.Cbor.c57_cbor_skip_refuted"
   ],
   "note": "CBOR: false for simple values in a separate byte (skips three bytes for two); proved for all other items."
  },
  {
   "property": "C58",
   "status": "partial",
   "theorems": [
    "Zer.Cbor.c58_cbor_positions",
    "Zer.Cbor.c58_cbor_views_partial",
    "Zer.Cbor.c58_cbor_views_exact",
    "Zer.Cbor.c58_cbor_views_refuted"
   ],
   "note": "Positions: proved for any bytes. Views: unless the call is undefined (C24 witness)."
  },
  {
   "property": "C59",
   "status": "partial",
   "theorems": [
    "Zer.Json.c59_json_int64_refuted",
    "Zer.Json.c59_json_int64_partial",
    "Zer.Flex.c59_flex_int64_refuted",
    "Zer.Flex.c59_flex_int64_partial"
   ],
   "note": "False for JSON asInt64 from 2^63 on; otherwise proved for JSON. False for Flex numbers stored with the other signedness (raise); what is returned is right."
  },
  {
   "property": "C60",
   "status": "partial",
   "theorems": [
    "Zer.Json.Heap.c60_json_strings_read_late",
    "Zer.Json.Heap.c60_json_borrow_partial",
    "Zer.Json.Heap.c60_json_keys_blobs_copied",
    "Zer.Json.Heap.c60_json_borrow_refuted",
    "Zer.Json.Heap.c60_json_dangling_refuted"
   ],
   "note": "Keys and blobs are copied. Strings are read by finish(): false when a string changes in between, and undefined behaviour for every history whose string is destroyed in between. Proved by refinement from a heap model (nodes with addresses, caller memory per call) to the tree model."
  },
  {
   "property": "C61",
   "status": "partial",
   "theorems": [
    "Zer.Flex.c61_flex_calls_partial",
    "Zer.Flex.c61_flex_mismatched_end",
    "Zer.Flex.c61_flex_calls_refuted",
    "Zer.Flex.c61_flex_stray_key",
    "Zer.Flex.c61_flex_accepts"
   ],
   "note": "False: malformed sequences are accepted, abort or are undefined, keys are cut at NUL. Proved for all well-formed sequences with distinct NUL-free keys."
  },
  {
   "property": "C62",
   "status": "partial",
   "theorems": [
    "Zer.Flex.c62_flex_key_view_refuted",
    "Zer.Flex.c62_flex_key_view_partial"
   ],
   "note": "False; exact if and only if a NUL follows the view in its allocation."
  },
  {
   "property": "C63",
   "status": "partial",
   "theorems": [
    "Zer.Flex.c63_flex_constructor_refuted",
    "Zer.Flex.c63_flex_constructor_partial"
   ],
   "note": "False: any one-byte buffer is read outside its bounds."
  },
  {
   "property": "C64",
   "status": "partial",
   "theorems": [
    "Zer.Flex.c64_flex_typed_vector_refuted",
    "Zer.Flex.c64_flex_untyped_vector_partial",
    "Zer.Flex.c64_flex_arrays",
    "Zer.Flex.c64_flex_typed_written_refuted"
   ],
   "note": "False: in a typed vector of any type (proved on every buffer, and for every vector of integers that a flexbuffers builder writes) no element is reached. Proved for untyped vectors."
  },
  {
   "property": "C65",
   "status": "partial",
   "theorems": [
    "Zer.Dyn.c65_builder_lifetime_partial",
    "Zer.Dyn.c65_builder_lifetime_refuted",
    "Zer.Dyn.c65_builder_dead"
   ],
   "note": "False for builders that hold a temporary by reference; proved for all others and for all builders used within the full expression."
  },
  {
   "property": "C66",
   "status": "partial",
   "theorems": [
    "Zer.Tensor.c66_other_type_partial",
    "Zer.Tensor.c66_other_type_refuted"
   ],
   "note": "False for types without a specialisation, which share the code -1. Proved for tensors of supported types."
  },
  {
   "property": "C67",
   "status": "partial",
   "theorems": [
    "Zer.Tensor.c67_exact_code_partial",
    "Zer.Tensor.c67_readers",
    "Zer.Tensor.c67_json_refuted",
    "Zer.Tensor.c67_flex_refuted"
   ],
   "note": "False for JSON and Flex (accepted modulo 2^32). Proved for ZERA, MessagePack and CBOR on any bytes."
  },
  {
   "property": "C68",
   "status": "partial",
   "theorems": [
    "Zer.Tensor.c68_asking_partial",
    "Zer.Tensor.c68_json_asking",
    "Zer.Tensor.c68_asking_refuted"
   ],
   "note": "False for readers with range-checked narrow accessors and first elements outside -128..127. JSON: proved for any document."
  },
  {
   "property": "C69",
   "status": "partial",
   "theorems": [
    "Zer.Tensor.c69_xtensor_elements_partial",
    "Zer.Tensor.c69_eigen_elements_partial",
    "Zer.Tensor.c69_elements_refuted"
   ],
   "note": "False for column-major containers read by xtensor and for views with an offset. Proved for row-major xtensor and for Eigen with the same storage order."
  },
  {
   "property": "C70",
   "status": "partial",
   "theorems": [
    "Zer.Text.c70_colon_unique",
    "Zer.Text.c70_bar_unique",
    "Zer.MsgPack.c70_msgpack_text_partial",
    "Zer.Flex.c70_flex_text_partial",
    "Zer.Zera.c70_zera_refuted",
    "Zer.Cbor.c51_cbor_refuted",
    "Zer.Json.c70_json_text",
    "Zer.Json.c70_json_values",
    "Zer.Json.c70_json_values_refuted",
    "Zer.Json.c70_json_moved_refuted"
   ],
   "note": "Proved for MsgPack and Flex, and for JSON as far as documents are concerned (blobs and the arrays that look like them print the same). False for CBOR (unescaped strings) and ZERA (prints a summary)."
  },
  {
   "property": "C71",
   "status": "partial",
   "theorems": [
    "Zer.Zera.c71_zera_defined",
    "Zer.Zera.c71_zera_history",
    "Zer.Zera.c71_zera_partial",
    "Zer.Zera.c71_zera_spoiled",
    "Zer.Zera.c71_zera_refuted",
    "Zer.Json.Heap.c71_json_refused",
    "Zer.Flex.c71_flex_refused"
   ],
   "note": "False for ZERA: end_map with a pending key, or a refused closing call inside a container, changes what follows. ZERA: exact description of what is left behind and proof for all other refusals. JSON and Flex: proved. MsgPack never refuses; the state of the jsoncons encoder after an error is not modelled."
  },
  {
   "property": "C72",
   "status": "partial",
   "theorems": [
    "Zer.Zera.c72_zera_same_value",
    "Zer.Zera.c72_zera_again",
    "Zer.Flex.c72_flex_refuted",
    "Zer.Json.c72_json_once",
    "Zer.MsgPack.c72_msgpack_starts_over",
    "Zer.MsgPack.c72_msgpack_refuted",
    "Zer.Cbor.c72_cbor_refuted",
    "Zer.Cbor.c72_cbor_starts_over"
   ],
   "note": "ZERA and JSON: proved. False for MsgPack, CBOR and Flex, which return an empty buffer; Flex reads it as null."
  },
  {
   "property": "C73",
   "status": "partial",
   "theorems": [
    "Zer.Roots.Json.c73_json_partial",
    "Zer.Roots.Json.c73_json_leak",
    "Zer.Roots.Json.c73_json_leak_refuted",
    "Zer.Roots.Json.c73_json_copy_refuted",
    "Zer.Roots.Json.c73_json_move_refuted",
    "Zer.Roots.MsgPack.c73_msgpack_partial",
    "Zer.Roots.MsgPack.c73_msgpack_no_leak",
    "Zer.Roots.MsgPack.c73_msgpack_copy_refuted",
    "Zer.Roots.MsgPack.c73_msgpack_move_refuted"
   ],
   "note": "False: JSON documents leak when writing raises, and copies share documents and buffers. Proved for every history without copies: JSON at most once, MsgPack exactly once."
  },
  {
   "property": "C74",
   "status": "partial",
   "theorems": [
    "Zer.MsgPack.c74_msgpack_partial",
    "Zer.MsgPack.c74_msgpack_refuted",
    "Zer.Cbor.c74_cbor",
    "Zer.Zera.c74_zera_partial",
    "Zer.Zera.c74_zera_refused",
    "Zer.Zera.c74_zera_refuted",
    "Zer.Json.c74_json_partial",
    "Zer.Json.c74_json_refuted",
    "Zer.Flex.c74_flex_refuted"
   ],
   "note": "CBOR: proved for everything serialized. MsgPack and ZERA: proved for values without repeated keys, false with them (a lost shadowed value is not noticed). JSON: proved for everything but single numbers, false for these. False for Flex, which is read from the end: every value is presented by a proper prefix of the serialization of a blob."
  },
  {
   "property": "C75",
   "status": "partial",
   "theorems": [
    "Zer.MsgPack.c75_msgpack",
    "Zer.MsgPack.c75_msgpack_no_other",
    "Zer.MsgPack.c75_msgpack_frames_partial",
    "Zer.Cbor.c75_cbor",
    "Zer.Cbor.c75_cbor_no_other",
    "Zer.Cbor.c75_cbor_frames_partial",
    "Zer.Zera.c75_zera",
    "Zer.Zera.c75_zera_no_other",
    "Zer.Zera.c75_zera_frames_partial",
    "Zer.Json.c75_json_partial",
    "Zer.Json.c75_json_no_other",
    "Zer.Json.c75_json_refuted",
    "Zer.Flex.c75_flex_partial",
    "Zer.Flex.c75_flex_refuted"
   ],
   "note": "MsgPack, CBOR and ZERA: proved for arbitrary input bytes, by a simulation between the readers of both buffers. With C74: the prefixes of a stream that present a value are exactly those containing the first message. False for JSON: only white space may follow; proved that anything else is refused, except after a single number. False for Flex, where bytes that follow replace the message; proved that bytes in front of it are ignored."
  },
  {
   "property": "C76",
   "status": "partial",
   "theorems": [
    "Zer.MsgPack.c76_msgpack_partial",
    "Zer.MsgPack.c76_msgpack_refuted",
    "Zer.Cbor.c76_cbor_partial",
    "Zer.Cbor.c76_cbor_keys_partial",
    "Zer.Cbor.c76_cbor_refuted",
    "Zer.Zera.c76_zera_partial",
    "Zer.Zera.c76_zera_refuted",
    "Zer.Json.c76_json",
    "Zer.Flex.c76_flex_partial",
    "Zer.Flex.c76_flex_refuted",
    "Zer.Flex.c76_flex_any",
    "Zer.Flex.c76_flex_written",
    "Zer.Flex.c76_flex_short"
   ],
   "note": "JSON: proved. MsgPack, CBOR, ZERA: proved for arbitrary bytes except for values and elements that are not completely in the buffer; CBOR mapKeys additionally disagrees after simple values of two bytes and with lengths that wrap. Flex: proved for everything the writer produces and for every valid document in key order; on arbitrary bytes the parts that hold are proved and the others refuted."
  },
  {
   "property": "C77",
   "status": "partial",
   "theorems": [
    "Zer.c77_calls_partial",
    "Zer.c77_calls_refuted",
    "Zer.MsgPack.c77_msgpack_partial",
    "Zer.MsgPack.c77_msgpack_refuted",
    "Zer.Cbor.c77_cbor_partial",
    "Zer.Cbor.c77_cbor_refuted",
    "Zer.Zera.c77_zera_partial",
    "Zer.Zera.c77_zera_refuted",
    "Zer.Zera.c77_zera_shared_refuted",
    "Zer.Json.c77_json_refuted",
    "Zer.Flex.c77_flex_refuted"
   ],
   "note": "Proved for values without repeated keys, every reader: the same calls as for writing the source, at most two per byte for MsgPack and CBOR. False for nested repeated keys in every protocol (2^d calls for 6d+1 bytes), and for ZERA and Flex buffers that share elements."
  },
  {
   "property": "C78",
   "status": "partial",
   "theorems": [
    "Zer.c78_translate",
    "Zer.c78_walk_iff",
    "Zer.MsgPack.c78_msgpack",
    "Zer.MsgPack.c78_msgpack_to_zera",
    "Zer.Zera.c78_zera",
    "Zer.Zera.c78_zera_to_zera",
    "Zer.Flex.c78_flex",
    "Zer.Json.c78_json_partial",
    "Zer.Json.c78_json_refuted",
    "Zer.Cbor.c78_cbor_partial",
    "Zer.Cbor.c78_cbor_refuted"
   ],
   "note": "MsgPack and ZERA: proved for arbitrary bytes; Flex: for arbitrary bytes shorter than 2^60. JSON: proved for documents without numbers above INT64_MAX, false with them. CBOR: proved where maps list what they contain and numbers fit int64_t, false otherwise."
  },
  {
   "property": "C79",
   "status": "partial",
   "theorems": [
    "Zer.c79_translate_partial",
    "Zer.MsgPack.c79_translate_refuted",
    "Zer.MsgPack.c79_msgpack_partial",
    "Zer.MsgPack.c79_msgpack_value",
    "Zer.MsgPack.c79_msgpack_refuted",
    "Zer.Cbor.c79_cbor_partial",
    "Zer.Cbor.c79_cbor_value",
    "Zer.Cbor.c79_cbor_same",
    "Zer.Cbor.c79_cbor_refuted",
    "Zer.Cbor.c79_to_cbor"
   ],
   "note": "False: for every stack there is a message of as many bytes that overflows mp_skip, the CBOR skip (also by tags) and write_value. Proved: the exact depth on arbitrary bytes, its value on encodings, and the constant bound of translations to CBOR."
  },
  {
   "property": "C80",
   "status": "partial",
   "theorems": [
    "Zer.Typed.c80_zera",
    "Zer.Typed.c80_msgpack",
    "Zer.Typed.c80_cbor",
    "Zer.Typed.c80_json",
    "Zer.Typed.c80_flex",
    "Zer.Typed.c80_zera_kind",
    "Zer.Typed.c80_flex_kind",
    "Zer.Typed.c80_msgpack_kind_refuted"
   ],
   "note": "ZERA: proved for all values. CBOR: for all values whose bytes fit 64-bit sizes. MsgPack: for sizes within the format. JSON: for the values it round-trips (see C32) with the text layer as a parameter. Flex: integers through the accessors of the sign they were written with; distinct keys without NUL. The kind (isInt / isUInt) is kept by ZERA and Flex only."
  },
  {
   "property": "C81",
   "status": "proved",
   "theorems": [
    "Zer.Typed.c81_as_float",
    "Zer.Typed.c81_exact"
   ],
   "note": "For every reader: asFloat is static_cast<float>(asDouble()) in all five protocols, with IEC 559 conversion in the default rounding mode."
  },
  {
   "property": "C82",
   "status": "partial",
   "theorems": [
    "Zer.Typed.c82_translate",
    "Zer.Typed.c82_to_all",
    "Zer.Typed.c82_to_flex_partial",
    "Zer.Typed.c82_msgpack_flex_refuted",
    "Zer.Typed.c82_json_flex_refuted"
   ],
   "note": "Proved for every source protocol with a round trip into ZERA, MsgPack, CBOR and JSON (C82 under the same conditions as C80 of the destination). Into Flex: proved from ZERA and Flex, false from MsgPack and JSON, because they do not keep the signedness and the Flex accessors insist on it."
  },
  {
   "property": "C83",
   "status": "partial",
   "theorems": [
    "Zer.c83_translate_partial",
    "Zer.c83_shape_partial",
    "Zer.MsgPack.c83_msgpack_partial",
    "Zer.MsgPack.c83_msgpack_refuted",
    "Zer.Cbor.c83_cbor_partial",
    "Zer.Cbor.c83_cbor_refuted",
    "Zer.Zera.c83_zera_partial",
    "Zer.Zera.c83_zera_any",
    "Zer.c83_zera_exact"
   ],
   "note": "False: five bytes of MessagePack make translate<Zera> reserve nearly 64 GiB, nine bytes of CBOR any amount up to 2^63-12 or raise length_error. Proved: linear for every encoding of a value (even with repeated keys), the exact amount that writing a value needs, and for single reservations from any ZERA buffer. The other writers ignore the hints."
  },
  {
   "property": "C84",
   "status": "partial",
   "theorems": [
    "Zer.MsgPack.c84_msgpack_skip_partial",
    "Zer.MsgPack.c84_msgpack_skip_any_partial",
    "Zer.MsgPack.c84_msgpack_enc_partial",
    "Zer.MsgPack.c84_msgpack_refuted",
    "Zer.MsgPack.c84_msgpack_lookups_partial",
    "Zer.Cbor.c84_cbor_skip_partial",
    "Zer.Cbor.c84_cbor_item_partial",
    "Zer.Cbor.c84_cbor_refuted",
    "Zer.Cbor.c84_cbor_lookups_partial"
   ],
   "note": "False: ten bytes of MessagePack take 2^32 calls of mp_skip, eighteen bytes of CBOR 2^64 calls of skip, because a wrapped length makes an item take no bytes. Proved: one step per byte for all bytes without such lengths, and for all encodings; lookups likewise."
  },
  {
   "property": "C85",
   "status": "partial",
   "theorems": [
    "Zer.MsgPack.c85_msgpack_refuted",
    "Zer.MsgPack.c85_msgpack_calls_partial",
    "Zer.MsgPack.c85_msgpack_partial",
    "Zer.Cbor.c85_cbor_refuted",
    "Zer.Cbor.c85_cbor_calls_partial",
    "Zer.Cbor.c85_cbor_partial",
    "Zer.Zera.c85_zera_refuted",
    "Zer.Zera.c85_zera_map_refuted",
    "Zer.Zera.c85_zera_calls_partial",
    "Zer.Zera.c85_zera_partial",
    "Zer.Flex.c85_flex_calls_partial",
    "Zer.Flex.c85_flex_written"
   ],
   "note": "False: an array of n nulls takes n(n+1)/2 steps (MessagePack) or n(n-1)/2 (CBOR), a ZERA map of n different keys takes n(n+1)/2 or more. Proved: a quadratic bound for all encodings and serializations of values without repeated keys; for any bytes the product of the number of writer calls and: 4 or 8 times the length (MessagePack, CBOR, no huge lengths), a twentieth of the envelope (ZERA), the number of binary digits of the length (Flex); for messages that Flex has written, twice the length times the number of binary digits."
  },
  {
   "property": "C86",
   "status": "partial",
   "theorems": [
    "Zer.Json.c86_json_accepts",
    "Zer.Json.c86_json_unambiguous",
    "Zer.Json.c86_json_reader_partial",
    "Zer.Json.c86_json_reader_refuted",
    "Zer.Json.c86_json_number"
   ],
   "note": "The grammar of RFC 8259 as inductive predicates; the reader of texts (standing for yyjson_read without flags) accepts exactly these, and numbers become the integer or the nearest double. False for arrays that look like blobs and for integers from 2^63 on (asInt64 wraps); proved for all other documents."
  },
  {
   "property": "C87",
   "status": "proved",
   "theorems": [
    "Zer.Json.c87_json_output",
    "Zer.Json.c87_json_lines"
   ],
   "note": "For every sequence of calls, also malformed ones. The writer of texts stands for yyjson_mut_write without flags; the digits of doubles are a parameter of which only is assumed that they are a JSON number that reads back."
  },
  {
   "property": "C88",
   "status": "partial",
   "theorems": [
    "Zer.Flex.c88_flex_terminated",
    "Zer.Flex.c88_to_flex_partial",
    "Zer.Flex.c88_flex_string_view",
    "Zer.Flex.c88_cbor_to_flex_refuted",
    "Zer.Flex.c88_msgpack_to_flex_refuted",
    "Zer.Zera.c88_zera_to_flex_refuted"
   ],
   "note": "False with Flex as destination: flexbuffers copies the byte behind every string, and translate passes views into the source. Proved for any source: the translation is right if that byte exists, and undefined if it does not. It does not exist exactly if: CBOR and MessagePack (every encoding of every value), the document ends in a string and nothing follows it; ZERA (every message of the writer, every inline threshold), the arena ends with a string. From JSON and Flex it always exists. The writers of ZERA, MessagePack, CBOR and JSON take the bytes of the view only (by transcription, not a theorem)."
  },
  {
   "property": "C89",
   "status": "partial",
   "theorems": [
    "Zer.c89_route",
    "Zer.c89_return",
    "Zer.c89_route_strict",
    "Zer.c89_zera",
    "Zer.c89_msgpack",
    "Zer.c89_cbor",
    "Zer.c89_json",
    "Zer.c89_flex_partial",
    "Zer.c89_flex_refuted",
    "Zer.c89_signs_refuted",
    "Zer.c89_repeated_refuted",
    "Zer.c89_msgpack_normal",
    "Zer.c89_cbor_normal",
    "Zer.c89_json_normal"
   ],
   "note": "Proved for values without repeated keys: for MsgPack, CBOR and JSON through any chain of protocols that carry the value, for ZERA and Flex through chains that keep the signedness of integers (Flex: maps with sorted keys); for MsgPack, CBOR and JSON also from every encoding of the value, where one translation gives the bytes of serialize and a second one changes nothing. False for ZERA and Flex through MsgPack (signedness), for Flex with maps out of order, and with repeated keys."
  },
  {
   "property": "C90",
   "status": "partial",
   "theorems": [
    "Zer.MsgPack.c90_msgpack",
    "Zer.MsgPack.c90_msgpack_translate",
    "Zer.MsgPack.c90_msgpack_refuted",
    "Zer.Cbor.c90_cbor",
    "Zer.Cbor.c90_cbor_translate",
    "Zer.Cbor.c90_cbor_refuted",
    "Zer.Json.c90_json",
    "Zer.Json.c90_json_translate",
    "Zer.Zera.c90_zera_refuted",
    "Zer.Flex.c90_flex_refuted"
   ],
   "note": "Proved with the exact excess: MsgPack 4 bytes for every double that is a single; CBOR 2 bytes for halves, more for NaNs, and the counts of large containers if indefinite lengths are permitted. JSON: nothing but the texts of doubles, whose digits are a parameter. False because of these (1.5 takes nine and five bytes), and for ZERA and Flex, where references may share what they point to."
  },
  {
   "property": "C91",
   "status": "partial",
   "theorems": [
    "Zer.Zera.c91_zera_reader",
    "Zer.Zera.c91_zera_writer",
    "Zer.Zera.c91_zera_serialize",
    "Zer.Zera.c91_zera_exact",
    "Zer.Zera.c91_zera_strict",
    "Zer.Zera.c91_zera_unambiguous",
    "Zer.Zera.c91_zera_size_refuted",
    "Zer.Zera.c91_zera_typed_array",
    "Zer.Zera.c91_zera_matrix"
   ],
   "note": "ZERA.md restated as relations between bytes and values, without reference to the code. Proved: the writer's bytes are messages (strict form), all messages are read, messages are unambiguous, and a buffer below 4 GiB - 20 bytes presents a value with distinct keys exactly when the document says it stands for it. False: messages are not below 4 GiB (a blob of 2^32 - 1 bytes). Typed arrays of other element types than u8, or of another rank, have no value in this model; proved that the reader gives no access to them."
  },
  {
   "property": "C92",
   "status": "partial",
   "theorems": [
    "Zer.MsgPack.c92_msgpack_exact",
    "Zer.MsgPack.c92_msgpack_marker",
    "Zer.Cbor.c92_cbor_partial",
    "Zer.Cbor.c92_cbor_plain",
    "Zer.Cbor.c92_cbor_exact",
    "Zer.Cbor.c92_cbor_reserved_refuted",
    "Zer.Cbor.c92_cbor_length_refuted",
    "Zer.Zera.c91_zera_exact",
    "Zer.Json.c86_json_accepts",
    "Zer.Cbor.c92_cbor_dialect",
    "Zer.Flex.c93_flex_exact"
   ],
   "note": "Values with distinct keys (a value behind a repeated key is never looked at). MsgPack: proved as an equivalence with the specification, nested strings below 2^32-5 bytes. CBOR: false for the reserved bytes 0x1f and 0x3f, read as 0 and -1, and for lengths that wrap a 64-bit offset (a map of two entries presented as one); proved as an equivalence with the dialect that adds the two bytes, and with the format itself without them. ZERA, JSON and Flex: C91, C86 and C93."
  },
  {
   "property": "C93",
   "status": "partial",
   "theorems": [
    "Zer.Flex.c93_flex_reads_partial",
    "Zer.Flex.c93_flex_writes",
    "Zer.Flex.c93_flex_exact",
    "Zer.Flex.c93_flex_unambiguous",
    "Zer.Flex.c93_flex_typed_refuted",
    "Zer.Flex.c93_flex_key_refuted",
    "Zer.Flex.c93_flex_view_refuted"
   ],
   "note": "The FlexBuffers format restated as a relation between bytes and documents, without reference to the code. Proved: what is written is in the format; every document without typed vectors, keys as values and repeated keys is read; a buffer below 2^56 bytes presents a value with distinct keys exactly when it satisfies a weakened set of rules (no alignment, no NUL behind strings, typed vectors empty); no bytes stand for two documents. False: typed vectors are read as empty arrays, keys as values have no kind, strings translated from views are not terminated."
  },
  {
   "property": "C94",
   "status": "partial",
   "theorems": [
    "Zer.Flex.c94_flex_dump_partial",
    "Zer.Flex.c94_flex_dump_written",
    "Zer.Flex.c94_flex_dump_unique",
    "Zer.Flex.c94_flex_dump_values",
    "Zer.Flex.c94_flex_dump_blob_refuted",
    "Zer.Flex.c94_flex_dump_refuted",
    "Zer.Flex.c94_flex_dump_typed_refuted",
    "Zer.Flex.c94_flex_dump_empty_refuted"
   ],
   "note": "Proved for every buffer of the format without typed vectors and indirect numbers, in particular for everything that is written (distinct keys without NUL), with the exact relation of documents that print the same. False for indirect numbers, which the reader reads (printed as unknown), for typed vectors (no elements, or unknown), and for no bytes (undefined, where the reader presents null)."
  },
  {
   "property": "C95",
   "status": "partial",
   "theorems": [
    "Zer.Zera.c95_zera_lookup",
    "Zer.Zera.c95_zera_exact",
    "Zer.Flex.c95_flex_search_partial",
    "Zer.Flex.c95_flex_listed",
    "Zer.Flex.c34_flex_search_refuted"
   ],
   "note": "ZERA: proved for all bytes below 2^32 - 20, with the exact number of entries where the keys can be listed. Flex: proved for all bytes that claim at most 2^63 keys, and wherever the keys can be listed; the search never ends on a crafted buffer that claims more. Steps are keys, not their bytes."
  },
  {
   "property": "C96",
   "status": "partial",
   "theorems": [
    "Zer.MsgPack.c96_msgpack_kept",
    "Zer.Zera.View.c96_zera_kept",
    "Zer.Zera.View.c96_zera_temporary_exact",
    "Zer.Zera.View.c96_zera_temporary_refuted",
    "Zer.Flex.c96_flex_kept",
    "Zer.Flex.c96_flex_one_range",
    "Zer.Flex.c96_flex_two_calls_refuted",
    "Zer.Cbor.View.c96_cbor_kept_partial",
    "Zer.Cbor.View.c96_cbor_kept_exact",
    "Zer.Cbor.View.c96_cbor_definite_kept",
    "Zer.Cbor.View.c96_cbor_kept_refuted",
    "Zer.Json.c96_json_two_calls",
    "Zer.Json.c96_json_two_objects",
    "Zer.Life.c48_json_usable_iff"
   ],
   "note": "Keeping the views: proved for MessagePack, ZERA and Flex on any bytes, and for CBOR of definite lengths; false of CBOR exactly if a key is written in chunks (the view points into the iterator). Temporary readers: false of ZERA before C++23 for every map with keys (the range points to the reader); the others hold the bytes. Two calls: false of Flex for every map (iterators compare the addresses of their ranges). JSON: two calls go together, and the keys can be kept exactly as long as the document has an owner."
  },
  {
   "property": "C97",
   "status": "partial",
   "theorems": [
    "Zer.MsgPack.c97_msgpack",
    "Zer.Cbor.c97_cbor",
    "Zer.Zera.c97_zera",
    "Zer.Json.c97_json",
    "Zer.Json.c97_json_keys",
    "Zer.Flex.c97_flex_partial",
    "Zer.Flex.c97_flex_keys_once",
    "Zer.Flex.c97_flex_grows_refuted",
    "Zer.c97_between"
   ],
   "note": "Proved for MessagePack, CBOR (1 to 9 bytes for every value and key besides the bytes held), ZERA (4 to 43, and 20 to 35 once) and JSON (up to 6 bytes for a byte, and one more than the longest text of a double for every value and key; key bytes below only if no key holds NUL). Flex: upper bound proved; the lower bound does not hold for the bytes of keys, which are written once however often they occur, so that translating a Flex message into MessagePack can make it larger by any factor."
  },
  {
   "property": "C98",
   "status": "partial",
   "theorems": [
    "Zer.c98_readers",
    "Zer.MsgPack.c98_msgpack",
    "Zer.Cbor.c98_cbor_partial",
    "Zer.Cbor.c98_cbor_refuted",
    "Zer.Zera.c98_zera",
    "Zer.Json.c98_json_partial",
    "Zer.Json.c98_json_refuted",
    "Zer.Flex.c98_flex_partial",
    "Zer.Flex.c98_flex_refuted",
    "Zer.c98_translate",
    "Zer.c98_translate_refuted",
    "Zer.c98_translate_json_refuted"
   ],
   "note": "Reading: proved for all five protocols, all bytes and positions. Writing: proved for ZERA (the std::out_of_range of write_u32_le_at is unreachable) and MessagePack (raises nothing); false for CBOR (the exception of jsoncons passes through), JSON (std::logic_error for an empty key, not even a std::runtime_error) and Flex (std::logic_error for misuse; writing a value raises nothing). Translating: std::runtime_error for a value of no kind; the exact set for every pair. Failing allocations are not included."
  },
  {
   "property": "C99",
   "status": "partial",
   "theorems": [
    "Zer.c99_same",
    "Zer.c99_same_strict",
    "Zer.c99_equal",
    "Zer.c99_iff",
    "Zer.Cbor.c99_into_cbor",
    "Zer.MsgPack.c99_into_msgpack",
    "Zer.Json.c99_into_json_partial",
    "Zer.Zera.c99_into_zera_partial",
    "Zer.MsgPack.c99_msgpack",
    "Zer.MsgPack.c99_msgpack_zera",
    "Zer.c99_zera_refuted",
    "Zer.Cbor.c99_from_cbor_refuted",
    "Zer.Json.c99_from_json_refuted"
   ],
   "note": "Generic theorem for any two readers and any target, with the five formats as targets. False into ZERA and Flex where the sources differ in the sign of an integer, and for sources that present no single document (witnesses)."
  }
 ]
}