import Verif.Props.Accept
import Verif.Props.Again
import Verif.Props.Aligned
import Verif.Props.Amplify
import Verif.Props.Arrived
import Verif.Props.Base64
import Verif.Props.Behind
import Verif.Props.Borrow
import Verif.Props.Buffer
import Verif.Props.Catch
import Verif.Props.Cbor
import Verif.Props.Cost
import Verif.Props.Depth
import Verif.Props.Dump
import Verif.Props.Dyn
import Verif.Props.Errors
import Verif.Props.Evolve
import Verif.Props.Exact
import Verif.Props.Extend
import Verif.Props.Flex
import Verif.Props.FlexFormat
import Verif.Props.Float
import Verif.Props.Hostile
import Verif.Props.Hosts
import Verif.Props.Journey
import Verif.Props.Json
import Verif.Props.JsonKeys
import Verif.Props.JsonText
import Verif.Props.Lazy
import Verif.Props.LazyText
import Verif.Props.Life
import Verif.Props.Listing
import Verif.Props.Literal
import Verif.Props.Look
import Verif.Props.Lookup
import Verif.Props.Memory
import Verif.Props.MsgPack
import Verif.Props.Nested
import Verif.Props.Normal
import Verif.Props.Null
import Verif.Props.Order
import Verif.Props.Owning
import Verif.Props.Parts
import Verif.Props.Patch
import Verif.Props.Prefix
import Verif.Props.Program
import Verif.Props.Promise
import Verif.Props.PromiseKeys
import Verif.Props.PromiseMore
import Verif.Props.PromiseZera
import Verif.Props.Roots
import Verif.Props.Route
import Verif.Props.Settle
import Verif.Props.Shortest
import Verif.Props.Size
import Verif.Props.Sound
import Verif.Props.Splice
import Verif.Props.Tensor
import Verif.Props.Text
import Verif.Props.TextJson
import Verif.Props.Transcode
import Verif.Props.Translate
import Verif.Props.Typed
import Verif.Props.Within
import Verif.Props.Zera
import Verif.Props.ZeraFormat

/-!
# Axioms

The axioms every theorem named in MANIFEST.json depends on, printed when this file is built.
-/

#print axioms Zer.Zera.c01_zera_round_trip
#print axioms Zer.Zera.c01_zera_round_trip_default
#print axioms Zer.Zera.c02_zera_success_iff
#print axioms Zer.Zera.c02_zera_long_key
#print axioms Zer.Zera.c08_zera_length
#print axioms Zer.Zera.c03_zera_calls
#print axioms Zer.Zera.c03_zera_malformed
#print axioms Zer.Zera.c04_zera_open_clean
#print axioms Zer.Zera.c04_zera_reader_safe_partial
#print axioms Zer.Zera.c04_zera_default_clean
#print axioms Zer.Zera.c04_zera_reader_safe_refuted
#print axioms Zer.Zera.c05_zera_keys_partial
#print axioms Zer.Zera.c05_zera_keys_refuted
#print axioms Zer.Zera.c06_zera_string_view
#print axioms Zer.Zera.c06_zera_blob_view
#print axioms Zer.Zera.c07_zera_element_partial
#print axioms Zer.Zera.c07_zera_element_of_size
#print axioms Zer.Zera.c07_zera_element_refuted
#print axioms Zer.Zera.c08_zera_layout
#print axioms Zer.Zera.c09_zera_blob_aligned
#print axioms Zer.Zera.c10_zera_signed
#print axioms Zer.Zera.c10_zera_unsigned
#print axioms Zer.c100_recode
#print axioms Zer.c100_route
#print axioms Zer.c100_asked
#print axioms Zer.c100_settled
#print axioms Zer.c100_example
#print axioms Zer.Zera.c100_zera
#print axioms Zer.MsgPack.c100_msgpack
#print axioms Zer.Cbor.c100_cbor
#print axioms Zer.Json.c100_json
#print axioms Zer.Flex.c100_flex
#print axioms Zer.c100_route_any
#print axioms Zer.c100_route_sign
#print axioms Zer.c100_route_example
#print axioms Zer.Tensor.c101_zera
#print axioms Zer.Tensor.c101_zera_matrix
#print axioms Zer.Tensor.c101_document_partial
#print axioms Zer.Tensor.c101_foreign_refuted
#print axioms Zer.Tensor.c101_others_refuted
#print axioms Zer.Tensor.c102_xtensor
#print axioms Zer.Tensor.c102_matrix
#print axioms Zer.Tensor.c102_document_partial
#print axioms Zer.Tensor.c102_document_matrix
#print axioms Zer.Tensor.c102_longer_refuted
#print axioms Zer.Tensor.c102_sign_refuted
#print axioms Zer.Tensor.zera_codes
#print axioms Zer.Tensor.msgpack_codes
#print axioms Zer.Tensor.cbor_codes
#print axioms Zer.Tensor.flex_codes
#print axioms Zer.Tensor.json_codes
#print axioms Zer.Tensor.c103_outcomes
#print axioms Zer.Tensor.c103_zera_partial
#print axioms Zer.Tensor.c103_msgpack_partial
#print axioms Zer.Tensor.c103_cbor_partial
#print axioms Zer.Tensor.c103_json
#print axioms Zer.Tensor.c103_msgpack_refuted
#print axioms Zer.Tensor.c103_cbor_refuted
#print axioms Zer.Tensor.c103_flex_refuted
#print axioms Zer.Zera.c104_zera_write
#print axioms Zer.Zera.c104_zera_finish
#print axioms Zer.Zera.c104_zera_finish_refuted
#print axioms Zer.Zera.View.c104_zera_lookup
#print axioms Zer.Zera.View.c104_zera_lookup_refuted
#print axioms Zer.MsgPack.c104_msgpack_write
#print axioms Zer.Cbor.c104_cbor_write
#print axioms Zer.Json.c104_json_write_partial
#print axioms Zer.Json.c104_json_write_refuted
#print axioms Zer.Json.c104_json_lookup_partial
#print axioms Zer.Json.c104_json_lookup_refuted
#print axioms Zer.Flex.c104_flex_write_partial
#print axioms Zer.Flex.c104_flex_write_refuted
#print axioms Zer.Tensor.c104_tensor_views
#print axioms Zer.Tensor.c104_tensor_refuted
#print axioms Zer.Cbor.c105_cbor
#print axioms Zer.Cbor.c105_cbor_arrives
#print axioms Zer.MsgPack.c105_msgpack_partial
#print axioms Zer.MsgPack.c105_msgpack_arrives
#print axioms Zer.MsgPack.c105_msgpack_refuted
#print axioms Zer.Zera.c105_zera_partial
#print axioms Zer.Zera.c105_zera_arrives
#print axioms Zer.Zera.c105_zera_refuted
#print axioms Zer.Json.c105_json_refuted
#print axioms Zer.Flex.c105_flex_refuted
#print axioms Zer.MsgPack.c106_msgpack
#print axioms Zer.Cbor.c106_cbor
#print axioms Zer.Zera.c106_zera_calls
#print axioms Zer.Zera.c106_zera
#print axioms Zer.Zera.c106_zera_place
#print axioms Zer.Flex.c106_flex
#print axioms Zer.Flex.c106_flex_value
#print axioms Zer.Json.c106_json
#print axioms Zer.Proto.Overwrites.put
#print axioms Zer.c106_example
#print axioms Zer.MsgPack.c107_msgpack
#print axioms Zer.MsgPack.c107_msgpack_parts
#print axioms Zer.MsgPack.c107_msgpack_view
#print axioms Zer.Cbor.c107_cbor
#print axioms Zer.Json.c107_json
#print axioms Zer.Zera.c107_zera_refuted
#print axioms Zer.Flex.c107_flex_refuted
#print axioms Zer.Proto.Splices.part
#print axioms Zer.c107_example
#print axioms Zer.Zera.c108_zera_open
#print axioms Zer.Zera.c108_zera_path
#print axioms Zer.Zera.c108_zera_read
#print axioms Zer.Zera.c108_zera_scalars
#print axioms Zer.Flex.c108_flex_open
#print axioms Zer.Flex.c108_flex_path
#print axioms Zer.Flex.c108_flex_read
#print axioms Zer.Flex.c108_flex_scalars
#print axioms Zer.MsgPack.c108_msgpack_open
#print axioms Zer.Cbor.c108_cbor_open
#print axioms Zer.MsgPack.c108_msgpack_refuted
#print axioms Zer.Cbor.c108_cbor_refuted
#print axioms Zer.Json.c108_json_refuted
#print axioms Zer.c108_example
#print axioms Zer.Zera.c108_zera_text
#print axioms Zer.Flex.c108_flex_text
#print axioms Zer.c109_program
#print axioms Zer.c109_written
#print axioms Zer.c109_translated
#print axioms Zer.c109_flex
#print axioms Zer.c109_formats
#print axioms Zer.c109_refuted
#print axioms Zer.c109_example
#print axioms Zer.c109_arrived
#print axioms Zer.c109_terminals
#print axioms Zer.Zera.c11_zera_narrow_signed
#print axioms Zer.Zera.c11_zera_narrow_signed_throws
#print axioms Zer.Zera.c11_zera_narrow_unsigned
#print axioms Zer.Zera.c11_zera_narrow_unsigned_throws
#print axioms Zer.MsgPack.c11_msgpack_narrow_signed
#print axioms Zer.MsgPack.c11_msgpack_narrow_unsigned
#print axioms Zer.MsgPack.c11_msgpack_narrow_stored
#print axioms Zer.MsgPack.c11_msgpack_narrow_refuted
#print axioms Zer.Cbor.c11_cbor_narrow_signed
#print axioms Zer.Cbor.c11_cbor_narrow_unsigned
#print axioms Zer.Cbor.c11_cbor_narrow_stored
#print axioms Zer.Cbor.c11_cbor_narrow_refuted
#print axioms Zer.Json.c11_json_narrow_refuted
#print axioms Zer.Json.c11_json_narrow_partial
#print axioms Zer.Flex.c11_flex_narrow_refuted
#print axioms Zer.Flex.c11_flex_narrow_partial
#print axioms Zer.c110_new_members
#print axioms Zer.c110_written
#print axioms Zer.c110_grown
#print axioms Zer.c110_grown_written
#print axioms Zer.c110_flex
#print axioms Zer.c110_example
#print axioms Zer.c110_refuted
#print axioms Zer.c110_arrived
#print axioms Zer.Dyn.c111_builder
#print axioms Zer.Dyn.c111_literal_partial
#print axioms Zer.Dyn.c111_flex_partial
#print axioms Zer.Dyn.c111_dyn_partial
#print axioms Zer.Dyn.c111_literal_refuted
#print axioms Zer.Dyn.c112_owns_partial
#print axioms Zer.Dyn.c112_view_refuted
#print axioms Zer.Tensor.c113_memcpy
#print axioms Zer.Tensor.c113_tensor_exact
#print axioms Zer.Tensor.c113_matrix_exact
#print axioms Zer.Tensor.c113_tensor_partial
#print axioms Zer.Tensor.c113_tensor_refuted
#print axioms Zer.Tensor.c113_complex_refuted
#print axioms Zer.c114_route
#print axioms Zer.c114_written
#print axioms Zer.c114_flex_exact
#print axioms Zer.c114_flex_refuted
#print axioms Zer.c115_presented
#print axioms Zer.c115_written
#print axioms Zer.Json.c115_json_partial
#print axioms Zer.Json.c115_json_blob_exact
#print axioms Zer.Json.c115_json_refuted
#print axioms Zer.Cbor.c115_cbor_numbers
#print axioms Zer.Cbor.c115_cbor_refuted
#print axioms Zer.MsgPack.c115_msgpack_numbers
#print axioms Zer.MsgPack.c115_msgpack_refuted
#print axioms Zer.Zera.c115_zera_numbers
#print axioms Zer.Zera.c115_zera_refuted
#print axioms Zer.Flex.c115_flex_sure
#print axioms Zer.MsgPack.c115_msgpack_bytes
#print axioms Zer.Cbor.c115_cbor_bytes
#print axioms Zer.Zera.c115_zera_strings
#print axioms Zer.Zera.c115_zera_bool
#print axioms Zer.Zera.c115_zera_array
#print axioms Zer.Zera.c115_zera_blob
#print axioms Zer.Zera.c115_zera_elements
#print axioms Zer.Zera.c115_zera_keys
#print axioms Zer.Flex.c115_flex_refuted
#print axioms Zer.c116_again
#print axioms Zer.Zera.c116_zera
#print axioms Zer.MsgPack.c116_msgpack
#print axioms Zer.Cbor.c116_cbor_partial
#print axioms Zer.Json.c116_json_partial
#print axioms Zer.Flex.c116_flex_partial
#print axioms Zer.MsgPack.c116_any
#print axioms Zer.Zera.c116_any
#print axioms Zer.Flex.c116_flex_refuted
#print axioms Zer.Cbor.c116_cbor_refuted
#print axioms Zer.c117_part
#print axioms Zer.c117_any
#print axioms Zer.Zera.c117_zera
#print axioms Zer.MsgPack.c117_msgpack
#print axioms Zer.Cbor.c117_cbor_partial
#print axioms Zer.Json.c117_json_partial
#print axioms Zer.Flex.c117_flex_partial
#print axioms Zer.Flex.c117_flex_refuted
#print axioms Zer.Zera.c12_zera_injective
#print axioms Zer.MsgPack.c12_msgpack_injective_partial
#print axioms Zer.MsgPack.c12_msgpack_prefix_free
#print axioms Zer.MsgPack.c12_msgpack_injective_refuted
#print axioms Zer.Cbor.c12_cbor_injective
#print axioms Zer.Cbor.c12_cbor_same
#print axioms Zer.Cbor.c12_cbor_prefix_free
#print axioms Zer.Json.c12_json_injective_partial
#print axioms Zer.Flex.c12_flex_injective
#print axioms Zer.Flex.c12_flex_order_refuted
#print axioms Zer.Base64.c13_base64_round_trip
#print axioms Zer.Base64.c13_base64_injective
#print axioms Zer.Base64.c14_base64_rfc4648
#print axioms Zer.Base64.c14_base64_shape
#print axioms Zer.Base64.c15_base64_rejects_partial
#print axioms Zer.Base64.c15_base64_rejects_refuted
#print axioms Zer.Base64.c15_base64_accepts_wellFormed
#print axioms Zer.Base64.c15_base64_encoder_wellFormed
#print axioms Zer.MsgPack.c16_msgpack_reader_partial
#print axioms Zer.MsgPack.c16_msgpack_reader_refuted
#print axioms Zer.MsgPack.c17_msgpack_round_trip_partial
#print axioms Zer.MsgPack.c17_msgpack_root_string
#print axioms Zer.MsgPack.c17_msgpack_concat
#print axioms Zer.MsgPack.c17_msgpack_round_trip_refuted
#print axioms Zer.MsgPack.c18_msgpack_scalars
#print axioms Zer.MsgPack.c18_msgpack_reader_safe_partial
#print axioms Zer.MsgPack.c18_msgpack_reader_safe_refuted
#print axioms Zer.MsgPack.c19_msgpack_skip_terminates
#print axioms Zer.MsgPack.c19_msgpack_locating_terminates
#print axioms Zer.MsgPack.c19_msgpack_skip_bound
#print axioms Zer.MsgPack.c20_msgpack_int_partial
#print axioms Zer.MsgPack.c20_msgpack_int_refuted
#print axioms Zer.Cbor.c21_cbor_reader_partial
#print axioms Zer.Cbor.c21_cbor_reader_hardened_partial
#print axioms Zer.Cbor.c21_cbor_hardened_refuted
#print axioms Zer.Cbor.c22_cbor_indefinite_partial
#print axioms Zer.Cbor.c22_cbor_keys_refuted
#print axioms Zer.Cbor.c22_cbor_views_refuted
#print axioms Zer.Cbor.c23_cbor_accepts
#print axioms Zer.Cbor.c23_cbor_round_trip_partial
#print axioms Zer.Cbor.c23_cbor_format
#print axioms Zer.Cbor.c23_cbor_uint
#print axioms Zer.Cbor.c23_cbor_round_trip_refuted
#print axioms Zer.Cbor.c24_cbor_scalars
#print axioms Zer.Cbor.c24_cbor_wellformed_partial
#print axioms Zer.Cbor.c24_cbor_checked_partial
#print axioms Zer.Cbor.c24_cbor_reader_safe_refuted
#print axioms Zer.Cbor.c25_cbor_terminates_partial
#print axioms Zer.Cbor.c25_cbor_keys_terminate_partial
#print axioms Zer.Cbor.c25_cbor_terminates_refuted
#print axioms Zer.Cbor.c26_cbor_int_partial
#print axioms Zer.Cbor.c26_cbor_int_refuted
#print axioms Zer.Cbor.c26_cbor_malformed
#print axioms Zer.c27_translate
#print axioms Zer.c27_translate_pair
#print axioms Zer.Zera.c27_zera_to_zera
#print axioms Zer.MsgPack.c27_to_msgpack
#print axioms Zer.MsgPack.c27_zera_to_msgpack
#print axioms Zer.MsgPack.c27_msgpack_to_zera
#print axioms Zer.MsgPack.c27_msgpack_to_msgpack
#print axioms Zer.Cbor.c27_to_cbor
#print axioms Zer.Cbor.c27_from_cbor
#print axioms Zer.Cbor.c27_cbor_to_all
#print axioms Zer.Cbor.c27_all_to_cbor
#print axioms Zer.Json.c27_to_json
#print axioms Zer.Json.c27_from_json
#print axioms Zer.Json.c27_json_to_all
#print axioms Zer.Json.c27_all_to_json
#print axioms Zer.Json.c27_json_refuted
#print axioms Zer.Flex.c27_to_flex
#print axioms Zer.Flex.c27_from_flex
#print axioms Zer.Flex.c27_flex_to_all
#print axioms Zer.Flex.c27_all_to_flex
#print axioms Zer.Flex.c27_flex_nul_refuted
#print axioms Zer.c28_translate_terminates_partial
#print axioms Zer.Zera.c28_translate_terminates_refuted
#print axioms Zer.MsgPack.c28_msgpack_source
#print axioms Zer.MsgPack.c28_msgpack_to_zera
#print axioms Zer.Cbor.c28_cbor_source_partial
#print axioms Zer.Cbor.c28_cbor_to_all_partial
#print axioms Zer.Cbor.c28_cbor_source_refuted
#print axioms Zer.Json.c28_json_source
#print axioms Zer.Json.c28_json_to_all
#print axioms Zer.Flex.c28_flex_source_partial
#print axioms Zer.Flex.c28_flex_source_refuted
#print axioms Zer.Flex.c28_flex_to_all_partial
#print axioms Zer.Cbor.c28_to_cbor
#print axioms Zer.Zera.c29_zera_uint
#print axioms Zer.MsgPack.c29_msgpack_uint
#print axioms Zer.Cbor.c29_cbor_uint_partial
#print axioms Zer.Cbor.c29_cbor_uint_refuted
#print axioms Zer.Json.c29_json_uint_partial
#print axioms Zer.Json.c29_json_uint_refuted
#print axioms Zer.Flex.c29_flex_uint
#print axioms Zer.Flex.c29_to_flex
#print axioms Zer.c30_repeated_keys_partial
#print axioms Zer.Zera.c30_repeated_keys_refuted
#print axioms Zer.Flex.c30_flex_repeated_partial
#print axioms Zer.Json.c31_json_calls_partial
#print axioms Zer.Json.c31_json_calls_refuted
#print axioms Zer.Json.c32_json_round_trip_partial
#print axioms Zer.Json.c32_json_refuses
#print axioms Zer.Json.c32_json_uint
#print axioms Zer.Json.c32_json_round_trip_refuted
#print axioms Zer.Json.c32_json_rfc_partial
#print axioms Zer.Json.c33_json_blob_confusion_refuted
#print axioms Zer.Json.c33_json_strings_partial
#print axioms Zer.Flex.c34_flex_lookup
#print axioms Zer.Flex.c34_flex_lookup_distinct
#print axioms Zer.Flex.c34_flex_lookup_any
#print axioms Zer.Flex.c34_flex_search_refuted
#print axioms Zer.Flex.c34_flex_search_ends
#print axioms Zer.Flex.c35_flex_round_trip
#print axioms Zer.Flex.c35_sort_keeps
#print axioms Zer.Flex.c35_flex_nul_refuted
#print axioms Zer.Dyn.c36_same_calls
#print axioms Zer.Dyn.c36_same_bytes
#print axioms Zer.Dyn.c36_announced_sizes
#print axioms Zer.Dyn.c36_numbers
#print axioms Zer.Dyn.c36_dyn_construct
#print axioms Zer.Dyn.c36_std_map
#print axioms Zer.Dyn.c36_bad_arguments
#print axioms Zer.Dyn.c36_flex_std_map
#print axioms Zer.Tensor.c37_tensor_round_trip_partial
#print axioms Zer.Tensor.c37_matrix_round_trip
#print axioms Zer.Tensor.c37_tensor_empty_refuted
#print axioms Zer.Tensor.c37_truncated_refuted
#print axioms Zer.Tensor.c37_domains
#print axioms Zer.Tensor.c37_xtensor_written
#print axioms Zer.Tensor.c37_eigen_written
#print axioms Zer.Tensor.c37_xtensor_end_to_end_partial
#print axioms Zer.Tensor.c37_eigen_end_to_end
#print axioms Zer.Tensor.c37_nested_partial
#print axioms Zer.Tensor.c37_nested_matrix
#print axioms Zer.Tensor.c38_xtensor_view_partial
#print axioms Zer.Tensor.c38_eigen_view_partial
#print axioms Zer.Tensor.c38_xtensor_owned
#print axioms Zer.Tensor.c38_eigen_owned
#print axioms Zer.Tensor.c38_view_defined
#print axioms Zer.Tensor.c38_view_refuted
#print axioms Zer.Tensor.c39_xtensor_zero_copy
#print axioms Zer.Tensor.c39_eigen_zero_copy
#print axioms Zer.Tensor.c39_formats
#print axioms Zer.Tensor.c40_tensor_shape
#print axioms Zer.Tensor.c40_tensor_shape_other
#print axioms Zer.Tensor.c40_tensor_shape_sound
#print axioms Zer.Tensor.c40_json_blob
#print axioms Zer.Tensor.c41_count_product
#print axioms Zer.Tensor.c41_count_exact
#print axioms Zer.Tensor.c41_count_iff
#print axioms Zer.Tensor.c42_dtype_codes
#print axioms Zer.Buf.c43_balance
#print axioms Zer.Buf.c43_released_once
#print axioms Zer.Buf.c43_nothing_else
#print axioms Zer.Buf.c44_observers_partial
#print axioms Zer.Buf.c44_owned
#print axioms Zer.Buf.c44_alive
#print axioms Zer.Buf.c44_copies
#print axioms Zer.Buf.c44_observers_refuted
#print axioms Zer.Buf.c45_adoption
#print axioms Zer.Buf.c45_reported_partial
#print axioms Zer.Buf.c45_reported_refuted
#print axioms Zer.Buf.c45_late_refuted
#print axioms Zer.Buf.c46_hexdump_partial
#print axioms Zer.Buf.c46_hexdump_injective
#print axioms Zer.Buf.c46_hexdump_refuted
#print axioms Zer.Life.c47_moved_partial
#print axioms Zer.Life.c47_usable_iff
#print axioms Zer.Life.c47_balance
#print axioms Zer.Life.c47_copied_refuted
#print axioms Zer.Life.c48_json_balance
#print axioms Zer.Life.c48_json_alive
#print axioms Zer.Life.c48_json_no_leak
#print axioms Zer.Life.c48_json_views_dangle
#print axioms Zer.Life.c48_json_usable_iff
#print axioms Zer.c49_half_exact
#print axioms Zer.c50_single_exact
#print axioms Zer.c50_shrink_lossless
#print axioms Zer.c50_shrink_complete
#print axioms Zer.Text.c51_escape_form
#print axioms Zer.Text.c51_escape_clean
#print axioms Zer.Text.c51_escape_injective
#print axioms Zer.Cbor.c51_cbor_refuted
#print axioms Zer.Json.c51_json_escape
#print axioms Zer.MsgPack.c52_msgpack_text_partial
#print axioms Zer.MsgPack.c52_msgpack_text_refuted
#print axioms Zer.MsgPack.c52_msgpack_text_ends
#print axioms Zer.MsgPack.c52_msgpack_text_safe_partial
#print axioms Zer.MsgPack.c52_msgpack_text_safe_refuted
#print axioms Zer.Flex.c52_flex_text_partial
#print axioms Zer.Flex.c52_flex_text
#print axioms Zer.Flex.c52_flex_text_safe_refuted
#print axioms Zer.Zera.c52_zera_text
#print axioms Zer.Zera.c52_zera_text_safe_partial
#print axioms Zer.Cbor.c52_cbor_text_partial
#print axioms Zer.Cbor.c52_cbor_arrays_refuted
#print axioms Zer.Cbor.c52_cbor_text_refuted
#print axioms Zer.Json.c52_json_text
#print axioms Zer.Json.c52_json_again
#print axioms Zer.Json.c52_json_compact
#print axioms Zer.Cbor.c52_cbor_chunked
#print axioms Zer.Cbor.c52_cbor_chunked_string
#print axioms Zer.Zera.c53_zera_empty_null
#print axioms Zer.MsgPack.c53_msgpack_empty_refuted
#print axioms Zer.Cbor.c53_cbor_empty
#print axioms Zer.Json.c53_json_empty
#print axioms Zer.Flex.c53_flex_empty
#print axioms Zer.Zera.c54_zera_kinds_exclusive
#print axioms Zer.MsgPack.c54_msgpack_kinds_exclusive
#print axioms Zer.MsgPack.c54_msgpack_some_kind
#print axioms Zer.Cbor.c54_cbor_kinds_exclusive
#print axioms Zer.Json.c54_json_kinds_refuted
#print axioms Zer.Json.c54_json_kinds_partial
#print axioms Zer.Flex.c54_flex_kinds
#print axioms Zer.Flex.c54_flex_kinds_any
#print axioms Zer.Zera.c55_zera_wrong_kind
#print axioms Zer.MsgPack.c55_msgpack_wrong_kind_partial
#print axioms Zer.Cbor.c55_cbor_wrong_kind
#print axioms Zer.Json.c55_json_wrong_kind
#print axioms Zer.Flex.c55_flex_wrong_kind
#print axioms Zer.MsgPack.c55_msgpack_wrong_kind_refuted
#print axioms Zer.MsgPack.c55_msgpack_empty
#print axioms Zer.MsgPack.c56_msgpack_views_inside
#print axioms Zer.MsgPack.c57_msgpack_skip_partial
#print axioms Zer.Cbor.c57_cbor_skip_partial
#print axioms Zer.Cbor.c57_cbor_skip_refuted
#print axioms Zer.Cbor.c58_cbor_positions
#print axioms Zer.Cbor.c58_cbor_views_partial
#print axioms Zer.Cbor.c58_cbor_views_exact
#print axioms Zer.Cbor.c58_cbor_views_refuted
#print axioms Zer.Json.c59_json_int64_refuted
#print axioms Zer.Json.c59_json_int64_partial
#print axioms Zer.Flex.c59_flex_int64_refuted
#print axioms Zer.Flex.c59_flex_int64_partial
#print axioms Zer.Json.Heap.c60_json_strings_read_late
#print axioms Zer.Json.Heap.c60_json_borrow_partial
#print axioms Zer.Json.Heap.c60_json_keys_blobs_copied
#print axioms Zer.Json.Heap.c60_json_borrow_refuted
#print axioms Zer.Json.Heap.c60_json_dangling_refuted
#print axioms Zer.Flex.c61_flex_calls_partial
#print axioms Zer.Flex.c61_flex_mismatched_end
#print axioms Zer.Flex.c61_flex_calls_refuted
#print axioms Zer.Flex.c61_flex_stray_key
#print axioms Zer.Flex.c61_flex_accepts
#print axioms Zer.Flex.c62_flex_key_view_refuted
#print axioms Zer.Flex.c62_flex_key_view_partial
#print axioms Zer.Flex.c63_flex_constructor_refuted
#print axioms Zer.Flex.c63_flex_constructor_partial
#print axioms Zer.Flex.c64_flex_typed_vector_refuted
#print axioms Zer.Flex.c64_flex_untyped_vector_partial
#print axioms Zer.Flex.c64_flex_arrays
#print axioms Zer.Flex.c64_flex_typed_written_refuted
#print axioms Zer.Dyn.c65_builder_lifetime_partial
#print axioms Zer.Dyn.c65_builder_lifetime_refuted
#print axioms Zer.Dyn.c65_builder_dead
#print axioms Zer.Tensor.c66_other_type_partial
#print axioms Zer.Tensor.c66_other_type_refuted
#print axioms Zer.Tensor.c67_exact_code_partial
#print axioms Zer.Tensor.c67_readers
#print axioms Zer.Tensor.c67_json_refuted
#print axioms Zer.Tensor.c67_flex_refuted
#print axioms Zer.Tensor.c68_asking_partial
#print axioms Zer.Tensor.c68_json_asking
#print axioms Zer.Tensor.c68_asking_refuted
#print axioms Zer.Tensor.c69_xtensor_elements_partial
#print axioms Zer.Tensor.c69_eigen_elements_partial
#print axioms Zer.Tensor.c69_elements_refuted
#print axioms Zer.Text.c70_colon_unique
#print axioms Zer.Text.c70_bar_unique
#print axioms Zer.MsgPack.c70_msgpack_text_partial
#print axioms Zer.Flex.c70_flex_text_partial
#print axioms Zer.Zera.c70_zera_refuted
#print axioms Zer.Json.c70_json_text
#print axioms Zer.Json.c70_json_values
#print axioms Zer.Json.c70_json_values_refuted
#print axioms Zer.Json.c70_json_moved_refuted
#print axioms Zer.Zera.c71_zera_defined
#print axioms Zer.Zera.c71_zera_history
#print axioms Zer.Zera.c71_zera_partial
#print axioms Zer.Zera.c71_zera_spoiled
#print axioms Zer.Zera.c71_zera_refuted
#print axioms Zer.Json.Heap.c71_json_refused
#print axioms Zer.Flex.c71_flex_refused
#print axioms Zer.Zera.c72_zera_same_value
#print axioms Zer.Zera.c72_zera_again
#print axioms Zer.Flex.c72_flex_refuted
#print axioms Zer.Json.c72_json_once
#print axioms Zer.MsgPack.c72_msgpack_starts_over
#print axioms Zer.MsgPack.c72_msgpack_refuted
#print axioms Zer.Cbor.c72_cbor_refuted
#print axioms Zer.Cbor.c72_cbor_starts_over
#print axioms Zer.Roots.Json.c73_json_partial
#print axioms Zer.Roots.Json.c73_json_leak
#print axioms Zer.Roots.Json.c73_json_leak_refuted
#print axioms Zer.Roots.Json.c73_json_copy_refuted
#print axioms Zer.Roots.Json.c73_json_move_refuted
#print axioms Zer.Roots.MsgPack.c73_msgpack_partial
#print axioms Zer.Roots.MsgPack.c73_msgpack_no_leak
#print axioms Zer.Roots.MsgPack.c73_msgpack_copy_refuted
#print axioms Zer.Roots.MsgPack.c73_msgpack_move_refuted
#print axioms Zer.MsgPack.c74_msgpack_partial
#print axioms Zer.MsgPack.c74_msgpack_refuted
#print axioms Zer.Cbor.c74_cbor
#print axioms Zer.Zera.c74_zera_partial
#print axioms Zer.Zera.c74_zera_refused
#print axioms Zer.Zera.c74_zera_refuted
#print axioms Zer.Json.c74_json_partial
#print axioms Zer.Json.c74_json_refuted
#print axioms Zer.Flex.c74_flex_refuted
#print axioms Zer.MsgPack.c75_msgpack
#print axioms Zer.MsgPack.c75_msgpack_no_other
#print axioms Zer.MsgPack.c75_msgpack_frames_partial
#print axioms Zer.Cbor.c75_cbor
#print axioms Zer.Cbor.c75_cbor_no_other
#print axioms Zer.Cbor.c75_cbor_frames_partial
#print axioms Zer.Zera.c75_zera
#print axioms Zer.Zera.c75_zera_no_other
#print axioms Zer.Zera.c75_zera_frames_partial
#print axioms Zer.Json.c75_json_partial
#print axioms Zer.Json.c75_json_no_other
#print axioms Zer.Json.c75_json_refuted
#print axioms Zer.Flex.c75_flex_partial
#print axioms Zer.Flex.c75_flex_refuted
#print axioms Zer.MsgPack.c76_msgpack_partial
#print axioms Zer.MsgPack.c76_msgpack_refuted
#print axioms Zer.Cbor.c76_cbor_partial
#print axioms Zer.Cbor.c76_cbor_keys_partial
#print axioms Zer.Cbor.c76_cbor_refuted
#print axioms Zer.Zera.c76_zera_partial
#print axioms Zer.Zera.c76_zera_refuted
#print axioms Zer.Json.c76_json
#print axioms Zer.Flex.c76_flex_partial
#print axioms Zer.Flex.c76_flex_refuted
#print axioms Zer.Flex.c76_flex_any
#print axioms Zer.Flex.c76_flex_written
#print axioms Zer.Flex.c76_flex_short
#print axioms Zer.c77_calls_partial
#print axioms Zer.c77_calls_refuted
#print axioms Zer.MsgPack.c77_msgpack_partial
#print axioms Zer.MsgPack.c77_msgpack_refuted
#print axioms Zer.Cbor.c77_cbor_partial
#print axioms Zer.Cbor.c77_cbor_refuted
#print axioms Zer.Zera.c77_zera_partial
#print axioms Zer.Zera.c77_zera_refuted
#print axioms Zer.Zera.c77_zera_shared_refuted
#print axioms Zer.Json.c77_json_refuted
#print axioms Zer.Flex.c77_flex_refuted
#print axioms Zer.c78_translate
#print axioms Zer.c78_walk_iff
#print axioms Zer.MsgPack.c78_msgpack
#print axioms Zer.MsgPack.c78_msgpack_to_zera
#print axioms Zer.Zera.c78_zera
#print axioms Zer.Zera.c78_zera_to_zera
#print axioms Zer.Flex.c78_flex
#print axioms Zer.Json.c78_json_partial
#print axioms Zer.Json.c78_json_refuted
#print axioms Zer.Cbor.c78_cbor_partial
#print axioms Zer.Cbor.c78_cbor_refuted
#print axioms Zer.c79_translate_partial
#print axioms Zer.MsgPack.c79_translate_refuted
#print axioms Zer.MsgPack.c79_msgpack_partial
#print axioms Zer.MsgPack.c79_msgpack_value
#print axioms Zer.MsgPack.c79_msgpack_refuted
#print axioms Zer.Cbor.c79_cbor_partial
#print axioms Zer.Cbor.c79_cbor_value
#print axioms Zer.Cbor.c79_cbor_same
#print axioms Zer.Cbor.c79_cbor_refuted
#print axioms Zer.Cbor.c79_to_cbor
#print axioms Zer.Typed.c80_zera
#print axioms Zer.Typed.c80_msgpack
#print axioms Zer.Typed.c80_cbor
#print axioms Zer.Typed.c80_json
#print axioms Zer.Typed.c80_flex
#print axioms Zer.Typed.c80_zera_kind
#print axioms Zer.Typed.c80_flex_kind
#print axioms Zer.Typed.c80_msgpack_kind_refuted
#print axioms Zer.Typed.c81_as_float
#print axioms Zer.Typed.c81_exact
#print axioms Zer.Typed.c82_translate
#print axioms Zer.Typed.c82_to_all
#print axioms Zer.Typed.c82_to_flex_partial
#print axioms Zer.Typed.c82_msgpack_flex_refuted
#print axioms Zer.Typed.c82_json_flex_refuted
#print axioms Zer.c83_translate_partial
#print axioms Zer.c83_shape_partial
#print axioms Zer.MsgPack.c83_msgpack_partial
#print axioms Zer.MsgPack.c83_msgpack_refuted
#print axioms Zer.Cbor.c83_cbor_partial
#print axioms Zer.Cbor.c83_cbor_refuted
#print axioms Zer.Zera.c83_zera_partial
#print axioms Zer.Zera.c83_zera_any
#print axioms Zer.c83_zera_exact
#print axioms Zer.MsgPack.c84_msgpack_skip_partial
#print axioms Zer.MsgPack.c84_msgpack_skip_any_partial
#print axioms Zer.MsgPack.c84_msgpack_enc_partial
#print axioms Zer.MsgPack.c84_msgpack_refuted
#print axioms Zer.MsgPack.c84_msgpack_lookups_partial
#print axioms Zer.Cbor.c84_cbor_skip_partial
#print axioms Zer.Cbor.c84_cbor_item_partial
#print axioms Zer.Cbor.c84_cbor_refuted
#print axioms Zer.Cbor.c84_cbor_lookups_partial
#print axioms Zer.MsgPack.c85_msgpack_refuted
#print axioms Zer.MsgPack.c85_msgpack_calls_partial
#print axioms Zer.MsgPack.c85_msgpack_partial
#print axioms Zer.Cbor.c85_cbor_refuted
#print axioms Zer.Cbor.c85_cbor_calls_partial
#print axioms Zer.Cbor.c85_cbor_partial
#print axioms Zer.Zera.c85_zera_refuted
#print axioms Zer.Zera.c85_zera_map_refuted
#print axioms Zer.Zera.c85_zera_calls_partial
#print axioms Zer.Zera.c85_zera_partial
#print axioms Zer.Flex.c85_flex_calls_partial
#print axioms Zer.Flex.c85_flex_written
#print axioms Zer.Json.c86_json_accepts
#print axioms Zer.Json.c86_json_unambiguous
#print axioms Zer.Json.c86_json_reader_partial
#print axioms Zer.Json.c86_json_reader_refuted
#print axioms Zer.Json.c86_json_number
#print axioms Zer.Json.c87_json_output
#print axioms Zer.Json.c87_json_lines
#print axioms Zer.Flex.c88_flex_terminated
#print axioms Zer.Flex.c88_to_flex_partial
#print axioms Zer.Flex.c88_flex_string_view
#print axioms Zer.Flex.c88_cbor_to_flex_refuted
#print axioms Zer.Flex.c88_msgpack_to_flex_refuted
#print axioms Zer.Zera.c88_zera_to_flex_refuted
#print axioms Zer.c89_route
#print axioms Zer.c89_return
#print axioms Zer.c89_route_strict
#print axioms Zer.c89_zera
#print axioms Zer.c89_msgpack
#print axioms Zer.c89_cbor
#print axioms Zer.c89_json
#print axioms Zer.c89_flex_partial
#print axioms Zer.c89_flex_refuted
#print axioms Zer.c89_signs_refuted
#print axioms Zer.c89_repeated_refuted
#print axioms Zer.c89_msgpack_normal
#print axioms Zer.c89_cbor_normal
#print axioms Zer.c89_json_normal
#print axioms Zer.MsgPack.c90_msgpack
#print axioms Zer.MsgPack.c90_msgpack_translate
#print axioms Zer.MsgPack.c90_msgpack_refuted
#print axioms Zer.Cbor.c90_cbor
#print axioms Zer.Cbor.c90_cbor_translate
#print axioms Zer.Cbor.c90_cbor_refuted
#print axioms Zer.Json.c90_json
#print axioms Zer.Json.c90_json_translate
#print axioms Zer.Zera.c90_zera_refuted
#print axioms Zer.Flex.c90_flex_refuted
#print axioms Zer.Zera.c91_zera_reader
#print axioms Zer.Zera.c91_zera_writer
#print axioms Zer.Zera.c91_zera_serialize
#print axioms Zer.Zera.c91_zera_exact
#print axioms Zer.Zera.c91_zera_strict
#print axioms Zer.Zera.c91_zera_unambiguous
#print axioms Zer.Zera.c91_zera_size_refuted
#print axioms Zer.Zera.c91_zera_typed_array
#print axioms Zer.Zera.c91_zera_matrix
#print axioms Zer.MsgPack.c92_msgpack_exact
#print axioms Zer.MsgPack.c92_msgpack_marker
#print axioms Zer.Cbor.c92_cbor_partial
#print axioms Zer.Cbor.c92_cbor_plain
#print axioms Zer.Cbor.c92_cbor_exact
#print axioms Zer.Cbor.c92_cbor_reserved_refuted
#print axioms Zer.Cbor.c92_cbor_length_refuted
#print axioms Zer.Cbor.c92_cbor_dialect
#print axioms Zer.Flex.c93_flex_exact
#print axioms Zer.Flex.c93_flex_reads_partial
#print axioms Zer.Flex.c93_flex_writes
#print axioms Zer.Flex.c93_flex_unambiguous
#print axioms Zer.Flex.c93_flex_typed_refuted
#print axioms Zer.Flex.c93_flex_key_refuted
#print axioms Zer.Flex.c93_flex_view_refuted
#print axioms Zer.Flex.c94_flex_dump_partial
#print axioms Zer.Flex.c94_flex_dump_written
#print axioms Zer.Flex.c94_flex_dump_unique
#print axioms Zer.Flex.c94_flex_dump_values
#print axioms Zer.Flex.c94_flex_dump_blob_refuted
#print axioms Zer.Flex.c94_flex_dump_refuted
#print axioms Zer.Flex.c94_flex_dump_typed_refuted
#print axioms Zer.Flex.c94_flex_dump_empty_refuted
#print axioms Zer.Zera.c95_zera_lookup
#print axioms Zer.Zera.c95_zera_exact
#print axioms Zer.Flex.c95_flex_search_partial
#print axioms Zer.Flex.c95_flex_listed
#print axioms Zer.MsgPack.c96_msgpack_kept
#print axioms Zer.Zera.View.c96_zera_kept
#print axioms Zer.Zera.View.c96_zera_temporary_exact
#print axioms Zer.Zera.View.c96_zera_temporary_refuted
#print axioms Zer.Flex.c96_flex_kept
#print axioms Zer.Flex.c96_flex_one_range
#print axioms Zer.Flex.c96_flex_two_calls_refuted
#print axioms Zer.Cbor.View.c96_cbor_kept_partial
#print axioms Zer.Cbor.View.c96_cbor_kept_exact
#print axioms Zer.Cbor.View.c96_cbor_definite_kept
#print axioms Zer.Cbor.View.c96_cbor_kept_refuted
#print axioms Zer.Json.c96_json_two_calls
#print axioms Zer.Json.c96_json_two_objects
#print axioms Zer.MsgPack.c97_msgpack
#print axioms Zer.Cbor.c97_cbor
#print axioms Zer.Zera.c97_zera
#print axioms Zer.Json.c97_json
#print axioms Zer.Json.c97_json_keys
#print axioms Zer.Flex.c97_flex_partial
#print axioms Zer.Flex.c97_flex_keys_once
#print axioms Zer.Flex.c97_flex_grows_refuted
#print axioms Zer.c97_between
#print axioms Zer.c98_readers
#print axioms Zer.MsgPack.c98_msgpack
#print axioms Zer.Cbor.c98_cbor_partial
#print axioms Zer.Cbor.c98_cbor_refuted
#print axioms Zer.Zera.c98_zera
#print axioms Zer.Json.c98_json_partial
#print axioms Zer.Json.c98_json_refuted
#print axioms Zer.Flex.c98_flex_partial
#print axioms Zer.Flex.c98_flex_refuted
#print axioms Zer.c98_translate
#print axioms Zer.c98_translate_refuted
#print axioms Zer.c98_translate_json_refuted
#print axioms Zer.c99_same
#print axioms Zer.c99_same_strict
#print axioms Zer.c99_equal
#print axioms Zer.c99_iff
#print axioms Zer.Cbor.c99_into_cbor
#print axioms Zer.MsgPack.c99_into_msgpack
#print axioms Zer.Json.c99_into_json_partial
#print axioms Zer.Zera.c99_into_zera_partial
#print axioms Zer.MsgPack.c99_msgpack
#print axioms Zer.MsgPack.c99_msgpack_zera
#print axioms Zer.c99_zera_refuted
#print axioms Zer.Cbor.c99_from_cbor_refuted
#print axioms Zer.Json.c99_from_json_refuted
