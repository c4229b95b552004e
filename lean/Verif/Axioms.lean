import Verif.PropsA
import Verif.PropsB
import Verif.PropsC
import Verif.PropsD
import Verif.PropsE
import Verif.PropsF
import Verif.PropsG
import Verif.PropsH
import Verif.PropsI
import Verif.PropsJ
import Verif.PropsK
import Verif.PropsL
import Verif.PropsM
import Verif.PropsN
import Verif.PropsO
import Verif.PropsP
import Verif.PropsQ
import Verif.PropsR
import Verif.PropsS
import Verif.PropsT
import Verif.PropsU
import Verif.PropsV
import Verif.PropsW
import Verif.PropsX
import Verif.PropsY
import Verif.PropsZ
import Verif.PropsZA
import Verif.PropsZB
import Verif.PropsZC
import Verif.PropsZD
import Verif.PropsZE
import Verif.PropsZF
import Verif.PropsZG
import Verif.PropsZH
import Verif.PropsZI
import Verif.PropsZJ
import Verif.PropsZK
import Verif.PropsZL
import Verif.PropsZM
import Verif.PropsZN
import Verif.PropsZO
import Verif.PropsZP
import Verif.PropsZQ
import Verif.PropsZR
import Verif.PropsZS
import Verif.PropsZT
import Verif.PropsZU
import Verif.PropsZV
import Verif.PropsZW
/-!
# Axioms used by the property theorems
-/

#print axioms Brunsli.C01_stream_roundtrip
#print axioms Brunsli.C01_adaptive_decoder
#print axioms Brunsli.C02_ans_roundtrip
#print axioms Brunsli.C02_only_encoded_words
#print axioms Brunsli.C02_ans_step
#print axioms Brunsli.C03_arith_roundtrip
#print axioms Brunsli.C04_prob_in_range
#print axioms Brunsli.C05_base128_roundtrip
#print axioms Brunsli.C05_base128_fix_roundtrip
#print axioms Brunsli.C05_section_too_large
#print axioms Brunsli.C05_section_frame
#print axioms Brunsli.C05_unterminated_rejected
#print axioms Brunsli.C05_decoded_lt
#print axioms Brunsli.C05_truncated
#print axioms Brunsli.C06_varint
#print axioms Brunsli.C06_limited_varint
#print axioms Brunsli.C06_varlen_uint8
#print axioms Brunsli.C07_write_read
#print axioms Brunsli.C07_write_in_bounds
#print axioms Brunsli.C07_overread_detected
#print axioms Brunsli.C07_unused_bytes
#print axioms Brunsli.C07_padding_detected
#print axioms Brunsli.C07_values
#print axioms Brunsli.C07_finish
#print axioms Brunsli.C08_quant_roundtrip
#print axioms Brunsli.C08_quant_accepted
#print axioms Brunsli.C08_decoded_quant
#print axioms Brunsli.C09_huffman_roundtrip
#print axioms Brunsli.C09_huffman_accepted
#print axioms Brunsli.C09_huffman_codes
#print axioms Brunsli.C09_decoded_huffman
#print axioms Brunsli.C10_scans_roundtrip
#print axioms Brunsli.C11_internals_roundtrip
#print axioms Brunsli.C12_metadata_roundtrip
#print axioms Brunsli.C12_metadata_written
#print axioms Brunsli.C13_chunking
#print axioms Brunsli.C13_chunking_resumed
#print axioms Brunsli.C13_section_chunking
#print axioms Brunsli.C14_section_roundtrip
#print axioms Brunsli.C14_section_any
#print axioms Brunsli.C15_contextMap_roundtrip
#print axioms Brunsli.C15_contextMap_any
#print axioms Brunsli.C16_message_roundtrip
#print axioms Brunsli.C16_any_description
#print axioms Brunsli.C17_order_roundtrip
#print axioms Brunsli.C17_encoder_order
#print axioms Brunsli.C17_decoded_order
#print axioms Brunsli.C18_dc_roundtrip
#print axioms Brunsli.C18_dc_accepted
#print axioms Brunsli.C19_ac_roundtrip
#print axioms Brunsli.C20_no_out_of_range
#print axioms Brunsli.C20_decoded_planes
#print axioms Brunsli.C21_bypass_roundtrip_partial
#print axioms Brunsli.C21_bypass_container
#print axioms Brunsli.C21_empty_false
#print axioms Brunsli.C21_fits_partial
#print axioms Brunsli.C21_small_buffer_false
#print axioms Brunsli.C21_any_bytes_partial
#print axioms Brunsli.C21_any_bytes_fit_partial
#print axioms Brunsli.C21_dimensions
#print axioms Brunsli.C22_header_roundtrip
#print axioms Brunsli.C22_accepted_header
#print axioms Brunsli.C23_mistyped_accepted
#print axioms Brunsli.C23_mistyped_header_accepted
#print axioms Brunsli.C23_width_height_numbers_partial
#print axioms Brunsli.C24_structure
#print axioms Brunsli.C24_signature
#print axioms Brunsli.C24_prefix_incomplete
#print axioms Brunsli.C24_trailing_rejected
#print axioms Brunsli.C25_delivery
#print axioms Brunsli.C25_space
#print axioms Brunsli.C25_writer_completes
#print axioms Brunsli.C26_errors_are_permanent
#print axioms Brunsli.C26_same_error
#print axioms Brunsli.C27_chunking_partial
#print axioms Brunsli.C27_valid_file_partial
#print axioms Brunsli.C27_trailing_bytes_accepted
#print axioms Brunsli.C27_calls_return
#print axioms Brunsli.C27_any_pieces
#print axioms Brunsli.C27_asks_for_more
#print axioms Brunsli.C27_streamed_roundtrip
#print axioms Brunsli.C27_trailing_byte_accepted
#print axioms Brunsli.C28_entropy_layout
#print axioms Brunsli.C28_padding_exhausted
#print axioms Brunsli.C28_missing_code
#print axioms Brunsli.C29_block
#print axioms Brunsli.C29_scan
#print axioms Brunsli.C30_scan
#print axioms Brunsli.C31_file
#print axioms Brunsli.C31_delivered
#print axioms Brunsli.C31_streamed
#print axioms Brunsli.C32_reader_safe
#print axioms Brunsli.C32_validated
#print axioms Brunsli.C33_lookup
#print axioms Brunsli.C33_code_words
#print axioms Brunsli.C34_decoder
#print axioms Brunsli.C34_decoder_refusal
#print axioms Brunsli.C34_encoder_false
#print axioms Brunsli.C34_encoder_partial
#print axioms Brunsli.C35_each_task_once
#print axioms Brunsli.C35_call_returns
#print axioms Brunsli.C35_call_starts
#print axioms Brunsli.C35_destructor_never_completes
#print axioms Brunsli.C35_no_threads_never_returns
#print axioms Brunsli.C36_checked_dims
#print axioms Brunsli.C36_tiling
#print axioms Brunsli.C36_tiles_inside
#print axioms Brunsli.C36_addresses
#print axioms Brunsli.C36_tasks_disjoint
#print axioms Brunsli.C36_zero_dim_undefined
#print axioms Brunsli.C37_end_to_end
#print axioms Brunsli.C37_api
#print axioms Brunsli.C37_injective
#print axioms Brunsli.C37_real
#print axioms Brunsli.C38_orders_inverse
#print axioms Brunsli.C38_quant_matrix
#print axioms Brunsli.C39_failure_lost
#print axioms Brunsli.C39_sequential_partial
#print axioms Brunsli.C39_no_false_alarm
#print axioms Brunsli.C40_space_used_partial
#print axioms Brunsli.C40_bypass_false
#print axioms Brunsli.C41_overrun_false
#print axioms Brunsli.C41_bound_false
#print axioms Brunsli.C41_small_images_partial
#print axioms Brunsli.C41_real_false
#print axioms Brunsli.C42_refused_false
#print axioms Brunsli.C42_accepted_partial
#print axioms Brunsli.C43_normalise
#print axioms Brunsli.C44_clusters_partial
#print axioms Brunsli.C44_clusters_any_partial
#print axioms Brunsli.C44_cost_partial
#print axioms Brunsli.C44_overflow_false
#print axioms Brunsli.C45_streaming_roundtrip
#print axioms Brunsli.C45_streaming_partial
#print axioms Brunsli.C45_original_partial
#print axioms Brunsli.C45_late_metadata_false
#print axioms Brunsli.C46_no_failure_partial
#print axioms Brunsli.C46_encoded_partial
#print axioms Brunsli.C46_missing_dc_false
#print axioms Brunsli.C46_writer_defined_partial
#print axioms Brunsli.C47_bypass_false
#print axioms Brunsli.C47_image_partial
#print axioms Brunsli.C47_small_pieces_partial
#print axioms Brunsli.C48_writer_defined_partial
#print axioms Brunsli.C48_dc_range_false
#print axioms Brunsli.C49_decoding_defined
#print axioms Brunsli.C49_calls_defined
#print axioms Brunsli.C50_groups_roundtrip
#print axioms Brunsli.C50_schedules
#print axioms Brunsli.C50_real
#print axioms Brunsli.C51_overrun_false
#print axioms Brunsli.C51_real_false
#print axioms Brunsli.C51_small_images_partial
#print axioms Brunsli.C52_hostile_false
#print axioms Brunsli.C52_zero_dimension_false
#print axioms Brunsli.C52_driver_partial
#print axioms Brunsli.C52_tasks_partial
#print axioms Brunsli.C53_schedule_independent
#print axioms Brunsli.C54_roundtrip_partial
#print axioms Brunsli.C54_completes
#print axioms Brunsli.C54_large_files_false
#print axioms Brunsli.C54_abort_false
#print axioms Brunsli.C55_other_files
#print axioms Brunsli.C55_input_kept
#print axioms Brunsli.C55_refused_partial
#print axioms Brunsli.C55_overwritten_false
#print axioms Brunsli.C55_leftovers
#print axioms Brunsli.C56_header_agrees
#print axioms Brunsli.C56_safe
#print axioms Brunsli.C56_frame_valid
#print axioms Brunsli.C56_all
#print axioms Brunsli.C56_tables_false
#print axioms Brunsli.C57_estimate
#print axioms Brunsli.C57_zero
#print axioms Brunsli.C57_bound_partial
#print axioms Brunsli.C57_bound_false
#print axioms Brunsli.C58_streaming
#print axioms Brunsli.C58_original_partial
#print axioms Brunsli.C58_whole
#print axioms Brunsli.C58_cleanup_false
#print axioms Brunsli.C59_arrays
#print axioms Brunsli.C59_arrays_succeed
#print axioms Brunsli.C59_buffers_partial
#print axioms Brunsli.C59_buffers_false
#print axioms Brunsli.C60_apache_recognised
#print axioms Brunsli.C60_apache_partial
#print axioms Brunsli.C60_apache_sent
#print axioms Brunsli.C60_apache_gets
#print axioms Brunsli.C60_apache_crash_false
#print axioms Brunsli.C60_apache_refused_false
#print axioms Brunsli.C60_letters
#print axioms Brunsli.C60_nginx_recognised
#print axioms Brunsli.C60_nginx_partial
#print axioms Brunsli.C60_nginx_sent
#print axioms Brunsli.C60_nginx_missed_false
#print axioms Brunsli.C61_nginx_partial
#print axioms Brunsli.C61_nginx_false
#print axioms Brunsli.C61_apache_false
#print axioms Brunsli.C62_defined
#print axioms Brunsli.C62_same
#print axioms Brunsli.C63_as_with_header
#print axioms Brunsli.C63_any_pieces
#print axioms Brunsli.C63_restores
#print axioms Brunsli.C64_defined
#print axioms Brunsli.C64_no_overflow
#print axioms Brunsli.C64_header_same
#print axioms Brunsli.C64_small_partial
#print axioms Brunsli.C64_large_partial
#print axioms Brunsli.C64_bound_false
#print axioms Brunsli.C64_metadata_partial
#print axioms Brunsli.C64_metadata_false
#print axioms Brunsli.C65_median
#print axioms Brunsli.C65_difference
#print axioms Brunsli.C65_multipliers
#print axioms Brunsli.C65_prediction
#print axioms Brunsli.C65_defined
#print axioms Brunsli.C65_test_defined
#print axioms Brunsli.C66_size
#print axioms Brunsli.C66_work
#print axioms Brunsli.C66_bound
#print axioms Brunsli.C66_metadata
#print axioms Brunsli.C67_fields
#print axioms Brunsli.C67_fields_bad
#print axioms Brunsli.C67_histograms
#print axioms Brunsli.C67_quant
#print axioms Brunsli.C67_internals
#print axioms Brunsli.C67_defined
#print axioms Brunsli.C68_wide
#print axioms Brunsli.C68_restores
#print axioms Brunsli.C68_accepted_partial
#print axioms Brunsli.C68_rejected_partial
#print axioms Brunsli.C68_no_new_image
#print axioms Brunsli.C68_wrapped_false
#print axioms Brunsli.C68_number_false
#print axioms Brunsli.C69_reader_defined
#print axioms Brunsli.C69_reader_exact
#print axioms Brunsli.C69_reader_restores
#print axioms Brunsli.C70_nothing
#print axioms Brunsli.C70_same_partial
#print axioms Brunsli.C70_metadata
#print axioms Brunsli.C70_defined_partial
#print axioms Brunsli.C70_ignored
#print axioms Brunsli.C70_needed_false
#print axioms Brunsli.C71_words_stored
#print axioms Brunsli.C71_words_restored
#print axioms Brunsli.C71_words_loaded
#print axioms Brunsli.C71_bits
#print axioms Brunsli.C71_bits_read
#print axioms Brunsli.C71_other_branch
#print axioms Brunsli.C71_other_branch_check_false
#print axioms Brunsli.C72_quant
#print axioms Brunsli.C72_internals_partial
#print axioms Brunsli.C72_internals_false
#print axioms Brunsli.C73_quotient
#print axioms Brunsli.C73_words_partial
#print axioms Brunsli.C73_restored_partial
#print axioms Brunsli.C73_option_false
#print axioms Brunsli.C73_precision
#print axioms Brunsli.C74_close
#print axioms Brunsli.C74_order
#print axioms Brunsli.C74_exact
#print axioms Brunsli.C74_end_to_end
#print axioms Brunsli.C74_cost
#print axioms Brunsli.C75_isolated_partial
#print axioms Brunsli.C75_schedules_partial
#print axioms Brunsli.C75_no_race_partial
#print axioms Brunsli.C75_ends
#print axioms Brunsli.C75_status_false
#print axioms Brunsli.C75_predict_confined
#print axioms Brunsli.C75_predict
#print axioms Brunsli.C75_failed
#print axioms Brunsli.C75_local_status
#print axioms Brunsli.C75_sample_confined
#print axioms Brunsli.C75_sample
#print axioms Brunsli.C75_encode_dc_confined
#print axioms Brunsli.C75_encode_dc
#print axioms Brunsli.C75_encode_order
#print axioms Brunsli.C75_encode_sorted
#print axioms Brunsli.C75_encode_dc_failed
#print axioms Brunsli.C75_encode_dc_image
#print axioms Brunsli.C75_encode_ac_confined
#print axioms Brunsli.C75_encode_ac
#print axioms Brunsli.C75_encode_ac_seen
#print axioms Brunsli.C75_encode_ac_neighbours
#print axioms Brunsli.C76_tiles_partial
#print axioms Brunsli.C76_cover_partial
#print axioms Brunsli.C76_large_false
