{
 "claims": [
  {
   "property": "C01",
   "status": "proved",
   "theorems": [
    "Brunsli.C01_stream_roundtrip",
    "Brunsli.C01_adaptive_decoder"
   ],
   "note": "Stated over an arbitrary list of encoder calls; C01_adaptive_decoder is the form used for the DC and AC decoders."
  },
  {
   "property": "C02",
   "status": "proved",
   "theorems": [
    "Brunsli.C02_ans_roundtrip",
    "Brunsli.C02_only_encoded_words",
    "Brunsli.C02_ans_step"
   ],
   "note": ""
  },
  {
   "property": "C03",
   "status": "proved",
   "theorems": [
    "Brunsli.C03_arith_roundtrip"
   ],
   "note": "Probabilities evolve by Prob::Add on both sides."
  },
  {
   "property": "C04",
   "status": "proved",
   "theorems": [
    "Brunsli.C04_prob_in_range"
   ],
   "note": ""
  },
  {
   "property": "C05",
   "status": "proved",
   "theorems": [
    "Brunsli.C05_base128_roundtrip",
    "Brunsli.C05_base128_fix_roundtrip",
    "Brunsli.C05_section_too_large",
    "Brunsli.C05_section_frame",
    "Brunsli.C05_unterminated_rejected",
    "Brunsli.C05_decoded_lt",
    "Brunsli.C05_truncated"
   ],
   "note": ""
  },
  {
   "property": "C06",
   "status": "proved",
   "theorems": [
    "Brunsli.C06_varint",
    "Brunsli.C06_limited_varint",
    "Brunsli.C06_varlen_uint8"
   ],
   "note": ""
  },
  {
   "property": "C07",
   "status": "proved",
   "theorems": [
    "Brunsli.C07_write_read",
    "Brunsli.C07_write_in_bounds",
    "Brunsli.C07_overread_detected",
    "Brunsli.C07_unused_bytes",
    "Brunsli.C07_padding_detected",
    "Brunsli.C07_values",
    "Brunsli.C07_finish"
   ],
   "note": "Little-endian branch of WriteBits; reader not in optimistic mode. C07_values and C07_finish say what the reader returns for every input and every sequence of reads, against a separate list of bits."
  },
  {
   "property": "C08",
   "status": "proved",
   "theorems": [
    "Brunsli.C08_quant_roundtrip",
    "Brunsli.C08_quant_accepted",
    "Brunsli.C08_decoded_quant"
   ],
   "note": "Quantisation section on bits: restored exactly, and every table with entries 1 to 65535 is accepted."
  },
  {
   "property": "C09",
   "status": "proved",
   "theorems": [
    "Brunsli.C09_huffman_roundtrip",
    "Brunsli.C09_huffman_accepted",
    "Brunsli.C09_huffman_codes",
    "Brunsli.C09_decoded_huffman"
   ],
   "note": "EncodeHuffmanCode/DecodeHuffmanCode with stock tables and permutation coder; acceptance for every code ProcessDHT lets through; arbitrary input gives prefix codes."
  },
  {
   "property": "C10",
   "status": "proved",
   "theorems": [
    "Brunsli.C10_scans_roundtrip"
   ],
   "note": "EncodeScanInfo/DecodeScanInfo."
  },
  {
   "property": "C11",
   "status": "proved",
   "theorems": [
    "Brunsli.C11_internals_roundtrip"
   ],
   "note": "EncodeAuxData/DecodeJPEGInternalsSection on the bytes of the section, available as a whole."
  },
  {
   "property": "C12",
   "status": "proved",
   "theorems": [
    "Brunsli.C12_metadata_roundtrip",
    "Brunsli.C12_metadata_written"
   ],
   "note": "Brotli is a parameter with decompress\u2218compress = id; all APP/COM segments as the reader stores them, any tail."
  },
  {
   "property": "C13",
   "status": "proved",
   "theorems": [
    "Brunsli.C13_chunking",
    "Brunsli.C13_chunking_resumed",
    "Brunsli.C13_section_chunking"
   ],
   "note": "State machine is a fold over bytes; every chunking of the payload gives the same state and result."
  },
  {
   "property": "C14",
   "status": "proved",
   "theorems": [
    "Brunsli.C14_section_roundtrip",
    "Brunsli.C14_section_any"
   ],
   "note": "The rounding decisions of the floating-point normalisation are arbitrary parameters; the BRUNSLI_CHECK abort in NormalizeCounts is the hypothesis Cluster.Ok.norm."
  },
  {
   "property": "C15",
   "status": "proved",
   "theorems": [
    "Brunsli.C15_contextMap_roundtrip",
    "Brunsli.C15_contextMap_any"
   ],
   "note": ""
  },
  {
   "property": "C16",
   "status": "proved",
   "theorems": [
    "Brunsli.C16_message_roundtrip",
    "Brunsli.C16_any_description"
   ],
   "note": "Tables are the 8-bit-root two-level lookup tables of the decoder, over arbitrary descriptions for the safety half."
  },
  {
   "property": "C17",
   "status": "proved",
   "theorems": [
    "Brunsli.C17_order_roundtrip",
    "Brunsli.C17_encoder_order",
    "Brunsli.C17_decoded_order"
   ],
   "note": "Order is computed from arbitrary zero counts with numZeros 0 = 0 (SampleNumNonZeros guarantees it)."
  },
  {
   "property": "C18",
   "status": "proved",
   "theorems": [
    "Brunsli.C18_dc_roundtrip",
    "Brunsli.C18_dc_accepted"
   ],
   "note": "EncodeDC/DecodeDC with all contexts and adaptive probabilities, any number of components and blocks, through the section bytes; acceptance test characterised."
  },
  {
   "property": "C19",
   "status": "proved",
   "theorems": [
    "Brunsli.C19_ac_roundtrip"
   ],
   "note": "DC and AC sections of any image with residuals and AC coefficients of at most 2054 in absolute value; any orders, nonzero quantisation tables, both context models, all context resolutions; histograms arbitrary as long as they give positive counts to the coded symbols."
  },
  {
   "property": "C20",
   "status": "proved",
   "theorems": [
    "Brunsli.C20_no_out_of_range",
    "Brunsli.C20_decoded_planes"
   ],
   "note": "Decoding of arbitrary words of the DC and AC sections never leaves a table and never overflows in predictions and contexts (both are a distinct outcome of the model), and yields 16-bit coefficients of the right number."
  },
  {
   "property": "C21",
   "status": "partial",
   "theorems": [
    "Brunsli.C21_bypass_roundtrip_partial",
    "Brunsli.C21_bypass_container",
    "Brunsli.C21_empty_false",
    "Brunsli.C21_fits_partial",
    "Brunsli.C21_small_buffer_false",
    "Brunsli.C21_any_bytes_partial",
    "Brunsli.C21_any_bytes_fit_partial",
    "Brunsli.C21_dimensions"
   ],
   "note": "Proved for every non-empty byte string; false of the code for the empty one (C21_empty_false): it encodes but cannot be decoded. A buffer of at least 36 bytes is never overrun (C21_fits_partial); a smaller one is (C21_small_buffer_false), because the room left is computed with wrap-around. C21_any_bytes_partial, C21_any_bytes_fit_partial: the same for the encoder with the header reader of the code, whatever the bytes; C21_dimensions: the header that is written has the dimensions of the file."
  },
  {
   "property": "C22",
   "status": "proved",
   "theorems": [
    "Brunsli.C22_header_roundtrip",
    "Brunsli.C22_accepted_header"
   ],
   "note": "Round trip of every in-range header and ranges of every accepted header."
  },
  {
   "property": "C23",
   "status": "partial",
   "theorems": [
    "Brunsli.C23_mistyped_accepted",
    "Brunsli.C23_mistyped_header_accepted",
    "Brunsli.C23_width_height_numbers_partial"
   ],
   "note": "False of the code: c/dec/brunsli_decode.cc:1147-1150 calls Fail without returning; witnesses proved (C23_mistyped_accepted, C23_mistyped_header_accepted). Partial: width and height of regular images are always numbers."
  },
  {
   "property": "C24",
   "status": "proved",
   "theorems": [
    "Brunsli.C24_structure",
    "Brunsli.C24_signature",
    "Brunsli.C24_prefix_incomplete",
    "Brunsli.C24_trailing_rejected"
   ],
   "note": "For arbitrary section bodies; a body is given its whole payload (incremental treatment of bodies is C27)."
  },
  {
   "property": "C25",
   "status": "proved",
   "theorems": [
    "Brunsli.C25_delivery",
    "Brunsli.C25_space",
    "Brunsli.C25_writer_completes"
   ],
   "note": "For arbitrary section encoders (the markers' serialisers are parameters of the model); the queue, stages and statuses are the code's."
  },
  {
   "property": "C26",
   "status": "proved",
   "theorems": [
    "Brunsli.C26_errors_are_permanent",
    "Brunsli.C26_same_error"
   ],
   "note": "For arbitrary stage functions; covers parser and serialiser errors."
  },
  {
   "property": "C27",
   "status": "partial",
   "theorems": [
    "Brunsli.C27_chunking_partial",
    "Brunsli.C27_valid_file_partial",
    "Brunsli.C27_trailing_bytes_accepted",
    "Brunsli.C27_calls_return",
    "Brunsli.C27_any_pieces",
    "Brunsli.C27_asks_for_more",
    "Brunsli.C27_streamed_roundtrip",
    "Brunsli.C27_trailing_byte_accepted"
   ],
   "note": "Proved of the parser of the code, stage by stage, for every file and all pieces: calls return (C27_calls_return), success just if the file read in one piece is valid and with the same contents (C27_any_pieces), more input asked for as long as something is missing (C27_asks_for_more), round trip (C27_streamed_roundtrip). Brotli is a parameter working byte by byte. False for trailing bytes that fall exactly behind the 600 borrowed bytes (C27_trailing_bytes_accepted, C27_trailing_byte_accepted)."
  },
  {
   "property": "C28",
   "status": "proved",
   "theorems": [
    "Brunsli.C28_entropy_layout",
    "Brunsli.C28_padding_exhausted",
    "Brunsli.C28_missing_code"
   ],
   "note": "The bit writer with its 64-bit buffer, six-byte discharge and zero-byte test is shown to produce, for any code words of 1 to 16 bits and any restart markers, pieces without false markers that unstuff to the bits written and the padding; stores outside of the chunk are a distinct outcome, shown unreachable."
  },
  {
   "property": "C29",
   "status": "proved",
   "theorems": [
    "Brunsli.C29_block",
    "Brunsli.C29_scan"
   ],
   "note": "Per block (bits consumed = bits emitted, for every table the reader accepts and every DC predictor) and for whole sequential scans with restart markers and padding bits; the file-level consequence is C31_file."
  },
  {
   "property": "C30",
   "status": "proved",
   "theorems": [
    "Brunsli.C30_scan"
   ],
   "note": "First and refinement scans of any band, with end-of-band runs over any number of blocks, buffered refinement bits, recorded reset points and zero runs; regenerated also from the coefficients that later scans have refined. That the scans of an accepted file meet the hypotheses is part of the proof of C31_file."
  },
  {
   "property": "C31",
   "status": "proved",
   "theorems": [
    "Brunsli.C31_file",
    "Brunsli.C31_delivered",
    "Brunsli.C31_streamed"
   ],
   "note": "ReadJpeg and SerializeJpeg/WriteJpeg are modelled completely (original_jpg and error codes left out): every byte string of any length that the reader accepts is regenerated byte for byte, whatever the sizes of the output buffers."
  },
  {
   "property": "C32",
   "status": "proved",
   "theorems": [
    "Brunsli.C32_reader_safe",
    "Brunsli.C32_validated"
   ],
   "note": "All checks of the reader; in addition no byte string makes the reader do anything undefined (out-of-bounds reads, stores outside of lookup tables or coefficients, non-termination are a distinct outcome, shown unreachable)."
  },
  {
   "property": "C33",
   "status": "proved",
   "theorems": [
    "Brunsli.C33_lookup",
    "Brunsli.C33_code_words"
   ],
   "note": "Two-level table: stores beyond the 1024 entries are a distinct outcome, shown unreachable; every 16-bit window is looked up without a read outside and gives the canonical code word's length and symbol, or a rejected value. Covers a series of definitions for one slot (stale entries). The writer's code word table is shown to hold the same code."
  },
  {
   "property": "C34",
   "status": "partial",
   "theorems": [
    "Brunsli.C34_decoder",
    "Brunsli.C34_decoder_refusal",
    "Brunsli.C34_encoder_false",
    "Brunsli.C34_encoder_partial"
   ],
   "note": "Decoder side proved. Encoder side false of the code: c/enc/encode.cc only checks that the callback did not return 0 (C34_encoder_false); the part that holds is C34_encoder_partial."
  },
  {
   "property": "C35",
   "status": "partial",
   "theorems": [
    "Brunsli.C35_each_task_once",
    "Brunsli.C35_call_returns",
    "Brunsli.C35_call_starts",
    "Brunsli.C35_destructor_never_completes",
    "Brunsli.C35_no_threads_never_returns"
   ],
   "note": "Each task runs exactly once and calls return, for all interleavings; false for the destructor, which never completes once there is a worker (C35_destructor_never_completes), and for a pool of no threads."
  },
  {
   "property": "C36",
   "status": "proved",
   "theorems": [
    "Brunsli.C36_checked_dims",
    "Brunsli.C36_tiling",
    "Brunsli.C36_tiles_inside",
    "Brunsli.C36_addresses",
    "Brunsli.C36_tasks_disjoint",
    "Brunsli.C36_zero_dim_undefined"
   ],
   "note": "Geometry of the tiles for dimensions accepted by the code's checks; a dimension of 0 passes the check and divides by zero (C36_zero_dim_undefined). Numbers are unbounded here; words of the platform are C76."
  },
  {
   "property": "C37",
   "status": "proved",
   "theorems": [
    "Brunsli.C37_end_to_end",
    "Brunsli.C37_api",
    "Brunsli.C37_injective",
    "Brunsli.C37_real"
   ],
   "note": "From the bytes of a JPEG file through reader, encoder, decoder and writer back to the same bytes, for every file the encoder accepts. Brotli (lossless) and the floating-point histogram clustering (gives every used symbol a count) enter as explicit contracts on the parameter `Codec`; that the decoder accepts and restores is proved, that the encoder accepts a given file is a hypothesis. C37_real: the same with the clustering of the code in place of its contract, so that only Brotli (and floating point rounding, FastLog2) is assumed."
  },
  {
   "property": "C38",
   "status": "proved",
   "theorems": [
    "Brunsli.C38_orders_inverse",
    "Brunsli.C38_quant_matrix"
   ],
   "note": "Tables copied verbatim; FillQuantMatrix for every factor."
  },
  {
   "property": "C39",
   "status": "partial",
   "theorems": [
    "Brunsli.C39_failure_lost",
    "Brunsli.C39_sequential_partial",
    "Brunsli.C39_no_false_alarm"
   ],
   "note": "False of the code: the tasks share one status variable (C39_failure_lost). Holds when the tasks do not overlap (C39_sequential_partial), and success is never turned into failure (C39_no_false_alarm)."
  },
  {
   "property": "C40",
   "status": "partial",
   "theorems": [
    "Brunsli.C40_space_used_partial",
    "Brunsli.C40_bypass_false"
   ],
   "note": "Proved outside of the bypass; false of the bypass (C40_bypass_false): the first call delivers nothing and asks for more space."
  },
  {
   "property": "C41",
   "status": "partial",
   "theorems": [
    "Brunsli.C41_overrun_false",
    "Brunsli.C41_bound_false",
    "Brunsli.C41_small_images_partial",
    "Brunsli.C41_real_false"
   ],
   "note": "FALSE of the code: for every lossless Brotli and every clustering there is a well-formed JPEG file (8192x8192, one component) on which EncodeBrunsli writes beyond the buffer it allocated (C41_overrun_false), and whose encoding is longer than the bound (C41_bound_false); proved by counting. C41_small_images_partial: images for which 654 bytes per block suffice stay within the buffer; between the two bounds nothing is proved."
  },
  {
   "property": "C42",
   "status": "partial",
   "theorems": [
    "Brunsli.C42_refused_false",
    "Brunsli.C42_accepted_partial"
   ],
   "note": "FALSE of the code: a file of one block, with ten Huffman table definitions and 13623 bytes between two segments, is refused whatever the buffer (C42_refused_false): EstimateAuxDataSize is not an upper bound. C42_accepted_partial: acceptance when the estimate plus 132 bytes per Huffman table and a quarter byte per recorded run fits the length field."
  },
  {
   "property": "C43",
   "status": "proved",
   "theorems": [
    "Brunsli.C43_normalise"
   ],
   "note": "For every rounding with relative error 2^-23 (float) and 2^-52 (double); rounding to nearest is shown to meet this. Rational arithmetic with unbounded exponents stands for IEEE arithmetic."
  },
  {
   "property": "C44",
   "status": "partial",
   "theorems": [
    "Brunsli.C44_clusters_partial",
    "Brunsli.C44_clusters_any_partial",
    "Brunsli.C44_cost_partial",
    "Brunsli.C44_overflow_false"
   ],
   "note": "Termination, bounds, at most 256 clusters and exact sums are proved for at most 100000000 symbols (C44_clusters_partial) and, for any number, whenever nothing overflows (C44_clusters_any_partial). FALSE beyond: PopulationCost overflows int at 214748365 symbols (C44_overflow_false); images may have 2^29 symbols; a file that leads to such a histogram is not exhibited."
  },
  {
   "property": "C45",
   "status": "partial",
   "theorems": [
    "Brunsli.C45_streaming_roundtrip",
    "Brunsli.C45_streaming_partial",
    "Brunsli.C45_original_partial",
    "Brunsli.C45_late_metadata_false"
   ],
   "note": "C45_streaming_roundtrip: all files the encoder makes, any pieces, any space (the writer row by row while coefficients arrive, against the one-shot writer). C45_streaming_partial: any decodable file whose metadata section is not behind a coefficient section. C45_original_partial: bypass files. FALSE when metadata come later (C45_late_metadata_false): the writer starts without them. The metadata section is visible to the writer as a whole in the model, the code fills it chunk by chunk."
  },
  {
   "property": "C46",
   "status": "partial",
   "theorems": [
    "Brunsli.C46_no_failure_partial",
    "Brunsli.C46_encoded_partial",
    "Brunsli.C46_missing_dc_false",
    "Brunsli.C46_writer_defined_partial"
   ],
   "note": "FALSE of the code: after 56 hostile bytes the writer reads the coefficients of a component that has none (C46_missing_dc_false). C46_no_failure_partial: calls that do not fail are defined, whatever the bytes. C46_encoded_partial: all files of the encoder in any pieces. C46_writer_defined_partial: for every byte string, cut and output space the writer is well defined if the AC section is met after the DC section and DC coefficients have at most 14 bits and a sign."
  },
  {
   "property": "C47",
   "status": "partial",
   "theorems": [
    "Brunsli.C47_bypass_false",
    "Brunsli.C47_image_partial",
    "Brunsli.C47_small_pieces_partial"
   ],
   "note": "FALSE of the code for every bypass file given in one piece (C47_bypass_false): the next call writes from the input of the first. C47_image_partial: never for images. C47_small_pieces_partial: not if all pieces are shorter than the bytes the file holds."
  },
  {
   "property": "C48",
   "status": "partial",
   "theorems": [
    "Brunsli.C48_writer_defined_partial",
    "Brunsli.C48_dc_range_false"
   ],
   "note": "FALSE of the code: 104 bytes whose DC coefficients wrap to -32768 make the writer shift by 32 bits (C48_dc_range_false). C48_writer_defined_partial: for every byte string, cut and output space it holds if DC coefficients have at most 14 bits and a sign and the AC section is met after the DC section. Not modelled: the int counter of zero runs, which overflows after 2^27 of them."
  },
  {
   "property": "C49",
   "status": "proved",
   "theorems": [
    "Brunsli.C49_decoding_defined",
    "Brunsli.C49_calls_defined"
   ],
   "note": "C49_decoding_defined: in every state the parser can come to, whatever bytes it was given, no continuation leaves a table in the sections of histograms, DC and AC coefficients. C49_calls_defined: the same after any calls of the streaming decoder. This lifts C20 from its hypotheses to every file. The internals, quantization and metadata sections read no tables that depend on the file."
  },
  {
   "property": "C50",
   "status": "proved",
   "theorems": [
    "Brunsli.C50_groups_roundtrip",
    "Brunsli.C50_schedules",
    "Brunsli.C50_real"
   ],
   "note": "C50_groups_roundtrip: for every JPEG file, all group dimensions, every order of the decoder's tasks. C50_schedules: the result does not depend on that order. C50_real: with the clustering of the code. The tasks of the encoder are run in order in the model; C36 shows that their tiles are disjoint. That a task's writes stay within its tile (crop, paste) is how the model is built: strides and pointers of a task are modelled as a copy of its tile. C75 shows that this is right for any interleaving of tasks that touch only their tiles. Group dimensions are unbounded numbers in the model, which is right up to 2^60 (C76)."
  },
  {
   "property": "C51",
   "status": "partial",
   "theorems": [
    "Brunsli.C51_overrun_false",
    "Brunsli.C51_real_false",
    "Brunsli.C51_small_images_partial"
   ],
   "note": "FALSE of the code: with the dimensions of cbrunsli (32, 128) some well-formed file of 8192 x 8192 pixels makes the encoder overrun the buffer of a part (C51_overrun_false, by counting; C51_real_false with the clustering of the code). C51_small_images_partial: for at most 98 blocks the DC and AC parts fit."
  },
  {
   "property": "C52",
   "status": "partial",
   "theorems": [
    "Brunsli.C52_hostile_false",
    "Brunsli.C52_zero_dimension_false",
    "Brunsli.C52_driver_partial",
    "Brunsli.C52_tasks_partial"
   ],
   "note": "FALSE of the code: 24 bytes without tables make WarmupMeta read a quantization table that does not exist (C52_hostile_false); the group dimension 0 divides by zero (C52_zero_dimension_false). C52_driver_partial: with positive dimensions and tables in the common part the decoder accepts or rejects. C52_tasks_partial: then no task leaves a table or its arrays, in any state other tasks may have left, whatever words it is given."
  },
  {
   "property": "C53",
   "status": "proved",
   "theorems": [
    "Brunsli.C53_schedule_independent"
   ],
   "note": "C53_schedule_independent: for every input and every two orders. C75 gives the same for interleavings of single accesses. That a task's accesses stay within its tile is how tasks are modelled (crop, paste); C52_tasks_partial and C36 show that the tiles are within the arrays and disjoint. A task that fails makes the model's decoder fail; how failures are reported by the executor is C39."
  },
  {
   "property": "C54",
   "status": "partial",
   "theorems": [
    "Brunsli.C54_roundtrip_partial",
    "Brunsli.C54_completes",
    "Brunsli.C54_large_files_false",
    "Brunsli.C54_abort_false"
   ],
   "note": "FALSE of the code: the size of a file is kept in an int, so that of 2^32 + n bytes only n are encoded and success is reported (C54_large_files_false), and files of 2^31 to 2^32 - 1 bytes abort the program (C54_abort_false). C54_roundtrip_partial: below 2^32 bytes, whenever both tools report success the file is restored and no other file has changed, whatever the partial transfers and failures. C54_completes: if no call fails, files of 1 to 2^31 - 1 bytes go through."
  },
  {
   "property": "C55",
   "status": "partial",
   "theorems": [
    "Brunsli.C55_other_files",
    "Brunsli.C55_input_kept",
    "Brunsli.C55_refused_partial",
    "Brunsli.C55_overwritten_false",
    "Brunsli.C55_leftovers"
   ],
   "note": "FALSE of the code: the output is opened for writing before anything is known to be writable, so that a failure while writing destroys the file that was there (C55_overwritten_false: in place, the image). C55_other_files, C55_input_kept: only the output can change, with the default name never the input. C55_refused_partial: if the input is refused nothing changes. C55_leftovers: a partial output is never decoded to anything but the original."
  },
  {
   "property": "C56",
   "status": "partial",
   "theorems": [
    "Brunsli.C56_header_agrees",
    "Brunsli.C56_safe",
    "Brunsli.C56_frame_valid",
    "Brunsli.C56_all",
    "Brunsli.C56_tables_false"
   ],
   "note": "C56_header_agrees: whatever is accepted in full has the same frame when only the header is read; C56_safe: no mode is ever undefined; C56_frame_valid: what is accepted is in range. FALSE of the code for JPEG_READ_TABLES (C56_tables_false): the contents of APP and COM segments are not passed over, and the thumbnail in a file is taken for the image."
  },
  {
   "property": "C57",
   "status": "partial",
   "theorems": [
    "Brunsli.C57_estimate",
    "Brunsli.C57_zero",
    "Brunsli.C57_bound_partial",
    "Brunsli.C57_bound_false"
   ],
   "note": "C57_estimate: exact value and positivity for every decodable file; C57_zero: an estimate of 0 means the file cannot be decoded; C57_bound_partial: an upper bound for the arrays of the AC decoder when the file has at least half a byte per block (metadata and internals not counted). FALSE of the code in general (C57_bound_false): one byte per block of block state is not counted, and a file of 71 bytes makes the decoder allocate 1.7 million bytes more than estimated."
  },
  {
   "property": "C58",
   "status": "partial",
   "theorems": [
    "Brunsli.C58_streaming",
    "Brunsli.C58_original_partial",
    "Brunsli.C58_whole",
    "Brunsli.C58_cleanup_false"
   ],
   "note": "C58_streaming: for files made by the encoder, whatever the pieces, the client is told 0 until the result 1, at most data.length / 65536 calls after its last piece, and has then received the JPEG file. C58_original_partial: the same of files that hold original bytes, with one call more, while the client leaves its input buffer alone. C58_whole: the calls for a whole file. FALSE of the code at the end (C58_cleanup_false): BrunsliDecoderCleanup gives memory from malloc to delete[]. Not covered: size_t of 32 bits."
  },
  {
   "property": "C59",
   "status": "partial",
   "theorems": [
    "Brunsli.C59_arrays",
    "Brunsli.C59_arrays_succeed",
    "Brunsli.C59_buffers_partial",
    "Brunsli.C59_buffers_false"
   ],
   "note": "C59_arrays: whenever encoding and decoding an array both succeed the array is restored, whatever the sizes in between; C59_arrays_succeed: both succeed when the encoder accepts the array and the result has less than 2^31 bytes; C59_buffers_partial: the same of buffers that are full. FALSE of the code for buffers that are not (C59_buffers_false): the bytes up to the capacity are used, whatever position and limit are."
  },
  {
   "property": "C60",
   "status": "partial",
   "theorems": [
    "Brunsli.C60_apache_recognised",
    "Brunsli.C60_apache_partial",
    "Brunsli.C60_apache_sent",
    "Brunsli.C60_apache_gets",
    "Brunsli.C60_apache_crash_false",
    "Brunsli.C60_apache_refused_false",
    "Brunsli.C60_letters",
    "Brunsli.C60_nginx_recognised",
    "Brunsli.C60_nginx_partial",
    "Brunsli.C60_nginx_sent",
    "Brunsli.C60_nginx_missed_false"
   ],
   "note": "C60_apache_recognised, C60_nginx_recognised: exactly which header values the modules recognise; C60_letters: case is ignored for the 26 letters only; C60_apache_sent, C60_apache_gets, C60_nginx_sent: what is sent then. C60_apache_partial: for lower case types without a zero quality and without elements that begin with a semicolon this is just what the client accepts; C60_nginx_partial: so it is in nginx if the type is the last element. FALSE of the code otherwise: C60_apache_crash_false (an element of semicolons is a null pointer access), C60_apache_refused_false (q=0 is ignored), C60_nginx_missed_false (the type is found only at the end of the header). Library functions of APR and nginx are modelled as published."
  },
  {
   "property": "C61",
   "status": "partial",
   "theorems": [
    "Brunsli.C61_nginx_partial",
    "Brunsli.C61_nginx_false",
    "Brunsli.C61_apache_false"
   ],
   "note": "C61_nginx_partial: it holds if gzip_vary is on and clients with the same Accept-Encoding have the same Accept. FALSE of the code otherwise: C61_nginx_false (Vary names Accept-Encoding, the answer depends on Accept), C61_apache_false (no Vary at all)."
  },
  {
   "property": "C62",
   "status": "proved",
   "theorems": [
    "Brunsli.C62_defined",
    "Brunsli.C62_same"
   ],
   "note": "C62_defined: never out of the vectors, no overflow of pos_, for every file the JPEG reader accepts; C62_same: the stored code words are those of the model with lists."
  },
  {
   "property": "C63",
   "status": "proved",
   "theorems": [
    "Brunsli.C63_as_with_header",
    "Brunsli.C63_any_pieces",
    "Brunsli.C63_restores"
   ],
   "note": "C63_as_with_header: for every valid header and every rest, in one piece; C63_any_pieces: the parser of the code fed with any pieces; C63_restores: for the Brunsli file of every JPEG file the rest restores the JPEG file."
  },
  {
   "property": "C64",
   "status": "partial",
   "theorems": [
    "Brunsli.C64_defined",
    "Brunsli.C64_no_overflow",
    "Brunsli.C64_header_same",
    "Brunsli.C64_small_partial",
    "Brunsli.C64_large_partial",
    "Brunsli.C64_bound_false",
    "Brunsli.C64_metadata_partial",
    "Brunsli.C64_metadata_false"
   ],
   "note": "C64_defined, C64_no_overflow: defined, at least 2 MiB, below 2^40 for every accepted file in every mode of reading; C64_header_same: the header tells as much as the file; C64_small_partial, C64_large_partial: an upper bound for images of at most 1774 blocks, and for larger ones when the guess exceeds the sampled number of nonzero coefficients by a quarter of the blocks (growing vectors and the serialized result not counted). FALSE of the code in general (C64_bound_false): for a file of 117 bytes the vector of AC code words alone is 1.9 million bytes larger than the estimate. C64_metadata_partial: the metadata are covered when nothing follows the end of the image; FALSE otherwise (C64_metadata_false): bytes after the end of the image are given to Brotli but not counted."
  },
  {
   "property": "C65",
   "status": "proved",
   "theorems": [
    "Brunsli.C65_median",
    "Brunsli.C65_difference",
    "Brunsli.C65_multipliers",
    "Brunsli.C65_prediction",
    "Brunsli.C65_defined",
    "Brunsli.C65_test_defined"
   ],
   "note": "C65_median, C65_difference, C65_multipliers, C65_prediction: the exact values, computed without overflow, for all 16-bit coefficients and nonzero 16-bit quantization values; C65_test_defined: the test of the encoder on DC coefficients; C65_defined: decoding arbitrary words and encoding accepted coefficients is defined, in the model in which each of these operations is checked. The conversion of a term to 16 bits wraps around (as the code does)."
  },
  {
   "property": "C66",
   "status": "proved",
   "theorems": [
    "Brunsli.C66_size",
    "Brunsli.C66_work",
    "Brunsli.C66_bound",
    "Brunsli.C66_metadata"
   ],
   "note": "For every byte string that decodes, whatever the decompressor: the size of the written JPEG file is bounded by the bytes read, scans times blocks, and what Brotli makes of the metadata (C66_size); scans, blocks and components are bounded (C66_work); hence a bound from the input alone (C66_bound); metadata against what Brotli makes of them (C66_metadata). Brotli's expansion is a parameter."
  },
  {
   "property": "C67",
   "status": "proved",
   "theorems": [
    "Brunsli.C67_fields",
    "Brunsli.C67_fields_bad",
    "Brunsli.C67_histograms",
    "Brunsli.C67_quant",
    "Brunsli.C67_internals",
    "Brunsli.C67_defined"
   ],
   "note": "The bit reader with its fields, run by the calls of the decoder on the pieces: fields of given widths (C67_fields, C67_fields_bad), the histogram section with optimistic reading (C67_histograms), quantisation tables (C67_quant) and the bits of the internals (C67_internals) are what the bits of the whole section say; nothing undefined happens for any bytes, pieces and sizes (C67_defined). Not modelled: the assertion in SuspendBitReader when a section ends, and pointer arithmetic past the end in CanRead."
  },
  {
   "property": "C68",
   "status": "partial",
   "theorems": [
    "Brunsli.C68_wide",
    "Brunsli.C68_restores",
    "Brunsli.C68_accepted_partial",
    "Brunsli.C68_rejected_partial",
    "Brunsli.C68_no_new_image",
    "Brunsli.C68_wrapped_false",
    "Brunsli.C68_number_false"
   ],
   "note": "C68_wide: with 64 bits the container is read as in the rest of the model; C68_restores: with 32 bits or more every file made by the encoder gives back the JPEG file; C68_accepted_partial, C68_rejected_partial: the results agree if numbers fit and no unknown section announces an end beyond the words; C68_no_new_image: what is accepted with fewer bits is, without the offending sections, accepted with 64 bits and gives the same result. FALSE of the code otherwise: C68_wrapped_false (the end of an unknown section wraps around; a file that is incomplete with 64 bits is accepted with 32), C68_number_false (a meaningless number that does not fit is invalid with 32 bits only). The file is given in one call; sizes within sections are not modelled with other widths."
  },
  {
   "property": "C69",
   "status": "proved",
   "theorems": [
    "Brunsli.C69_reader_defined",
    "Brunsli.C69_reader_exact",
    "Brunsli.C69_reader_restores"
   ],
   "note": "The entropy-coded data are read by a program that checks input positions, table entries, block positions, shifts, int and 16-bit values (JSafe); C69_reader_defined: no check fails on any byte string; C69_reader_exact: the result is that of the reader of C31 and C32; C69_reader_restores: so C31 holds of it. The marker segments are checked in the model of C32. Unsigned sizes and the counters of restart intervals are checked against wrapping; allocation failures are not modelled."
  },
  {
   "property": "C70",
   "status": "partial",
   "theorems": [
    "Brunsli.C70_nothing",
    "Brunsli.C70_same_partial",
    "Brunsli.C70_metadata",
    "Brunsli.C70_defined_partial",
    "Brunsli.C70_ignored",
    "Brunsli.C70_needed_false"
   ],
   "note": "C70_nothing: skipping nothing is plain decoding, on all byte strings; C70_same_partial: for sets closed under what sections need, a file that can be decoded gives the same contents without the skipped ones (C70_metadata for the metadata); C70_defined_partial: nothing undefined for such sets on any byte string; C70_ignored: contents of skipped sections do not matter. FALSE of the code for other sets: C70_needed_false (a skipped section counts as met; DC data are decoded with codes that were never set). The file is given in one call."
  },
  {
   "property": "C71",
   "status": "proved",
   "theorems": [
    "Brunsli.C71_words_stored",
    "Brunsli.C71_words_restored",
    "Brunsli.C71_words_loaded",
    "Brunsli.C71_bits",
    "Brunsli.C71_bits_read",
    "Brunsli.C71_other_branch",
    "Brunsli.C71_other_branch_check_false"
   ],
   "note": "The three variants of the memory accesses with their masks and shifts, for all values, and WriteBits on top of the one that stores eight bytes. Also the byte-wise branch of WriteBits, which is never compiled: it writes the same bytes; its check of the length is too weak by one (C71_other_branch_check_false). What is configured as the byte order is taken to be that of the machine."
  },
  {
   "property": "C72",
   "status": "partial",
   "theorems": [
    "Brunsli.C72_quant",
    "Brunsli.C72_internals_partial",
    "Brunsli.C72_internals_false"
   ],
   "note": "True of quantisation sections of any length (C72_quant) and of internals sections of less than 512 MiB (C72_internals_partial). False of longer ones: the number of zero runs at one place is counted in an int without a limit, and 2^31 of them take 512 MiB and seven bytes (C72_internals_false)."
  },
  {
   "property": "C73",
   "status": "partial",
   "theorems": [
    "Brunsli.C73_quotient",
    "Brunsli.C73_words_partial",
    "Brunsli.C73_restored_partial",
    "Brunsli.C73_option_false",
    "Brunsli.C73_precision"
   ],
   "note": "True of the arithmetic: with the reciprocals filled in, every quotient is exact (C73_quotient) and the words are the same (C73_words_partial, C73_restored_partial); the precision of 42 bits cannot be lowered (C73_precision). False of the option as it stands: the lines that fill in the reciprocals depend on another name, so numbers are read that were never written (C73_option_false)."
  },
  {
   "property": "C74",
   "status": "proved",
   "theorems": [
    "Brunsli.C74_close",
    "Brunsli.C74_order",
    "Brunsli.C74_exact",
    "Brunsli.C74_end_to_end",
    "Brunsli.C74_cost"
   ],
   "note": "Literals of the table as single precision numbers, compared with Real.logb; log2 of the C library is a parameter from 256 on. C74_end_to_end and C74_cost are C37 and C44 with the table in place of the assumption on logarithms."
  },
  {
   "property": "C75",
   "status": "partial",
   "theorems": [
    "Brunsli.C75_isolated_partial",
    "Brunsli.C75_schedules_partial",
    "Brunsli.C75_no_race_partial",
    "Brunsli.C75_ends",
    "Brunsli.C75_status_false",
    "Brunsli.C75_predict_confined",
    "Brunsli.C75_predict",
    "Brunsli.C75_failed",
    "Brunsli.C75_local_status",
    "Brunsli.C75_sample_confined",
    "Brunsli.C75_sample",
    "Brunsli.C75_encode_dc_confined",
    "Brunsli.C75_encode_dc",
    "Brunsli.C75_encode_order",
    "Brunsli.C75_encode_sorted",
    "Brunsli.C75_encode_dc_failed",
    "Brunsli.C75_encode_dc_image",
    "Brunsli.C75_encode_ac_confined",
    "Brunsli.C75_encode_ac",
    "Brunsli.C75_encode_ac_seen",
    "Brunsli.C75_encode_ac_neighbours"
   ],
   "note": "False of the code for the variable status, which all tasks of the decoder write without synchronisation (C75_status_false, C39). For everything else (the arrays): C75_isolated_partial, C75_schedules_partial, C75_no_race_partial, C75_ends. A task is any program of single reads and writes, confined to its tile when given a copy of it (Confined); addresses are those of the pointers and strides of groups.cc. C75_predict_confined and C75_predict: the prediction of DC coefficients in EncodeGroups, access by access, is confined and gives for every interleaving the errors of C18 on each tile; C75_failed: the tasks encode_dc with their shared flag make EncodeGroups fail if and only if some tile does not pass the test of C18. C75_sample: the sampling of coefficients likewise. C75_encode_dc: the reads and writes of EncodeDC to the arrays, with any function for what it does with its own state (C75_encode_order, C75_encode_sorted: it visits the blocks of the tile, each once, in order of rows of MCUs, components, rows, columns). C75_encode_dc_failed: C75_failed with these accesses of EncodeDC, that is the whole of encode_dc. C75_encode_dc_image: when all have ended, the block states of the whole image are right, whatever the tiles. C75_encode_ac (with C75_encode_ac_seen and C75_encode_ac_neighbours, which say what is read): the accesses of EncodeAC to the arrays, for which the code reads coefficients of neighbours between the steps of coding a block and the model before. That the tasks of the decoder are confined to their tiles is what C49 and C52 show of blocks, not repeated for programs of single accesses. Accesses are taken as indivisible and in program order: this is sound where there is no race, which is (3). C75_local_status: with the outcome in a variable of each task the decoder would report failures exactly."
  },
  {
   "property": "C76",
   "status": "partial",
   "theorems": [
    "Brunsli.C76_tiles_partial",
    "Brunsli.C76_cover_partial",
    "Brunsli.C76_large_false"
   ],
   "note": "False of the code: with the dimension 2^63, which is accepted, tiles of components with two blocks per MCU along an axis are empty (C76_large_false): nothing of the component is stored and no error is reported. C76_cover_partial: holds for all dimensions up to 2^60 with words of 64 bits; C76_tiles_partial: for any word size as long as products fit."
  }
 ]
}