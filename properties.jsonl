{"id": "C01", "title": "Multiplexed coefficient stream is lossless", "statement": "Whatever sequence of entropy-coded symbols, adaptively-coded binary decisions and raw bit groups the encoder emits while encoding the DC or AC coefficients, the 16-bit word stream it writes into the section is decoded back to exactly the same sequence; the decoder consumes the words exactly, the final integrity check succeeds and the padding is accepted.", "quantifier": "every finite sequence of operations (ANS symbol under any normalised histogram / adaptive bit under any evolving probability / raw bits), every interleaving of the three coders, every length", "why_tests_cant": "The three coders share one word stream and run in opposite directions (ANS backwards); an ordering or carry error shows only for specific interleavings and state values, an infinite space.", "anchors": ["c/enc/brunsli_encode.cc: DataStream::AddCode, AddBits, AddBit, FlushBitWriter, FlushArithmeticCoder, EncodeCodeWords", "c/dec/brunsli_decode.cc: PrepareEntropyDecoders/Init*, DecodeDC, DecodeAC", "c/enc/ans_encode.h: ANSCoder::PutSymbol", "c/dec/ans_decode.h: ANSDecoder::ReadSymbol", "c/dec/arith_decode.h: BinaryArithmeticDecoder", "c/dec/brunsli_input.h: WordSource, BitSource"]}
{"id": "C02", "title": "ANS coder round trip", "statement": "Encoding any list of symbols with the range-ANS coder and decoding the produced words yields the same list and returns the decoder to its initial signature state, for any histogram whose counts sum to the table size.", "quantifier": "all symbol sequences, all histograms (positive count for each used symbol, sum 1024)", "why_tests_cant": "State space of 32-bit ANS states times histograms is far beyond enumeration.", "anchors": ["c/enc/ans_encode.h", "c/enc/ans_encode.cc: BuildAndStoreANSEncodingData", "c/dec/ans_decode.h", "c/dec/ans_decode.cc: ANSDecodingData::Init"]}
{"id": "C03", "title": "Binary arithmetic coder round trip", "statement": "Any sequence of binary decisions coded with adaptive probabilities is decoded to the same decisions, with the encoder's and decoder's probabilities staying in lock step.", "quantifier": "all bit sequences, all probability sequences in 0..255, all lengths", "why_tests_cant": "Interval underflow / carry situations depend on rare 32-bit states.", "anchors": ["c/enc/brunsli_encode.cc: DataStream::AddBit, FlushArithmeticCoder", "c/dec/arith_decode.h: BinaryArithmeticDecoder::ReadBit"]}
{"id": "C04", "title": "Adaptive probabilities stay in range", "statement": "After any history of observed bits the adaptive probability handed to the arithmetic coder is a valid 8-bit value, the internal counters never overflow their integer types and no table lookup or division is out of range.", "quantifier": "all initial probabilities accepted by Init, all bit histories of any length", "why_tests_cant": "Overflow needs tens of thousands of specific updates; histories are unbounded.", "anchors": ["c/common/distributions.h: Prob, FastDivide"]}
{"id": "C05", "title": "Section length and size integers round trip", "statement": "Every length written by the encoder in base-128 form (variable or fixed width) is read back exactly by the decoder, consuming exactly the written bytes; a value that does not fit the reserved width makes the encoder fail rather than write a wrong length; an unterminated length is rejected.", "quantifier": "all values < 2^63, all reserved widths, all following data, all malformed byte strings", "why_tests_cant": "The value domain is 2^63 and truncation bugs appear only at width boundaries.", "anchors": ["c/enc/brunsli_encode.cc: EncodeBase128, EncodeBase128Fix, Base128Size, EncodeSection", "c/dec/brunsli_decode.cc: DecodeBase128, EnterSection", "c/experimental/groups.cc: SkipSection"]}
{"id": "C06", "title": "Bit-level variable-length integers round trip", "statement": "Each variable-length integer format used inside sections decodes to the encoded value for all values in its documented range, leaving the following bits untouched.", "quantifier": "all values below the format's limit, all parameters used (bit limits / packet sizes), all following bits", "why_tests_cant": "Exhausting 2^28 values x formats x continuations is infeasible and continuation/limit interaction is at the boundary.", "anchors": ["c/enc/brunsli_encode.cc: EncodeVarint, EncodeLimitedVarint", "c/dec/brunsli_decode.cc: DecodeVarint, DecodeLimitedVarint, DecodeVarLenUint8", "c/enc/context_map_encode.cc: StoreVarLenUint8"]}
{"id": "C07", "title": "Bit writer / bit reader agreement", "statement": "Bits written in groups by the encoder are returned in the same groups by the decoder's bit reader; reading past the end of input is always detected as unhealthy; bytes not consumed are returned to the input; non-zero padding bits are detected.", "quantifier": "all sequences of groups of 0..24 bits, all input buffers, all read sequences", "why_tests_cant": "Refill/unload behaviour depends on alignment and buffer-end position of unbounded streams.", "anchors": ["c/enc/write_bits.h: WriteBits", "c/dec/bit_reader.h", "c/dec/bit_reader.cc"]}
{"id": "C08", "title": "Quantization tables survive transcoding", "statement": "All quantization tables (1 to 4 tables, any values 1..65535 that the encoder accepts) are reconstructed exactly by the decoder.", "quantifier": "all table values and precisions the encoder accepts", "why_tests_cant": "64 16-bit values per table; prediction from stock tables and delta coding have corner cases only for rare values.", "anchors": ["c/enc/brunsli_encode.cc: EncodeQuantTables, GetQuantTableId", "c/dec/brunsli_decode.cc: DecodeQuantDataSection", "c/common/quant_matrix.cc"]}
{"id": "C09", "title": "JPEG Huffman table definitions survive transcoding", "statement": "Every Huffman table definition (slot, is-last flag, code-length counts and values) the encoder accepts is reconstructed exactly by the decoder.", "quantifier": "all accepted tables: any counts satisfying Kraft, any permutation of values", "why_tests_cant": "Number of tables is astronomically large; the count limits and permutation coding are value dependent.", "anchors": ["c/enc/brunsli_encode.cc: EncodeHuffmanCode", "c/dec/brunsli_decode.cc: DecodeHuffmanCode", "c/common/lehmer_code.h: PermutationCoder"]}
{"id": "C10", "title": "Scan structure survives transcoding", "statement": "Scan parameters, reset points and extra zero runs, for any number of scans, are reconstructed exactly.", "quantifier": "all scan lists with strictly increasing reset points and increasing zero-run positions within limits", "why_tests_cant": "Unbounded lists with delta coding.", "anchors": ["c/enc/brunsli_encode.cc: EncodeScanInfo", "c/dec/brunsli_decode.cc: DecodeScanInfo"]}
{"id": "C11", "title": "JPEG internals section round trip", "statement": "Marker order, restart interval, Huffman tables, scans, quant table indices/precisions, component ids, padding bits and inter-marker data written to the internals section are all reconstructed exactly and the section is consumed to its last byte.", "quantifier": "every JPEG structure the encoder accepts", "why_tests_cant": "Combination of optional fields and unbounded lists.", "anchors": ["c/enc/brunsli_encode.cc: EncodeAuxData, EncodeJPEGInternals", "c/dec/brunsli_decode.cc: DecodeJPEGInternalsSection"]}
{"id": "C12", "title": "Metadata survives transcoding", "statement": "All APPn and COM segments and the tail data come back identical and in order, whether or not the encoder replaced well-known APP segments by short codes.", "quantifier": "all lists of well-formed APP/COM segments and any tail, any lossless byte compressor", "why_tests_cant": "Unbounded byte strings; the short codes' templates must agree byte for byte on both sides.", "anchors": ["c/enc/brunsli_encode.cc: TransformApp*Marker, EncodeMetaData", "c/dec/brunsli_decode.cc: ProcessMetaData, GenerateApp0Marker, GenerateAppMarker, DecodeMetaDataSection"]}
{"id": "C13", "title": "Metadata parsing does not depend on chunking", "statement": "Feeding the decompressed metadata to the decoder in any split into chunks gives the same result and the same reconstructed segments as feeding it at once.", "quantifier": "all byte strings and all ways to cut them into consecutive chunks", "why_tests_cant": "Number of chunkings is exponential in the length.", "anchors": ["c/dec/brunsli_decode.cc: ProcessMetaData"]}
{"id": "C14", "title": "Histograms round trip and always sum to the table size", "statement": "Every normalised histogram the encoder writes is read back with identical counts; every histogram the decoder accepts from arbitrary input has counts summing to the table size, so building the decoding table never writes outside it.", "quantifier": "all normalised count vectors; all input bit strings", "why_tests_cant": "Adversarial inputs and 18-symbol count vectors are unbounded in practice.", "anchors": ["c/enc/histogram_encode.cc: EncodeCounts", "c/dec/histogram_decode.cc: ReadHistogram", "c/dec/ans_decode.cc: ANSDecodingData::Init"]}
{"id": "C15", "title": "Context map round trip and safety", "statement": "The context map written by the encoder is read back identically; for arbitrary input every accepted context map only refers to existing histograms.", "quantifier": "all context maps with entries < number of histograms; all input bit strings", "why_tests_cant": "Move-to-front and run-length interactions over thousands of entries.", "anchors": ["c/enc/context_map_encode.cc: EncodeContextMap, MoveToFrontTransform, RunLengthCodeZeros", "c/dec/context_map_decode.cc: DecodeContextMap, InverseMoveToFrontTransform"]}
{"id": "C16", "title": "Prefix (Huffman) codes round trip", "statement": "A symbol written with the encoder's prefix code is read back by the decoder's lookup tables, for every complete code the encoder can build; the decoder rejects or safely handles every malformed code description.", "quantifier": "all depth vectors satisfying Kraft equality, all symbols; all input bit strings", "why_tests_cant": "Space of codes is exponential in the alphabet size.", "anchors": ["c/enc/huffman_tree.cc: ConvertBitDepthsToSymbols, WriteHuffmanTree", "c/enc/huffman_encode.cc", "c/dec/huffman_decode.cc", "c/dec/huffman_table.cc"]}
{"id": "C17", "title": "Coefficient order round trip and permutation safety", "statement": "The coefficient order the encoder writes for a component is read back identically, and any order accepted by the decoder from arbitrary input is a permutation of 0..63 that fixes 0, so coefficient writes never leave the block.", "quantifier": "all permutations fixing 0; all input bit strings", "why_tests_cant": "63! permutations.", "anchors": ["c/enc/brunsli_encode.cc: EncodeCoeffOrder", "c/dec/brunsli_decode.cc: DecodeCoeffOrder", "c/common/lehmer_code.cc"]}
{"id": "C18", "title": "DC coefficients survive transcoding", "statement": "All DC coefficients of every component are reconstructed exactly from the DC section whenever the encoder accepts them; a DC prediction residual outside the representable range makes the encoder fail instead of producing a wrong file.", "quantifier": "all component dimensions, all coefficient arrays", "why_tests_cant": "Unbounded images; context state evolves with every block.", "anchors": ["c/enc/brunsli_encode.cc: PredictDCCoeffs, EncodeDC", "c/dec/brunsli_decode.cc: DecodeDC", "c/common/predict.cc"]}
{"id": "C19", "title": "AC coefficients survive transcoding", "statement": "All AC coefficients of every block are reconstructed exactly from the AC section.", "quantifier": "all component dimensions, all coefficient arrays, all context-model versions and context resolutions", "why_tests_cant": "Unbounded images; contexts depend on neighbouring blocks and adaptive statistics.", "anchors": ["c/enc/brunsli_encode.cc: EncodeAC, EncodeNumNonzeros", "c/dec/brunsli_decode.cc: DecodeAcBlock, DecodeAC, DecodeNumNonzeros", "c/common/context.cc"]}
{"id": "C20", "title": "Context indices never leave their tables", "statement": "While decoding coefficients from arbitrary (malicious) data, every index used to select a histogram, a probability or a lookup entry lies inside the table it indexes.", "quantifier": "all decodable states: every remaining nonzero count, position, neighbour values and context resolution", "why_tests_cant": "Adversarial input space; one out-of-range index is memory corruption.", "anchors": ["c/common/context.h: ZeroDensityContext, WeightedAverageContext, NumNonzerosContext", "c/common/context.cc", "c/dec/brunsli_decode.cc: DecodeAcBlock"]}
{"id": "C21", "title": "Fallback (bypass) container round trip and size bound", "statement": "For any byte string, encoding it in bypass mode into a buffer of the advertised bypass size succeeds, and decoding the result returns exactly the original bytes.", "quantifier": "all byte strings (valid JPEG or not) of any length below 2^63", "why_tests_cant": "Unbounded input lengths; length-field width changes at powers of 128.", "anchors": ["c/enc/brunsli_encode.cc: BrunsliEncodeJpegBypass, GetBrunsliBypassSize, EncodeOriginalJpg", "c/dec/brunsli_decode.cc: DecodeOriginalJpg, DecodeHeader"]}
{"id": "C22", "title": "Image header round trip and validation", "statement": "Width, height, version and subsampling of any representable image survive the header; any header accepted by the decoder has dimensions within 1..65535, 1 to 4 components, sampling factors within limits and at most 2^21 blocks per component.", "quantifier": "all representable images; all byte strings", "why_tests_cant": "Adversarial headers; block-count arithmetic near limits.", "anchors": ["c/enc/brunsli_encode.cc: EncodeHeader, FrameTypeCode", "c/dec/brunsli_decode.cc: DecodeHeader, UpdateSubsamplingDerivatives"]}
{"id": "C23", "title": "Header rejects mis-typed known values", "statement": "A header in which a known numeric value (width, height, version/component count, subsampling) is given with the wrong wire type is rejected as an invalid file.", "quantifier": "all header byte strings", "why_tests_cant": "A fuzzer sees a decode either way; only a specification says it must be rejected.", "anchors": ["c/dec/brunsli_decode.cc: DecodeHeader, Fail"]}
{"id": "C24", "title": "Container structure is enforced", "statement": "Any file accepted by the decoder starts with the signature, contains each section at most once, has every section required by a later one before it, ends exactly at the end of the last section, and any strict prefix of an accepted file is never accepted (it is reported as incomplete).", "quantifier": "all byte strings and all their prefixes", "why_tests_cant": "Prefix/extension behaviour must hold at every byte position of every file.", "anchors": ["c/dec/brunsli_decode.cc: VerifySignature, ReadTag, EnterSection, ParseSection, ProcessSection, DoProcessJpeg"]}
{"id": "C25", "title": "Output delivery is independent of buffer sizes", "statement": "The JPEG bytes delivered by the streaming decoder, concatenated over calls, do not depend on the sizes of the output buffers supplied, and nothing is lost, repeated or reordered; done is reported exactly when all bytes were delivered.", "quantifier": "all chunk queues and all sequences of output buffer sizes", "why_tests_cant": "Exponentially many ways of slicing the output.", "anchors": ["c/dec/jpeg_data_writer.cc: PushOutput, SerializeJpeg, WriteJpeg", "c/dec/output_chunk.h"]}
{"id": "C26", "title": "Errors are permanent", "statement": "Once the decoder has reported an error every further call reports the same error and produces no output, whatever input follows.", "quantifier": "all histories of calls after an error", "why_tests_cant": "Histories are unbounded.", "anchors": ["c/dec/brunsli_decode.cc: ProcessJpeg, Fail, BrunsliDecoder::Decode", "c/dec/jpeg_data_writer.cc: SerializeJpeg"]}
{"id": "C27", "title": "Streaming input is independent of chunking", "statement": "Delivering the compressed bytes to the streaming decoder in any split gives the same parsed bytes in the same order to the parser; no byte is lost, duplicated or reordered by the internal read-ahead buffer.", "quantifier": "all byte strings, all splits, all parser consumption patterns within the read-ahead bound", "why_tests_cant": "Exponentially many splits; buffer hand-over happens at data dependent positions.", "anchors": ["c/dec/brunsli_decode.cc: ProcessJpeg, LoadInput, UnloadInput, BufferMaxReadAhead"]}
{"id": "C28", "title": "Entropy-coded JPEG data never contains a false marker", "statement": "In the entropy-coded segments of the JPEG written by the decoder every 0xFF byte is followed by a zero byte or is an intended restart marker; removing the stuffing bytes gives exactly the bits that were written followed by the padding.", "quantifier": "all sequences of bit writes", "why_tests_cant": "The fast path checks six bytes at once with bit tricks; wrong only for particular byte patterns.", "anchors": ["c/dec/jpeg_data_writer.cc: WriteBits, DischargeBitBuffer, HasZeroByte, EmitByte, JumpToByteBoundary"]}
{"id": "C29", "title": "JPEG block coding is inverted exactly", "statement": "For each block of a sequential scan, the Huffman-coded bits the JPEG reader consumed are exactly the bits the JPEG writer regenerates from the coefficients, the recorded extra zero runs and the previous DC value.", "quantifier": "all bit strings the reader accepts, all Huffman tables it accepts, all previous DC values", "why_tests_cant": "Every one of the infinitely many valid block encodings must be reproduced bit-exactly.", "anchors": ["c/enc/jpeg_data_reader.cc: DecodeDCTBlock, HuffExtend, ReadSymbol", "c/dec/jpeg_data_writer.cc: EncodeDCTBlockSequential, BuildHuffmanCodeTable"]}
{"id": "C30", "title": "Progressive scans are inverted exactly", "statement": "For progressive scans (spectral selection, end-of-band runs, successive approximation) the writer regenerates exactly the bits the reader consumed, using the recorded reset points and zero runs.", "quantifier": "all scans accepted by the reader", "why_tests_cant": "EOB runs span arbitrarily many blocks and refinement bits are buffered across them.", "anchors": ["c/enc/jpeg_data_reader.cc: DecodeDCTBlock, RefineDCTBlock, ProcessScan", "c/dec/jpeg_data_writer.cc: EncodeDCTBlockProgressive, EncodeRefinementBits, BufferEndOfBand, Flush"]}
{"id": "C31", "title": "JPEG marker segments are inverted exactly", "statement": "For every JPEG accepted by the reader the writer regenerates each marker segment (SOF, SOS, DHT, DQT, DRI, APP, COM, RST, inter-marker data, tail) byte for byte.", "quantifier": "all byte strings the reader accepts", "why_tests_cant": "Field encodings have many redundant representations that must all be preserved or rejected.", "anchors": ["c/enc/jpeg_data_reader.cc: ProcessSOF, ProcessSOS, ProcessDHT, ProcessDQT, ProcessDRI, ProcessAPP, ProcessCOM, ReadJpeg", "c/dec/jpeg_data_writer.cc: EncodeSOF, EncodeSOS, EncodeDHT, EncodeDQT, EncodeDRI, EncodeAPP, EncodeCOM"]}
{"id": "C32", "title": "JPEG reader accepts only well-formed tables", "statement": "Every JPEG accepted by the reader has quantization values in 1..65535, sampling factors in range and dividing the maxima, component ids distinct, Huffman tables satisfying the Kraft inequality with one all-ones code reserved, at most 2^21 blocks per component, and each component's quantization table present.", "quantifier": "all byte strings", "why_tests_cant": "Later stages rely on it for memory safety and lossless coding for every input.", "anchors": ["c/enc/jpeg_data_reader.cc"]}
{"id": "C33", "title": "JPEG Huffman lookup table decodes the canonical code", "statement": "The two-level lookup table built from any accepted Huffman table definition decodes each canonical code word to its symbol and length, and is never written or read outside its bounds.", "quantifier": "all count vectors satisfying Kraft, all 16-bit windows", "why_tests_cant": "Exponentially many code-length distributions.", "anchors": ["c/enc/jpeg_huffman_decode.cc: BuildJpegHuffmanTable, NextTableBitSize", "c/enc/jpeg_data_reader.cc: ReadSymbol"]}
{"id": "C34", "title": "Sink failures are reported", "statement": "If the user-supplied output callback accepts fewer bytes than it was given, the C API call returns failure, as its header documents.", "quantifier": "all callbacks and payloads", "why_tests_cant": "Callback behaviour is arbitrary user code.", "anchors": ["c/include/brunsli/encode.h", "c/enc/encode.cc: EncodeBrunsli", "c/include/brunsli/decode.h", "c/dec/decode.cc: DecodeBrunsli", "c/include/brunsli/jpeg_data_writer.h: JPEGOutput::Write"]}
{"id": "C35", "title": "Parallel executor runs each task exactly once and terminates", "statement": "For every thread schedule, executing n tasks on the pool runs each task index exactly once, returns only after all have finished, and destroying the pool completes.", "quantifier": "all numbers of threads and tasks, all interleavings, all sequences of execute calls", "why_tests_cant": "Thread schedules cannot be enumerated by tests.", "anchors": ["c/experimental/groups.cc: ParallelExecutor"]}
{"id": "C36", "title": "Group tiling covers every block exactly once", "statement": "In groups mode the DC tiles and the AC tiles each partition the block grid of every component: every block belongs to exactly one tile, so no two parallel tasks touch the same block and none is missed.", "quantifier": "all image sizes, sampling factors and power-of-two group dimensions accepted (up to 2^60: larger ones are the subject of C76)", "why_tests_cant": "All sizes; the last partial tile and subsampled components are the risky cases.", "anchors": ["c/experimental/groups.cc: EncodeGroups, DecodeGroups"]}
{"id": "C37", "title": "End to end: decoding an encoded JPEG restores the file", "statement": "For every JPEG file the encoder accepts, decoding the produced Brunsli file yields the identical file.", "quantifier": "all byte strings accepted by EncodeBrunsli", "why_tests_cant": "The central guarantee of the library, over an infinite input space.", "anchors": ["c/enc/encode.cc: EncodeBrunsli", "c/dec/decode.cc: DecodeBrunsli"]}
{"id": "C38", "title": "Stock templates agree", "statement": "Natural and zig-zag coefficient orders are mutually inverse permutations, and quantization matrices derived from a quality factor always have entries in 1..255.", "quantifier": "all 64 positions; all base matrices and factors", "why_tests_cant": "Table typos are invisible until a particular entry is used.", "anchors": ["c/include/brunsli/jpeg_data.h: kJPEGNaturalOrder, kJPEGZigZagOrder", "c/common/quant_matrix.cc: FillQuantMatrix"]}
{"id": "C39", "title": "Parallel group decoding reports failures", "statement": "In groups mode, if any section handed to a worker fails to decode, DecodeGroups returns failure, whatever the schedule; and it returns success when no section fails.", "quantifier": "all numbers of groups, all outcomes of the tasks, all interleavings", "why_tests_cant": "A lost failure needs a particular interleaving of two worker threads.", "anchors": ["c/experimental/groups.cc: DecodeGroups"]}
{"id": "C40", "title": "More output space is asked for only when the space given is used up", "statement": "A decoding call returns NEEDS_MORE_OUTPUT only if it has filled the whole output buffer it was given.", "quantifier": "all files, all call histories, all buffer sizes", "why_tests_cant": "Depends on how the queue of output chunks and the buffers given interleave, and on the kind of file.", "anchors": ["c/dec/decode.cc: BrunsliDecoder::Decode", "c/dec/jpeg_data_writer.cc: SerializeJpeg, PushOutput"]}
{"id": "C41", "title": "The buffer size announced for encoding is sufficient", "statement": "GetMaximumBrunsliEncodedSize is an upper bound of the size of the encoded file, so that the encoder, given a buffer of that size, never writes beyond its end.", "quantifier": "all JPEG files the reader accepts", "why_tests_cant": "The files that need the most room are not the ones tests contain; an overrun corrupts the heap.", "anchors": ["c/enc/brunsli_encode.cc: GetMaximumBrunsliEncodedSize, BrunsliEncodeJpeg, EncodeSection", "c/enc/encode.cc: EncodeBrunsli"]}
{"id": "C42", "title": "The encoder accepts every representable JPEG", "statement": "A JPEG file that the reader accepts is refused by the encoder only if something in it cannot be represented (too many markers or padding bits, DC values out of range); in particular the estimate of the size of the internals section is an upper bound, so that its length can always be written.", "quantifier": "all JPEG files the reader accepts", "why_tests_cant": "Needs the worst case of every part of the section at once.", "anchors": ["c/enc/brunsli_encode.cc: EstimateAuxDataSize, EncodeSection, BrunsliSerialize"]}
{"id": "C43", "title": "Normalising a histogram never aborts", "statement": "Whatever the symbol counts of an image, the step that scales a histogram to the ANS table size succeeds instead of aborting the process; the scaled counts add up to the table size, every symbol that occurs keeps a positive count and no other symbol gets one.", "quantifier": "all histograms of 18 symbols, every floating point rounding with the usual relative error", "why_tests_cant": "The source carries a note that the fallback should be fuzzed; a failure needs an unlucky combination of counts and rounding, and ends the process.", "anchors": ["c/enc/histogram_encode.cc: NormalizeCounts, RebalanceHistogram"]}
{"id": "C44", "title": "Clustering of histograms is well defined", "statement": "Encoding groups the histograms of all contexts into at most 256 clusters; this terminates without out-of-bounds access or integer overflow for every image the format allows, every context gets a cluster, and the counts of a cluster are exactly the sums of the counts of its contexts, so that no symbol is left without a code.", "quantifier": "all lists of histograms an image can have, all costs", "why_tests_cant": "The greedy merge depends on floating point costs of all pairs; overflows need images of hundreds of megapixels.", "anchors": ["c/enc/cluster.h: ClusterHistograms, HistogramCombine, HistogramRemap, HistogramReindex", "c/enc/histogram_encode.cc: PopulationCost"]}
{"id": "C45", "title": "Decoding and output are independent of how the file arrives", "statement": "A file that decodes to a JPEG when it is given to the streaming decoder in one piece decodes to the same JPEG in any pieces and with any output buffers: no call fails, every call takes all of its input, and the bytes written by the calls, in order, are a beginning of that JPEG, all of it once the file has arrived and there was room.", "quantifier": "all files that decode, all ways to cut them, all sequences of output buffer sizes", "why_tests_cant": "The writer runs while coefficients are still being decoded; which rows it may write depends on where the file is cut, on the scan script and on the sampling factors.", "anchors": ["c/dec/decode.cc: BrunsliDecoder::Decode", "c/dec/jpeg_data_writer.cc: SerializeJpeg, DoEncodeScan", "c/dec/brunsli_decode.cc: ProcessJpeg"]}
{"id": "C46", "title": "The JPEG writer inside the streaming decoder reads only what was decoded", "statement": "Whatever bytes are given to the streaming decoder in whatever pieces, the behaviour of the JPEG writer is defined: it never reads coefficients, tables or scans that do not exist and never writes beyond its buffers.", "quantifier": "all byte strings, all ways to cut them, all sequences of output buffer sizes", "why_tests_cant": "Depends on hostile orders of sections and on the place where the input stops.", "anchors": ["c/dec/jpeg_data_writer.cc: SerializeJpeg, DoEncodeScan", "c/dec/brunsli_decode.cc: HasSection, ReadTag"]}
{"id": "C47", "title": "The streaming decoder keeps no reference to the caller's input", "statement": "Once a call of the streaming decoder has returned, the input given to it may be released: later calls write nothing that is read from it.", "quantifier": "all files, all ways to cut them, all sequences of output buffer sizes", "why_tests_cant": "A test that keeps its buffers alive never sees the difference.", "anchors": ["c/dec/brunsli_decode.cc: DecodeOriginalJpg, ProcessJpeg", "c/dec/jpeg_data_writer.cc: SerializeJpeg", "c/dec/output_chunk.h: OutputChunk"]}
{"id": "C48", "title": "Writing a decoded JPEG never leaves the range of its integers and code tables", "statement": "Whatever coefficients a Brunsli file describes, emitting them as JPEG entropy-coded data is defined: every Huffman code looked up is one of the 256 entries of its table and every bit field emitted has fewer than 32 bits, so that a hostile file can make decoding fail but not undefined.", "quantifier": "all byte strings, all ways to cut them, all sequences of output buffer sizes", "why_tests_cant": "Needs sums of many small differences that wrap around 16 bits exactly at the one value whose negation is itself.", "anchors": ["c/dec/jpeg_data_writer.cc: EncodeDCTBlockSequential, EncodeDCTBlockProgressive, EncodeRefinementBits, WriteBits", "c/dec/brunsli_decode.cc: DecodeDC, DecodeAC"]}
{"id": "C49", "title": "Decoding never leaves its tables", "statement": "Whatever bytes the decoder has been given and whatever it is given next, reading a section never accesses a table outside of its bounds: neither the lookup tables of prefix codes while they are built or used, nor the counts of a histogram, the map from contexts to histograms, the tables of the entropy decoder, the adaptive probabilities or the tables of contexts. A hostile or truncated file can only make decoding fail.", "quantifier": "all byte strings, all ways to cut them, all states of the decoder within and between calls, all continuations", "why_tests_cant": "The indices depend on everything read before: header, quantization tables, coding schemes, context maps and histograms of the same file.", "anchors": ["c/dec/brunsli_decode.cc: DecodeHistogramDataSection, DecodeDC, DecodeAC, DecodeAcBlock", "c/dec/huffman_decode.cc", "c/dec/huffman_table.cc", "c/dec/histogram_decode.cc", "c/dec/context_map_decode.cc", "c/dec/ans_decode.cc", "c/common/context.h"]}
{"id": "C50", "title": "The groups mode is lossless, whatever the schedule", "statement": "What EncodeGroups writes for a JPEG file is decoded by DecodeGroups with the same group dimensions to data from which the file is written again byte for byte, in whatever order the tasks of the decoder are run.", "quantifier": "all JPEG files, all group dimensions both accept (up to 2^60: larger ones are the subject of C76), all orders of the tasks", "why_tests_cant": "Tiles at the right and bottom border, sampling factors and group dimensions interact; a schedule that reveals a dependence between tasks may never occur in a test.", "anchors": ["c/experimental/groups.cc: EncodeGroups, DecodeGroups, SkipSection", "c/enc/brunsli_encode.cc: EncodeDC, EncodeAC, BrunsliSerialize", "c/dec/brunsli_decode.cc: ProcessJpeg, WarmupMeta"]}
{"id": "C51", "title": "The groups encoder stays within the buffers it allocates", "statement": "EncodeGroups never writes beyond the buffers it allocates for the common part and for the part of each group, whatever the JPEG file and the group dimensions.", "quantifier": "all JPEG files, all group dimensions", "why_tests_cant": "The buffers are sized by a guess of the bytes per block; files that exceed it are not in a test set, and an overrun corrupts the heap.", "anchors": ["c/experimental/groups.cc: EncodeGroups"]}
{"id": "C52", "title": "The groups decoder is defined on every input", "statement": "Whatever bytes and group dimensions are given to DecodeGroups, its behaviour is defined: it returns true or false.", "quantifier": "all byte strings, all group dimensions", "why_tests_cant": "Needs hostile files, e.g. with sections of unknown kinds in place of those that hold the tables.", "anchors": ["c/experimental/groups.cc: DecodeGroups, SkipSection", "c/dec/brunsli_decode.cc: WarmupMeta, ProcessJpeg"]}
{"id": "C53", "title": "The result of the groups decoder does not depend on the schedule", "statement": "Whatever bytes and group dimensions are given to DecodeGroups, intact, damaged or hostile, it comes to the same result in whatever order its tasks are run: the same rejection or the same image.", "quantifier": "all byte strings, all group dimensions, all orders of the tasks", "why_tests_cant": "With damaged input a task may fail, or write what its neighbours would read; only some schedules would show it.", "anchors": ["c/experimental/groups.cc: DecodeGroups", "c/dec/brunsli_decode.cc: ProcessJpeg, DecodeDC, DecodeAC"]}
{"id": "C54", "title": "The command line tools restore every file", "statement": "If cbrunsli reports success on a file and dbrunsli reports success on what it wrote, the restored file equals the original byte for byte, whatever the size of the file and however the C library splits reads and writes; and if nothing fails both tools report success or refuse with an error.", "quantifier": "all files of all sizes, all partial reads and writes, all failures of library calls, all file names, the same file as input and output included", "why_tests_cant": "Files beyond 2^31 bytes and partial transfers are not in a test set; a size that does not fit its variable loses data silently.", "anchors": ["c/tools/cbrunsli.cc: ReadFileInternal, ReadFile, WriteFileInternal, WriteFile, ProcessFile, main", "c/tools/dbrunsli.cc: ReadFileInternal, WriteFileInternal, ProcessFile, main"]}
{"id": "C55", "title": "A failed run of a tool does no damage", "statement": "If cbrunsli or dbrunsli fails, no file has been changed or lost, and a partial output that is left behind is never taken for a complete one.", "quantifier": "all files, all failures of library calls at any point, all contents of a partially written output", "why_tests_cant": "Needs a failure at each byte of the output, and running the decoder on every partial file.", "anchors": ["c/tools/cbrunsli.cc: WriteFile, ProcessFile, main", "c/tools/dbrunsli.cc: WriteFile, ProcessFile, main"]}
{"id": "C56", "title": "Reading less than everything agrees with reading everything", "statement": "ReadJpeg in the modes for the header and for the tables is defined on every input; what it tells about dimensions, components and tables of a file that is accepted in full is what reading everything tells.", "quantifier": "all byte strings, all modes", "why_tests_cant": "The modes share code but skip different parts; a file has to hold the right bytes in the parts that are skipped to tell them apart.", "anchors": ["c/enc/jpeg_data_reader.cc: ReadJpeg, ProcessSOF, ProcessDHT", "c/include/brunsli/jpeg_data_reader.h: JpegReadMode", "c/enc/brunsli_encode.cc: BrunsliEncodeJpegBypass"]}
{"id": "C57", "title": "The memory estimate covers what decoding allocates", "statement": "BrunsliEstimateDecoderPeakMemoryUsage is positive for every file that can be decoded, is made from the dimensions and numbers of contexts and histograms that decoding finds, and is not exceeded by what decoding allocates.", "quantifier": "all byte strings", "why_tests_cant": "The estimate parses the file in another way than the decoder, passing over most sections; the files for which it is too low are large images in few bytes.", "anchors": ["c/dec/brunsli_decode.cc: BrunsliEstimateDecoderPeakMemoryUsage, ProcessSection, DecodeHistogramDataSection, WarmupMeta", "c/common/context.h: ComponentState"]}
{"id": "C58", "title": "The WebAssembly interface restores every file", "statement": "A client of the WebAssembly interface that passes a Brunsli file in pieces of any size up to the size of the input buffer, and then continues without input until it is told that decoding is done, has received exactly the JPEG file, after a bounded number of calls and without ever being told of an error; the calls for a whole file restore it too; setting up and giving back an instance is well defined.", "quantifier": "all JPEG files the encoder accepts, all ways to cut their Brunsli files into pieces, all files that hold original bytes", "why_tests_cant": "The interface does not tell its client whether input or output is wanted and drops input that is not read; whether this loses bytes depends on how the file is cut and on the amount of output at each cut.", "anchors": ["wasm/codec.cc: BrunsliDecoderInit, BrunsliDecoderProcess, BrunsliDecoderCleanup, BrunsliToJpeg, JpegToBrunsli"]}
{"id": "C59", "title": "The Java interface restores every array and buffer", "statement": "If Codec.encode of an array or direct buffer succeeds, and Codec.decode of the result succeeds, the result is the content of the array or buffer; both succeed if the encoder accepts the content and its result fits a Java array.", "quantifier": "all arrays, all direct buffers with any position, limit and capacity", "why_tests_cant": "Sizes around 2^31 and buffers that are partly filled are not in a test set.", "anchors": ["java/dev/brunsli/wrapper/Codec.java: encode, decode", "java/dev/brunsli/wrapper/codec_jni.cc: ToByteArray, nativeDecode, nativeEncode"]}
{"id": "C60", "title": "The server modules send Brunsli just to the clients that accept it", "statement": "For every value of the Accept header the Apache and nginx modules send the Brunsli file that lies beside the requested one, unchanged, just if the client says that image/x-j is acceptable to it, and are well defined otherwise.", "quantifier": "all header values, all states of the file beside the requested one, all configurations", "why_tests_cant": "Header values are hostile input of unbounded variety: empty elements, parameters, upper and lower case, any position in the list.", "anchors": ["contrib/mod_brunsli/mod_brunsli.c: accept_brunsli, brunsli_handler", "contrib/ngx_brunsli/src/ngx_http_brunsli_static_module.c: check_accept, ngx_http_brunsli_static_handler"]}
{"id": "C61", "title": "A cache in front of a server gives Brunsli only to clients that accept it", "statement": "A shared cache that follows the rules of HTTP and stores what the server modules answer never answers a client that does not accept image/x-j with Brunsli.", "quantifier": "all histories of requests, all header values, all configurations", "why_tests_cant": "Needs a history of requests of different clients through a cache; each answer on its own is right.", "anchors": ["contrib/mod_brunsli/mod_brunsli.c: brunsli_handler", "contrib/ngx_brunsli/src/ngx_http_brunsli_static_module.c: ngx_http_brunsli_static_handler"]}
{"id": "C62", "title": "The encoder keeps its code words within its buffers", "statement": "While it encodes any JPEG file, the encoder never writes behind the end of the buffers of its code words, which grow only before each block, and never counts more of them than its counter holds; the words are those an unbounded buffer would hold.", "quantifier": "all JPEG files, all capacities the library may choose when a buffer grows", "why_tests_cant": "The number of code words of a block depends on all coefficients and on adaptive probabilities; the largest images have 2^23 blocks.", "anchors": ["c/enc/brunsli_encode.cc: DataStream::Resize, ResizeForBlock, AddCode, AddBits, AddBit, FlushBitWriter, FlushArithmeticCoder, EncodeDC, EncodeAC", "c/enc/state.h: kSlackForOneBlock"]}
{"id": "C63", "title": "A decoder that is told the header restores the file from the rest", "statement": "A decoder that is told dimensions and sampling factors by its caller, and is given only what follows the header of a Brunsli file, in pieces of any size, makes of it exactly what the decoder makes of the whole file; for the Brunsli file of a JPEG file it restores the JPEG file.", "quantifier": "all valid headers, all byte strings after them, all ways to cut them into pieces", "why_tests_cant": "Tests try one small file in one piece; state that the header stage leaves behind and the caller forgets shows only in later sections.", "anchors": ["c/dec/brunsli_decode.cc: UpdateSubsamplingDerivatives, PrepareMeta, ProcessJpeg, DoProcessJpeg, ParseSection", "c/dec/state.h: State"]}
{"id": "C64", "title": "The memory estimate of the encoder is defined, needs only the header, and is not exceeded", "statement": "For every JPEG file that is accepted, read in full or only its header, and whatever its size is said to be, the estimate of the memory that encoding needs is well defined; the header tells as much as the file; and what the encoder allocates for coefficients and code words is within the estimate.", "quantifier": "all byte strings that are JPEG files, all modes of reading, all sizes", "why_tests_cant": "The estimate guesses the number of coefficients from the size of the file; files for which the guess is far off are not in a test set.", "anchors": ["c/enc/brunsli_encode.cc: EstimateBrunsliEncodePeakMemoryUsage, SampleNumNonZeros, EncodeDC, EncodeAC, DataStream::Resize, EntropySource::Resize", "c/common/context.h: ComponentState::SizeInBytes"]}
{"id": "C65", "title": "The arithmetic of predictions and contexts never overflows", "statement": "For all coefficients and quantization values a JPEG file can hold, and for all decoded words, the predictions of DC coefficients, the multipliers, predictions and averages that select contexts, and the differences and sums made with them fit the integer types that they are computed in; the encoder and the decoder compute the exact values.", "quantifier": "all 16-bit coefficients, all tables of nonzero 16-bit quantization values, all words given to the decoder", "why_tests_cant": "Overflow needs extreme coefficients together with extreme quantization values; compilers may exploit it silently.", "anchors": ["c/common/predict.cc: PredictWithAdaptiveMedian", "c/common/context.cc: ComputeACPredictMultipliers", "c/common/context.h: ACPredictContext, ACPredictContextCol, ACPredictContextRow, WeightedAverageContext, WeightedAverageContextDC", "c/dec/brunsli_decode.cc: DecodeDC, DecodeAC", "c/enc/brunsli_encode.cc: PredictDCCoeffs, EncodeDC, EncodeAC"]}
{"id": "C66", "title": "The size of a restored file is bounded by the size of its Brunsli file", "statement": "For every byte string, also a hostile one, that can be decoded: the JPEG file made of it has at most 553 bytes for each byte of the string, 4232 bytes for each scan and each block, what Brotli makes of the metadata, and 2630471 bytes more; there are at most 4 scans for 11 bytes and at most 2^23 blocks.", "quantifier": "all byte strings that can be decoded, all decompressors", "why_tests_cant": "A decompression bomb is a single file out of all byte strings; the worst case over scans, runs, codes and templates is not found by trying.", "anchors": ["c/dec/brunsli_decode.cc: DecodeJPEGInternalsSection, DecodeScanInfo, DecodeHuffmanCode, ProcessMetaData, UpdateSubsamplingDerivatives", "c/dec/jpeg_data_writer.cc: SerializeJpeg, EncodeScan, JpegBitWriter"]}
{"id": "C67", "title": "Sections made of bits are read the same in any pieces, and the bit reader stays within its bytes", "statement": "However the bytes of a section made of bits (histograms, quantisation tables, JPEG internals) arrive in pieces, and whatever they are: no byte outside of those given in the current call is read, none is given back that was not taken in this call, no more bits are dropped than are held, no table of a code is left, and the reader is sound whenever decoding waits for more. The result is what the bits of the whole section say, the bytes of the next section are left alone, and zeros that are made up at the end of a section never make it valid.", "quantifier": "all byte strings, all sizes of the section, all ways to cut them into pieces", "why_tests_cant": "The state of the reader at a cut depends on every earlier cut and on the bits; made-up bits only matter for a truncated section whose end happens to be in view.", "anchors": ["c/dec/bit_reader.h: BrunsliBitReaderGet, BrunsliBitReaderDrop, BrunsliBitReaderRead, BrunsliBitReaderMaybeFetchByte, BrunsliBitReaderOweByte", "c/dec/bit_reader.cc: BrunsliBitReaderResume, BrunsliBitReaderSuspend, BrunsliBitReaderUnload, BrunsliBitReaderFinish, BrunsliBitReaderCanRead, BrunsliBitReaderIsHealthy", "c/dec/brunsli_decode.cc: PrepareBitReader, SuspendBitReader, CheckBoundary, DecodeJPEGInternalsSection, DecodeQuantDataSection, DecodeHistogramDataSection", "c/dec/huffman_decode.cc: HuffmanDecodingData::ReadSymbol, ReadFromBitStream", "c/dec/histogram_decode.cc: ReadHistogram"]}
{"id": "C68", "title": "The decoder does not depend on the word size of the platform", "statement": "A decoder built where sizes have 32 bits (WebAssembly, small devices) restores every JPEG file from the Brunsli file that the encoder made of it, if that has less than 4 GiB; and for every other byte string it gives the same result as one built where sizes have 64 bits.", "quantifier": "all byte strings shorter than 4 GiB, all word sizes of at least 32 bits", "why_tests_cant": "Tests are built and run for one word size; the difference needs lengths near 2^32 that are announced and not there.", "anchors": ["c/dec/brunsli_decode.cc: DecodeBase128, EnterSection, IsOutOfSectionBounds, RemainingSectionLength, IsAtSectionBoundary, DecodeHeader, DecodeOriginalJpg, ParseSection, ProcessSection", "wasm/codec.cc"]}
{"id": "C69", "title": "The JPEG reader stays within its input, its tables and its integer types", "statement": "For every byte string given as a JPEG file: the encoder's reader never reads a byte outside of it, an entry outside of a lookup table or a coefficient outside of a block, never gives back a byte it did not take, never shifts by an amount that the word does not allow, and no value overflows or changes when it is stored as a 16-bit coefficient, except one that is tested and rejected. The outcome is that of exact arithmetic.", "quantifier": "all byte strings", "why_tests_cant": "Out-of-range values arise from combinations of scans that refine what earlier scans left behind, and from markers at every distance from the end of the input.", "anchors": ["c/enc/jpeg_data_reader.cc: BitReaderState, ReadSymbol, HuffExtend, DecodeDCTBlock, RefineDCTBlock, ProcessRestart, ProcessScan, ReadJpeg"]}
{"id": "C70", "title": "Skipping sections leaves the rest of a file as it is", "statement": "A decoder that is told to skip kinds of sections finds in the others what it finds without skipping; in particular, without the metadata all of the image. What the skipped sections hold does not matter. Nothing undefined happens, whatever the file and the kinds.", "quantifier": "all byte strings, all sets of kinds of sections", "why_tests_cant": "There are 64 sets for every file, and sections depend on each other; the tests skip nothing, the library itself uses one set.", "anchors": ["c/dec/brunsli_decode.cc: ProcessSection, ParseSection, WarmupMeta, BrunsliEstimateDecoderPeakMemoryUsage", "c/dec/state.h: State::skip_tags", "c/dec/state.cc: HasSection"]}
{"id": "C71", "title": "Files do not depend on the byte order of the platform", "statement": "What the encoder stores in a file, words and bits alike, is the same byte string on little-endian machines, on big-endian machines and on machines of which nothing is known, and it is read as the same values on all of them; so is every other byte string.", "quantifier": "all sequences of words and of bit fields, all byte strings, all three variants of the memory accesses, on the writing and on the reading side", "why_tests_cant": "Tests run on one machine; the variants for other byte orders are not even compiled there.", "anchors": ["c/common/platform.h: BRUNSLI_UNALIGNED_LOAD16LE, BRUNSLI_UNALIGNED_STORE16LE, BRUNSLI_UNALIGNED_STORE64LE, BRUNSLI_BSWAP16_, BRUNSLI_BSWAP64_", "c/enc/write_bits.h: WriteBits", "c/enc/brunsli_encode.cc: DataStream::EncodeCodeWords", "c/dec/brunsli_input.h: WordSource::GetNextWord"]}
{"id": "C72", "title": "The numbers in the sections of parameters do not overflow", "statement": "Whatever a file announces as positions of reset points, as positions and numbers of zero runs, and as differences of quantisation values: computing with them never leaves the range of the 32-bit type they are kept in, so that a hostile file is refused, or read as written.", "quantifier": "all internals and quantisation sections, of any length and with any bits", "why_tests_cant": "Sums of many announced numbers matter, and a counter that overflows needs half a gigabyte of input.", "anchors": ["c/dec/brunsli_decode.cc: DecodeScanInfo, DecodeQuantDataSection, DecodeJPEGInternalsSection, DecodeVarint", "c/dec/state_internal.h: JpegInternalsState::last_block_idx, last_num, QuantDataState::delta"]}
{"id": "C73", "title": "Multiplying by reciprocals gives the same files", "statement": "An encoder built with the option to multiply by reciprocals instead of dividing writes the same DC and AC data as one without, for every image: all quotients are exact and no product overflows 64 bits.", "quantifier": "all tables of frequencies, all sequences of symbols and bits, all states of the coder", "why_tests_cant": "There are 2^32 states for each of 1024 frequencies, and the option is off in every build that is tested.", "anchors": ["c/enc/ans_encode.h: BRUNSLI_USE_MULT_BY_RECIPROCAL, BRUNSLI_RECIPROCAL_PRECISION, ANSCoder::PutSymbol", "c/enc/ans_encode.cc: ANSBuildInfoTable", "c/enc/brunsli_encode.cc: DataStream::EncodeCodeWords"]}
{"id": "C74", "title": "The logarithms that steer compression are right", "statement": "The encoder decides by logarithms which symbol statistics share a code. The logarithm of every number below 256 is within 2^-19 of the true one, exact for powers of two and for 0 as documented, and growing with the number, also where the table ends and the C library takes over. With these logarithms encoding is lossless and its costs are defined.", "quantifier": "all non-negative integers, every implementation of log2 in the C library with the right integer part", "why_tests_cant": "A wrong digit in the table makes files larger or, if an integer part is wrong, leads outside of another table; tests compare no sizes.", "anchors": ["c/enc/fast_log.h: kLog2Table, FastLog2", "c/enc/histogram_encode.cc: PopulationCost", "c/enc/cluster.h: ClusterCostDiff"]}
{"id": "C75", "title": "Group tasks on several threads do not disturb each other", "statement": "When a client runs the tasks of the groups mode on several threads, they may be interleaved at every single access to memory. Each task gives the result it gives alone, the arrays of coefficients, block states and prediction errors end up as if the tasks had been run one after the other, and no two tasks access the same variable at the same time unless both only read it.", "quantifier": "all images, samplings and group dimensions, all numbers of tasks, all interleavings of their memory accesses", "why_tests_cant": "The number of interleavings grows exponentially; tests see a few of them, and tiles that overlap at one edge block would hardly ever show.", "anchors": ["c/experimental/groups.cc: EncodeGroups, DecodeGroups, SequentialExecutor, ParallelExecutor", "c/include/brunsli/jpeg_data.h: coeffs", "c/common/context.h: ComponentState"]}
{"id": "C76", "title": "Every group dimension that is accepted cuts the image without loss", "statement": "EncodeGroups and DecodeGroups accept powers of two as group dimensions. Whatever accepted dimensions are given, also such that one group holds all of the image, every block of every component belongs to exactly one group, with the integers of the platform.", "quantifier": "all image sizes, sampling factors and group dimensions that are accepted, all word sizes", "why_tests_cant": "Dimensions far above the image size have an obvious meaning, so nobody tests them, but products with sampling factors wrap around.", "anchors": ["c/experimental/groups.cc: EncodeGroups, DecodeGroups"]}
