# Design: a Lean 4 model of google/brunsli

## Method

The C++ code in `/repo` is read as text and transcribed, function by function, to total computable Lean
functions under `lean/Verif/`. Every definition cites the file and lines it models, and states any
simplification. Properties (`properties.jsonl`, C01..) are stated as theorems about these functions.

Conventions used throughout:

* Bytes, words and table values are `Nat` (a decidable range predicate is an explicit hypothesis where the
  C++ type bounds matter). Fixed-width wrap-around is modelled with explicit `% 2^n` where the C++ relies on it
  or where the absence of overflow is the property; predictions and contexts use checked operations (overflow is undefined, C65).
* A bit stream is a `List Bool` (least significant bit first, the order of `write_bits.h`). The byte-level
  bit writer and the 32-bit-buffer bit reader are modelled separately and proved to refine bit lists (C07).
* A decoder is a function `List Bool → Option (α × List Bool)` (or the same on bytes / 16-bit words); `none`
  is rejection. Round trips have the shape `dec (enc x ++ rest) = some (x, rest)`, so they compose.
* Undefined behaviour (out-of-range table access, shift too large, missing value) is a distinct outcome
  (`none`/`Except` error constructors named `ub`), never a default value, whenever the property is about safety.
* External code is a parameter of the model: Brotli (a compressor/decompressor pair assumed to be inverse), the
  output callbacks, and the rounding of floating point: operations are exact on rational numbers, followed by an arbitrary rounding with
  a bounded relative error (`Arith.Ok`), and `FastLog2` is any function with the right integer part (`LogOk`); for the table this is proved (C74), for larger numbers assumed of `log2` of the C library. Exponents are unbounded: no
  value computed here comes near the limits of the format.

Property theorems are in files `Verif/Props*.lean`; helper lemmas live with the models. Beside each property theorem an
`example` shows a concrete non-trivial case meeting its hypotheses.

## Trusted base

* Lean 4.33.0's kernel; the axioms `propext`, `Classical.choice`, `Quot.sound` (no others; see `#print axioms` in
  `Verif/Axioms.lean`). No `sorry`, no `native_decide`, no `bv_decide`, no added axioms.
* The reading of the C++: the tie between model and code is by citation only (the code is not compiled or run).
* C++ compiler, standard library, OS, Brotli, and the hardware are outside the model.

## Plan per property

| id | what is modelled | how it is proved |
|----|------------------|------------------|
| C01 | `DataStream` (code word slots, bit writer, arithmetic coder), `EncodeCodeWords`, `WordSource`, `BitSource`, decoders' init/finalize | refinement: words in slot order = words in decoder demand order; induction over the op list |
| C02 | `PutSymbol`, `ReadSymbol`, `ANSDecodingData::Init`, reverse map | induction over symbols, state invariant `2^16 ≤ s < 2^32` |
| C03 | `AddBit`, flush, `ReadBit` | invariant relating encoder interval, words still to be emitted and decoder's value |
| C04 | `Prob` | invariant by induction over updates |
| C05 | base-128 writers/readers, section-size reservation | induction on the value / width |
| C06 | `EncodeVarint`, `EncodeLimitedVarint`, `VarLenUint8` | induction |
| C07 | `WriteBits` on byte arrays, `BrunsliBitReader` | refinement to bit lists |
| C08 | quant tables coder/decoder | induction over the 64 deltas; stock tables as data |
| C09 | `EncodeHuffmanCode`/`DecodeHuffmanCode`, `PermutationCoder` | induction over counts and values |
| C10 | `EncodeScanInfo`/`DecodeScanInfo` | induction over lists |
| C11 | `EncodeAuxData`/`DecodeJPEGInternalsSection` | composition |
| C12 | APP marker templates, `EncodeMetaData`, `ProcessMetaData` | state machine induction; Brotli a parameter |
| C13 | `ProcessMetaData` | fold over bytes ⇒ append law |
| C14 | `EncodeCounts`/`ReadHistogram` | case analysis + induction over counts |
| C15 | MTF, RLE, context map codec | induction |
| C16 | canonical codes, RLE of depths, two-level table | canonical-code theory |
| C17 | `EncodeCoeffOrder`/`DecodeCoeffOrder`, Lehmer code | Lehmer round trip by induction |
| C18 | DC prediction, value coding, contexts | op-stream refinement over blocks |
| C19 | AC block coding | op-stream refinement over blocks |
| C20 | contexts functions/tables | finite tables by kernel evaluation lifted by lemmas |
| C21 | bypass encode, header, original-JPEG section | composition |
| C22 | header | composition, arithmetic |
| C23 | header item loop | expected false: negation with witness |
| C24 | signature, tags, sections sequencing | state machine |
| C25 | `PushOutput`, output queue | induction |
| C26 | decoder driver status logic | induction over calls |
| C27 | `LoadInput`/`UnloadInput` buffer logic; every stage of the parser and every section reader as a resumable step | refinement to a byte list; each reader proved resumable (`Resumes`) and equal to the whole-section decoder; induction over the stages |
| C28 | JPEG bit writer with stuffing | refinement to bit lists |
| C29 | `DecodeDCTBlock` / `EncodeDCTBlockSequential` | decode-then-encode identity by induction over positions |
| C30 | progressive and refinement coding | as C29 with EOB-run state |
| C31 | marker segments | decode-then-encode identity |
| C32 | reader validation | case analysis |
| C33 | JPEG Huffman LUT | canonical-code theory |
| C34 | C API wrappers with an arbitrary sink | case analysis; the encoder side is expected false |
| C35 | thread pool as a transition system | invariants over all interleavings; destructor expected false |
| C36 | tile index arithmetic | division arithmetic |
| C37 | composition of the above | composition (partial where a stage is not modelled) |
| C38 | constant tables | kernel evaluation over the whole table |
| C39 | shared `status` of the group tasks as a race over atomic reads and writes | expected false: negation with a schedule |
| C40 | `SerializeJpeg`, `PushOutput` | case analysis; false of the bypass |
| C41 | `GetMaximumBrunsliEncodedSize`, the whole encoder writing into a bounded buffer | false: counting (injectivity of the encoder by C37 and a family of files read for arbitrary contents); upper bounds of every section for the partial theorem |
| C42 | `EstimateAuxDataSize`, `EncodeSection` | false: a concrete file read symbolically; acceptance theorem for the partial theorem |
| C43 | `NormalizeCounts`, `RebalanceHistogram` over rounded rational arithmetic | bound of the accumulated rounding error, so that the second attempt always finds room for the remainder |
| C44 | `ClusterHistograms` and all it calls, `PopulationCost` | invariants of the clusters and of the queue of pairs; exact sums; `int` overflow as an outcome |
| C45 | parser, section readers and JPEG writer all stopping and going on; what a waiting parser lets the writer see (`View`) | the writer's run over views that grow is a run over the final image; a run of the parser that ends well passes only through states that agree with its end; false for late metadata |
| C46 | undefined behaviour of the writer as an outcome that sets a flag | false: a concrete file; the flag is set only together with the error state; invariant over all calls for files with DC before AC |
| C47 | where `original_jpg` points to, as a record beside the decoder | false of every bypass file in one piece; invariant of the record for the partial theorems |
| C48 | the same flag, set for an index outside of a Huffman table and for a bit field of 32 bits | false: a concrete file; an invariant of parser and writer over all calls for the partial theorem |
| C49 | `WP.hitsUb`, `BP.hitsUb`: whether a resumable program would read outside of a table with the words or bits given | an invariant of the parser (`Clean`) that every step keeps, from what the sections before have left (`HistogramData.Sane`, `QuantSane`, `DcRead`) |
| C50 | `EncodeGroups`, `DecodeGroups` with tasks in any order; a task works on a copy of its tile (`crop`, `paste`) | the tiles partition each component (`Tiling`); the coding of a task round-trips (C18, C19); an invariant over the tasks done so far (`Mixed`); the sections are found again (`Framed`) |
| C51 | the buffers of the parts, with running over them as an outcome of its own | counting: more files than contents of the buffers, and the decoder tells them apart (C50) |
| C52 | reading of a table that is not there as an outcome of its own | concrete input; with tables: what any common part can contain (`SectState.Common`), and an invariant of the arrays over the tasks done (`ImgsOk`, `FlagsOk`) |
| C53 | as C50, for arbitrary input | tasks commute: a task reads and writes its tile only, and tiles are disjoint |
| C54 | `main` of both tools over a disk of files; the C library as a schedule of short transfers and failures | invariants of the read and write loops, C37, and that no proper beginning of an encoded file is accepted (C24); false: any sample followed by 2^32 bytes |
| C55 | the same | frame property of a run; false: a concrete run with a full disk |
| C56 | `ReadJpeg` in its other modes | simulation: the loop of the header mode runs in step with the full one up to the frame header; false for the tables mode: a file with a thumbnail |
| C57 | the memory estimate of the decoder, the sizes of the arrays of the decoder | simulation: passing over sections runs in step with decoding them; false: a tall image in 71 bytes |
| C58 | the interface for WebAssembly | C45 on every beginning of the list of calls; a call that is not the last fills its buffer, so their number is bounded; false: `delete[]` of memory from `malloc` |
| C59 | the interface for Java | C37 and what is known of truncated files; false: a buffer with a limit below its capacity |
| C60 | the decisions of the Apache and nginx modules on the Accept header | exact sets of recognised values by induction over the elements; false: crash, `q=0`, type not last |
| C61 | a shared cache after RFC 9111 in front of the modules | partial: equal `Accept` for equal `Accept-Encoding`; false: two requests |
| C62 | the vectors of `DataStream`, their first sizes and growth, `int pos_` | at most 321 calls per block; number of words by an amortised bound: the interval shrinks by 2^9 per bit, credits of the adaptive probabilities pay for the bits of probability 0 |
| C63 | decoding from a state the caller has prepared (`Headerless`) | the stages before the sections leave just that state (C22); C27 from any state that meets the invariant |
| C64 | the memory estimate of the encoder, the sizes of what the encoder allocates | bounds on sums over components; false: a file without scans whose components have 1023 blocks each |
| C65 | predictions and contexts with checked machine integers (`int32`, `int64`, `nat32`: overflow is undefined) | bounds on each partial sum; the invariants of decoding (16-bit coefficients) carry them |
| C66 | the size of the output: bits put by the bit writer for a block, bytes of each marker; bits read per marker, code, scan and run | a potential argument over the writer, counting over the reader of the internals and of the metadata; Brotli's expansion is a parameter |
| C67 | the bit reader on the bytes of the current call (fields, debt, suspension, optimistic mode), every reading function of the three sections as a program over get and drop | refinement: the reader in the middle of a section simulates the list of bits of the whole section; two-level tables only hold entries whose lengths fit the look-up |
| C68 | numbers, positions and ends of sections of the container computed with words of W bits, wrapping around as the code does | the reader with W bits simulates the one of C24 as long as nothing wraps; what wraps is a skipped section, which is cut out; witnesses otherwise |
| C69 | the decoder of entropy-coded data of the JPEG reader with every access to input, lookup tables and blocks, every shift and every `int` and 16-bit value checked | the invariant of the bit reader (C28) and of the masks (C32) discharges every check; so the checked reader equals the one of C31 |
| C70 | the parser of sections with a set of kinds that it passes over (`State::skip_tags`); a section that needs what was passed over is undefined | what is met and not skipped is there, an invariant; decoding with and without skipping run in step; items of a file that differ in skipped contents; a witness for sets that are not closed |
| C71 | loads and stores in the three variants for byte orders, with the swaps as masks and shifts; both branches of `WriteBits` | a swap is the sum of the bytes in reverse order, for all values; the byte-wise branch keeps the invariant of the buffer; bytes with the same value are the same |
| C72 | the readers of scan parameters and quantisation tables, every `int` checked for its range | they run in step with the readers of exact arithmetic, the number of bits left bounding the counter; a section of 2^29 + 7 bytes by induction for the overflow |
| C73 | `PutSymbol` and the table of reciprocals as built with the option, products of 64 bits; an unwritten field is undefined behaviour | the error of the rounded reciprocal is bounded by freq / 2^42 and the state by freq * 2^22; a concrete case for the field that is never written |
| C74 | the 256 literals of the table, rounded to single precision; `log2` of the C library a parameter | comparison of v^(2^20) with powers of two by the kernel, for every entry, gives bounds on `Real.logb` |
| C75 | tasks as trees of reads and writes, a schedule as a list of task numbers, addresses from pointers and strides of groups.cc | invariant of interleavings: each task is where it would be alone (`Apart`); tiles are disjoint (C36) and addressing is injective; counterexample for `status` |
| C76 | tiles of groups.cc computed in words of W bits | agree with those of C36 where products fit; witness with the dimension 2^63 |

## What is modelled, by module

| part of the code | modules |
|------------------|---------|
| bits, base-128, varints, bit IO (`write_bits.h`, `bit_reader.h`) | Bits, Base128, Varint, BitIO, BitBytes |
| ANS, binary arithmetic coder, multiplexed word stream, adaptive probabilities | ANS, DataStream, Prob, ProgReads, Enc; the vectors of the encoder: CodeBuf, CodeCount, CodeStore |
| prefix codes, context map, histograms | Canon, Lut, LutSub, LutSize, HuffCode, HuffTree, HuffDesc, HuffRead, HuffStore, HuffSafe, ContextMap, Histogram, HistSection |
| coefficient orders, DC and AC coding, contexts, scheme selection | CoeffOrder, Sched, Dc, DcImage, AcTables, Ac, AcCtx, AcBlock, AcImage |
| quantisation tables, scan info, internals, metadata | StockTables, Quant, ScanInfo, Internals, MetaTables, Metadata |
| signature, tags, sections, header, bypass | Section, Reader, Container, Headerless |
| streaming decoder driver, output queue | Output, Streaming |
| section readers and file stages that stop and go on as bytes arrive | Resume, BitProg, StreamQuant, StreamInternals, StreamInter, StreamCode, StreamHist, StreamWords, StreamCoef, StreamMeta, StreamBody, StreamFile, StreamSem |
| `BrunsliBitReader` on pieces of a section, `PrepareBitReader`, `SuspendBitReader`, `CheckBoundary`; prefix codes, histograms and context map read through it | BitClient, BitTables, BitClients, BitMachine, BitCall, BitFeed, BitSections |
| `SerializeJpeg`, `DoEncodeScan` while the file arrives; the whole streaming decoder | StreamOut, StreamOutSpec, StreamSeen, StreamView, StreamLeads, StreamWatch, StreamDecode, StreamOrig |
| that the writer is well defined whatever arrives | WriterSafe, StreamSane, StreamPlanes, StreamKnown, StreamSafe, StreamReady |
| how much is written | OutSize, OutFile, OutInput |
| that decoding never leaves a table whatever arrives | StreamClean (with the stronger results of StreamHist, StreamSane, StreamKnown) |
| memory that `original_jpg` points to | Alias |
| groups mode, thread pool | Groups, Executor, GroupTiles, GroupCodec, GroupStage, GroupTask, GroupRound, GroupFile, GroupAccept, GroupBig, GroupSafe |
| the command line tools (`cbrunsli.cc`, `dbrunsli.cc`), without messages | Tools |
| `ReadJpeg` in the modes for the header and the tables, `BrunsliEncodeJpegBypass` with what it finds | JMode |
| `BrunsliEstimateDecoderPeakMemoryUsage`, parsing with skipped sections, sizes of what the decoder allocates | Estimate |
| `EstimateBrunsliEncodePeakMemoryUsage`, sizes of what the encoder allocates; files without scans | EncEstimate, Blank |
| `wasm/codec.cc`; `Codec.java`, `codec_jni.cc` | Drain, Wrappers |
| `contrib/mod_brunsli/mod_brunsli.c`, `contrib/ngx_brunsli/src/ngx_http_brunsli_static_module.c` (decision and answer; `apr_strtok`, `apr_collapse_spaces`, `ngx_strcasestrn` as published by these projects, which are not in /repo) | Serve |
| `JPEGData` | JpegData |
| `ReadJpeg` in mode `JPEG_READ_ALL`: every marker, scans of all kinds, restart markers, padding bits, gaps, tail | JBits, JLut, JReader, JScan, JGrid, JMark, JFile |
| `SerializeJpeg`/`WriteJpeg`: all segments, sequential and progressive scans, byte stuffing, output buffers | JWriter, JEntropy, JOut |
| proofs that reader and writer are inverse | JWriterSpec, JCode, JAtom, JBlock, JBlockSpec, JFirst, JRefine, JReqs, JValues, JScanSpec, JMatch, JMasks, JOrder, JHuff, JHoare, JSof, JTab, JFrame, JSync, JFileSpec, JRound |
| `BrunsliSerialize`, `BrunsliEncodeJpeg`, `EncodeBrunsli`, `ProcessSection`, decoding of a whole file; end-to-end proof | Serialize, JValid, E2E |
| sizes of the streams and sections, what the encoder accepts, the counterexamples for C41 and C42 | Sizes, Accept, InnerSize, Acceptance, BigFile, BigRead, BigCount, GapFile |
| the container read with words of other widths | Width, WidthSub, WidthFit |
| the JPEG reader with checked accesses and arithmetic | JSafe, JSafeBits, JSafeBlock, JSafeScan |
| the decoder told to skip sections | Skip |
| byte orders | ByteOrder |
| integers of the sections of parameters | ParamInts |
| the build option for reciprocals | Recip |
| the table of logarithms | FastLog |
| tasks as programs of single accesses, their interleavings; cells of a tile in memory | Conc, ConcTiles |
| `PredictDCCoeffs`, `SampleNumNonZeros` and the accesses of `EncodeDC` and `EncodeAC` to shared arrays; the shared flag `failed` of the encoder | ConcPredict, ConcSample, ConcEncode, ConcEncodeAc, ConcFlag |
| tiles computed in words of W bits | GroupDims |
| counting of symbols, clustering and normalisation of histograms (`cluster.h`, `histogram_encode.cc`) | Codes, Rebalance, ClusterAlg, ClusterSpec, PopCost, ClusterTotal |

Properties: PropsA (C01-C07), PropsB (C17), PropsC (C14-C16), PropsD (C18), PropsE (C19, C20), PropsF (C08-C11, C38), PropsG (C12, C13),
PropsH (C21-C24), PropsI (C35, C36, C39), PropsJ (C25-C27, C34, C40), PropsK (C28), PropsL (C33), PropsM (C29-C32), PropsN (C37),
PropsO (files that go through), PropsP (C41, C42), PropsQ (C43, C44, and C37, C41 with the clustering of the code), PropsR (C27 for the parser of the code), PropsS (C45-C47), PropsT (C46, C48), PropsU (C49), PropsV (C50-C52), PropsW (C52, C53), PropsX (C54, C55), PropsY (C56, C21), PropsZ (C57), PropsZA (C58, C59), PropsZB (C60, C61), PropsZC (C62), PropsZD (C63), PropsZE (C64), PropsZF (C65), PropsZG (C66), PropsZH (C67), PropsZI (C68), PropsZJ (C69), PropsZK (C70), PropsZL (C71), PropsZM (C72), PropsZN (C73), PropsZO (C74), PropsZP (C07), PropsZQ (C75), PropsZR (C76), PropsZS (C75 for the prediction of DC coefficients), PropsZT (C75 for sampling), PropsZU (C75 for `EncodeDC`), PropsZV (C75 for the whole of `encode_dc`), PropsZW (C75 for `EncodeAC`).

### Contracts (parameters of the model)

`Codec` bundles what is not modelled of the encoder and decoder of a whole file:

* Brotli: `Codec.Lossless` (what was compressed decompresses to the same bytes and is not empty) and, only where success of the encoder is the claim,
  `Codec.Bounded` (compression succeeds when there is room).
* Clustering of histograms: `Codec.Clusters` (a valid context map, normalised clusters, every symbol used in a context has a non-zero count in its
  cluster) and, only where success is the claim, `Codec.Works` (defined for at most 100000000 symbols). Both are proved of the code
  (`realCodec_clusters`, `realCodec_works`), over the contracts for rounding and logarithms.

`PropsO.plainCodec` meets all of them.

## Defects of the code found by the proofs

1. `DecodeHeader` goes on after reporting a mis-typed value (C23).
2. `EncodeBrunsli` treats only a return value of 0 of the sink as failure (C34).
3. The destructor of `ParallelExecutor` can wait forever (C35).
4. The bypass encoder and decoder disagree on the empty string (C21); it overruns a too small buffer (C21).
5. The streaming decoder asks for more output space in bypass mode although space is left (C40), and a file with more than a window of
   bytes behind its end is treated differently depending on how it is cut into pieces (C27).
6. A group dimension of 0 divides by zero (C36).
7. The status shared by the group tasks is overwritten in a race (C39).
8. `GetMaximumBrunsliEncodedSize` is not an upper bound; the encoder overruns its buffer (C41).
9. `EstimateAuxDataSize` is not an upper bound; files are refused (C42).
10. `PopulationCost` overflows `int` for histograms of 214748365 symbols (C44); the format allows images with 2^29 symbols.
11. The writer starts when a coefficient section begins, so that metadata behind it are lost when the input stops there (C45).
12. An AC section counts as met before it is known that the DC section was there; a DC scan then reads an empty vector of coefficients (C46).
13. `original_jpg` may point into the input of a call that has returned (C47).
14. DC coefficients wrap around 16 bits; a difference of -32768 makes the writer shift by 32 bits (C48).
15. The buffers of the groups encoder are too small for some files (C51).
16. `DecodeGroups` reads quantization tables that the file does not hold (C52).
17. The command line tools lose files of 2^31 bytes and more or abort on them (C54), and destroy the output file, which may be the input, before they can write it (C55).
18. `ReadJpeg` with `JPEG_READ_TABLES` takes the thumbnail in an APP segment for the image (C56).
19. `BrunsliEstimateDecoderPeakMemoryUsage` does not count the block states and can be exceeded (C57).
20. `BrunsliDecoderCleanup` of the WebAssembly interface passes memory from `malloc` to `delete[]` (C58).
21. The Java interface ignores position and limit of its buffers (C59).
22. The Apache module reads through a null pointer when the Accept header has an element of semicolons only, and ignores `q=0` (C60).
23. The nginx module passes a length that is too large by one to `ngx_strcasestrn`, and so finds the type only at the end of the Accept header (C60).
24. Neither module names `Accept` in `Vary`, so that caches give Brunsli to clients that do not accept it (C61).
25. `EstimateBrunsliEncodePeakMemoryUsage` can be exceeded by the vector of AC code words alone (C64).
26. The same estimate does not count the bytes behind the end of the image, which are given to Brotli with the metadata (C64).
27. With a `size_t` of 32 bits the projected end of a section wraps around; an unknown section of almost 4 GiB that is not there is skipped as an empty one (C68).
28. A section that is skipped on demand of the caller counts as met, so that sections that need it are decoded without it (C70).
29. The byte-wise branch of `WriteBits` is never compiled (`defined(BRUNSLI_LITTLE_ENDIAN)` always holds), and its check of the length admits writing one byte behind the buffer (C71).
30. The number of extra zero runs at one place is counted in an `int` without a limit; an internals section of 512 MiB overflows it (C72).
31. `BRUNSLI_USE_MULT_BY_RECIPROCAL` cannot be used: the table is filled in under the name `USE_MULT_BY_RECIPROCAL`, with a constant `RECIPROCAL_PRECISION` that does not exist (C73).
32. The group dimension 2^63 is accepted; its product with an even sampling factor wraps around to 0 and nothing of the component is stored (C76).

## Parts of the code not modelled

Brotli (by contract), IEEE special values (floating point is rounded rational arithmetic), `JPEGData::original_jpg` and
error codes of the JPEG reader, logging, configuration parsing of the contrib modules. In the whole-file model sections are decoded from a complete file; decoding in pieces is the subject of C27
(`StreamFile`), where Brotli is a decompressor working byte by byte (`Inflater`), the whole-stream decompressor being derived from it, and the error code is
always the same.
