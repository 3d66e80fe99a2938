# Formal model of UbiquitousLearning/mllm in Lean 4 — design

## Method

* Every module models the code that exists in `/repo`, function by function. Each definition
  carries a comment citing file and lines; simplifications are stated there and below.
* C++/Python undefined behaviour, exceptions and process exits are explicit outcomes of the model
  (`none`, `Except Fail`, an outcome constructor), never silently totalised.
* Layout per area (`lean/Verif/<Area>/`): `Model.lean` (code), `Spec.lean` (independent specification, where the
  property needs one), `Lemmas.lean`, `Inv.lean`, ... (helpers) and `Props.lean` (the property theorems, non-vacuity
  examples, and negations where the code violates the property).
* Where the pinned code violates a property we prove the *negation* with a concrete reachable
  witness (`..._violated`), and a `_partial` theorem under an explicit, API-level, satisfiable
  hypothesis that rules out the defect. A property with such a defect has status `partial` in MANIFEST.json.
* Concurrency and histories: a run is an arbitrary list of labels or an inductive `Reach`; theorems quantify over all runs.
  History variables ("ghosts") record what was observed and do not influence the program.
* Mutation tests: seeded/LOG.jsonl has one line per wrong program tried in a scratch copy, with the theorems that failed.

## Trusted base

* Lean 4.33.0 kernel; axioms `propext`, `Classical.choice`, `Quot.sound` at most (checked by
  `vcheck`). No own axioms, no compiled evaluation; `decide +kernel` is evaluated by the kernel.
* The faithfulness of the hand translation from C++/Python to Lean (cited line by line).
* The modelling assumptions per area (next table and the headers of the Model files).

## What is modelled, per area

| area | code modelled | not modelled / assumed |
|------|---------------|------------------------|
| Radix | `mllm/engine/prefix_cache/RadixTree.{hpp,cpp}` insert/search/split, `Cache.cpp` find/promote | `unordered_map` iteration order (proved irrelevant), LRU counters, sizes below 2^31 |
| ZenFS | `ZenFS.cpp`, `TLB.cpp`, `Allocator.cpp`: address codec, bitmaps, malloc/free, hints, finalize/recover, TLB | blob contents, mmap failures, `page_bits + lane_bits > 30` |
| Evict | `mllm/nn/lmcache/PrefixCache.cpp` L86-137 sliding-window eviction and promote | layers are independent columns |
| Buddy | `mllm/engine/BuddyMemPool.{hpp,cpp}`, allocation path of `MemoryManager.cpp`, `CPUAllocator.cpp` L56-59 | the race of `expandBuddySegment` outside the lock; float `log2` is exact |
| ParamFile | `mllm/core/ParameterFile.cpp` V1/V2 writers and both readers, `TensorStorage/TensorViewImpl`, `pymllm/mobile/convertor/model_file_v2.py` | I/O errors; little endian |
| Tensor | shape/stride logic and data movement of slice, view, reshape, permute, transpose, contiguous, concat, stack, split, repeat | `int32` overflow, multi-lane dtypes, SIMD variants |
| KVCache | `StaticCache`, `SubStaticCache`, `DynamicCache` (CPU) | device copies, block-quantised cache types |
| Token | `mllm/preprocessor/tokenizers/{BPE,AutoTokenizer (Trie),Unicode,WordPiece}.cpp`, `mllm/models/qwen3/tokenization_qwen3.hpp` (pre-tokenizer regular expression, encode/decode) | locale character classes are parameters; invalid UTF-8 into `utf8::next`; int64 rank overflow |
| SymExpr | `mllm/compile/symbolic_expr/{Parser,AST,Eval}` | `atof` |
| Pool | `mllm/engine/HpcThreadPool.{hpp,cpp}`, `mllm/core/Parallel.hpp` | condition variable, destruction, weak memory |
| Service | `mllm/engine/service/Service.{hpp,cpp}` request/response queues with explicit condition variables | JSON, payloads, clocks |
| Compile | tracing, lowering passes, serialisation and interpretation of a module | op options and shapes, JSON text, devices |
| Ptr | `mllm/utils/IntrusivePtr.hpp` | memory orders |
| Args | `mllm/utils/Argparse.hpp` parsing | help text, dynamic type check of `get` |
| PyRadix | `pymllm/mem_cache/radix_cache.py` without sliding window | clocks beyond one reading per call, hit counts, hashes |
| PyPool | `pymllm/mem_cache/memory_pool.py` allocator and request table | devices, int32 overflow |
| Runner | `pymllm/orchestrator/model_runner_process.py` life cycle of a request over PyRadix and PyPool | recurrent states of hybrid models; forward pass is an oracle |
| Sched | `pymllm/orchestrator/scheduler_process.py` continuous batching | timing, exceptions of the model runner |
| Deliver | `detokenizer_process.py`, `request_response_process.py`, `tokenizer_process.py`, `engine/launch.py` hand-over of results and aborts | 30-minute clean-up, coroutine cancellation |
| Parse | `pymllm/parsers/{reasoning_parser,tool_call_parser}.py`, their use in `server/launch.py` | JSON reading of a call body is a parameter (the two extraction regular expressions are modelled); exceptions of `obj.get` |
| Gen | `mllm/models/ARGeneration.{hpp,cpp}`: the three generation loops, the four samplers | `forward` and softmax are oracles, probabilities are rationals, timing and `perfSummary` are not modelled |
| Sample | `pymllm/layers/sampling.py` (PyTorch path), `model_runner.py` `_apply_penalties` and `sample`, option collection in `model_runner_process.py` | FlashInfer kernels; softmax is a parameter, probabilities are rationals; chain speculative sampling one row at a time |
| Ops | `backends/cpu/ops` and `core/aops`: elementwise binary operators, causal mask, gather, embedding, top-k, argsort, pad, masked scatter, index, clone, copy2 | floating-point arithmetic is a parameter; GGUF tables, threads inside a kernel and the other operators |
| Attn | `backends/cpu/kernels/common/{fa2_1,radix_attn,radix_attn_relax,radix_swa_sink,fa2_1_swa_sink,paged_attn}` and the operators that call them, over the real numbers | rounding and fast exponential; threads interleave only between heads; `fa2` (unused), quantised caches |
| Ipc | `pymllm/orchestrator/cuda_ipc_transport.py` (workspace pool, chunks, recycle/merge, proxies, nested wrap/unwrap), `shared_memory_queue.py`, `tokenizer_process._ensure_pool` | CUDA itself (a handle reads what was written at its offset), POSIX shared memory failures, the byte encoding of pickled metadata |
| Serve | `pymllm/engine/{io_struct,launch}.py` (batch split, ids, waiting, event loops), `request_response_process.py`, `tokenizer_process._tokenize`, option reading in scheduler and runner, `server/launch.py` (`/v1/completions`, `/v1/chat/completions`) | HTTP, JSON, authentication, ZMQ losses, log probabilities, timings; asyncio by the rules stated in `Serve/Loop.lean` |
| Gdn | `pymllm/layers/attention/gdn_backend.py` prefill and decode (convolution, gating, heads, sequential scan), `gdn_chunkwise.py` both chunkwise scans, `memory_pool.py` state pool layout | floating-point rounding, FlashInfer and the fused CUDA kernels (the formula of the chunkwise one is that of `_process_chunk`), backend selection; kernel width 1 |
| Hybrid | `pymllm/orchestrator/model_runner_process.py` with `GDNPool`: restoring recurrent states on prefix hits, snapshots, track slots, eviction callback (on top of Runner) | values of the states (by Gdn a function of the tokens read), batching, CUDA graphs |
| Graph | `pymllm/executor/cuda_graph_runner.py` (sizes, input buffers, replay), the decode pass of an arbitrary network as reads and writes of key/value slots and recurrent states | capture itself, torch.compile, the fused in-place recurrent kernel; kernels' arithmetic |
| Flash | `pymllm/layers/attention/flashinfer_backend.py` (index buffers, prefill by ragged+paged merge, decode, windows), `create_kv_indices.cuh` | the FlashInfer kernels themselves (stated contract), planning, cross attention, rounding |
| Vl | Qwen2-VL / Qwen2.5-VL: `smartResize`, patch cutting, image tokens, patch and multimodal positions, window index and mask, `RoPEOp`, `MultimodalRoPEOp`, `VisionRoPEOp`, table makers | image decoding and resampling, convolution and MLP arithmetic, rounding |
| Kern | float32 matrix products: `ops/MatMulOp.cpp`, `ops/LinearOp.cpp`, `kernels/common/ggml/matmul.cpp`, the llamafile tiles and thread split, mllm_blas gemv/gemm tiles for arm and x86; `ops/{SoftmaxOp,RMSNormOp,LayerNormOp}.cpp` with their arm and x86 kernels and the vectorised exponential; `ops/ReduceOps.cpp` with `kernels/arm/reduce.*` and `kernels/common/reduce-inl.hpp`; `ops/Conv{1,2,3}DOp.cpp`, `ops/AvgPool1dOp.cpp`, `ops/InterpolateOp.cpp` with `kernels/arm/conv{2,3}d.cpp`; `ops/{SiLU,Sigmoid,ReLU,GELU,QuickGELU}Op.cpp` with their arm and x86 kernels | rounding, quantised and half types, OpenBLAS builds, KleidiAI, transpose_a |
| Quant | block formats Q4_0, Q8_0, Q4_K, Q6_K, Q8_K (`core/DataTypes.hpp`), `kernels/common/ggml/quantize/{quantize.hpp,quantize_q4.cpp,quantize_q6.cpp,quantize_q8.cpp}`, `vec_dot.cpp` for q4_0, q8_0, q4_K, q6_K on AVX2, NEON (plain, dotprod, i8mm) and scalar, the vec_dot path of `matmul.cpp` | rounding of floats (real arithmetic), nearest_int beyond 2^22, QK_K = 64, SVE, VNNI, AVX without AVX2, q2_K, q3_K, iq2, llamafile tiles for quantised types |
| Mamba | `pymllm/mem_cache/mamba_radix_cache.py`: `LRUList` pointer by pointer, `MambaRadixCache` (match, insert, evict, locks, split, delete) with states, lock counts, both lists and counters | device placement, hit counts, logging, the eviction callback, the pool objects behind the freed slots |
| Shard | `pymllm/orchestrator/{parallel_state,group_coordinator}.py`, `pymllm/layers/{linear,embedding,mlp,base}.py` and `UnquantizedLinearMethod`, `pymllm/models/qwen3.py` load_weights and its parameter names | float rounding and summation order, devices and dtypes, NCCL itself, `_load_stacked_weight` (unused when a loader is present), quantised linear methods |
| Ascend | `mllm/backends/ascend/memory/{AscendMemoryPool.cpp,AscendMemoryPool.hpp,MemoryBlock.hpp,AscendMemoryManager.cpp}`, `AscendAllocator.cpp`, the workspace blocks of the operators, with 32-bit and 64-bit wrap-around | ACL itself, the statistics printed, ids beyond 2^31 blocks |
| Aot | `mllm/backends/qnn/aot_rt/{KVCacheManager,PromptProcessor,TokenGenerator,QnnAOTRuntime}.cpp`: flat buffers with capacities, masks, chunk loop, decode loop | QNN itself (the compiled graphs are arbitrary functions that implement a causal network row by row), detokenising, timing, int32 overflow |
| Stream | `mllm/models/minicpm_o2_6/llm_chunk_generation.hpp`, `streaming_generation.{hpp,cpp}`, the loop of `generate` and `makeStreamingChunkMask` of `modeling_chattts.hpp`: iterators, text chunks, markers, slices into the cache, cross-fade, mask | the networks (sampled tokens, speech EOS and waveforms are arbitrary), hidden states and speaker embedding, float rounding, detokenising other than by token |
| Marlin | `mllm-kernel/.../gemm/marlin/marlin_template.h` (stripes, locks, reduction), `gptq_marlin.cuh` (host loop, kernel choice), `create_weights` of `awq_marlin.py` and `compressed_tensors.py`, `jit/gptq_marlin.py` , `awq_marlin_repack.cuh`, `gptq_marlin_repack.cuh`, the copy pipelines of both, `dequant.h` (integer types), operand addressing, tile products, block reduction and write-out of `marlin_template.h`, scale and zero-point layout of `awq_marlin.py` | rounding of the accumulation, m_block_size_8 kernels, weak memory beyond acquire/release, act-order kernels, 32-bit overflow |
| Slice | `mllm/models/minicpm_o2_6/image_preprocessor_minicpmo.hpp` (grid, resize targets, crops, patches, placeholders, bounds, temporary file), `audio_preprocessor_minicpmo.hpp` (slot counts, bounds), `tokenization_minicpmo.hpp` (tag replacement, tensors), the merges of `modeling_minicpmo.hpp`, lengths of the Whisper encoder | pixel interpolation, float results (arbitrary), mel features, the networks |
| Bits | `mllm/backends/cpu/kernels/arm/quantize/bitspack/{u1..u7,ux,ux_packing,bitspack}.hpp`, `bitspack.cpp`, `mllm_blas_i8gemm.hpp` (sizes, offsets) and the three `mllm_blas_i8gemm_bitspack_*_fp32_neondot.hpp` kernels: bit layouts, packed weights and activations, integer dot products, remainders | float rounding (operations are arbitrary functions in C166, exact in C167), alignment, tile scheduling over threads |
| Ocr | `mllm/preprocessor/visual/Image.cpp`, `ImageTransform.cpp` (crop, pad, resize targets, tensor, normalise), `mllm/models/deepseek_ocr/conversation_preprocess.hpp` (templates, registry, grid choice, tiles), `modeling_deepseek_ocr.hpp` (`infer`, order and number of features), `modeling_deepseek_ocr_service.hpp`, `splitString` | interpolation of pixels, the vision networks, floating-point rounding, the tokenizer |
| Fft | `mllm/backends/cpu/ops/STFTOp.cpp` (all transforms, padding, STFT, ISTFT), reshape of `core/aops/STFTOp.cpp` and `ISTFTOp.cpp`, mel features of `minicpm_o2_6/audio_preprocessor_minicpmo.hpp` | float rounding (exact real and complex numbers), the tensor layout of the outputs |
| Codec | `minicpm_o2_6/modeling_chattts.hpp` (top-k and top-p filters, end-token mask, multinomial draw), `mllm/preprocessor/audio/Audio.cpp` (channels, resampling, fractions, clips) | the audio decoder networks, wav file parsing, filterbank features of wenet, float rounding |
| Lazy | `algorithms/lazy_vlm` fast version: passes of the first and later calls, selection, caches of keys, values and hidden states | the networks (top-k results arbitrary), masks, the non-fast versions |
| Fill | Tensors filled with a value, a range, random numbers (x86 and ARM loops); `Scatter2Shards`; casts on ARM and x86; the comparison operator | rounding; the conversions between number formats themselves; `fill_ones`/`zeros` of quantized types |
| Fsq | Finite scalar quantization: codebook, codes and indices, quantization, decoding of residual tokens, `GFSQ::embed`, the residual loop | the projections (arbitrary functions), rounding of floats, `GroupedResidualFSQ::forward` (reads the shape at index -1) |
| Mrope | `apply_mrope`, the fused M-RoPE kernel and its launch, the cosine/sine cache of Qwen3-VL | rounding; `is_neox_style=False` (never passed) |
| Vpos | `get_rope_index` of Qwen3-VL and Qwen3.5, the extend batch, decode positions, the comparison of placeholders and features, how much of a cached prompt is used | the vision encoder, scattering the features, dtype of the positions |
| Vit | Qwen3-VL vision encoder: `_rot_pos_ids`, `rot_pos_emb`, interpolation indices and weights, `fast_pos_embed_interpolate`, `_get_position_embedding`, `_compute_cu_seqlens_from_grid`, the grouping of the mergers | float32 rounding, the layers, the cosine cache (8192 rows) |
| Cuda | store_cache kernel and wrapper (thread mapping, vector copies, split choice, launch), block-wide sums as warps with barriers, rms_norm_gated kernel, gdn_decode kernel (shared-memory layout, scalar and vector sums as warps with barriers, update, cells written) | float rounding, launch limits other than an empty grid, divergence inside a warp |
| Mmc | what the prefix-cache key says about images: key construction, served history, reused slots | the tokenizer that places placeholders, hybrid-model guard |
| LongRope | MiniCPM4 inverse frequencies with LongRoPE factors, scaling factor, sine and cosine tables, position ids through a generation, RoPEOp pairing | float rounding, the layers, batches of more than one |

## Not modelled (whole project)

Floating-point kernels and their numerics, SIMD code paths, GPU/NPU backends (QNN, OpenCL, Ascend, CUDA), model definitions
(`mllm/models`, `pymllm/models`), OS behaviour (mmap, files, sockets) beyond a byte-level or FIFO contract, hash-table
internals, weak memory orders, thread scheduling other than explicit interleavings in the modelled queues and pools, integer
overflow except where an area's row says otherwise.

## Properties

Status, theorems and remarks are those of MANIFEST.json; `how` says what the proof rests on.

| id | property | how it is proved | status and remarks |
|----|----------|------------------|--------------------|
| C01 | Prefix-cache search is a longest-prefix match | violated: witness; `_partial`: refinement to a prefix map for key sets where no wrong descent is possible | partial. Violated by the pinned code (C01_violated: search descends below a partially matched edge). Proved for all histories/queries that are separable (API-level condition). |
| C02 | Prefix-cache search result is well-shaped | invariant "edge length = address-list length" over all insert histories | proved. All histories, including throwing inserts. |
| C03 | An inserted key is found in full, and stays found | induction on the walk; persistence violated by witness, `_partial` under C01's condition | partial. insert-then-search proved for all histories; persistence is violated by the code (witness) and proved for separable histories. |
| C04 | extra_key isolates cache namespaces | projection of the tree to one extra key commutes with insert and search | proved. Non-interference between extra keys; find only sees extra key 0. |
| C05 | Prefix-cache search never fabricates addresses | invariant "every stored address was supplied" | proved.  |
| C06 | Cache virtual addresses denote disjoint in-bounds storage | bit and arithmetic lemmas for all geometries | proved. exact decomposition of addresses and disjoint in-bounds byte ranges, all geometries |
| C07 | malloc never returns an address that is still in use | bitmap state-machine invariant | partial. full property is false of the code (C07_violated, C09_violated_disk: free() indexes the bitmap by lane only; disk blobs have 8x too many bits). Proved: freshness, reuse and bitmap exactness for anonymous blobs with >= 6 address bits when only page-0 addresses are freed |
| C08 | Prefetch and purge hints only touch the token they name | exact characterisation of the offset computation | partial. full property is false of the code (C08_violated); exact characterisation of when the hinted range is right (C08_hint_exact_iff) |
| C09 | malloc returns an address of the blob it allocated from | bitmap size against blob size | partial. false for fewer than 6 address bits and for disk blobs (violated theorems); proved for anonymous blobs with >= 6 bits |
| C10 | Recovered cache data is not handed out again | finalize/recover on the state machine | partial. false of the code: recover() re-marks every slot free. Proved: address translation survives recovery; the first malloc after recovery returns slot 0 of the first blob whatever was live |
| C100 | A prompt may be cut anywhere | both sides equal the token-by-token memory (C98), which composes | proved. For the sequential backend; by C99 the batched one agrees with it where it does not underflow. |
| C101 | Requests in a batch do not disturb each other's recurrent state | fold lemma for slots without tokens; C98 for the rest | proved.  |
| C102 | The older chunkwise scan agrees with the recurrence | first two rows of W agree; the third is computed symbolically | partial. Only chunks of at most two tokens: the construction of W uses K(Wᵀx) instead of W(Kᵀx), which differs from the third token of a chunk on; the error after three tokens is given exactly (C102_third_token_violated), with a witness at the default chunk size. |
| C103 | Recurrent layers have read exactly the request's own tokens | slots hold token lists; invariant linking rows, snapshots and tree paths over all steps of the runner; cut hits computed symbolically | partial. Proved for every history in which no used hit was cut back to prompt-2 tokens; a used hit always has its snapshot (all histories). A hit of all but at most one token of the prompt is cut back, yet the snapshot is the one of the uncut match: tokens are read twice (C103_cut_violated, for every such hit), and the wrong state is snapshotted for others (C103_spread_violated). |
| C104 | Track slots are neither lost nor shared | multiset equation free+snapshots+pending=all, preserved by every step; witnesses by kernel evaluation of histories | partial. Distinctness holds in every history; conservation in every history without empty prompts: an empty prompt loses a slot for good (C104_empty_violated). Snapshots never make room: with all slots taken, later prefixes are cached but their hits are discarded (C104_starved_violated). |
| C105 | CUDA-graph replay answers like the eager model | simulation between the eager and the padded pass, layer by layer: memories agree off slot 0; scatters with arbitrary winner | proved. Padding lanes write only to the padding slot. A captured graph is taken to do what the captured pass does on the current buffers. |
| C106 | CUDA-graph padding leaves recurrent states alone | as C105 with agreement on a set of rows; characterisation of stale rows by induction on the history; in-order scatter as outcome | partial. Proved when no padding lane points to a live row, in particular for batches of captured sizes. The rows of padding lanes are not reset: they are those of the last larger batch, or 0 (C106_stale, all histories), and row 0 is a row of requests. Then a request can be left with the state after the padding lane's old token (C106_padding_violated, for all models beginning with a recurrent layer), already in the first decode step of three requests (C106_first_violated). |
| C107 | Captured batch sizes and padded lengths | membership characterisation of the size list, bisect on sorted lists, predecessor gaps; pointwise buffers | proved.  |
| C108 | Packed KV index lists name each request's own slots | packed intervals are disjoint (prefix sums monotone), so the scatter has one value per position; prefix-sum buffer invariant over histories | proved. For segments that lie inside the request table. |
| C109 | Prefill attends to the cached prefix and the own new tokens | log-sum-exp merge equals attention over the concatenation; flat indexing lemmas; C108 for the paged part | proved. On the stated contract of the FlashInfer kernels. |
| C11 | Sliding-window eviction frees exactly what left the window | list induction along the path | proved. for all histories of promotes and evictions, all keys, all windows; plus idempotence, effect on other sequences, conservation of addresses |
| C110 | Decode attends to all positions of the request | C108 for the positions, scatter for the new entry | proved.  |
| C111 | Sliding-window layers see the window | C110 with clamped segments; exact formulas for prefill with windows; numeric witness | partial. Holds only for decode with a backend that was given the window. The runner never gives it (C111_runner_violated, all inputs); a prefill without cached prefixes ignores it (C111_prefill_violated); with a prefix, new tokens are counted twice and later ones are seen (C111_prefix_violated, exact result; C111_witness_violated). |
| C112 | Image patches, image tokens and patch positions line up | view/permute element lemmas of the Ops area; write-list buffers for the position loops; counting | partial. One image. With two images in the grid the position table is filled wrongly or refused (C112_two_images_violated). |
| C113 | Image resizing keeps block multiples, pixel budget and aspect ratio | floor and ceiling bounds, square-root inequalities | partial. For budgets that are not absurdly small compared with the block (the defaults qualify, C113_defaults); with max = one block the result exceeds the budget (C113_small_budget_violated). |
| C114 | Multimodal positions | last-write buffers for the three loops, induction over decode steps; case split over the doubled sections | partial. Requires text after the image for decode: if the prompt ends with the image the next position collides with image positions (C114_image_last_violated); a prompt with fewer image tokens than cells writes outside the tensor (C114_short_violated). |
| C115 | Windowed vision attention is windowed attention on the image | windows partition the grid (permutation), cumulative lengths give the mask, argsort inverts, equivariance of layers | proved. Layers that commute with reordering (attention with a mask given by sets does: attnBlock_equivariant). |
| C116 | Rotary embedding rotates every row by its own angles | loop iterations as load/store sets; pairwise independence lets each element be evaluated alone | partial. Dense last dimension; the multimodal and vision operators only for even head sizes: for odd ones the last element is never written (C116_odd_dim_violated). Exact arithmetic. |
| C117 | Attention scores depend on relative positions only | C116 with the table values, angle subtraction, sum splitting | partial. Exact arithmetic; for the table makers of qwen3 (the other text models copy it) and qwen2vl. |
| C118 | clone and copy2 copy the elements of the tensor | memcpy with bounds; row-major linear index lemmas; slice arithmetic | partial. For sources that are the whole of their storage and contiguous destinations. bytes() is the size of the storage, so clone of any smaller view leaves its allocations (C118_clone_iff: exactly then), copy2 from one overruns, strided destinations are filled wrongly, and an image longer than the rest of the prompt is written outside the embeddings. |
| C119 | matmul returns the matrix product | stores as updates run in any interleaving; tiles cover every cell once (counting) and each is a full sum | partial. Over any commutative ring (no rounding), float32 operands, contiguous, non-empty; with transpose_b and four or more rows the inner size must be a multiple of the vector width or there must be one matrix. Otherwise: each product of the batch uses the first right-hand matrix; without AVX2/NEON zeros; empty inner size leaves the output unset; strides of views are ignored. |
| C12 | Pool allocations never overlap and are large enough | invariant: live and free blocks partition each segment into aligned blocks | partial. false for first-segment capacities that are not powers of two (C12_violated); proved for all histories when the capacity is a power of two (default), with the OS returning non-overlapping memory |
| C120 | a Linear layer computes x Wᵀ + b | same as C119 with the bias as the start value | partial. Over any commutative ring, default implementation, float32, contiguous input. On x86 a layer with fewer than four input channels leaves its output unset (C120_few_channels_violated). |
| C121 | softmax returns the softmax of each row | row passes as updates; the polynomial exponential bounded against Real.exp by Taylor remainder and range reduction | partial. Real arithmetic (no rounding), float32, contiguous input. Bound 5e-7 on arm; on x86 only 6.2 %, and entries are really off by more than 2e-4 (C121_exp_x86_violated, C121_softmax_x86_violated: wrong constant for the split of ln 2). Strides of views are ignored. |
| C122 | RMSNorm divides each row by its root mean square | row passes as updates (overlapping stores agree), sums over lanes equal sums over the row | partial. Real arithmetic, float32, contiguous. On x86 rows must start at vector-aligned addresses: otherwise the aligned load faults (C122_rmsnorm_x86_violated). Strides of views are ignored. |
| C123 | LayerNorm normalises over the trailing normalised shape | same as C122 with two passes, flat groups related to trailing coordinates | partial. Real arithmetic, float32, arm. On x86 nothing is computed (C123_x86_violated); a wrong trailing shape whose size divides is accepted (C123_shape_unchecked_violated). |
| C124 | sum, max, min and mean reduce along the axis asked for | each kernel is a homomorphism to a commutative monoid, so lanes, strides and tails regroup to the sum along the axis | partial. Real arithmetic for float32, exact bit vectors for integers, contiguous input. On x86 only the float sum computes anything (C124_x86_violated); integer means wrap when the sum does not fit (C124_mean_int_violated); strides of views are ignored; an axis out of range is not refused. Half types and the int32 mean are not modelled. |
| C125 | sigmoid, SiLU, QuickGELU and ReLU are computed element by element | one update per element over blocks and tails; Newton steps of the reciprocal as a fourth power; the x86 rational function compared with the logistic equation by a fencing lemma and a kernel-checked polynomial certificate | partial. Real arithmetic, float32, contiguous. arm: relative error 2.2e-7 given an 8-bit reciprocal estimate; ReLU exact. x86: SiLU only to 2.9 % and really off by over 0.14 % for -88..-5 (C125_silu_x86_violated), sigmoid only to 2.3e-4 absolute and off by any factor below -11.5 (C125_sigmoid_x86_violated), ReLU and QuickGELU store nothing (C125_x86_missing_violated). Strides of views are ignored by SiLU, sigmoid, ReLU. |
| C126 | GELU is the tanh formula | the rational function satisfies tanh' = 1 - tanh^2 up to a defect bounded by a kernel-checked polynomial certificate; fencing lemma | partial. Real arithmetic, float32, contiguous, arm. On x86 the kernel body is empty and nothing is stored (C126_x86_violated). |
| C127 | convolution layers compute the convolution | loops that add become sums; nested loops fill disjoint blocks (induction); the im2col list is indexed by mixed radix and the product reuses the matrix product theorem shifted to each image | partial. Exact arithmetic over any commutative ring, float32, contiguous operands, kernel fits. Conv2D and Conv3D on arm. Violations: a kernel larger than the padded input by less than the stride is accepted with one output (C127_conv1d_no_window_violated, C127_conv2d_no_window_violated), for Conv3D computed from memory behind the input (C127_conv3d_reads_outside_violated); Conv3D on x86 stores nothing (C127_conv3d_x86_violated); strides of views are ignored (C127_conv1d_strides_ignored_violated, C127_conv1d_view_violated). |
| C128 | AvgPool1d returns window means | one body per cell on a zeroed buffer; the counter is the cardinality of a filter | partial. Real arithmetic, contiguous input, window not larger than the padded line. Complete for ceil_mode = false; with ceil_mode proved without count_include_pad when stride + padding <= window. Violations: ceil_mode with the default divisor (C128_ceil_divisor_violated), ceil_mode with a stride larger than the window (C128_ceil_extra_violated), a window larger than the padded line (C128_no_window_violated). |
| C129 | interpolate resamples at the documented positions | per-axis lemmas: clamped neighbours = hat-function sum (three cases), four taps = Keys kernel, normalised taps = Gaussian mean; one store per element, any order | partial. Real arithmetic, float32, contiguous input, sizes for the spatial dimensions only. Violations: one output on an axis of several samples without aligned corners reads the first sample and skips antialiasing (C129_single_output_violated), strides of views are ignored (C129_view_violated), a size list that covers the channels writes past the output (C129_channels_violated). |
| C13 | Freeing everything restores the pool | same invariant, canonical form of a fully free segment | partial. false for non-power-of-two capacity (C13_violated); proved for power-of-two capacity with the object cache off (the default) |
| C130 | Quantised blocks mean what their format says, and quantising is accurate | mixed-radix indexing of the written list gives every element; a clamped nearest integer is a best code (any competitor is a full step away); the scale search keeps an invariant: current error at most that of the first fit | partial. Real arithmetic; nearest_int is any rounding to a nearest integer (the bit trick needs /x/ below 2^22); QK_K = 256. Violations: off Arm a half-precision scale is read as an integer, so a block whose scale is below one half (any GGUF file) reads as zeros, and x86 files read on Arm as numbers above 1000 (C130_portable_violated, C130_portable_back_violated). |
| C131 | Quantised dot products are the dot products of the dequantised rows | each SIMD instruction has a lemma (maddubs, madd, dot, widening adds) showing no wrap under byte bounds; loops fold to sums; mixed-radix regrouping of 256 elements | partial. AVX2, NEON with and without dot product, scalar K kernels; sums in real arithmetic. Violations: NEON q4_0/q8_0 with an odd number of blocks takes in the block behind the row, int8mm builds of both, builds without SIMD write nothing, the byte -128 flips its sign with AVX2, plain NEON sums a group of q4_K in sixteen bits. |
| C132 | A linear layer with K-quantised weights computes the matrix product | each output cell and each quantised row has one owner job, so every interleaving agrees with running that job alone; then C131 plus the quantisation error bound of C130 | partial. All builds but plain NEON; contiguous input; in_channels a multiple of 256. Violation: the products are taken at the strides of the input although the quantised copy is contiguous, so a sliced batched input reads behind the temporary (C132_sliced_input_violated). |
| C133 | The hybrid-model prefix cache serves, locks and evicts prefixes like the plain one | simulation: each call is a step of the PyRadix model (time stamps all zero), so the C36/C37 invariants and theorems transfer | partial. Proved by simulation: every step is a step the plain radix cache (C36, C37) may take. Violations: extending an unlocked leaf loses evictable tokens (C133_sizes_violated); the server's dec_lock_ref(node, swa_id) raises TypeError with this cache (C133_server_violated). |
| C134 | The least-recently-used lists are exact and eviction follows them | representation predicate for doubly linked lists with unlink/add-after lemmas; invariant of both lists over all histories; determinism and totality of the two eviction loops | proved. Pointer-level model of LRUList; the lists are related to Lean lists by Rep, which determines the list (rep_unique). |
| C135 | Recurrent states in the cache are conserved, protected while locked and belong to their sequence | permutation bookkeeping of state slots through splits; invariant "slot is in a node above the locked one whose lock count exceeds the locks held on it"; reachable witnesses for the violations, a general theorem for the split | partial. Conservation holds for all histories. Protection holds if only nodes with a state are locked; enough is freed if no tokens are asked for. Violations: a split gives the state of the whole sequence to the prefix and leaves an empty one that counts as present, for every one-slot state (C135_split_violated); mamba_exist is true though the state was stored; a split copies the lock count, which is never released; a lock taken without state releases somebody else's; evictable counters mix tokens and slots; evict counts tokens as state slots. |
| C136 | initialize_model_parallel gives every process its own coordinates and consistent groups | closed form of the state after initialisation for every rank; arithmetic of divisions and remainders (Chinese remainder for coprime tp, pp) | partial. Groups proved for all worlds. Coordinates are unique only when tp and pp are coprime (for all others two processes share coordinates, C136_coordinates_violated); the new_group calls agree only if each kind of parallelism spans the world or is off (C136_same_calls_violated); without torch.distributed tp>1 is accepted; re-initialisation leaves stale ranks and groups. |
| C137 | Tensor-parallel layers compute the unsharded layer | per-rank shard specification, then block decomposition of sums over the TP group | proved. Exact arithmetic over a commutative ring (float addition order not modelled). Side conditions the code does not enforce are shown necessary: a token id outside the vocabulary becomes a zero vector with 2+ ranks; an oversized checkpoint tensor is accepted with 2+ ranks; tp>1 without torch.distributed returns outF/tp outputs. |
| C138 | Fused projections hold and compute exactly their separate projections | each load writes a slice disjoint from the others; invariant over the list of loads | proved. Under the condition that the tensors have the right sizes; a wrong-sized shard is not refused but written over its neighbours (C138_missized_violated, C138_missized_numbered_violated). |
| C139 | load_weights puts every checkpoint tensor where it belongs | substring lemmas (digits separate a name into independent parts), routing table for all layers, independence of parameters under the load loop, then C138 | partial. Proved for complete checkpoints with right shapes. Violated: nothing is reported. Deleting all tensors of any parameter from any loadable checkpoint still loads and leaves it uninitialised (C139_missing_violated, general); language_model.lm_head.weight is dropped though that prefix is accepted elsewhere; a misshaped embedding is skipped; a one-element norm weight is broadcast. |
| C14 | Pool accounting and allocation completeness | sums over the partition | partial. power-of-two first segment |
| C140 | The Ascend memory pool hands out disjoint, aligned blocks inside its memory | invariant of the pool (blocks sorted in allocation order, pairwise apart, remaining size = end - cursor) over all histories | partial. Proved when base and pool size are multiples of 32, the pool is below 64 GiB and requests are below 4 GiB-64. Each condition matters: with any other pool size of at least 64 bytes three requests get a block outside the pool (C140_pool_size_violated, the signed rest is compared as unsigned); requests just below 4 GiB wrap to a block of at most 32 bytes (C140_wrap_violated). |
| C141 | Tensors and workspaces on an Ascend device never share memory, whatever the threads do | invariant linking each storage's phase, the allocator's map and the pool, preserved by every critical section of every thread | partial. Proved on one device under the conditions of C140. Violated for tensors of 4 GiB or more (the size is cut to 32 bits: every such tensor overlaps the next one, C141_truncated_violated) and with two devices (the pool is chosen by the current device when freeing, C141_device_violated). |
| C142 | The Ascend pool reuses freed memory and refuses only when it is out of memory | specification of the best-fit loop for any iteration order; explicit fill-and-free history for the violation | partial. The choice is proved (same conditions as C140). The last sentence is violated for every pool size: blocks are never split or merged, so after filling the pool with tiny blocks and freeing all of them every request of one byte or more is refused (C142_fragment_violated). |
| C143 | The ahead-of-time QNN runner decodes greedily, token by token | loop invariants: after each chunk the cache holds the entries of token-by-token feeding and the mask is causal; a graph implementing any given network is constructed | partial. Proved for prompts of 1 to context_len - ar_len tokens (any length if ar_len = context_len), prompt plus budget below context_len, and a first token that is not an EOS; also for a prompt continued on a filled cache. Each condition matters: an EOS as first token does not stop (C143_eos_violated); prompt plus budget reaching context_len writes outside the key buffer (C143_full_context_violated); an empty prompt samples from stale logits (C143_empty_violated); a longer prompt that fits the context overwrites keys of other rows (C143_overflow_violated) and gives wrong tokens (C143_long_prompt_violated). |
| C144 | The attention masks of the QNN runner are the causal sliding window | cell-by-cell characterisation of the mask after initialisation and after each update, induction over the chunks | partial. Proved for a cache filled from position 0, any window of at least the chunk length. Violated when prefill starts on a cache more than half full (C144_start_violated): the number of cached tokens is subtracted twice, so position 0 is hidden although the window covers it. |
| C145 | The QNN KV cache manager keeps and appends exactly the right entries | invariant of the in-place row moves in both directions; closed form of the selection loops | partial. Rearranging and appending are proved in full; selecting for 1 <= n <= number of selected tokens. Violated for n = 0 (values are written, keys are not, C145_zero_violated) and for selections with fewer than n tokens (keys get copies of token 0, values stay, C145_short_violated). |
| C146 | Chunked text generation shows the model's answer, complete and once | invariant of the iterator (shown text plus held-back tokens = text of all tokens so far), induction over the remaining budget; bit patterns of UTF-8 lead and continuation bytes | partial. Proved up to the EOS text, for EOS tokens whose text does not end in byte BD. Violated: the text of the EOS token itself is shown (C146_eos_shown_violated), and any character whose bytes are spread over two tokens vanishes, since tokens are converted to strings one by one (C146_split_character_violated). |
| C147 | The documented for loops deliver every chunk and all audio | run of the iterator as a list of outputs; the range loop visits all but the last | partial. Violated for every answer: the loop over chunks starts with an output that was never generated and never sees the last chunk (C147_chunk_loop_violated); the loop over the speech generator never sees the output with the end of the audio, and no audio at all if the speech ends in the first call (C147_speech_loop_violated). Both theorems also say exactly what is delivered. |
| C148 | Streaming generation shows the whole answer, within the configured limit, and ends | the three chunks of a ten-token answer; invariant of the calls; stuck state for the endless loop | partial. Proved in audio mode for answers up to ten tokens and speech of at least two calls (or at most eight tokens). Violated: max_new_tokens has no effect, the limit is always ten (C148_limit_violated); speech of one call loses the end of the text (C148_short_speech_violated); without audio no text is ever shown (C148_text_only_violated) and short answers loop for ever (C148_text_only_endless_violated); text after </tts_eos/> in a later chunk is shown and spoken (C148_after_marker_violated). |
| C149 | The speech model reads exactly the text | invariant on cache cells per call, the slices written by each call; persistence of the stale cell | partial. Proved if the text known in the first call has ten speech tokens that later text does not change, or is complete. Violated otherwise: the end marker written after a shorter text stays in place of the next token in every later call (C149_stale_violated). |
| C15 | Every allocation request terminates with memory or an error | termination measure; divergence by invariance of the loop state | partial. false: requests above 512 MB loop for ever (C15_diverges), OS failure unnoticed (C15_os_failure_unnoticed). Proved: requests up to 512 MB are served after at most 30 granted segments; the default threshold keeps requests below that |
| C150 | The pieces of audio join without a seam | invariant: samples handed out plus samples kept = signal so far; cross-fade algebra in a field | proved. Real arithmetic (any field) in place of float. The joined audio includes the last output, which the documented loop does not visit (C147). |
| C151 | Audio tokens look only at text the speech model has been given | arithmetic on the ceiling division of the chunk index | partial. Proved for audio chunk sizes of at least 26 (default 50), with the exact set of visible positions; the first audio position (302) is never visible. Violated for an audio chunk size of 25, the number of tokens in a call (C151_chunk25_violated). |
| C152 | Speech of any length stays within the cache | count of audio positions over the calls | partial. Proved for the first 28 calls (and for ever if the speech ends in them). Violated: speech that goes on writes outside the cache in the 29th call, before its limit applies (C152_cache_overflow_violated). |
| C153 | The quantized matmul assigns every tile of the weight to exactly one thread block | ceiling-division arithmetic on stripes, induction over the slices of a block | proved. Integers are unbounded in the model (no 32-bit overflow). |
| C154 | The reduction across thread blocks gives one fixed result and never deadlocks | invariant over all interleavings (per column: which block is next, what the lock and the scratch hold), measure for termination | proved. Sequentially consistent memory between blocks (acquire/release semantics are assumed to give it). C154_needs_zeroed_workspace shows the workspace must start with zeros. |
| C155 | A quantized layer that is accepted works for every batch size | induction over the host loop; finite case analysis over the kernel families with symbolic sizes | partial. Proved for 4-bit layers with group sizes 32, 64, 128 (AWQ also -1 for unsplit layers). Violated: compressed-tensors group_size=-1 is listed as supported but no layer can be created; 8-bit AWQ is accepted but has no kernel; AWQ group_size=-1 on a layer split along the input always fails; groups of fewer than 16 rows divide by zero; the shared-memory estimate is too low for some devices (below 70 KiB). |
| C156 | Repacking a quantized weight keeps every value and puts it where the tensor-core fragments read it | bit-field arithmetic on packed words, uniqueness of written addresses, invariant of the staging pipeline over all interleavings | proved. Words are natural numbers below 2^32; the permutation must map rows to rows. |
| C157 | The matmul pipeline multiplies every tile with its own weights, scales and zero points | invariant over issue/land/read/sync steps (slot contents per tile); explicit reachable race for the violated part | partial. Proved for weights, and for scales and zero points whose group is not wider than a tile, and for wide groups while the slice has at most 4 tiles. Violated for wide groups (group size 128 with 64-row tiles): scales of an odd tile are read again from the group's first stage with no barrier before another warp may overwrite that stage, so a thread can use the scales of a tile two groups ahead. C157_pipeline_live shows that the modelled pipelines always progress. |
| C158 | Every tensor-core operand is the dequantised weight of its row and column, with one rounding | bit-vector extensionality for the masks, complete case analysis of a nibble or byte, mixed-radix arithmetic on addresses | proved. Which stage of shared memory is read is C157's subject. FP8/FP4 types, float zero points, act-order and 8-bit weights with bfloat16 are not modelled. |
| C159 | The output of the Marlin GEMM is the product of the activations and the dequantised weights | register-by-register decoding (xor swizzle is injective), induction over tiles and over the halving rounds, regrouping of finite sums, C154 for the blocks | proved. Exact arithmetic: the rounding of the accumulation and of the stored result is not modelled. Kernels for at most 8 rows (m_block_size_8) are not modelled; scales applied after the sum are C158_column_scales. ldmatrix and mma follow the PTX ISA tables. The global reduction is C154's, applied element by element. |
| C16 | Parameter file V2 round-trip | round trip by induction on the parameter list | partial. Round trip proved for whole (non-view) tensors, both readers; reader agreement for every file; violations proved for sliced/offset/transposed views and names longer than 255 bytes |
| C160 | Slicing an image for MiniCPM-o keeps every pixel, and every patch lands where the model reads it | minimum over the candidate list, mixed-radix arithmetic on addresses, disjoint row copies, induction over images | proved. Floating-point intermediate results are arbitrary; int does not overflow; the PNG round trip of a slice is the identity (see C162 for the file itself). |
| C161 | The embeddings of an image fill exactly its placeholder slots | first-occurrence lemma for the tag, induction over the pieces of the placeholder, positions of markers as lists | partial. Holds when the tag occurs once and the text before the image holds no marker token. Violated otherwise: a second tag reads an image size that does not exist (out of bounds), and a stray marker before the image shifts all bounds, so that embeddings overwrite text and a slot stays empty. |
| C162 | Processes that slice images at the same time do not see each other's slices | invariant over all interleavings; for the violations, explicit runs for arbitrary data and random sequence | partial. Proved when the random numbers of different processes are disjoint. Violated as the code is: rand() is never seeded, so every process uses the same file names; a process can read back the slice of another one, or find the file removed and end. |
| C163 | The embeddings of an audio fill exactly its placeholder slots | induction over the merge loop, linear arithmetic on the truncating divisions | partial. Up to 30 seconds every slot is filled and nothing else changes. Violated for longer audio (features are cut at 30 seconds, slots are not), and the encoder always computes 1501 positions while the position table has 1500 rows. The float quotient of the slot count is taken as exact. |
| C164 | Packing low-bit values and unpacking them gives every value back | bit-by-bit equality of bytes for each width, composed over lanes and repetitions | proved. NEON instructions are modelled lane by lane; values outside the width are excluded, as the code asserts. |
| C165 | Packed weights take the announced space, tiles lie at the announced offsets, and unpacking restores the matrix | byte-list lengths by induction over groups and tiles, a Hoare logic for reading packed bytes, store lists | proved. Round trip without a lookup table (the code offers no unpacking with one; C166 reads those tiles). |
| C166 | The kernels on packed weights compute the dequantised product | Hoare logic for the reads, equality of 32-bit words with integer sums, regrouping of finite sums, case split of the store paths | proved. Floating-point operations are arbitrary functions applied in the order of the code; C166_exact instantiates them with exact arithmetic of a field. |
| C167 | Quantised activations read back within half a step | induction over lanes and the remainder loop; rounding bounds and linear arithmetic over the rationals | partial. Exact arithmetic instead of float. Proved for rows with values on both sides of zero. Violated: if the smallest value is above half a step the zero point does not fit int8_t, wraps, and all values are stored as 127; if all values are equal the scale is 0 and only a debug assertion stops. |
| C168 | Image transforms produce exactly the stated geometry and values | store lists with the last store per address, rounding bounds, the permute kernel of Tensor, in-place update as a fold over distinct addresses | partial. Exact arithmetic for sizes; interpolation is an arbitrary function of the size. Normalize works in the memory of its argument, so transforming the same tensor twice normalises twice (C168_normalize_in_place_violated). |
| C169 | Large images are tiled by the grid closest in aspect ratio, without gaps or overlaps | loop invariant over the sorted candidates; ties excluded by kernel evaluation over the 22 grids; division with remainder for tiles | proved. Ratios are compared exactly (the code compares doubles). Independence of the order is proved for the limits the model uses (2 to 9 cells). |
| C17 | Parameter file V1 round-trip | round trip by induction on the parameter list | partial. Round trip proved when storages carry the registered names; violation proved otherwise |
| C170 | The prompt has one slot per image feature, in the order of the features | list lengths and indexed access to rows with newlines; index arithmetic of the permuted view; first occurrence of the tag | partial. Proved for one image and one tag, sides with a multiple of four patches, tiles of the assumed size. Violated: other base sizes give fewer slots than features; infer cuts tiles of 640 whatever image_size is; an image with as many white as black values is taken for one without tiles; without image images[0] is read; further tags drop text, no tag repeats it. |
| C171 | Conversation templates render every message once, in order, with the right role and separators | induction over the turns of a conversation; dropWhile lemmas; evaluation of the registry | partial. Violated: the deepseekv2 template is registered with the role '<｜User｜>' but compares with 'User', so questions are rendered as closed answers; a second initialisation (every infer call) fails an assertion in debug builds. |
| C172 | The fast Fourier transforms compute the discrete Fourier transform | Cooley-Tukey by induction over the stages with the bit reversal as permutation; Bluestein by the circular convolution theorem (geometric sums of roots of unity) and 2in = i^2 + n^2 - (n-i)^2 | proved. Exact complex arithmetic; lengths up to 2^32 (powers of two) and 2^30. |
| C173 | The short-time transform covers the signal frame by frame, and its inverse gives the signal back | closed forms of the padding and overlap-add loops; conjugate symmetry of real spectra; C172 for the frames | partial. Proved for one row, center=false (and 'same' with even overlap). Violated: all rows of a batch get the first row's transform; a signal not longer than the mirrored padding is read out of bounds; with center=true the inverse keeps the padding (shifted by n_fft/2); 'same' leaves the last sample unwritten for odd overlaps, reads before the buffer for hop > win and fails an assertion for short windows; 'normalized' divides twice. |
| C174 | Mel features are the normalised triangular filterbank, logarithm and compression of the spectrum | real analysis of exp, log and cos; piecewise linear algebra; the maximum of a list | partial. Exact real arithmetic. Violated: the 'periodic' window divides by n+1 instead of n, so it differs from the window the comments name from two samples on. |
| C175 | The audio-token sampler keeps the likeliest tokens and draws from what remains | order statistics of sorted lists; prefix sums; softmax is positive exactly on kept tokens | partial. Exact real arithmetic. Violated: a random number above the (rounded) sum gives a token beyond the vocabulary; the number zero draws token 0 even if its probability is zero; the generator is seeded anew for every draw, so all steps and codebooks use one and the same random number. |
| C176 | Audio files are mixed to one channel, resampled to the asked rate and cut into clips | the convolution's stores as a scatter with injective keys; the windowed sinc vanishes outside the taps; invariants (value, bounds) for each fraction operation | partial. Exact real arithmetic; clips for (3a+8b)*rate < 2^31 with a/b the duration in lowest terms. Violated: recordings under two seconds give three clips reading beyond the recording; the int arithmetic of the fractions overflows for ten seconds and one sample at 16 kHz. |
| C177 | Lazily pruned visual tokens: what is attended to has been computed | invariants over layers and calls: slots of computed tokens hold them, delayed tokens have their hidden state; sorted lists with equal elements are equal | partial. Proved for the first call, and for later calls if no token is computed late while one in front of it is dropped. Violated otherwise: indices are taken for positions, another token is computed instead and the attention reads memory nothing was written to. Also violated: the hidden state cache has a row per visual token but is written at absolute positions, past its end; an image at the end of the prompt makes the selection fail. |
| C178 | Created tensors hold the values asked for | vector loop by induction on blocks; range length by floor arithmetic; period of the generator by lifting the exponent | partial. Numbers are exact. Proved in exact arithmetic, but `arange` leaves the last value out whenever the step does not divide the interval, and one seed gives different numbers in full and in half precision on x86 (moved by one). |
| C179 | Scattering a tensor into shards copies every element once to its place | coordinates and row-major offsets split at the dimension; counterexamples for the first and the last | partial. Proved for row-major sources and every dimension but the first and the last. Violated for the last (the rows overlap) and for the first (memory behind the source is copied behind the shards). |
| C18 | view/reshape keep every element in row-major order | induction on rank; row-major index arithmetic | partial. view (and squeeze/unsqueeze/flatten built on it) proved in full for every shape, stride, index; reshape on the CPU never writes its output (reshape_violated). |
| C180 | Casts and comparisons produce every element | blocks of a cast commute (permutation); comparison by the element-wise scheme | partial. Casts proved for ARM; on x86 the operator does nothing and the result is uninitialised. Comparison proved where the first operand needs no repetition; otherwise memory behind it is read. |
| C181 | Codebook indices and codes correspond one to one | mixed-radix digits by induction on the dimensions, both directions; counterexample families for quantization | partial. Exact arithmetic. The correspondence is proved for every list of two levels or more. Quantizing is violated: with an even number of levels values are clipped to the wrong side and the index leaves the codebook; with an odd number it comes out one too low above the middle. |
| C182 | Audio tokens decode to the sum of their codewords | decode reduced to the gathered codewords; zero token by cases; residual loop by induction | partial. Proved for one batch and tokens other than 0. Violated: token 0 is taken for a masked token and decodes to nothing, so that it cannot be told from the middle token; tokens of fewer quantizers lose rows; several batches come out as one. |
| C183 | ChatTTS tokenizer: text survives encoding and decoding | detokenizing folded over the greedy cuts of C27; UTF-8 facts for the first and last byte; basic tokens of C45 | partial. Proved for texts whose words can be cut into vocabulary pieces, without special tokens in them, and special tokens of the form `[X]`. Identifiers come back from vocabulary files always, from JSON if no two tokens share one (violated otherwise). A pair with an empty second part gets one type too few. |
| C184 | Multi-dimensional rotary embedding: one meaning, two implementations | lists for the reference, a store log for the kernel; disjointness of addresses by division; addition formulas for the products | partial. Proved over exact numbers: the meaning of apply_mrope, equality of the fused kernel with it for all shapes, layouts and program orders, the text case, the norm, relative positions. Reads inside the cache hold when the padded head size is the rotary size or the layout is not interleaved (_partial); otherwise violated: lanes past the rotary part have the t mask on, so a token at the last position reads past the cache. Not modelled: bf16 rounding, the is_neox_style=False branch (never used). |
| C185 | pymllm multimodal positions: what every token of a prompt gets | induction over the pieces of the prompt; flattening of grids by division and remainder | partial. Positions, deltas and order proved for all well-formed prompts and both models. Distinctness holds for Qwen3-VL always and for Qwen3.5 when images have at most one frame (_partial); with more frames violated: all frames get the same positions. |
| C186 | pymllm multimodal decoding goes on where the prompt stopped | the loop continued over the generated tokens, composed with the loop over the prompt | proved. Proved for all generated tokens, even image-start tokens. For Qwen3-VL without a cached part (see C188). |
| C187 | pymllm multimodal batches: requests do not mix up their images | induction over the batch with the offset as a prefix of the grids | partial. Proved when ordinary tokens are neither the image-start token nor the placeholder. Violated otherwise: a request without an image that contains the image-start token takes the grid of the next request, and the whole step raises. |
| C188 | pymllm multimodal prompts and the prefix cache | the positions of a concatenation; counting of placeholders | partial. Proved for Qwen3.5 when the cached part takes as many positions as tokens (e.g. only text). Violated by Qwen3-VL after any cached part (positions restart at 0) and by Qwen3.5 after a cached image of at least two rows and columns. Features: a repeated prompt with an image has more features than placeholders left (Qwen3-VL raises). Cached parts that end inside an image, and that the cache key does not contain the pixels, are not modelled. |
| C189 | Vision encoder: one order of patches for rotary positions, position embeddings, merging and prompt positions | mixed-radix digits of the flattened index, for four and five axes | proved. Proved for all grids; looking up cosines by position (rows and columns below 8192) and the arithmetic of the layers are not modelled. |
| C19 | Slicing addresses exactly the requested elements | affine index maps | partial. proved for every in-range selection except the literal range -1:0, which the code misreads (violated); out-of-range bounds are accepted and leave the tensor (violated). |
| C190 | Vision encoder: position embeddings are interpolated from the table | the clipped corners computed from the floor; convexity; linear combination | proved. Proved over exact numbers for each component of the embedding; np.linspace in float32 and rounding of the weights are not modelled. |
| C191 | Vision encoder: attention stays within a frame | prefix sums against a flat map over frames | proved. Proved for all batches; int32 overflow of the sums is not modelled. |
| C192 | Storing keys and values writes exactly the given cache rows | threads as lists of byte stores; soundness and completeness of the (warp, lane, vector) decomposition; any interleaving of agreeing stores gives the agreed bytes | partial. Proved for non-empty batches; an empty batch is proved to be rejected (an empty grid is a launch error); alignment holds when bases and strides are multiples of the vector width, and is proved to fail for views whose row stride is not, which every check accepts. Duplicate slots are left out. |
| C193 | The gated RMS norm kernel computes the norm under every schedule | transition system of warps with barriers and shared memory; ten-point invariant; the butterfly shuffle equals the sum of 32 lanes; strided columns partition the row | partial. Proved with exact sums (float rounding not modelled); reads of the gate are proved to leave it when it is smaller than the input, which is accepted because its shape is not checked. |
| C194 | The fused decode kernel is one step of the gated delta rule | thread-level kernel over the two-sum transition system; vanishing beyond K turns thread sums into key-dimension sums; coordinates of the written cells | partial. State update proved for every schedule and every key dimension the buffers are laid out for (33-64, 97-128, 225-256). The two vector sums and the broadcast between them are proved, for any number of warps, to hand every warp the right value under every schedule, and no schedule to get stuck (C194_vector_*). The output is proved when the query's length has been summed right; a schedule is proved to exist in which warp 1 reads the keys' partial sum instead (no barrier between the two scalar sums through one buffer). Other key dimensions are proved to overlap or leave shared memory; the normalisation is proved to differ from the other backends'. Float rounding is not modelled. |
| C195 | Requests with images are answered from their own images | on top of the proved radix-cache model (C36): origin of every matched slot, plus a labelling of prompt positions by word or pixels | partial. Proved for every history when the reused part of the prompt is text. With images it is proved to fail: the cache key holds token ids only and every image has the same placeholder, so the same words about another image of the same size reuse the first image's keys and values for all but the last two positions. |
| C196 | LongRoPE rotates one conversation consistently | passes of a generation by recursion; the score rewritten as a sum over rotated pairs with each token's own frequency, which collapses to the distance when the frequencies agree | partial. Positions proved for every prompt and length; distance-only scores proved for prompts within the original context (or equal factors). For longer prompts it is proved to fail: cached keys carry the long factors and every later query the short ones. A generation that outgrows the context is proved never to get the long factors. Floats are reals. |
| C20 | permute/transpose are index permutations | index arithmetic of both kernel branches | partial. proved for row-major inputs of any rank and permutation (both kernel branches) and for transpose except dims {0,1} of rank != 2, where nothing is copied (violated); kernels ignore strides of non-row-major views (violated). |
| C21 | Static KV cache returns exactly the appended history | invariant over update histories | partial. Proved for eager mode with kv_heads dividing q_heads, any interleaving of appends, clears and rollbacks over all layers. The code violates the claim in fa2 mode (append is not implemented but only logs) and when q_heads is not a multiple of kv_heads. |
| C22 | KV cache never writes outside its buffer | frame lemma for the copy loops | partial. Frame property proved within capacity; the code has no capacity check: every overflowing append is out-of-bounds (static_overflow_violated, general). The sub-cache does check: refusal and frame proved. |
| C23 | BPE merging only concatenates | loop invariant and measure | proved. Termination, canonical merge order, independence of hash order and of irrelevant merges; int64 rank overflow not modelled. |
| C24 | Special-token splitting partitions the text | concatenation invariant of the scan; greedy specification | partial. Concatenation proved for all tokens and texts. The longest-match part is FALSE in general (two violation theorems); proved for delimited, prefix-free special tokens (as all shipped tokenizers use). |
| C25 | UTF-8 conversion round-trips | arithmetic per code-point class | proved. Round trip for all code points <= 0x10FFFF, agreement with standard UTF-8, injectivity. |
| C26 | Byte-to-unicode table is a bijection | the complete 256-entry table by kernel evaluation, lifted to all strings by induction | proved. All byte strings; the 256-entry table by kernel evaluation of the construction loop. |
| C27 | WordPiece pieces spell the word | induction with fuel = word length | proved. Subword splitting for every vocabulary and word. |
| C28 | Symbolic shape expressions follow operator precedence | parser against a grammar of precedence; witnesses for the failures | partial. Sentences whose right operands of +/- have at most two factors and without mixed % are parsed to the textbook tree and value (all arithmetics, all dictionaries); printing then parsing is the identity without negative/float literals. The full property is false: 1+2*3*4 is read as (1+2*3)*4, % binds like +, a + -5 reads as a + (a - 5), an unclosed ( never ends. |
| C29 | Parallel loop executes every iteration exactly once | invariant over all interleavings of callers and workers | partial. All interleavings of callers and workers: a completed loop ran each iteration exactly once, at no time twice; no deadlock while the pool is active; slot acquisition is exclusive. Needs step / range (else the index buffer is overrun: index_buffer_violated) and one slot per caller, which the CPU backend does not give (shared_slot_violated); idle() during a loop hangs it (idle_during_push_hangs). |
| C30 | Requests are served in submission order, each once | invariant over all schedules | partial. FIFO, exactly-once, no lost worker wake-up, EF-progress before stop for every interleaving; requests accepted before stop are dropped by it and an unknown model name crashes (violations proved) |
| C31 | Response streams are ordered and complete | invariant over all schedules | partial. Ordered, exactly-once, complete streams for every interleaving; client wake-up only for one client thread (lost wake-up with notify_one proved for two), stop discards waiting responses (violation proved) |
| C32 | Memory-solver pass frees after last use | instruction-list induction, simulation of the eager module | partial. Order of frees proved in full (each read tensor freed exactly once, directly after its last reader, nothing else freed). Results preserved only if no op reads the storage of a result; otherwise the result is freed before it is returned (two violations proved). |
| C33 | Jump offsets reach their labels | index arithmetic over label tables | partial. Ids consecutive, indexing succeeds iff labels unique and jumps resolved; jumps reach their labels for programs of less than 2^31 instructions; the exact range is the int range of the offset. |
| C34 | Command-line parsing assigns each argument once | refinement to a declarative reading of the command line | proved. parse is characterised completely (success and result, unknown options) against a declarative reading of the command line into segments; declaring flags too. Facts users may not expect are proved beside it: extra positionals are dropped, a value may itself look like a flag, negative positionals are rejected, integers accept trailing garbage. printHelp and the dynamic type check of get are not modelled. |
| C35 | Reference-counted pointers free exactly at last release | invariant: counter = number of owners, all interleavings | partial. Proved for all interleavings of pointer operations of any number of threads without converting moves: counter = number of owners, no use of a deleted object, an object that had an owner is deleted exactly when the last owner goes. The converting move constructor/assignment (IntrusivePtr<U>&&) is proved to delete the object while the new pointer owns it (violation). Memory orders not modelled. |
| C36 | Python radix cache match/insert is a longest-prefix match | refinement of the tree to a prefix map with origins | partial. Proved for all histories with keys of whole pages (no sliding window): longest prefix, slots in token order, prefix length of insert, and every returned slot was supplied for the same tokens. False for keys that are not whole pages (C36_unaligned_violated). |
| C37 | Locked cache entries are never evicted and sizes are conserved | size and lock invariants over all histories | partial. Locked prefixes survive every call, eviction frees exactly the removed slots and enough or everything unlocked, protected size exact. The size equation is false (C37_sizes_violated: _add_leaf subtracts the parent leaf); proved as inequality, and as equality when no insert extends an unlocked leaf. |
| C38 | Allocator translation is exact | invariant relating TLB, bitmap and live addresses | partial. for anonymous blobs with >= 6 address bits and frees in page 0 only |
| C39 | Files from the Python converter load in the C++ runtime | byte-level round trip between the two languages | partial. Static and streaming round trip and refusal of unfinished files proved; violations: capacity check off by one, writing after finalize, bfloat16 element size |
| C40 | contiguous() keeps every element at its index | index arithmetic of the copy loops | partial. proved for rank 1, row-major and all strides outside the wrong fast path; violated when stride[d]=stride[d+1]^2 for all d (e.g. strides [4,2]). |
| C41 | concat, stack, split and repeat place every element exactly | index arithmetic, partition of the output | partial. concat, stack, split proved in full (any strides). repeat reads its input as if row-major: violated on views (repeat_view_violated), proved for row-major inputs. |
| C42 | Dynamic KV cache returns exactly the appended history | invariant over update histories | partial. Proved for row-major inputs in eager mode and for arbitrary strides in fa2 mode; violated for strided inputs in eager mode because repeat ignores strides. |
| C43 | Byte-level tokenization loses nothing | composition of codec, byte table, pre-tokenizer and BPE theorems | partial. Byte losslessness proved in full. Decoding id by id is FALSE in general (violation theorem); proved when no token ends inside a character (without special tokens). |
| C44 | Pre-tokenizer implements the documented regular expression | scan against a declarative regular-expression matcher | partial. FALSE in general (three witnesses); proved for texts without adjacent white space and upper-case contractions. |
| C45 | WordPiece text clean-up and special tokens | character-class scan invariants | partial. Content, white space, punctuation, CJK proved; special tokens proved for non-empty prefix-free sets; violations: empty special token diverges, order dependence for prefixes, CJK special tokens missed, byte-counted limit. |
| C46 | A compiled module computes what the module computes | simulation between interpreted program and eager module | partial. Proved for modules in which no tensor is used after another view of its storage was produced (in particular without views); fails for such uses (violation proved). Less than 2^31 instructions. |
| C47 | Calling submodules repeatedly while tracing | symbol-table invariants of the trace | partial. Modules with pairwise different names compile; compilation succeeds iff generated names differ; the third call of the same submodule gets a duplicate name and compilation fails (violation proved). |
| C48 | A loaded program can be run again | simulation across repeated runs | partial. Any number of runs equals as many calls if no op writes into the storage of a constant and the memory solver is not used; with the solver constants are freed by the first run (violation proved). |
| C49 | Sliding-window prefix cache keeps token positions | tombstone/position invariant of the windowed tree | partial. Violated: _insert_swa drops the node returned by _split_node. Only calls without tombstones are modelled; the witness history is a tree without tombstones. |
| C50 | The KV slot allocator hands out every slot to at most one holder | multiset conservation over all histories | partial. Proved for page_size 1 over all histories, with free groups (not nested) and with and without need_sort; the rows too. For page_size > 1 only histories that return whole allocations (C50_page_partial); returning slots of a page one by one double-allocates it (C50_page_violated, C50_page_part_violated) and slots beyond the KVPool rows are handed out (C50_page_rows_violated). Nested free groups leak (C50_nested_group_violated). |
| C51 | KV slots of a serving request hold exactly its own prefix | multiset conservation composing cache, allocator and table | partial. Proved for all histories until the first release, and for all histories once total_len leaves out the last sampled token (fix); the code itself violates it: C51_garbage_violated, C51_double_violated, C51_empty_extend_violated (one-token cached prompt). |
| C52 | Scheduler token budget is exact and bounded | sum invariant over the running set | partial. Exactness, return to zero, request limit and a bound on prompt tokens proved for all histories; the bound on generated tokens is false of the code: C52_overcommit_violated. |
| C53 | Streaming delivers every token of a request exactly once | per-request history invariant | proved. All clauses, for all histories with unique request ids. |
| C54 | Answers end exactly at the first stop token or at max_new_tokens | characterisation of the finish conditions | partial. Proved in full except that max_new_tokens <= 0 still yields one token (C54_zero_violated). |
| C55 | Every request is eventually answered | termination measure under the oracle | partial. Proved with an explicit bound when no further requests arrive and the prompt fits the limits; false otherwise: oversized prompts are never answered nor rejected, and arrivals can starve a running request for any number of iterations. |
| C56 | Streamed text adds up to the final text | chain of outputs per request and drop/prefix algebra | partial. Proved for decoders that are monotone in the token list. Violated by byte-level BPE (replacement characters: the second half of a split character is never sent) and when a request id is reused after an abort. |
| C57 | Results are handed to the client without loss or lost wake-up | hand-over invariant over all interleavings | proved. All interleavings; nothing arrives after the final result (C53_final_last). Time-out cleanup and coroutine cancellation are not modelled. |
| C58 | Aborts are effective | order invariant of the two paths to the scheduler | partial. Proved when the request has been transmitted before the abort. Violated: an abort overtakes a queued request; with the shared queue the scheduler never sees any abort. |
| C59 | Streaming separation of reasoning and content does not depend on the chunks | guard invariant "no later occurrence of the tag begins in the text already passed on" | partial. Proved for optional thinking for every text and cutting, up to the held tail, which is characterised exactly (held iff the text ends like the beginning of the awaited tag); forced thinking proved if a start tag occurs only at the beginning. Violations: the held tail is never flushed; forced mode depends on the chunks and can lose the whole answer; stream_reasoning=False never delivers reasoning. |
| C60 | Streaming and one-shot reasoning parsers agree | both parsers against the same declarative decomposition | partial. Proved unless an end tag occurs before the start tag, where they disagree (violation proved). |
| C61 | Tool calls of a complete answer are extracted exactly | scan against a declarative, unique decomposition of the text | proved. Against a declarative decomposition of the text, shown to exist uniquely; reading of a body (json/regex) is a parameter; a JSON body that is not an object raises in the code (not modelled). |
| C62 | Streamed tool calls add up to the calls of the answer | guard invariant plus per-call delivery invariant over chunk histories | partial. Proved if no end tag is cut by a chunk boundary and the partial readings fit the call; for one chunk unconditionally. Violations: a cut end tag turns the rest of the answer into arguments; a chunk that ends before the end tag adds a brace to the arguments; unreadable calls shift the numbers; held content is never flushed. |
| C63 | generate, streamGenerate and chat produce the same tokens | three loops against one endless run, by induction on the steps left, from any point of the run | proved. tensors, forward and the samplers are arbitrary oracles; timing calls and device copies are not modelled |
| C64 | A generation can be continued from the map it returned | shift lemma for the endless run; concrete violation after an end-of-sequence token | partial. holds when the first call met no end-of-sequence token; violated otherwise: the loop breaks before the output is stored, so the returned map holds the token before the end-of-sequence token and a second call feeds it twice (generate_resumes_violated) |
| C65 | Samplers return an admissible token | relations over all sort outcomes and draws; binary search against the cumulative sums | partial. violated at three places: probabilities summing to less than the draw give token vocab_size (categorical_violated), the draw 0 gives token 0 even when its probability is 0, and top_k larger than the vocabulary is undefined behaviour (topK_violated). Probabilities are rationals: sums exact, no NaN |
| C66 | Repetition, frequency and presence penalties are exact | association-list count invariant, pointwise specification of the write-back | proved. Logits are rationals. applyPenalty models one row. |
| C67 | top-k, top-p and min-p keep exactly the documented candidates | threshold lemma on the sorted values; cumulative sum against the mass of the better tokens, for all sort outcomes | partial. PyTorch path only. Ties: the k-th value is a threshold, so more than k candidates can survive and k=1 is not greedy decoding (topK_ties_violated). |
| C68 | A request's sampled token does not depend on the other requests in its batch | row-wise characterisation of exceptions, Forall₂ filling argument; two concrete violations | partial. Holds when every request carries 1 <= top_k <= vocab and top_p >= 0 and the request is sampled, or when the whole batch is greedy. Fails otherwise: default options (top_k = -1) make the whole batch raise (batch_raises_iff, default_request_violated); a temperature-0 request with tied logits changes behaviour next to a sampled one (greedy_mixed_violated). |
| C69 | Speculative sampling produces the target model's distribution | expectation of program trees; acceptance identity, induction on draft tokens | partial. Proved for all pairs of models that are not within the code's numerical thresholds (1e-10 for draft probabilities, 1e-8 for the total difference); inside the thresholds the law is off (speculative_law_violated). |
| C70 | Output row of speculative sampling | reachable results of program trees, induction on draft tokens | partial. All but the emitted count, which also counts the replacement token (emitted_count_violated). |
| C71 | Elementwise binary operators follow broadcasting semantics | address arithmetic for naive broadcasting, write-list semantics; general read-outside theorem | partial. Holds for contiguous operands when only the second operand is repeated, along one block of dimensions (or is a scalar). Whenever the first operand has to be repeated the kernel reads memory behind it (elewise_reads_outside_violated). |
| C72 | The causal mask hides exactly the future (and what lies outside the window) | row-segment write lists, last-writer lemma; general violation theorems for each failing shape | partial. Holds for fp32 without a window and at least as many keys as queries; for fp16 and for windows only when the score matrix is square. Violated otherwise: with history the fp16 and windowed kernels leave the last query's own score unwritten, decoding ignores the window, and more queries than keys overruns the row. |
| C73 | Gather and embedding return the addressed rows | block copy write lists over (outer, index, inner), row-major addressing lemmas | partial. Proved for in-range indices; out-of-range indices are not reported: gather leaves the slice unwritten, embedding reads outside the table. GGUF-quantised embedding weights are not modelled. |
| C74 | Top-k and argsort return an ordered selection with matching indices | heap-selection invariant under any valid library heap and sort; column-wise write lists | partial. Proved for 1 <= k <= axis size and totally ordered values (no NaN); with larger k the result's tail is never written (topk_short_violated). |
| C75 | Padding shows the right element at every position | number-theoretic uniqueness of the source position, left-to-right decoding equals row-major coordinates | partial. Proved for row-major inputs (fp32, unbounded integers); a strided view is read in memory order instead (pad_view_violated). |
| C76 | Masked scatter puts source rows at the masked positions in order | ordered write list over the broadcast shape; general modular index lemma, then both corollaries | partial. The elementwise form is proved for all broadcastable shapes. The consecutive form, which is how the model code uses it, fails: token s receives image row s mod N (scatter_order_violated). |
| C77 | Indexing with slices, lists and index tensors selects the named elements | induction over the index list; write-list semantics | partial. Proved for forward slices, lists and one-dimensional index tensors. Out-of-range and negative positions are not reported but leave the result unwritten (index_range_violated); a two-dimensional index tensor is read transposed (index_rank2_violated). |
| C78 | Flash attention is causal softmax attention | loop invariant of the online softmax over the reals, blocked dot product equals the sum, write-list frame for any head order | partial. Exact over the reals (no rounding) for evenly grouped heads, at most as many query rows as keys, row-major keys and values (including one-row cache views). Fails for several batch rows over a cache view (flash_batch_violated: row 1 reads row 0's cache), for query tensors longer than the keys (flash_short_violated: not a number), and for unevenly grouped heads (flash_heads_violated: reads past the last head). |
| C79 | Attention over cached token addresses does not depend on where tokens are stored | the same invariant over a heap and address tables; two corollaries by equality with the specification | partial. Proved over the reals for builds with vector primitives and contiguous queries. On x86 the primitives are empty functions and the result is never written (radix_x86_violated); RadixAttnOp does not check the layout of the query and reads views in memory order (radix_view_violated). |
| C80 | Chunked prefill and decoding give the rows of one full prefill | both sides equal the specification; congruence of causal attention on earlier tokens | partial. Proved over the reals, for flash and radix attention, under the conditions of C78 and C79 (the failures listed there apply). |
| C81 | Sliding-window attention with a sink sees the same window in prefill and decode | interval arithmetic for the key ranges, invariant with the sink step, counting argument for the violation | partial. Exact for prefill (window+1 keys), for decode of one token (the first min(length, window) table slots), and prefill and decode agree while the sequence fits in the window; the tensor variant refuses longer keys. Once the window is full prefill and decode differ for every table (swa_window_violated); a decode chunk of several rows lets rows see later tokens (swa_rows_violated); append, and every pattern on x86, writes nothing (swa_append_violated). |
| C82 | Paged attention attends to the indexed cache slots | three passes as functions; maximum and sum as folds, softmax equals the weight specification | partial. Proved over the reals for the ARM build when weights are requested, the head size is a multiple of 4, heads group evenly, and there is one batch row or an index as long as the cache. Otherwise: without weights, or refused sizes, the output is never written (paged_unwritten_violated); other batch rows read the wrong cache (paged_batch_violated); a fully masked row averages the hidden values (paged_masked_violated). |
| C83 | A GPU tensor sent through the shared workspace arrives intact | invariant over all interleavings of sender, recycler and consumers; traversal lemmas for nested inputs | partial. Proved for every interleaving, for proxies that carry an IPC handle, starting from the state the constructor describes (see C87: the constructor itself raises). If the handle cannot be exported the consumer gets the raw int8 slice instead of the tensor (failed_export_delivers_raw_bytes_violated) and the slice is never freed (failed_export_leaks_violated). |
| C84 | The shared workspace is never handed out twice and never shrinks | exact-cover counting invariant of the chunk list | proved. Invariant over all interleavings (from the state the constructor describes, see C87). |
| C85 | Workspace memory comes back after use | no-two-free-chunks-touch invariant of the merge fold; reachable violation | partial. Coalescing is proved for histories without empty tensors. A tensor without elements leaves a free chunk of length zero that can separate its neighbours: an idle pool then refuses a tensor as large as itself (empty_tensor_fragments_violated). |
| C86 | Nested multimodal inputs reach the scheduler unchanged in every transport mode | structural induction over nested inputs | partial. Default and plain CUDA IPC modes for all inputs; the pool mode for tensors that can be viewed as bytes (pool_roundtrip_partial). A non-contiguous GPU tensor, or one without dimensions, raises in pool mode (pool_mode_rejects_views_violated). |
| C87 | Pool transport mode uses the pool | attribute-order execution of the constructor; induction over requests | partial. Fails always: the constructor uses _sync_pool before assigning it, the AttributeError is caught and the sender falls back to the default mode for good, so every GPU tensor is copied to the CPU (pool_mode_never_uses_the_pool_violated). With the two lines exchanged the constructor succeeds (pool_constructor_reordered_succeeds). |
| C88 | A batch call is its prompts, one by one, answered in order | induction over the batch loop; simulation by single calls; invariant of the id table over arbitrary histories | partial. Proved for batches of two or more prompts with different ids. A batch of one prompt is registered under the text of its id list and is never answered (C88_one_prompt_violated); one id for the whole batch makes generate wait for ever (C88_one_id_violated); a list that is too short fails after some prompts have been sent (C88_short_list_violated). |
| C89 | A client gets the results for its own request, and its id is released | induction over histories with the invariant that table entries are distinct states | partial. Proved as long as no other request uses the id. A second request with the id of a running one cuts the first client off for ever (C89_same_id_violated). Synchronous generate never releases its entries (C89_sync_leak_violated). |
| C90 | Prompt and options reach the scheduler unchanged | evaluation of the tokenizer on the caller's arguments, for all field values | partial. For text prompts, token-id prompts, and text with images (with a processor that succeeds). A failing request is C92; extra keywords that have the name of a field override it and are excluded. |
| C91 | HTTP sampling options take effect | evaluation of the parameter dict for every subset of options; a reachable scheduler run | partial. Proved for all options but stop and seed, which are put into the parameters and never read (C91_stop_seed_ignored_violated): a generation goes on after a stop string and ends with "length" (C91_stop_string_violated, through the scheduler model). |
| C92 | A request that cannot be processed fails alone | induction over the request sequence | partial. Proved while every request can be processed. One request that raises ends the tokenizer process and with it all later requests (C92_all_lost_violated); an image URL that is not a local file, with a multimodal processor, is such a request (C92_image_url_violated), so are option lists in a batch of one (C92_option_list_violated, C92_param_list_violated). |
| C93 | Choice i of a completion answers prompt i | list lemmas for every permutation; a run of the front end as counterexample | partial. Every answer is there once and numbered without gaps, and in order if the prompts finish in order; the stream of one prompt is complete. Otherwise choices are numbered in order of completion (C93_order_violated, a run of the front end), and the stream of a batch carries index 0 for all prompts, so that two batches with different answers give the same events (C93_stream_index_violated, C93_stream_batch_violated). |
| C94 | Usage counts all tokens of the request | fold invariants, permutation invariance of sums | partial. Proved for answers that are not streamed and for the stream of one prompt. The stream of a batch reports the numbers of the last chunk only (C94_stream_batch_violated). |
| C95 | A failed request is not reported as completed | case analysis over results; stream equality with and without the failure | partial. Proved for answers that end by themselves. An aborted or timed-out request is an empty answer with "stop" (C95_reported_done_violated, C95_abort_stop_violated); in a stream it leaves no trace: no reason, no error (C95_stream_silent_violated, and C97_failure_violated for chats). |
| C96 | Engine.generate can be called again | invariant over all histories of calls and background steps | partial. Only the first call can return: each call has its own event loop, closed afterwards, but the background task stays on the loop of the first call (C96_only_first_returns_violated: in every history). The second call raises RuntimeError, the third waits for ever (C96_second_call_violated); at most one call ever raises (C96_one_raises_violated). |
| C97 | A chat stream delivers reasoning, content and calls, and ends properly | fusion of the server loop with the parser folds, then the theorems of C59-C62 | partial. The shape is proved for every answer and parser; reasoning, content and calls are reduced to the parsers (C59-C62) and proved for tagged answers under the conditions there; the answer that is not streamed is proved for every tagged text (C97_message). What the reasoning parser keeps back at the end is never sent, while an answer that is not streamed contains it (C97_tail_lost_violated); failures leave no trace (C97_failure_violated). |
| C98 | Recurrent layers read a prompt one token at a time | loop over jobs rewrites one slot and its own rows (fold lemma), convolution window by induction on the tokens, recurrence by unfolding | proved. Against Spec.lean (Mem.after, Mem.answer), for real numbers. |
| C99 | The default batched prefill agrees with token-by-token reading | WY representation: the state after n tokens is γ times S(I-ΣwkT)+ΣukT, by induction; chunks compose, padding is neutral; the guard makes U independent of v | partial. Proved as long as within each chunk the accumulated decay stays above 1e-30. Beyond, the guard meant to avoid overflow drops the value of the token altogether, although the token itself must answer with it: any other value gives the same result (C99_faded_value_violated, for all inputs; C99_faded_witness_violated). |

## Defects of the pinned code found while proving

Each is a theorem (kernel-checked negation of the property on a reachable state of the model).

* C01 (Prefix-cache search is a longest-prefix match): `Verif.Radix.C01_violated`
* C03 (An inserted key is found in full, and stays found): `Verif.Radix.C03_persistence_violated`
* C07 (malloc never returns an address that is still in use): `Verif.ZenFS.C07_violated`
* C08 (Prefetch and purge hints only touch the token they name): `Verif.ZenFS.C08_violated`
* C09 (malloc returns an address of the blob it allocated from): `Verif.ZenFS.C09_violated_small`, `Verif.ZenFS.C09_violated_disk`
* C10 (Recovered cache data is not handed out again): `Verif.ZenFS.C10_violated`, `Verif.ZenFS.C10_recover_forgets`
* C102 (The older chunkwise scan agrees with the recurrence): `Verif.Gdn.C102_third_token_violated`, `Verif.Gdn.C102_witness_violated`
* C103 (Recurrent layers have read exactly the request's own tokens): `Verif.Hybrid.C103_cut_violated`, `Verif.Hybrid.C103_spread_violated`
* C104 (Track slots are neither lost nor shared): `Verif.Hybrid.C104_empty_violated`, `Verif.Hybrid.C104_starved_violated`
* C106 (CUDA-graph padding leaves recurrent states alone): `Verif.Graph.C106_padding_violated`, `Verif.Graph.C106_first_violated`
* C111 (Sliding-window layers see the window): `Verif.Flash.C111_runner_violated`, `Verif.Flash.C111_prefill_violated`, `Verif.Flash.C111_prefix_violated`, `Verif.Flash.C111_witness_violated`
* C112 (Image patches, image tokens and patch positions line up): `Verif.Vl.C112_two_images_violated`
* C113 (Image resizing keeps block multiples, pixel budget and aspect ratio): `Verif.Vl.C113_small_budget_violated`
* C114 (Multimodal positions): `Verif.Vl.C114_image_last_violated`, `Verif.Vl.C114_short_violated`
* C116 (Rotary embedding rotates every row by its own angles): `Verif.Vl.C116_odd_dim_violated`
* C118 (clone and copy2 copy the elements of the tensor): `Verif.Ops.C118_clone_view_violated`, `Verif.Ops.C118_copy2_view_violated`, `Verif.Ops.C118_copy2_strided_violated`, `Verif.Ops.C118_insert_short_violated`
* C119 (matmul returns the matrix product): `Verif.Kern.C119_first_rhs_violated`, `Verif.Kern.C119_matmul_violated`, `Verif.Kern.C119_no_dot_violated`, `Verif.Kern.C119_empty_violated`, `Verif.Kern.C119_strides_ignored_violated`, `Verif.Kern.C119_transposed_view_violated`
* C12 (Pool allocations never overlap and are large enough): `Verif.Buddy.C12_violated`
* C120 (a Linear layer computes x Wᵀ + b): `Verif.Kern.C120_few_channels_violated`
* C121 (softmax returns the softmax of each row): `Verif.Kern.C121_exp_x86_violated`, `Verif.Kern.C121_softmax_x86_violated`, `Verif.Kern.C121_strides_ignored_violated`, `Verif.Kern.C121_transposed_view_violated`
* C122 (RMSNorm divides each row by its root mean square): `Verif.Kern.C122_rmsnorm_x86_violated`, `Verif.Kern.C122_rmsnorm_inplace_x86_violated`, `Verif.Kern.C122_strides_ignored_violated`, `Verif.Kern.C122_transposed_view_violated`
* C123 (LayerNorm normalises over the trailing normalised shape): `Verif.Kern.C123_x86_violated`, `Verif.Kern.C123_shape_unchecked_violated`
* C124 (sum, max, min and mean reduce along the axis asked for): `Verif.Kern.C124_mean_int_violated`, `Verif.Kern.C124_x86_violated`, `Verif.Kern.C124_strides_ignored_violated`, `Verif.Kern.C124_transposed_view_violated`, `Verif.Kern.C124_axis_unchecked_violated`
* C125 (sigmoid, SiLU, QuickGELU and ReLU are computed element by element): `Verif.Kern.C125_silu_x86_violated`, `Verif.Kern.C125_sigmoid_x86_violated`, `Verif.Kern.C125_x86_missing_violated`, `Verif.Kern.C125_strides_ignored_violated`, `Verif.Kern.C125_transposed_view_violated`
* C126 (GELU is the tanh formula): `Verif.Kern.C126_x86_violated`
* C127 (convolution layers compute the convolution): `Verif.Kern.C127_conv1d_no_window_violated`, `Verif.Kern.C127_conv2d_no_window_violated`, `Verif.Kern.C127_conv3d_reads_outside_violated`, `Verif.Kern.C127_conv3d_x86_violated`, `Verif.Kern.C127_conv1d_strides_ignored_violated`, `Verif.Kern.C127_conv1d_view_violated`
* C128 (AvgPool1d returns window means): `Verif.Kern.C128_ceil_divisor_violated`, `Verif.Kern.C128_ceil_extra_violated`, `Verif.Kern.C128_no_window_violated`
* C129 (interpolate resamples at the documented positions): `Verif.Kern.C129_single_output_violated`, `Verif.Kern.C129_view_violated`, `Verif.Kern.C129_channels_violated`
* C13 (Freeing everything restores the pool): `Verif.Buddy.C13_violated`
* C130 (Quantised blocks mean what their format says, and quantising is accurate): `Verif.Quant.C130_portable_violated`, `Verif.Quant.C130_portable_back_violated`
* C131 (Quantised dot products are the dot products of the dequantised rows): `Verif.Quant.C131_odd_blocks_violated`, `Verif.Quant.C131_i8mm_q4_0_violated`, `Verif.Quant.C131_i8mm_q8_0_violated`, `Verif.Quant.C131_no_simd_violated`, `Verif.Quant.C131_minus_128_violated`, `Verif.Quant.C131_plain_neon_q4_K_violated`
* C132 (A linear layer with K-quantised weights computes the matrix product): `Verif.Quant.C132_sliced_input_violated`
* C133 (The hybrid-model prefix cache serves, locks and evicts prefixes like the plain one): `Verif.Mamba.C133_sizes_violated`, `Verif.Mamba.C133_server_violated`
* C135 (Recurrent states in the cache are conserved, protected while locked and belong to their sequence): `Verif.Mamba.C135_split_violated`, `Verif.Mamba.C135_exist_violated`, `Verif.Mamba.C135_leak_violated`, `Verif.Mamba.C135_lock_violated`, `Verif.Mamba.C135_size_violated`, `Verif.Mamba.C135_evict_violated`
* C136 (initialize_model_parallel gives every process its own coordinates and consistent groups): `Verif.Shard.C136_coordinates_violated`, `Verif.Shard.C136_same_calls_violated`, `Verif.Shard.C136_no_dist_violated`, `Verif.Shard.C136_reinit_violated`
* C137 (Tensor-parallel layers compute the unsharded layer): `Verif.Shard.C137_bad_token_violated`, `Verif.Shard.C137_oversize_violated`, `Verif.Shard.C137_no_dist_violated`
* C138 (Fused projections hold and compute exactly their separate projections): `Verif.Shard.C138_missized_violated`, `Verif.Shard.C138_missized_numbered_violated`
* C139 (load_weights puts every checkpoint tensor where it belongs): `Verif.Shard.C139_missing_violated`, `Verif.Shard.C139_head_violated`, `Verif.Shard.C139_shape_violated`, `Verif.Shard.C139_broadcast_violated`
* C140 (The Ascend memory pool hands out disjoint, aligned blocks inside its memory): `Verif.Ascend.C140_pool_size_violated`, `Verif.Ascend.C140_wrap_violated`
* C141 (Tensors and workspaces on an Ascend device never share memory, whatever the threads do): `Verif.Ascend.C141_truncated_violated`, `Verif.Ascend.C141_device_violated`
* C142 (The Ascend pool reuses freed memory and refuses only when it is out of memory): `Verif.Ascend.C142_fragment_violated`
* C143 (The ahead-of-time QNN runner decodes greedily, token by token): `Verif.Aot.C143_eos_violated`, `Verif.Aot.C143_full_context_violated`, `Verif.Aot.C143_empty_violated`, `Verif.Aot.C143_overflow_violated`, `Verif.Aot.C143_long_prompt_violated`
* C144 (The attention masks of the QNN runner are the causal sliding window): `Verif.Aot.C144_start_violated`
* C145 (The QNN KV cache manager keeps and appends exactly the right entries): `Verif.Aot.C145_zero_violated`, `Verif.Aot.C145_short_violated`
* C146 (Chunked text generation shows the model's answer, complete and once): `Verif.Stream.C146_eos_shown_violated`, `Verif.Stream.C146_split_character_violated`
* C147 (The documented for loops deliver every chunk and all audio): `Verif.Stream.C147_chunk_loop_violated`, `Verif.Stream.C147_speech_loop_violated`
* C148 (Streaming generation shows the whole answer, within the configured limit, and ends): `Verif.Stream.C148_limit_violated`, `Verif.Stream.C148_short_speech_violated`, `Verif.Stream.C148_text_only_violated`, `Verif.Stream.C148_text_only_endless_violated`, `Verif.Stream.C148_after_marker_violated`
* C149 (The speech model reads exactly the text): `Verif.Stream.C149_stale_violated`
* C15 (Every allocation request terminates with memory or an error): `Verif.Buddy.C15_diverges`, `Verif.Buddy.C15_os_failure_unnoticed`
* C151 (Audio tokens look only at text the speech model has been given): `Verif.Stream.C151_chunk25_violated`
* C152 (Speech of any length stays within the cache): `Verif.Stream.C152_cache_overflow_violated`
* C155 (A quantized layer that is accepted works for every batch size): `Verif.Marlin.C155_compressed_channel_violated`, `Verif.Marlin.C155_awq8_violated`, `Verif.Marlin.C155_awq_row_parallel_violated`, `Verif.Marlin.C155_small_groups_violated`, `Verif.Marlin.C155_estimate_violated`
* C157 (The matmul pipeline multiplies every tile with its own weights, scales and zero points): `Verif.Marlin.C157_wide_scales_violated`
* C16 (Parameter file V2 round-trip): `Verif.ParamFile.v2_slice_overflow_violated`, `Verif.ParamFile.v2_offset_slice_violated`, `Verif.ParamFile.v2_transposed_violated`, `Verif.ParamFile.v2_long_names_violated`
* C161 (The embeddings of an image fill exactly its placeholder slots): `Verif.Slice.C161_tag_twice_violated`, `Verif.Slice.C161_stray_marker_violated`
* C162 (Processes that slice images at the same time do not see each other's slices): `Verif.Slice.C162_foreign_slice_violated`, `Verif.Slice.C162_process_ends_violated`
* C163 (The embeddings of an audio fill exactly its placeholder slots): `Verif.Slice.C163_long_audio_violated`, `Verif.Slice.C163_position_table_violated`
* C167 (Quantised activations read back within half a step): `Verif.Bits.C167_positive_row_violated`, `Verif.Bits.C167_constant_row_violated`
* C168 (Image transforms produce exactly the stated geometry and values): `Verif.Ocr.C168_normalize_in_place_violated`
* C17 (Parameter file V1 round-trip): `Verif.ParamFile.v1_unnamed_storage_violated`
* C170 (The prompt has one slot per image feature, in the order of the features): `Verif.Ocr.C170_base_violated`, `Verif.Ocr.C170_tile_size_violated`, `Verif.Ocr.C170_zero_sum_violated`, `Verif.Ocr.C170_no_image_violated`, `Verif.Ocr.C170_more_tags_violated`, `Verif.Ocr.C170_no_tag_violated`
* C171 (Conversation templates render every message once, in order, with the right role and separators): `Verif.Ocr.Conv.C171_v2_violated`, `Verif.Ocr.Conv.C171_initialize_again_violated`
* C173 (The short-time transform covers the signal frame by frame, and its inverse gives the signal back): `Verif.Fft.C173_short_violated`, `Verif.Fft.C173_batch_violated`, `Verif.Fft.C173_center_violated`, `Verif.Fft.C173_same_odd_violated`, `Verif.Fft.C173_same_gap_violated`, `Verif.Fft.C173_same_window_violated`, `Verif.Fft.C173_normalized_violated`
* C174 (Mel features are the normalised triangular filterbank, logarithm and compression of the spectrum): `Verif.Fft.C174_window_violated`
* C175 (The audio-token sampler keeps the likeliest tokens and draws from what remains): `Verif.Codec.C175_range_violated`, `Verif.Codec.C175_zero_violated`, `Verif.Codec.C175_same_number_violated`
* C176 (Audio files are mixed to one channel, resampled to the asked rate and cut into clips): `Verif.Codec.C176_short_violated`, `Verif.Codec.C176_overflow_violated`
* C177 (Lazily pruned visual tokens: what is attended to has been computed): `Verif.Lazy.C177_delay_violated`, `Verif.Lazy.C177_unwritten_violated`, `Verif.Lazy.C177_overflow_violated`, `Verif.Lazy.C177_trailing_violated`
* C178 (Created tensors hold the values asked for): `Verif.Fill.C178_arange_last_violated`, `Verif.Fill.C178_random_shift_violated`
* C179 (Scattering a tensor into shards copies every element once to its place): `Verif.Fill.C179_last_violated`, `Verif.Fill.C179_first_violated`
* C18 (view/reshape keep every element in row-major order): `Verif.Tensor.reshape_violated`
* C180 (Casts and comparisons produce every element): `Verif.Fill.C180_cast_x86_violated`, `Verif.Fill.C180_equal_violated`
* C181 (Codebook indices and codes correspond one to one): `Verif.Fsq.C181_even_violated`, `Verif.Fsq.C181_odd_violated`
* C182 (Audio tokens decode to the sum of their codewords): `Verif.Fsq.C182_zero_violated`, `Verif.Fsq.C182_collision_violated`, `Verif.Fsq.C182_fewer_violated`, `Verif.Fsq.C182_batch_violated`
* C183 (ChatTTS tokenizer: text survives encoding and decoding): `Verif.Token.C183_ids_violated`, `Verif.Token.C183_types_violated`
* C184 (Multi-dimensional rotary embedding: one meaning, two implementations): `Verif.Mrope.C184_reads_violated`
* C185 (pymllm multimodal positions: what every token of a prompt gets): `Verif.Vpos.C185_distinct_violated`
* C187 (pymllm multimodal batches: requests do not mix up their images): `Verif.Vpos.C187_batch_violated`
* C188 (pymllm multimodal prompts and the prefix cache): `Verif.Vpos.C188_prefix_vl_violated`, `Verif.Vpos.C188_prefix_q5_violated`, `Verif.Vpos.C188_features_violated`
* C19 (Slicing addresses exactly the requested elements): `Verif.Tensor.slice_minus_one_zero_violated`, `Verif.Tensor.slice_out_of_range_violated`
* C192 (Storing keys and values writes exactly the given cache rows): `Verif.Cuda.C192_empty_violated`, `Verif.Cuda.C192_aligned_violated`
* C193 (The gated RMS norm kernel computes the norm under every schedule): `Verif.Cuda.C193_gate_violated`
* C194 (The fused decode kernel is one step of the gated delta rule): `Verif.Cuda.C194_race_violated`, `Verif.Cuda.C194_layout_violated`, `Verif.Cuda.C194_norm_violated`
* C195 (Requests with images are answered from their own images): `Verif.Mmc.C195_images_violated`
* C196 (LongRoPE rotates one conversation consistently): `Verif.LongRope.C196_long_violated`, `Verif.LongRope.C196_grow_violated`
* C20 (permute/transpose are index permutations): `Verif.Tensor.transpose_zero_one_violated`, `Verif.Tensor.permute_view_violated`
* C21 (Static KV cache returns exactly the appended history): `Verif.KVCache.static_fa2_violated`, `Verif.KVCache.static_heads_violated`
* C22 (KV cache never writes outside its buffer): `Verif.KVCache.static_overflow_violated`
* C24 (Special-token splitting partitions the text): `Verif.Token.split_longest_violated`, `Verif.Token.split_misses_token_violated`
* C28 (Symbolic shape expressions follow operator precedence): `Verif.SymExpr.precedence_violated`, `Verif.SymExpr.mod_precedence_violated`, `Verif.SymExpr.print_negative_violated`, `Verif.SymExpr.unbalanced_diverges`
* C29 (Parallel loop executes every iteration exactly once): `Verif.Pool.index_buffer_violated`, `Verif.Pool.shared_slot_violated`, `Verif.Pool.idle_during_push_hangs`
* C30 (Requests are served in submission order, each once): `Verif.Service.stop_drops_requests_violated`, `Verif.Service.unknown_model_violated`
* C31 (Response streams are ordered and complete): `Verif.Service.lost_wakeup_violated`, `Verif.Service.stop_drops_responses_violated`
* C32 (Memory-solver pass frees after last use): `Verif.Compile.C32_returned_tensor_freed_violated`, `Verif.Compile.C32_returned_view_freed_violated`
* C35 (Reference-counted pointers free exactly at last release): `Verif.Ptr.C35_converting_move_violated`, `Verif.Ptr.C35_converting_move_assign_violated`
* C36 (Python radix cache match/insert is a longest-prefix match): `Verif.PyRadix.C36_unaligned_violated`
* C37 (Locked cache entries are never evicted and sizes are conserved): `Verif.PyRadix.C37_sizes_violated`
* C39 (Files from the Python converter load in the C++ runtime): `Verif.ParamFile.py_streaming_capacity_violated`, `Verif.ParamFile.py_write_after_finalize_violated`, `Verif.ParamFile.py_bfloat16_violated`
* C40 (contiguous() keeps every element at its index): `Verif.Tensor.contiguous_square_violated`
* C41 (concat, stack, split and repeat place every element exactly): `Verif.Tensor.repeat_view_violated`
* C42 (Dynamic KV cache returns exactly the appended history): `Verif.KVCache.dynamic_view_violated`
* C43 (Byte-level tokenization loses nothing): `Verif.Token.qwen_detokenize_violated`
* C44 (Pre-tokenizer implements the documented regular expression): `Verif.Token.qwen_regex_documented_violated`
* C45 (WordPiece text clean-up and special tokens): `Verif.Token.split_special_diverges_violated`, `Verif.Token.split_special_order_violated`, `Verif.Token.special_cjk_violated`, `Verif.Token.max_chars_violated`
* C46 (A compiled module computes what the module computes): `Verif.Compile.C46_stale_view_violated`
* C47 (Calling submodules repeatedly while tracing): `Verif.Compile.C47_third_call_violated`
* C48 (A loaded program can be run again): `Verif.Compile.C48_constants_freed_violated`
* C49 (Sliding-window prefix cache keeps token positions): `Verif.PyRadix.C49_swa_violated`
* C50 (The KV slot allocator hands out every slot to at most one holder): `Verif.PyPool.C50_page_violated`, `Verif.PyPool.C50_page_part_violated`, `Verif.PyPool.C50_page_rows_violated`, `Verif.PyPool.C50_nested_group_violated`
* C51 (KV slots of a serving request hold exactly its own prefix): `Verif.Runner.C51_garbage_violated`, `Verif.Runner.C51_double_violated`, `Verif.Runner.C51_empty_extend_violated`
* C52 (Scheduler token budget is exact and bounded): `Verif.Sched.C52_overcommit_violated`
* C54 (Answers end exactly at the first stop token or at max_new_tokens): `Verif.Sched.C54_zero_violated`
* C55 (Every request is eventually answered): `Verif.Sched.C55_oversize_violated`, `Verif.Sched.C55_starvation_violated`
* C56 (Streamed text adds up to the final text): `Verif.Deliver.C56_split_character_violated`, `Verif.Deliver.C56_stale_text_violated`
* C58 (Aborts are effective): `Verif.Deliver.C58_overtake_violated`, `Verif.Deliver.C58_shared_queue_violated`
* C59 (Streaming separation of reasoning and content does not depend on the chunks): `Verif.Parse.C59_tail_lost_violated`, `Verif.Parse.C59_forced_chunks_violated`, `Verif.Parse.C59_forced_lost_violated`, `Verif.Parse.C59_buffered_reasoning_violated`
* C60 (Streaming and one-shot reasoning parsers agree): `Verif.Parse.C60_early_end_violated`
* C62 (Streamed tool calls add up to the calls of the answer): `Verif.Parse.C62_end_tag_cut_violated`, `Verif.Parse.C62_extra_brace_violated`, `Verif.Parse.C62_index_violated`, `Verif.Parse.C62_tail_lost_violated`
* C64 (A generation can be continued from the map it returned): `Verif.Gen.generate_resumes_violated`
* C65 (Samplers return an admissible token): `Verif.Gen.categorical_violated`, `Verif.Gen.topK_violated`
* C67 (top-k, top-p and min-p keep exactly the documented candidates): `Verif.Sample.topK_ties_violated`
* C68 (A request's sampled token does not depend on the other requests in its batch): `Verif.Sample.default_request_violated`, `Verif.Sample.greedy_mixed_violated`
* C69 (Speculative sampling produces the target model's distribution): `Verif.Sample.speculative_law_violated`
* C70 (Output row of speculative sampling): `Verif.Sample.emitted_count_violated`
* C71 (Elementwise binary operators follow broadcasting semantics): `Verif.Ops.elewise_reads_outside_violated`
* C72 (The causal mask hides exactly the future (and what lies outside the window)): `Verif.Ops.mask_history_violated`, `Verif.Ops.mask_decode_window_violated`, `Verif.Ops.mask_overflow_violated`
* C73 (Gather and embedding return the addressed rows): `Verif.Ops.gather_range_violated`, `Verif.Ops.embed_range_violated`
* C74 (Top-k and argsort return an ordered selection with matching indices): `Verif.Ops.topk_short_violated`
* C75 (Padding shows the right element at every position): `Verif.Ops.pad_view_violated`
* C76 (Masked scatter puts source rows at the masked positions in order): `Verif.Ops.scatter_order_violated`
* C77 (Indexing with slices, lists and index tensors selects the named elements): `Verif.Ops.index_range_violated`, `Verif.Ops.index_rank2_violated`
* C78 (Flash attention is causal softmax attention): `Verif.Attn.flash_batch_violated`, `Verif.Attn.flash_short_violated`, `Verif.Attn.flash_heads_violated`
* C79 (Attention over cached token addresses does not depend on where tokens are stored): `Verif.Attn.radix_x86_violated`, `Verif.Attn.radix_view_violated`
* C81 (Sliding-window attention with a sink sees the same window in prefill and decode): `Verif.Attn.swa_window_violated`, `Verif.Attn.swa_rows_violated`, `Verif.Attn.swa_append_violated`
* C82 (Paged attention attends to the indexed cache slots): `Verif.Attn.paged_unwritten_violated`, `Verif.Attn.paged_batch_violated`, `Verif.Attn.paged_masked_violated`
* C83 (A GPU tensor sent through the shared workspace arrives intact): `Verif.Ipc.failed_export_delivers_raw_bytes_violated`, `Verif.Ipc.failed_export_leaks_violated`
* C85 (Workspace memory comes back after use): `Verif.Ipc.empty_tensor_fragments_violated`
* C86 (Nested multimodal inputs reach the scheduler unchanged in every transport mode): `Verif.Ipc.pool_mode_rejects_views_violated`
* C87 (Pool transport mode uses the pool): `Verif.Ipc.pool_constructor_raises_violated`, `Verif.Ipc.pool_mode_never_uses_the_pool_violated`
* C88 (A batch call is its prompts, one by one, answered in order): `Verif.Serve.C88_one_prompt_violated`, `Verif.Serve.C88_one_id_violated`, `Verif.Serve.C88_short_list_violated`
* C89 (A client gets the results for its own request, and its id is released): `Verif.Serve.C89_same_id_violated`, `Verif.Serve.C89_sync_leak_violated`
* C91 (HTTP sampling options take effect): `Verif.Serve.C91_stop_seed_ignored_violated`, `Verif.Serve.C91_stop_string_violated`
* C92 (A request that cannot be processed fails alone): `Verif.Serve.C92_all_lost_violated`, `Verif.Serve.C92_image_url_violated`, `Verif.Serve.C92_option_list_violated`, `Verif.Serve.C92_param_list_violated`
* C93 (Choice i of a completion answers prompt i): `Verif.Serve.C93_order_violated`, `Verif.Serve.C93_stream_index_violated`, `Verif.Serve.C93_stream_batch_violated`
* C94 (Usage counts all tokens of the request): `Verif.Serve.C94_stream_batch_violated`
* C95 (A failed request is not reported as completed): `Verif.Serve.C95_reported_done_violated`, `Verif.Serve.C95_abort_stop_violated`, `Verif.Serve.C95_stream_silent_violated`, `Verif.Serve.C97_failure_violated`
* C96 (Engine.generate can be called again): `Verif.Serve.Loop.C96_only_first_returns_violated`, `Verif.Serve.Loop.C96_one_raises_violated`, `Verif.Serve.Loop.C96_second_call_violated`
* C97 (A chat stream delivers reasoning, content and calls, and ends properly): `Verif.Serve.C97_tail_lost_violated`, `Verif.Serve.C97_failure_violated`
* C99 (The default batched prefill agrees with token-by-token reading): `Verif.Gdn.C99_faded_value_violated`, `Verif.Gdn.C99_faded_witness_violated`

## Further observations (read in the code, not claimed as theorems)

* Compile: `ProgramLoweringPipeline` L122 takes `front()` of an empty list for a "deinit" graph; the serializer overwrites
  "device"; named kernels link to the options of the last launch.
* Service: restart after stop never works (`stop_` is not reset); exceptions of a session are swallowed without a final response.
* Model runner/scheduler: the budget of the scheduler counts a shared prefix once per holder that pays for it, while the pool frees it
  only when the last holder releases it.
* Serving: request options `stop` (strings) and `seed` are collected by `server/launch.py` `_build_sampling_params` but never read again.
