{"id": "C01", "title": "Prefix-cache search is a longest-prefix match", "statement": "RadixTree::search(key) reports the length of the longest prefix of key that is also a prefix of some key previously passed to insert with the same extra_key, and the k/v addresses it returns for token i are exactly the addresses given for token i by the first inserted key that shares the first i+1 tokens.", "quantifier": "every finite history of insert/search calls, every key, extra_key, layer and number of layers", "why_tests_cant": "the set of insertion histories and tree shapes is unbounded; a wrong descent appears only for particular overlaps of three keys", "anchors": ["mllm/engine/prefix_cache/RadixTree.cpp:RadixTree::insert", "mllm/engine/prefix_cache/RadixTree.cpp:RadixTree::search", "mllm/engine/prefix_cache/RadixTree.cpp:RadixTree::_split", "mllm/engine/prefix_cache/RadixTree.cpp:RadixTree::_matchedLength"]}
{"id": "C02", "title": "Prefix-cache search result is well-shaped", "statement": "A search result never reports more matched tokens than the key has; for every layer the k list and the v list both contain exactly matched_length addresses; success is reported iff at least one token matched; no out-of-range access happens while the result is assembled.", "quantifier": "every history of inserts whose value has one address per token and per layer, every searched key", "why_tests_cant": "depends on the shape of every reachable tree (all split positions, depths and orders)", "anchors": ["mllm/engine/prefix_cache/RadixTree.cpp:RadixTree::search", "mllm/engine/prefix_cache/RadixTree.hpp:VectorView"]}
{"id": "C03", "title": "An inserted key is found in full, and stays found", "statement": "Immediately after insert(key) returns, search(key) matches all of key; and later inserts of other keys never shorten what search(key) matches.", "quantifier": "every history of inserts before and after, every key", "why_tests_cant": "requires all histories, including later splits of shared edges", "anchors": ["mllm/engine/prefix_cache/RadixTree.cpp:RadixTree::insert", "mllm/engine/prefix_cache/RadixTree.cpp:RadixTree::search"]}
{"id": "C04", "title": "extra_key isolates cache namespaces", "statement": "What search returns for extra_key e depends only on the inserts made with extra_key e.", "quantifier": "every interleaving of inserts under any number of extra keys", "why_tests_cant": "non-interference quantifies over pairs of histories", "anchors": ["mllm/engine/prefix_cache/RadixTree.cpp:RadixTree::_matchedLength", "mllm/engine/prefix_cache/RadixTree.cpp:RadixTree::insert", "mllm/engine/prefix_cache/Cache.cpp"]}
{"id": "C05", "title": "Prefix-cache search never fabricates addresses", "statement": "Every k (v) address returned for layer l was supplied as a k (v) address of layer l by some earlier insert with the same extra_key.", "quantifier": "every history, key, layer", "why_tests_cant": "needs all reachable trees, including the ones built by wrong descents", "anchors": ["mllm/engine/prefix_cache/RadixTree.cpp:RadixTree::insert", "mllm/engine/prefix_cache/RadixTree.cpp:RadixTree::_split"]}
{"id": "C06", "title": "Cache virtual addresses denote disjoint in-bounds storage", "statement": "For every blob geometry accepted by initialize, two different addresses of one file system denote disjoint byte ranges, each inside its blob, and the byte range used by access is the one determined by the (blob, page, lane) fields of the address.", "quantifier": "every lane/page bit width accepted, every token size, every pair of addresses", "why_tests_cant": "2^32 x 2^32 address pairs and all geometries", "anchors": ["mllm/engine/prefix_cache/ZenFS.cpp:ZenFileSystem::access", "mllm/engine/prefix_cache/TLB.cpp"]}
{"id": "C07", "title": "malloc never returns an address that is still in use", "statement": "An address returned by malloc is different from every address returned earlier and not freed since; free releases exactly the address it is given, so after freeing it can be handed out again.", "quantifier": "every malloc/free history on one file system", "why_tests_cant": "all interleavings of malloc and free over all bitmaps; failure needs an address in a page other than 0", "anchors": ["mllm/engine/prefix_cache/ZenFS.cpp:ZenFileSystem::malloc", "mllm/engine/prefix_cache/ZenFS.cpp:ZenFileSystem::free", "mllm/engine/prefix_cache/ZenFS.cpp:ZenFileSystem::_findFreeAddrInBlob"]}
{"id": "C08", "title": "Prefetch and purge hints only touch the token they name", "statement": "hintsPrefetch(addr) and hintsPurge(addr) apply their advice to the byte range of addr and of no other live address.", "quantifier": "every address of every accepted geometry", "why_tests_cant": "wrong only for addresses with non-zero page field; all geometries", "anchors": ["mllm/engine/prefix_cache/ZenFS.cpp:ZenFileSystem::hintsPrefetch", "mllm/engine/prefix_cache/ZenFS.cpp:ZenFileSystem::hintsPurge"]}
{"id": "C09", "title": "malloc returns an address of the blob it allocated from", "statement": "The address returned by malloc decodes to an existing blob, and to a page and lane inside that blob, for both anonymous and disk-backed blobs.", "quantifier": "every malloc history, every geometry accepted by initialize", "why_tests_cant": "needs exhausting blobs of up to 2^31 tokens", "anchors": ["mllm/engine/prefix_cache/ZenFS.cpp:ZenFileSystem::_createBlobOnDisk", "mllm/engine/prefix_cache/ZenFS.cpp:ZenFileSystem::_createBlobOnAnonymousFile"]}
{"id": "C10", "title": "Recovered cache data is not handed out again", "statement": "After finalize and recover, malloc does not return an address that was live when the file system was finalized.", "quantifier": "every history before finalize, every history after recover", "why_tests_cant": "crash/restart histories are unbounded", "anchors": ["mllm/engine/prefix_cache/ZenFS.cpp:ZenFileSystem::recover", "mllm/engine/prefix_cache/ZenFS.cpp:ZenFileSystem::finalize"]}
{"id": "C100", "title": "A prompt may be cut anywhere", "statement": "Reading a prompt in one prefill, in two, or its last token by a decode step, leaves the same recurrent state and gives the same outputs.", "quantifier": "every cut, every slot, every company in the batches, every change of other slots in between", "why_tests_cant": "every cut and schedule", "anchors": ["pymllm/layers/attention/gdn_backend.py:GDNAttnBackend.forward_extend", "pymllm/layers/attention/gdn_backend.py:GDNAttnBackend.forward_decode"]}
{"id": "C101", "title": "Requests in a batch do not disturb each other's recurrent state", "statement": "What a request gets from a recurrent layer depends on its own state and tokens only; slots without tokens in the batch keep their state.", "quantifier": "every batch, order, slot and content of fresh tensors", "why_tests_cant": "all companies and layouts", "anchors": ["pymllm/layers/attention/gdn_backend.py:GDNAttnBackend.forward_extend", "pymllm/layers/attention/gdn_backend.py:GDNAttnBackend.forward_decode", "pymllm/mem_cache/memory_pool.py:GDNPool"]}
{"id": "C102", "title": "The older chunkwise scan agrees with the recurrence", "statement": "gdn_extend_chunkwise (and the CUDA kernel of the same formula, cuda_chunkwise_kernel) gives the outputs and state of the recurrence for every chunk size.", "quantifier": "every length, chunk size, input and initial state, in exact arithmetic", "why_tests_cant": "equality of two algorithms on all inputs", "anchors": ["pymllm/layers/attention/gdn_chunkwise.py:gdn_extend_chunkwise", "pymllm/layers/attention/gdn_chunkwise.py:_process_chunk", "mllm-kernel/mllm_kernel/cuda/csrc/gdn_extend_chunkwise.cuh:gdn_extend_chunkwise_kernel"]}
{"id": "C103", "title": "Recurrent layers have read exactly the request's own tokens", "statement": "In a hybrid model with the prefix cache, the recurrent state of a request after prefill and after each decode step is the one after exactly its prompt and the tokens generated so far, whether the prefix was computed or restored from a snapshot.", "quantifier": "every history of requests, hits, commits, decodes, finishes, rollbacks and evictions, every cache size", "why_tests_cant": "depends on the whole history of the cache, the snapshots and the slots that are reused", "anchors": ["pymllm/orchestrator/model_runner_process.py:_allocate_extend", "pymllm/orchestrator/model_runner_process.py:_forward_batch", "pymllm/orchestrator/model_runner_process.py:_insert_into_radix_cache", "pymllm/orchestrator/model_runner_process.py:_track_gdn_state_after_extend", "pymllm/orchestrator/model_runner_process.py:_on_radix_node_evict", "pymllm/mem_cache/memory_pool.py:GDNPool"]}
{"id": "C104", "title": "Track slots are neither lost nor shared", "statement": "Each slot for a snapshot of a recurrent state is free, or holds the snapshot of one cached prefix, or belongs to one request in prefill; after everything is evicted all are free again; newer prefixes get snapshots too.", "quantifier": "every history of requests, commits, evictions and finishes", "why_tests_cant": "a leak needs a particular history; conservation is over all of them", "anchors": ["pymllm/mem_cache/memory_pool.py:GDNPool.alloc_track_slot", "pymllm/mem_cache/memory_pool.py:GDNPool.free_track_slot", "pymllm/orchestrator/model_runner_process.py:_track_gdn_state_after_extend", "pymllm/orchestrator/model_runner_process.py:_on_radix_node_evict", "pymllm/orchestrator/model_runner_process.py:_free_rid_resources"]}
{"id": "C105", "title": "CUDA-graph replay answers like the eager model", "statement": "For models without recurrent layers, a decode batch replayed through a captured, padded graph gives each request the answer of the eager pass, and leaves the same keys and values, whatever was decoded with the static buffers before; every admitted batch has a graph.", "quantifier": "every network whose lanes meet only in memory, every history of batches, batch size, request table and memory content, every order of conflicting writes to the padding slot", "why_tests_cant": "stale buffer contents depend on the history; all batch sizes, all models", "anchors": ["pymllm/executor/cuda_graph_runner.py:CudaGraphRunner.replay", "pymllm/executor/cuda_graph_runner.py:_InputBuffers.populate", "pymllm/executor/cuda_graph_runner.py:CudaGraphRunner.can_run", "pymllm/executor/model_runner.py:ModelRunner.forward"]}
{"id": "C106", "title": "CUDA-graph padding leaves recurrent states alone", "statement": "Replaying a decode batch of a hybrid model through a padded graph updates the recurrent state of each request with its own token and touches no other state.", "quantifier": "every history of batches, every network with recurrent layers", "why_tests_cant": "needs particular batch sizes and histories of rows", "anchors": ["pymllm/executor/cuda_graph_runner.py:_InputBuffers.populate", "pymllm/layers/attention/gdn_backend.py:GDNAttnBackend.init_forward_metadata_replay_cuda_graph", "pymllm/layers/attention/gdn_backend.py:GDNAttnBackend.forward_decode"]}
{"id": "C107", "title": "Captured batch sizes and padded lengths", "statement": "The captured sizes are increasing and within the limit of running requests; a batch is padded to the smallest that fits, to less than twice its size and by at most 31 lanes; the lengths and their sum given to the attention backend are those of the lanes, padding counting 1.", "quantifier": "every limit of running requests, every batch size, every batch", "why_tests_cant": "all limits and sizes", "anchors": ["pymllm/executor/cuda_graph_runner.py:_default_capture_batch_sizes", "pymllm/executor/cuda_graph_runner.py:CudaGraphRunner.replay", "pymllm/executor/cuda_graph_runner.py:_InputBuffers.populate", "pymllm/executor/model_runner.py:ModelRunner.prepare_forward_batch_decode"]}
{"id": "C108", "title": "Packed KV index lists name each request's own slots", "statement": "The index list built for a batch contains, for each request, exactly the slots of the asked positions of its row, whatever the buffers held and in whatever order the threads ran; nothing is stored outside the list.", "quantifier": "every batch, lengths (also 0), start positions, history of the prefix-sum buffers, thread order", "why_tests_cant": "thread schedules, stale buffers, all batches", "anchors": ["mllm-kernel/mllm_kernel/cuda/csrc/create_kv_indices.cuh:create_kv_indices_kernel", "pymllm/layers/attention/flashinfer_backend.py:_FlashInferIndicesUpdaterDecode.update", "pymllm/layers/attention/flashinfer_backend.py:_FlashInferIndicesUpdaterPrefill._call_begin_forward"]}
{"id": "C109", "title": "Prefill attends to the cached prefix and the own new tokens", "statement": "With or without prefix hits in the batch, every new token of a prefill gets softmax attention over all cached positions of its request and its new tokens up to itself, and nothing else.", "quantifier": "every batch of requests with any prefix and new lengths, every pool content, query and value, in exact arithmetic, for layers without a window", "why_tests_cant": "equality of merged partial attentions with the full one for all inputs and layouts", "anchors": ["pymllm/layers/attention/flashinfer_backend.py:FlashInferAttnBackend.forward_extend", "pymllm/layers/attention/flashinfer_backend.py:FlashInferAttnBackend.init_forward_metadata"]}
{"id": "C11", "title": "Sliding-window eviction frees exactly what left the window", "statement": "evictSlidingWindowLayerOn frees each address outside the window exactly once, leaves all addresses inside the window intact and marks the evicted ones invalid; repeated eviction is idempotent.", "quantifier": "every address list, window size and repetition of the call", "why_tests_cant": "all lengths and windows; double frees appear only under repetition", "anchors": ["mllm/nn/lmcache/PrefixCache.cpp:CpuPrefixCache::evictSlidingWindowLayerOn"]}
{"id": "C110", "title": "Decode attends to all positions of the request", "statement": "A decode step gives every request softmax attention over the keys and values of all its positions including the one just written.", "quantifier": "every batch, lengths, pool content, history of buffers", "why_tests_cant": "all batches and layouts", "anchors": ["pymllm/layers/attention/flashinfer_backend.py:FlashInferAttnBackend.forward_decode", "pymllm/layers/attention/flashinfer_backend.py:_FlashInferIndicesUpdaterDecode.update"]}
{"id": "C111", "title": "Sliding-window layers see the window", "statement": "A layer with a sliding window of w attends, in prefill and decode, to the token itself and the w before it.", "quantifier": "every batch, prefix, window, position", "why_tests_cant": "all lengths relative to the window; the effect is only visible beyond the window", "anchors": ["pymllm/layers/attention/flashinfer_backend.py:_FlashInferIndicesUpdaterPrefill._update_sliding_window", "pymllm/layers/attention/flashinfer_backend.py:_FlashInferIndicesUpdaterDecode._update_sliding_window", "pymllm/layers/attention/flashinfer_backend.py:FlashInferAttnBackend.forward_extend", "pymllm/executor/model_runner.py:ModelRunner.init_attention_backend"]}
{"id": "C112", "title": "Image patches, image tokens and patch positions line up", "statement": "The patch rows handed to the vision tower are exactly the 14x14 tiles of the resized, normalised image, each exactly once, four neighbours that form one merged token in a row; the prompt gets exactly as many image tokens as merged cells; the rotary angles of patch row i are those of its own row and column in the image.", "quantifier": "every image size (multiples of 28), pixel content, prompt, frequency list", "why_tests_cant": "a re-indexing through a nine-dimensional view; must hold for every size and pixel", "anchors": ["mllm/models/qwen2vl/image_preprocessor_qwen2vl.hpp:Qwen2VLImagePreprocessor", "mllm/models/qwen2vl/modeling_qwen2vl.hpp:makeVisualRotaryPosEmbIds", "mllm/models/qwen2vl/modeling_qwen2vl.hpp:makeVisualRotaryPosEmb", "mllm/models/qwen2vl/tokenization_qwen2vl.hpp:convertMessage"]}
{"id": "C113", "title": "Image resizing keeps block multiples, pixel budget and aspect ratio", "statement": "The size an image is resized to has both sides positive multiples of the block, a pixel count within [min, max], and is the image scaled by one factor up to less than a block per side; images more extreme than 200:1 are refused.", "quantifier": "every image size, block size and pixel budget, in exact arithmetic", "why_tests_cant": "floors, ceilings and square roots over all sizes", "anchors": ["mllm/models/qwen2vl/image_preprocessor_qwen2vl.hpp:smartResize"]}
{"id": "C114", "title": "Multimodal positions", "statement": "In a prompt text-image-text, text tokens get consecutive positions in all three dimensions, image tokens the position after the text plus their frame, row and column, and text after the image continues after the largest position used; decoding continues by one; the sine and cosine tables hold the angle of the position of the right dimension.", "quantifier": "every prompt, image grid, number of decode steps, frequency list and section split", "why_tests_cant": "index arithmetic over all prompts and grids, unbounded decoding", "anchors": ["mllm/models/qwen2vl/modeling_qwen2vl.hpp:getPositionIdsPrefill", "mllm/models/qwen2vl/modeling_qwen2vl.hpp:getPositionIds", "mllm/models/qwen2vl/modeling_qwen2vl.hpp:makeMultimodalPositionEmbedding"]}
{"id": "C115", "title": "Windowed vision attention is windowed attention on the image", "statement": "Reordering the patches into windows, running the tower with the window mask and putting the merged tokens back gives, token for token, what windowed attention in image order gives: every patch attends exactly to the patches of its window, each merged token ends at its own place.", "quantifier": "every grid, window size, tower of layers, content, and every result argsort may give", "why_tests_cant": "a permutation, its inverse and a mask must agree for every grid", "anchors": ["mllm/models/qwen2_5vl/modeling_qwen2_5vl.hpp:getWindowIndex", "mllm/models/qwen2_5vl/modeling_qwen2_5vl.hpp:Qwen2_5VisionTransformerPretrainedModel"]}
{"id": "C116", "title": "Rotary embedding rotates every row by its own angles", "statement": "The RoPE operators replace each row by the row rotated with the sines and cosines of its own batch row and position, in both layouts, for every vector width, whole or partial rotation, in place or into a new tensor, and write nothing else.", "quantifier": "every shape, stride, memory content, table, vector width", "why_tests_cant": "in-place loads and stores with vector lanes and tails, all shapes and strides", "anchors": ["mllm/backends/cpu/ops/RoPEOp.cpp", "mllm/backends/cpu/ops/MultimodalRoPEOp.cpp", "mllm/backends/cpu/ops/VisionRoPEOp.cpp"]}
{"id": "C117", "title": "Attention scores depend on relative positions only", "statement": "With the tables built from the position ids, the score of a rotated query and a rotated key is a function of the difference of their positions (of the three differences for multimodal positions); rotation keeps lengths; position 0 changes nothing.", "quantifier": "every query, key, pair of positions, frequency list, batch, layout, call", "why_tests_cant": "an identity over all real vectors and all positions", "anchors": ["mllm/models/qwen3/modeling_qwen3.hpp:makeRotaryPosEmbedding", "mllm/models/qwen3/modeling_qwen3.hpp:makeRoPEInvFreq", "mllm/backends/cpu/ops/RoPEOp.cpp"]}
{"id": "C118", "title": "clone and copy2 copy the elements of the tensor", "statement": "clone gives a tensor with the same shape and elements in storage of its own; src.copy2(dst) gives dst the elements of src and changes nothing else; inserting the image embeddings replaces exactly the rows of the image tokens.", "quantifier": "every tensor and view, every destination view, every prompt and image size", "why_tests_cant": "out-of-bounds copies only show for some views and layouts; the embedding claim ranges over all prompts", "anchors": ["mllm/backends/cpu/ops/CloneOp.cpp", "mllm/backends/cpu/ops/CopyOp.cpp", "mllm/core/Tensor.cpp:Tensor::bytes", "mllm/core/TensorViewImpl.cpp:TensorViewImpl::size", "mllm/models/qwen2vl/modeling_qwen2vl.hpp:Qwen2VLForCausalLM::forward"]}
{"id": "C119", "title": "matmul returns the matrix product", "statement": "For operands of shape [.., M, K] and [.., K, N] (or [.., N, K] with transpose_b) matmul returns a tensor of shape [.., M, N] whose matrix at every batch index is the product of the operands' matrices at that index, and it stores nowhere else.", "quantifier": "every shape, batch, view, instruction set, thread count and interleaving of the threads' stores", "why_tests_cant": "tile edges, vector-width remainders, batch strides and thread partitions depend on every size and thread count; schedules cannot be enumerated", "anchors": ["mllm/backends/cpu/ops/MatMulOp.cpp:CPUMatMulOp::forward", "mllm/core/aops/MatMulOp.cpp:MatMulOp::reshape", "mllm/backends/cpu/kernels/common/ggml/matmul.cpp:mat_mul", "mllm/backends/cpu/kernels/common/llamafile/llamafile_sgemm.cpp", "mllm/backends/cpu/kernels/arm/mllm_blas/mllm_blas_sgemm.cpp", "mllm/backends/cpu/kernels/x86/mllm_blas"]}
{"id": "C12", "title": "Pool allocations never overlap and are large enough", "statement": "At any time the blocks handed out by the pool and not yet freed are pairwise disjoint, lie inside their segment and are at least as large as requested.", "quantifier": "every sequence of alloc/free requests of any sizes", "why_tests_cant": "unbounded histories and sizes, arbitrary fragmentation", "anchors": ["mllm/engine/BuddyMemPool.cpp:BuddyMemPool::_alloc_buddy", "mllm/engine/BuddyMemPool.cpp:BuddyMemPool::_free_buddy"]}
{"id": "C120", "title": "a Linear layer computes x W\u1d40 + b", "statement": "A Linear layer applied to an input of shape [.., S, in] returns a tensor of shape [.., S, out] whose element (.., s, o) is the dot product of the input row with row o of the weight, plus the bias of o when there is one.", "quantifier": "every batch shape, sequence length, number of channels, instruction set, thread count and interleaving", "why_tests_cant": "which kernel runs depends on sizes and build; partial tiles and thread partitions exist for every size", "anchors": ["mllm/backends/cpu/ops/LinearOp.cpp:CPULinearOp::forward", "mllm/backends/cpu/ops/LinearOp.cpp:CPULinearOp::reshape", "mllm/backends/cpu/kernels/common/ggml/matmul.cpp:mat_mul"]}
{"id": "C121", "title": "softmax returns the softmax of each row", "statement": "softmax along the last axis returns a tensor of the input's shape whose element i of each row is exp(x_i) divided by the sum of exp over that row, up to the error of the vectorised exponential; it stores nowhere else and refuses other axes.", "quantifier": "every shape, row length, row contents, instruction set, vector width, thread count and interleaving", "why_tests_cant": "vector blocks, tails and threads split every row length differently, and an accuracy bound is a claim about every real input", "anchors": ["mllm/backends/cpu/ops/SoftmaxOp.cpp:CPUSoftmaxOp::forward", "mllm/backends/cpu/kernels/arm/softmax.cpp:softmax_v1_fp32", "mllm/backends/cpu/kernels/x86/softmax.cpp:softmax_v1_fp32", "mllm/backends/cpu/kernels/arm/math.hpp:vexpq_fast_f32", "mllm/backends/cpu/kernels/x86/math.hpp:vexpq_fast_f32"]}
{"id": "C122", "title": "RMSNorm divides each row by its root mean square", "statement": "An RMSNorm layer returns, for element i of each row of the last axis, x_i / sqrt(mean of the squares of the row + epsilon) times weight i (or weight i + 1 with the unit offset), and in place it replaces the tensor by that; it stores nowhere else.", "quantifier": "every shape, row, weight, epsilon, instruction set, vector width, alignment, thread count and interleaving", "why_tests_cant": "overlapping vector stores, tails and alignment depend on every row length and address", "anchors": ["mllm/backends/cpu/ops/RMSNormOp.cpp:CPURMSNormOp::forward", "mllm/backends/cpu/kernels/arm/rmsnorm.cpp:rmsnorm_fp32", "mllm/backends/cpu/kernels/arm/rmsnorm.cpp:rmsnorm_fp32_inplace", "mllm/backends/cpu/kernels/x86/rmsnorm.cpp:rmsnorm_fp32", "mllm/backends/cpu/kernels/x86/math.hpp:vsquare_mean_fp32"]}
{"id": "C123", "title": "LayerNorm normalises over the trailing normalised shape", "statement": "A LayerNorm layer with normalised shape ns applied to an input of shape lead ++ ns returns (x - mean) / sqrt(variance + epsilon) times weight plus bias, where mean and variance are taken over the ns dimensions of that entry; it refuses inputs whose trailing shape is not ns.", "quantifier": "every leading shape, normalised shape, contents, optional weight and bias, instruction set, thread count and interleaving", "why_tests_cant": "the grouping is by flat position, so correctness depends on every shape; unwritten outputs show only as stale memory", "anchors": ["mllm/backends/cpu/ops/LayerNormOp.cpp:CPULayerNormOp::forward", "mllm/backends/cpu/kernels/arm/layernorm.cpp:layernorm_N_fp32"]}
{"id": "C124", "title": "sum, max, min and mean reduce along the axis asked for", "statement": "Reducing a tensor along an axis (or over all elements) returns a tensor with that axis removed (or of size one with keep-dim) whose entry at each remaining coordinate is the sum, maximum, minimum or mean of the elements along that axis, in the element type; an axis outside the tensor is refused.", "quantifier": "every shape, axis (also negative or all), keep-dim flag, contents, element type and vector width, instruction set", "why_tests_cant": "vector lanes, strided columns and tails regroup the elements differently for each length and stride, and integer overflow shows only for some contents", "anchors": ["mllm/backends/cpu/ops/ReduceOps.cpp", "mllm/core/aops/ReduceOps.cpp", "mllm/backends/cpu/kernels/arm/reduce.cpp", "mllm/backends/cpu/kernels/arm/reduce.hpp", "mllm/backends/cpu/kernels/common/reduce-inl.hpp"]}
{"id": "C125", "title": "sigmoid, SiLU, QuickGELU and ReLU are computed element by element", "statement": "sigmoid, SiLU (x sigmoid(x)), QuickGELU (x sigmoid(1.702 x)) and ReLU of a tensor return a tensor of the same shape with the function applied at every index, up to float rounding, also in place, and store nowhere else.", "quantifier": "every shape, contents, thread count, interleaving, instruction set and vector width", "why_tests_cant": "accuracy of the vectorised approximations is a claim about every real input, and blocks, half blocks, vectors and tails split every length differently across threads", "anchors": ["mllm/backends/cpu/ops/SiLUOp.cpp:CPUSiLUOp::forward", "mllm/backends/cpu/ops/SigmoidOp.cpp", "mllm/backends/cpu/ops/ReLUOp.cpp", "mllm/backends/cpu/ops/QuickGELUOp.cpp", "mllm/backends/cpu/kernels/arm/silu.cpp:silu_fp32", "mllm/backends/cpu/kernels/arm/math.hpp:vsigmoid_f32", "mllm/backends/cpu/kernels/x86/silu.cpp:silu_fp32", "mllm/backends/cpu/kernels/common/sigmoid-inl.hpp:__sigmoid_fp32_vector"]}
{"id": "C126", "title": "GELU is the tanh formula", "statement": "GELU of a tensor returns a tensor of the same shape with 0.5 x (1 + tanh(sqrt(2/pi) (x + 0.044715 x^3))) at every index, up to an absolute error of 1e-6 |x|, and stores nowhere else.", "quantifier": "every shape, contents, thread count, interleaving and instruction set", "why_tests_cant": "the rational approximation of tanh is claimed good for every real argument", "anchors": ["mllm/backends/cpu/ops/GELUOp.cpp:CPUGELUOp::forward", "mllm/backends/cpu/kernels/arm/gelu.cpp:gelu_fp32", "mllm/backends/cpu/kernels/arm/math.hpp:vtanh_fp32", "mllm/backends/cpu/kernels/x86/gelu.cpp"]}
{"id": "C127", "title": "convolution layers compute the convolution", "statement": "Conv1D (with groups, padding, dilation), Conv2D (padding, dilation) and Conv3D return one output per stride-th position where the dilated kernel fits into the zero-padded input, each the sum over input channels of its group and kernel positions of input times weight, plus the bias; they store nowhere else, and a call whose kernel fits nowhere, or whose rank or channels are wrong, is refused.", "quantifier": "every batch, channel and spatial size, kernel, stride, padding, dilation, group count, contents, bias, thread count, interleaving and instruction set", "why_tests_cant": "index arithmetic over five to ten sizes, vector blocks with tails and im2col scratch buffers: every combination is its own case", "anchors": ["mllm/core/aops/Conv1DOp.cpp:Conv1DOp::reshape", "mllm/core/aops/Conv2DOp.cpp:Conv2DOp::reshape", "mllm/core/aops/Conv3DOp.cpp:Conv3DOp::reshape", "mllm/backends/cpu/ops/Conv1DOp.cpp:CPUConv1DOp::forward", "mllm/backends/cpu/ops/Conv2DOp.cpp:CPUConv2DOp", "mllm/backends/cpu/ops/Conv3DOp.cpp:CPUConv3DOp::forward", "mllm/backends/cpu/kernels/arm/conv2d.cpp", "mllm/backends/cpu/kernels/arm/conv3d.cpp:conv3d_fp32_baseline"]}
{"id": "C128", "title": "AvgPool1d returns window means", "statement": "AvgPool1d returns one output per stride-th window that fits into the padded line (with ceil_mode also for an overhanging window that starts before the right padding), each the mean over the window's positions in the input, or in the padded input with count_include_pad; nothing else is stored.", "quantifier": "every shape, window, stride, padding, mode, contents, thread count and interleaving", "why_tests_cant": "boundary windows depend on every combination of length, window, stride and padding", "anchors": ["mllm/core/aops/AvgPool1dOp.cpp:AvgPool1dOp::reshape", "mllm/backends/cpu/ops/AvgPool1dOp.cpp:CPUAvgPool1dOp::forward"]}
{"id": "C129", "title": "interpolate resamples at the documented positions", "statement": "interpolateBySize replaces the last dimensions by the requested sizes and fills every element by reading each resized axis at position t*(n-1)/(o-1) with aligned corners and (t+1/2)*n/o-1/2 otherwise: a closest sample (nearest), the hat-function average (linear, bilinear, trilinear) or Keys' cubic convolution (bicubic), end samples repeated outside, the image first smoothed by a Gaussian when antialiasing and shrinking. Hence resizing to the same size is the identity, constants stay constant and all modes but bicubic stay within the range of the input. interpolateByScale means the truncated sizes; a mode applied to the wrong rank is refused.", "quantifier": "every batch, channel and spatial size on both sides, mode, corner alignment, antialiasing choice and contents", "why_tests_cant": "positions, clamping and boundary neighbours depend on every pair of input and output sizes", "anchors": ["mllm/core/aops/InterpolateOp.cpp:InterpolateOp::reshape", "mllm/backends/cpu/ops/InterpolateOp.cpp:CPUInterpolateOp::forward", "mllm/nn/Functional.cpp:interpolateBySize"]}
{"id": "C13", "title": "Freeing everything restores the pool", "statement": "After every block has been freed, in any order, the segment is again a single free block of its full size and the used-byte count is 0; in particular any request that fits an empty segment then succeeds.", "quantifier": "every history and every order of frees", "why_tests_cant": "all permutations of frees of all fragmentations", "anchors": ["mllm/engine/BuddyMemPool.cpp:BuddyMemPool::_free_buddy"]}
{"id": "C130", "title": "Quantised blocks mean what their format says, and quantising is accurate", "statement": "Dequantising a Q8_0, Q4_0, Q4_K, Q6_K or Q8_K row writes, for every element, scale times code (minus the group minimum) as the block format defines, and nothing else. Quantising a row writes one block per 32 or 256 elements whose codes are best possible for the stored scales; for Q8_0, Q4_0 and Q8_K the number read back differs from the original by at most half a step (a full step at the clamped end) plus the half-precision error of the scale, and the fitted scales of Q4_K and Q6_K are never worse than the plain min-max fit. A file quantised on one platform reads the same on another.", "quantifier": "every row length, every content (any reals, including all-zero, constant, one-sided and alternating blocks), every rounding of ties", "why_tests_cant": "the codes depend on the largest element of each block and on ties; tests sample a few random rows", "anchors": ["mllm/backends/cpu/kernels/common/ggml/quantize/quantize_q4.cpp", "mllm/backends/cpu/kernels/common/ggml/quantize/quantize_q6.cpp", "mllm/backends/cpu/kernels/common/ggml/quantize/quantize_q8.cpp", "mllm/backends/cpu/kernels/common/ggml/quantize/quantize.hpp", "mllm/core/DataTypes.hpp:mllm_block_q4_K_t"]}
{"id": "C131", "title": "Quantised dot products are the dot products of the dequantised rows", "statement": "The dot-product kernel of a quantised weight row with a quantised activation row writes exactly one float: the dot product of the two rows after dequantisation, on every instruction set, with no integer overflow for any block contents.", "quantifier": "every number of blocks, every scale, minimum, code and block sum, every supported instruction set", "why_tests_cant": "overflow of sixteen-bit lanes and sign tricks only show for extreme codes; each instruction set is separate code", "anchors": ["mllm/backends/cpu/kernels/common/ggml/quantize/vec_dot.cpp:vec_dot_q4_K_q8_K", "mllm/backends/cpu/kernels/common/ggml/quantize/vec_dot.cpp:vec_dot_q6_K_q8_K", "mllm/backends/cpu/kernels/common/ggml/quantize/vec_dot.cpp:vec_dot_q4_0_q8_0", "mllm/backends/cpu/kernels/common/ggml/quantize/vec_dot_type.cpp"]}
{"id": "C132", "title": "A linear layer with K-quantised weights computes the matrix product", "statement": "For Q4_K and Q6_K weights, every output of a linear layer is the activation row times the dequantised weight row plus the bias, up to 1/128 of the largest activation of each block of 256 weighted by the weights; each output is computed from its own row only, whatever the number of threads and their schedule, and nothing beyond the output is written.", "quantifier": "every batch, row, input and output count, every thread schedule, every content", "why_tests_cant": "the result must not depend on the interleaving of two parallel loops, for all shapes", "anchors": ["mllm/backends/cpu/kernels/common/ggml/matmul.cpp:mat_mul", "mllm/backends/cpu/ops/LinearOp.cpp:CPULinearOp::forward"]}
{"id": "C133", "title": "The hybrid-model prefix cache serves, locks and evicts prefixes like the plain one", "statement": "MambaRadixCache.match_prefix returns the slots of the longest whole-page prefix of the key cached in its namespace, insert adds exactly the uncached rest, every slot served was supplied by an insertion of a sequence agreeing up to that position, a locked prefix stays cached, evict frees what it removes once each, enough of it or all that is unlocked, and reports the number; the size counters say what is locked and what can be evicted; the server can use it in place of the plain cache.", "quantifier": "every history of match_prefix, insert (with and without state), inc_lock_ref, dec_lock_ref and evict, every page size and namespace", "why_tests_cant": "splits, locks and evictions interleave without bound", "anchors": ["pymllm/mem_cache/mamba_radix_cache.py:MambaRadixCache", "pymllm/orchestrator/model_runner_process.py"]}
{"id": "C134", "title": "The least-recently-used lists are exact and eviction follows them", "statement": "After every history both intrusive lists are well-formed in both directions and hold exactly the cached nodes, respectively the nodes with a state, each once. match_prefix moves the nodes of the matched path to the front, deepest first, and keeps the order of the others; insert puts new nodes at the front; evict removes, one after the other, the unlocked leaf (then the unlocked state) that is last in the list, and always terminates with one result.", "quantifier": "every history of calls, every page size, every eviction target", "why_tests_cant": "pointer surgery on two lists sharing nodes must be right for every interleaving; termination must hold for every target", "anchors": ["pymllm/mem_cache/mamba_radix_cache.py:LRUList", "pymllm/mem_cache/mamba_radix_cache.py:MambaRadixCache.evict", "pymllm/mem_cache/mamba_radix_cache.py:MambaRadixCache.match_prefix"]}
{"id": "C135", "title": "Recurrent states in the cache are conserved, protected while locked and belong to their sequence", "statement": "No state slot given to the cache is lost or returned twice: over every history the slots taken over are those returned plus those still held. insert takes over the caller's slots exactly if it stores them. While a lock on a node is held its state slots stay in the cache; evict frees as many state slots as asked for or all that are unlocked; mamba_exist tells the caller whether its state was stored; a node's state is the state after its whole sequence.", "quantifier": "every history of calls, every page size, all states and targets", "why_tests_cant": "ownership of slots must balance over all interleavings of splits, locks, re-insertions and evictions", "anchors": ["pymllm/mem_cache/mamba_radix_cache.py:MambaRadixCache.insert", "pymllm/mem_cache/mamba_radix_cache.py:MambaRadixCache._split_node", "pymllm/mem_cache/mamba_radix_cache.py:MambaRadixCache.evict", "pymllm/mem_cache/mamba_radix_cache.py:MambaRadixCache.inc_lock_ref"]}
{"id": "C136", "title": "initialize_model_parallel gives every process its own coordinates and consistent groups", "statement": "After initialize_model_parallel(tp, dp, pp) on every process of a world of tp*dp*pp ranks: each rank is in exactly one tensor-parallel group of tp ranks, at the position get_tensor_model_parallel_rank says; groups are equal or disjoint; each (tp, dp, pp) coordinate belongs to exactly one process; all processes create the same groups in the same order, as torch.distributed requires.", "quantifier": "every world size, every tp, dp, pp and every rank", "why_tests_cant": "one process cannot observe the others, and the layout must be right for all factorisations", "anchors": ["pymllm/orchestrator/parallel_state.py:initialize_model_parallel", "pymllm/orchestrator/group_coordinator.py:GroupCoordinator"]}
{"id": "C137", "title": "Tensor-parallel layers compute the unsharded layer", "statement": "ColumnParallelLinear, RowParallelLinear, VocabParallelEmbedding and ParallelMLP, built and loaded from the full checkpoint tensors on every rank, return on every rank exactly the output of the unsharded layer (the column-parallel one without gather: its slice).", "quantifier": "every tp dividing the sharded dimension, every world containing it, all weights, biases, inputs and activation functions", "why_tests_cant": "the identity is between a distributed computation and an unsharded one, for every number of ranks and all values", "anchors": ["pymllm/layers/linear.py:ColumnParallelLinear", "pymllm/layers/linear.py:RowParallelLinear", "pymllm/layers/embedding.py:VocabParallelEmbedding", "pymllm/layers/mlp.py:ParallelMLP"]}
{"id": "C138", "title": "Fused projections hold and compute exactly their separate projections", "statement": "Loading the checkpoint's separate tensors (q, k, v or numbered shards) into a MergedLinear, in any order and any number of times, gives exactly their concatenation, packed or not; the fused forward split at the partition sizes equals the separate projections.", "quantifier": "all sizes, output dimensions, packing factors, load orders, weights and inputs", "why_tests_cant": "the offsets are computed from sizes; order and repetition of loads are up to the checkpoint", "anchors": ["pymllm/layers/linear.py:MergedLinear"]}
{"id": "C139", "title": "load_weights puts every checkpoint tensor where it belongs", "statement": "Qwen3ForCausalLM.load_weights on a checkpoint: every parameter of the model afterwards holds the checkpoint's tensor for it (q/k/v and gate/up: their concatenation), whatever the order of the tensors and the prefix convention of the names; missing, misnamed or misshaped tensors are reported.", "quantifier": "every number of layers and every size, with or without biases and tied head, every order, repetition and prefix of the stored tensors, all contents", "why_tests_cant": "routing works on substrings of names with layer numbers of any length; the file order is arbitrary", "anchors": ["pymllm/models/qwen3.py:Qwen3ForCausalLM.load_weights", "pymllm/models/qwen3.py:_remap_weight_name", "pymllm/layers/base.py:MllmBaseLayer.weight_loader"]}
{"id": "C14", "title": "Pool accounting and allocation completeness", "statement": "The used counter of a segment always equals the sum of its live block sizes, and an allocation within a segment fails only when no free block of the required size class exists.", "quantifier": "every alloc/free history", "why_tests_cant": "unbounded histories", "anchors": ["mllm/engine/BuddyMemPool.cpp:BuddyMemPool"]}
{"id": "C140", "title": "The Ascend memory pool hands out disjoint, aligned blocks inside its memory", "statement": "After every history of allocateBlock and freeBlock calls, every id a client holds has an address; the block there is 64-byte aligned, lies entirely inside the memory the pool obtained, is at least as large as asked for, and shares no byte with any other block held.", "quantifier": "every pool base and size, every history of calls and request sizes, every iteration order of the free map", "why_tests_cant": "overlap shows only as corrupted tensors, after particular histories of sizes and frees", "anchors": ["mllm/backends/ascend/memory/AscendMemoryPool.cpp:allocateBlock", "mllm/backends/ascend/memory/AscendMemoryPool.cpp:freeBlock", "mllm/backends/ascend/memory/AscendMemoryPool.cpp:getBlockPtr"]}
{"id": "C141", "title": "Tensors and workspaces on an Ascend device never share memory, whatever the threads do", "statement": "With any number of threads allocating and freeing tensors through AscendAllocator and operators taking workspaces from the pool, live tensors and workspaces are pairwise disjoint and inside the pool; freeing a live tensor always finds its block; when all are freed the pool has no used block.", "quantifier": "every interleaving of the critical sections of every number of threads, every size", "why_tests_cant": "quantifies over all schedules; alloc and free each consist of several critical sections", "anchors": ["mllm/backends/ascend/AscendAllocator.cpp:alloc", "mllm/backends/ascend/AscendAllocator.cpp:free", "mllm/backends/ascend/memory/AscendMemoryManager.cpp:getMemoryPool"]}
{"id": "C142", "title": "The Ascend pool reuses freed memory and refuses only when it is out of memory", "statement": "A request is served by a smallest free block that fits, by fresh memory only if none fits, and is refused only if neither exists. When everything has been freed, a request that fits the pool is served.", "quantifier": "every reachable pool state, request and iteration order of the free map", "why_tests_cant": "depends on the whole history of sizes", "anchors": ["mllm/backends/ascend/memory/AscendMemoryPool.cpp:allocateBlock"]}
{"id": "C143", "title": "The ahead-of-time QNN runner decodes greedily, token by token", "statement": "Runner::generate with any prompt and token budget that fit the context hands the callback exactly the tokens of greedy decoding one token at a time (up to and including the first EOS), however the prompt is cut into chunks, whatever the padding rows compute and whatever earlier calls left in the caches, masks and logits; no buffer is accessed out of bounds.", "quantifier": "every configuration, prompt, budget, EOS set, previous contents of all buffers, and every pair of compiled graphs that implement the same causal network row by row", "why_tests_cant": "chunk lengths, prompt lengths and stale buffer contents are unbounded; wrong attention shows only in the quality of the text", "anchors": ["mllm/backends/qnn/aot_rt/QnnAOTRuntime.cpp:Runner::generate", "mllm/backends/qnn/aot_rt/PromptProcessor.cpp:prefill", "mllm/backends/qnn/aot_rt/TokenGenerator.cpp:generate", "mllm/backends/qnn/aot_rt/KVCacheManager.cpp"]}
{"id": "C144", "title": "The attention masks of the QNN runner are the causal sliding window", "statement": "After any sequence of chunks, the mask row of each token of the next chunk allows exactly the cached positions and the earlier tokens of its chunk that lie in its causal window, and no unused column; also when prefill starts on a filled cache.", "quantifier": "every context length, chunk length, window, sequence of chunk sizes, and previous contents of the mask tensor", "why_tests_cant": "one wrong bit among ar_len * context_len for some history of chunks", "anchors": ["mllm/backends/qnn/aot_rt/KVCacheManager.cpp:initAttentionMask", "mllm/backends/qnn/aot_rt/KVCacheManager.cpp:updateAttentionMask"]}
{"id": "C145", "title": "The QNN KV cache manager keeps and appends exactly the right entries", "statement": "rearrangeCache keeps the keys and values of every position that fits both arrangements; updateCache appends exactly the first n new tokens (or the first n selected ones), keys and values alike, behind the cached ones and changes nothing else; neither leaves the buffers.", "quantifier": "every configuration, cache contents, chunk length before and after, past length, number of tokens and selection", "why_tests_cant": "in-place moves between overlapping layouts for all sizes", "anchors": ["mllm/backends/qnn/aot_rt/KVCacheManager.cpp:rearrangeCache", "mllm/backends/qnn/aot_rt/KVCacheManager.cpp:updateCache"]}
{"id": "C146", "title": "Chunked text generation shows the model's answer, complete and once", "statement": "Advancing a ChunkGenerator iterator to its end yields chunks whose texts, in order, are the text of the tokens the model samples, up to the first EOS or max_new_tokens, without the EOS; only the last chunk is finished and carries the token count; the first chunk comes after at most three tokens and the others after chunk_size tokens; no character is lost because its bytes are spread over tokens.", "quantifier": "every sequence of sampled tokens, vocabulary, EOS set, chunk size and limit", "why_tests_cant": "which tokens a model samples and where chunk borders fall is unbounded; multi-byte characters meet the borders rarely", "anchors": ["mllm/models/minicpm_o2_6/llm_chunk_generation.hpp:generate_next_chunk", "mllm/models/minicpm_o2_6/llm_chunk_generation.hpp:check_incomplete_tokens"]}
{"id": "C147", "title": "The documented for loops deliver every chunk and all audio", "statement": "A range-based for loop over a ChunkGenerator visits exactly the generated chunks; over a StreamingGenerator it visits every output, including the one with the last piece of audio.", "quantifier": "every token sequence, answer length, speech length and configuration", "why_tests_cant": "the loss is silent: the text merely ends early and the audio is merely short", "anchors": ["mllm/models/minicpm_o2_6/llm_chunk_generation.hpp:Iterator", "mllm/models/minicpm_o2_6/streaming_generation.hpp:Iterator", "mllm/models/minicpm_o2_6/streaming_generation.cpp:generate_next"]}
{"id": "C148", "title": "Streaming generation shows the whole answer, within the configured limit, and ends", "statement": "The texts of the visited outputs of a StreamingGenerator are the model's answer up to max_new_tokens, cut at <|tts_eos|>, with or without audio, and the loop ends.", "quantifier": "every token sequence, configuration, speech model behaviour and speech length", "why_tests_cant": "depends on how the lengths of text and speech relate, which no finite set of prompts covers", "anchors": ["mllm/models/minicpm_o2_6/streaming_generation.cpp:generate_next", "mllm/models/minicpm_o2_6/streaming_generation.hpp:StreamingGenerator"]}
{"id": "C149", "title": "The speech model reads exactly the text", "statement": "When the speech model samples the audio of a call, the text positions it may look at hold the start marker, the speaker, the tokens of the text so far in order, and the end marker.", "quantifier": "every answer, tokenizer and number of calls", "why_tests_cant": "it depends on how many speech tokens each text chunk gives; a wrong token is only heard", "anchors": ["mllm/models/minicpm_o2_6/streaming_generation.cpp:generate_next", "mllm/models/minicpm_o2_6/streaming_generation.cpp:prepare_tts_text"]}
{"id": "C15", "title": "Every allocation request terminates with memory or an error", "statement": "A request to the pool either returns a block or reports failure after finitely many steps; an allocation failure of the OS is reported.", "quantifier": "every request size and every OS allocation outcome", "why_tests_cant": "the diverging sizes are beyond what a test machine can allocate", "anchors": ["mllm/engine/BuddyMemPool.cpp:expandBuddySegment", "mllm/backends/cpu/CPUAllocator.cpp:generalAlloc"]}
{"id": "C150", "title": "The pieces of audio join without a seam", "statement": "If the waveforms decoded in the calls are windows of one signal overlapping by 2048 samples, the outputs joined in order are exactly that signal; for arbitrary waveforms the cross-fade keeps the length, leaves everything outside the overlap unchanged and blends the overlap with weights that add up to one.", "quantifier": "every signal, number of calls, window lengths of at least 4096 samples; for the cross-fade every pair of waveforms and overlap", "why_tests_cant": "sample values, lengths and the number of calls are unbounded", "anchors": ["mllm/models/minicpm_o2_6/streaming_generation.cpp:linear_overlap_add", "mllm/models/minicpm_o2_6/streaming_generation.cpp:generate_next"]}
{"id": "C151", "title": "Audio tokens look only at text the speech model has been given", "statement": "The streaming mask lets an audio token look only at text positions already written to the cache and not beyond the end marker, and at every earlier audio token.", "quantifier": "every call, audio token within it, text length and audio chunk size", "why_tests_cant": "unwritten positions hold zeros or old data and only degrade the audio; the borders depend on three chunk sizes", "anchors": ["mllm/models/minicpm_o2_6/modeling_chattts.hpp:makeStreamingChunkMask", "mllm/models/minicpm_o2_6/streaming_generation.cpp:build_streaming_mask"]}
{"id": "C152", "title": "Speech of any length stays within the cache", "statement": "No call of the streaming generator writes outside the speech model's cache; speech that does not stop by itself is ended at the limit.", "quantifier": "every behaviour of the speech model, in particular force_no_stop", "why_tests_cant": "needs speech that goes on for 29 calls; the write beyond the buffer need not crash", "anchors": ["mllm/models/minicpm_o2_6/streaming_generation.cpp:generate_next", "mllm/models/minicpm_o2_6/modeling_chattts.hpp:generate", "mllm/nn/lmcache/StaticCache.cpp:updateKVCache"]}
{"id": "C153", "title": "The quantized matmul assigns every tile of the weight to exactly one thread block", "statement": "For every problem and grid size the striped partition of gptq_marlin_gemm gives every tile of every column (and batch row block) to exactly one slice of exactly one thread block; each block's idea of how many blocks share a column and how many come after it is true; blocks sharing a column and only they use the same lock; locks and partial sums stay inside the workspace and the scratch buffer; no scale group is split when groups divide a column.", "quantifier": "every number of tiles, columns, row blocks, thread blocks and group span", "why_tests_cant": "the partition depends on the remainders of four unbounded sizes and the number of multiprocessors of the device", "anchors": ["mllm-kernel/mllm_kernel/cuda/csrc/gemm/marlin/marlin_template.h:Marlin", "mllm-kernel/mllm_kernel/cuda/csrc/gemm/marlin/marlin_template.h:init_slice"]}
{"id": "C154", "title": "The reduction across thread blocks gives one fixed result and never deadlocks", "statement": "Whatever the interleaving of the thread blocks, every column's result is the sum of the parts of all its slices in one fixed order, so the result does not depend on the schedule; in exact arithmetic it is the sum over all tiles; blocks never deadlock, every execution ends, at the end all locks are back at zero; no two blocks use the same scratch place at once. The atomic-add mode adds all tiles, whatever the output held before.", "quantifier": "every grid, every interleaving of the blocks' steps, every arithmetic, fp32 or 16-bit reduction, every workspace of zeros", "why_tests_cant": "interleavings of thread blocks on a GPU cannot be enumerated; a lost update or a stuck lock shows only under rare schedules", "anchors": ["mllm-kernel/mllm_kernel/cuda/csrc/gemm/marlin/marlin_template.h:barrier_acquire", "mllm-kernel/mllm_kernel/cuda/csrc/gemm/marlin/marlin_template.h:barrier_release", "mllm-kernel/mllm_kernel/cuda/csrc/gemm/marlin/marlin_template.h:wait_negative_and_add", "mllm-kernel/mllm_kernel/cuda/csrc/gemm/marlin/marlin_template.h:global_reduce_fp32"]}
{"id": "C155", "title": "A quantized layer that is accepted works for every batch size", "statement": "Every AWQ or compressed-tensors layer that create_weights accepts can be multiplied with every number of rows: the host loop ends, finds a kernel, covers every row exactly once with whole row blocks, the kernel fits the device's shared memory, and the scratch buffer is large enough; unsupported shapes are rejected with an error.", "quantifier": "every weight shape, group size, number of rows, device memory size", "why_tests_cant": "batch sizes, shapes and devices are unbounded", "anchors": ["mllm-kernel/mllm_kernel/cuda/csrc/gemm/marlin/gptq_marlin.cuh:marlin_mm", "mllm-kernel/mllm_kernel/cuda/csrc/gemm/marlin/gptq_marlin.cuh:determine_exec_config", "mllm-kernel/mllm_kernel/cuda/jit/gptq_marlin.py:gptq_marlin_gemm", "pymllm/quantization/methods/awq_marlin.py:create_weights", "pymllm/quantization/methods/compressed_tensors.py:create_weights"]}
{"id": "C156", "title": "Repacking a quantized weight keeps every value and puts it where the tensor-core fragments read it", "statement": "After awq_marlin_repack or gptq_marlin_repack (with or without a row permutation) every word of the output is written exactly once, and for every row k and column n of the weight the bits of value (k,n) sit in the word and bit field that the matrix-multiply fragment layout assigns to (k,n), whatever the number of thread blocks, the order of their writes and the earlier contents of the output and of shared memory; the staging pipeline hands every thread the tile it asks for.", "quantifier": "every weight, K multiple of 16, N multiple of 64, 4 and 8 bits, every grid size, every order of writes, every timing of asynchronous copies", "why_tests_cant": "the layout is a permutation of unbounded matrices, and the pipeline's correctness depends on the timing of asynchronous copies and on which warp runs ahead", "anchors": ["mllm-kernel/mllm_kernel/cuda/csrc/gemm/marlin/awq_marlin_repack.cuh:awq_marlin_repack_kernel", "mllm-kernel/mllm_kernel/cuda/csrc/gemm/marlin/gptq_marlin_repack.cuh:gptq_marlin_repack_kernel"]}
{"id": "C157", "title": "The matmul pipeline multiplies every tile with its own weights, scales and zero points", "statement": "Whatever the timing of asynchronous copies and warps, the values a thread uses for a tile are the weights, scales and zero points of that tile.", "quantifier": "every number of tiles, every assignment of words to threads, every interleaving of issue, landing and reading", "why_tests_cant": "the interleavings of asynchronous copies and warps cannot be enumerated, and a race shows rarely", "anchors": ["mllm-kernel/mllm_kernel/cuda/csrc/gemm/marlin/marlin_template.h:fetch_to_shared", "mllm-kernel/mllm_kernel/cuda/csrc/gemm/marlin/marlin_template.h:fetch_scales_to_registers", "mllm-kernel/mllm_kernel/cuda/csrc/gemm/marlin/marlin_template.h:fetch_zp_to_registers", "mllm-kernel/mllm_kernel/cuda/csrc/gemm/marlin/marlin_template.h:wait_for_stage"]}
{"id": "C158", "title": "Every tensor-core operand is the dequantised weight of its row and column, with one rounding", "statement": "For every quantised layer with groups that was loaded through the repacking of weights, scales and zero points, every register of every thread of gptq_marlin_gemm holds (stored value - zero point or bias) * scale, where row, column, scale group and zero point are those of the register's place in the tensor-core operand layout; the difference is exact whatever the device's rounding, so there is only the rounding of one multiplication. The registers of a thread block cover its tile exactly once. In layers with one scale per column the scale applied to a result is the one of its column.", "quantifier": "every weight, scale, zero point, shape, tile, thread and register; every rounding behaviour of the device that is exact on representable results; every kernel shape; fp16 (4 and 8 bits) and bfloat16 (4 bits)", "why_tests_cant": "three independent permutations and a bit-level trick must agree for every element of unbounded matrices and all 2^32 words", "anchors": ["mllm-kernel/mllm_kernel/cuda/csrc/gemm/marlin/dequant.h:dequant", "mllm-kernel/mllm_kernel/cuda/csrc/gemm/marlin/marlin_template.h:matmul", "mllm-kernel/mllm_kernel/cuda/csrc/gemm/marlin/marlin_template.h:fetch_to_registers", "mllm-kernel/mllm_kernel/cuda/csrc/gemm/marlin/marlin_template.h:fetch_scales_to_registers", "mllm-kernel/mllm_kernel/cuda/csrc/gemm/marlin/marlin_template.h:fetch_zp_to_registers", "pymllm/quantization/methods/awq_marlin.py:marlin_permute_scales", "pymllm/quantization/methods/awq_marlin.py:awq_to_marlin_zero_points", "pymllm/quantization/methods/compressed_tensors.py:marlin_permute_scales"]}
{"id": "C159", "title": "The output of the Marlin GEMM is the product of the activations and the dequantised weights", "statement": "In exact arithmetic, for every kernel shape and every partition of the matrix over thread blocks: the activations reach the tensor-core operands through the swizzled shared memory, every product is added in exactly one warp of one block, the reduction over rows of warps and the reduction over blocks lose and double nothing, and each existing row and column of the output receives the sum over all k of activation times dequantised weight. Cells of rows or columns outside the tile are not touched.", "quantifier": "every activation and weight over a commutative ring, every shape and number of blocks, every interleaving of blocks and order of copies, every previous content of shared memory and output", "why_tests_cant": "the routing of every element through registers, lanes, warps, stages and locks must be right for unbounded matrices and all schedules", "anchors": ["mllm-kernel/mllm_kernel/cuda/csrc/gemm/marlin/marlin_template.h:transform_a", "mllm-kernel/mllm_kernel/cuda/csrc/gemm/marlin/marlin_template.h:fetch_to_shared", "mllm-kernel/mllm_kernel/cuda/csrc/gemm/marlin/marlin_template.h:fetch_to_registers", "mllm-kernel/mllm_kernel/cuda/csrc/gemm/marlin/marlin_template.h:matmul", "mllm-kernel/mllm_kernel/cuda/csrc/gemm/marlin/marlin_template.h:thread_block_reduce", "mllm-kernel/mllm_kernel/cuda/csrc/gemm/marlin/marlin_template.h:write_result"]}
{"id": "C16", "title": "Parameter file V2 round-trip", "statement": "Writing a set of named tensors with ParameterFile V2 and reading the file back yields the same names, dtypes, shapes and bytes.", "quantifier": "every set of parameters with distinct names", "why_tests_cant": "all names, shapes, byte contents and numbers of parameters; layout arithmetic", "anchors": ["mllm/core/ParameterFile.cpp", "mllm/core/schema/ModelFileV2.hpp"]}
{"id": "C160", "title": "Slicing an image for MiniCPM-o keeps every pixel, and every patch lands where the model reads it", "statement": "Preparing an image yields one thumbnail and, when a grid is chosen, one slice per grid cell: the grid has at least two and at most max_slice_nums cells and is the one with the smallest error among those allowed; every side of every image is a positive multiple of the patch size; pixel (X, Y) of the resized image is pixel (X mod bw, Y mod bh) of slice number (Y / bh) * columns + X / bw. In the tensor given to the vision tower, the values of image i are its normalised pixels, patch after patch, followed by zeros up to the width of the widest image.", "quantifier": "every image, image size, patch size, slice limit, and every result of the floating-point computations in between", "why_tests_cant": "image sizes, grids and rounding results are unbounded; an index slip shows only for particular aspect ratios", "anchors": ["mllm/models/minicpm_o2_6/image_preprocessor_minicpmo.hpp:get_sliced_grid", "mllm/models/minicpm_o2_6/image_preprocessor_minicpmo.hpp:slice_image", "mllm/models/minicpm_o2_6/image_preprocessor_minicpmo.hpp:split_to_patches", "mllm/models/minicpm_o2_6/image_preprocessor_minicpmo.hpp:crop_image", "mllm/models/minicpm_o2_6/image_preprocessor_minicpmo.hpp:reshape_by_patch", "mllm/models/minicpm_o2_6/tokenization_minicpmo.hpp:convertToTensors"]}
{"id": "C161", "title": "The embeddings of an image fill exactly its placeholder slots", "statement": "The image tag of the chat message is replaced by the placeholder of the image without losing text; the number of slots equals the number of image embeddings; slot k receives embedding k mod q of image k / q, in order; no other position of the prompt changes.", "quantifier": "every message, every text before and after the image, every grid, every number of query slots", "why_tests_cant": "the text is chosen by the user and the grid by the image; the claim is for all of them", "anchors": ["mllm/models/minicpm_o2_6/tokenization_minicpmo.hpp:convertMessage", "mllm/models/minicpm_o2_6/image_preprocessor_minicpmo.hpp:calc_bounds", "mllm/models/minicpm_o2_6/image_preprocessor_minicpmo.hpp:get_slice_image_placeholder", "mllm/models/minicpm_o2_6/image_preprocessor_minicpmo.hpp:get_grid_placeholder", "mllm/models/minicpm_o2_6/modeling_minicpmo.hpp:merge_vision_text_embeddings"]}
{"id": "C162", "title": "Processes that slice images at the same time do not see each other's slices", "statement": "Every slice a process cuts from its image is read back as it was written, whatever other processes on the machine do, and no process ends because its temporary file is gone.", "quantifier": "every number of processes, every image, every interleaving of writing, opening and removing the temporary files", "why_tests_cant": "the interference depends on the interleaving of processes", "anchors": ["mllm/models/minicpm_o2_6/image_preprocessor_minicpmo.hpp:crop_image"]}
{"id": "C163", "title": "The embeddings of an audio fill exactly its placeholder slots", "statement": "The number of slots inserted for an audio is the number of embeddings the encoder yields for it; slot x receives embedding x; no other position of the prompt changes; the encoder reads no position embedding that does not exist.", "quantifier": "every length of audio, every text around it, every embedding", "why_tests_cant": "the lengths go through four different roundings; the claim is for every length", "anchors": ["mllm/models/minicpm_o2_6/audio_preprocessor_minicpmo.hpp:getAudioPlaceholder", "mllm/models/minicpm_o2_6/audio_preprocessor_minicpmo.hpp:processAudioData", "mllm/models/minicpm_o2_6/audio_preprocessor_minicpmo.hpp:calcAudioBounds", "mllm/models/minicpm_o2_6/modeling_minicpmo.hpp:merge_audio_text_embeddings", "mllm/models/minicpm_o2_6/modeling_whisper_encoder.hpp:WhisperEncoder"]}
{"id": "C164", "title": "Packing low-bit values and unpacking them gives every value back", "statement": "For every width from one to eight bits and blocks of 32, 64 or 128 values, the packed block takes exactly width * count / 8 bytes, and unpacking those bytes yields every original value, unsigned or signed, whatever follows them in memory.", "quantifier": "every width, block size, and every block of values in the range of the width", "why_tests_cant": "a block of 128 values has too many contents to enumerate; a bit slip may show only for particular values", "anchors": ["mllm/backends/cpu/kernels/arm/quantize/bitspack/u1.hpp", "mllm/backends/cpu/kernels/arm/quantize/bitspack/u2.hpp", "mllm/backends/cpu/kernels/arm/quantize/bitspack/u3.hpp", "mllm/backends/cpu/kernels/arm/quantize/bitspack/u4.hpp", "mllm/backends/cpu/kernels/arm/quantize/bitspack/u5.hpp", "mllm/backends/cpu/kernels/arm/quantize/bitspack/u6.hpp", "mllm/backends/cpu/kernels/arm/quantize/bitspack/u7.hpp", "mllm/backends/cpu/kernels/arm/quantize/bitspack/ux.hpp:vec_pack_128_lowbit_values", "mllm/backends/cpu/kernels/arm/quantize/bitspack/ux.hpp:vec_unpack_128_lowbit_values"]}
{"id": "C165", "title": "Packed weights take the announced space, tiles lie at the announced offsets, and unpacking restores the matrix", "statement": "Packing a weight matrix writes exactly the number of bytes the size function announces; the tile of columns starting at a multiple of the tile width begins at the offset the offset function gives; unpacking restores every weight, scale, zero and bias and writes nothing else.", "quantifier": "every matrix size, also column counts that are no multiple of the tile, every group size, width, with or without zeros, bias and lookup table", "why_tests_cant": "sizes and contents are unbounded; the last, partly filled tile differs for each size", "anchors": ["mllm/backends/cpu/kernels/arm/quantize/bitspack/bitspack.hpp:pack_weights_impl", "mllm/backends/cpu/kernels/arm/quantize/bitspack/bitspack.hpp:packed_weights_size", "mllm/backends/cpu/kernels/arm/quantize/bitspack/bitspack.hpp:packed_weights_with_lut_size", "mllm/backends/cpu/kernels/arm/quantize/bitspack/bitspack.hpp:unpack_weights", "mllm/backends/cpu/kernels/arm/quantize/bitspack/ux_packing.hpp:pack_values", "mllm/backends/cpu/kernels/arm/mllm_blas/mllm_blas_i8gemm.hpp:packed_weights_offset", "mllm/backends/cpu/kernels/arm/mllm_blas/mllm_blas_i8gemm.hpp:packed_weights_with_lut_offset"]}
{"id": "C166", "title": "The kernels on packed weights compute the dequantised product", "statement": "Given packed activations and packed weights, the kernels store at row i and column j of the output the sum over k of (activation scale * (q - zero)) * (weight scale * (w - zero)), plus the bias, clamped if asked; they store nothing outside the n columns of each row; integer sums do not overflow for groups of up to 33025 values.", "quantifier": "every number of rows and columns, every depth that is a multiple of the group, every width, tile shape, lookup table, zeros, bias and clamp, wherever the operands are in memory", "why_tests_cant": "the claim ranges over all sizes and contents; remainders of columns take separate store paths", "anchors": ["mllm/backends/cpu/kernels/arm/mllm_blas/mllm_blas_i8gemm_bitspack_1x8x16_fp32_neondot.hpp", "mllm/backends/cpu/kernels/arm/mllm_blas/mllm_blas_i8gemm_bitspack_1x4x16_fp32_neondot.hpp", "mllm/backends/cpu/kernels/arm/mllm_blas/mllm_blas_i8gemm_bitspack_1x1x32_fp32_neondot.hpp", "mllm/backends/cpu/kernels/arm/quantize/bitspack/bitspack.hpp:pack_activations"]}
{"id": "C167", "title": "Quantised activations read back within half a step", "statement": "For each row of activations the extremes found are the true extremes, every position is quantised and stored exactly once, and scale * (q - zero) differs from the original value by at most half of the scale (plus 255e-16 for the constant in the divisor).", "quantifier": "every row length and every row of values", "why_tests_cant": "rows are real-valued and of any length; the failing rows are those whose values all have one sign, or are all equal", "anchors": ["mllm/backends/cpu/kernels/arm/quantize/bitspack/bitspack.cpp:find_min_and_max", "mllm/backends/cpu/kernels/arm/quantize/bitspack/bitspack.cpp:get_scale_and_zero", "mllm/backends/cpu/kernels/arm/quantize/bitspack/bitspack.cpp:quantize", "mllm/backends/cpu/kernels/arm/quantize/bitspack/bitspack.hpp:pack_activations"]}
{"id": "C168", "title": "Image transforms produce exactly the stated geometry and values", "statement": "A crop has the size of its box and shows the source pixel at each place, black outside; a centre crop has margins that differ by at most one pixel; padding keeps the aspect ratio up to half a pixel, puts the picture in the middle and fills the rest with the given colour; resizing by the shorter side gives that side the asked length; the tensor is channel-first with values divided by 255, and normalising maps each value v of a channel to (v - mean) / std and touches nothing else.", "quantifier": "every image size and content, every crop box (also outside the image), target size and colour", "why_tests_cant": "sizes and boxes are unbounded; off-by-one margins depend on parities and on the sign of the offset", "anchors": ["mllm/preprocessor/visual/Image.cpp:crop", "mllm/preprocessor/visual/Image.cpp:pad", "mllm/preprocessor/visual/Image.cpp:tensor", "mllm/preprocessor/visual/ImageTransform.cpp"]}
{"id": "C169", "title": "Large images are tiled by the grid closest in aspect ratio, without gaps or overlaps", "statement": "The grid chosen has between the smallest and largest number of cells, no other candidate's aspect ratio is closer to the image's, and among equally close ones it is the largest whose half area the image exceeds; it does not depend on how equal candidates are ordered. There is one tile per cell, each of the asked size, and every pixel of the resized image is in exactly the tile of its cell; a thumbnail comes last.", "quantifier": "every image size, tile size and candidate limits, every order std::sort may produce", "why_tests_cant": "image sizes are unbounded; ties and the order of equal elements are up to the library", "anchors": ["mllm/models/deepseek_ocr/conversation_preprocess.hpp:findClosestAspectRatio", "mllm/models/deepseek_ocr/conversation_preprocess.hpp:dynamicPreprocess"]}
{"id": "C17", "title": "Parameter file V1 round-trip", "statement": "Writing named tensors with ParameterFile V1 and reading the file back yields the same names, dtypes and bytes.", "quantifier": "every set of parameters", "why_tests_cant": "same as C16; the writer sizes the descriptor section from a different name than the one it writes", "anchors": ["mllm/core/ParameterFile.cpp", "mllm/core/schema/ModelFileV1.hpp"]}
{"id": "C170", "title": "The prompt has one slot per image feature, in the order of the features", "statement": "The prompt is begin-of-sentence, the text before the image tag, the image slots, the text after it; tokens and mask have equal length and the mask selects exactly the slots. The features are the rows of the tiled image top to bottom with a newline after each, the rows of the whole image likewise, then the separator; row Y and column X of the tiled image come from the tile and cell at that place. There are as many slots as features.", "quantifier": "every prompt, tokenizer, image size, grid, tile size and base size", "why_tests_cant": "counts must agree for every grid and size; a mismatch shifts or drops image features only for particular sizes or contents", "anchors": ["mllm/models/deepseek_ocr/modeling_deepseek_ocr.hpp:DeepseekOCRModel::forward", "mllm/models/deepseek_ocr/modeling_deepseek_ocr.hpp:DeepseekOCRForCausalLM::infer", "mllm/models/deepseek_ocr/modeling_deepseek_ocr_service.hpp:streamGenerate", "mllm/models/deepseek_ocr/deepencoder.hpp:ImageEncoderViT", "mllm/utils/StringHelper.hpp:splitString"]}
{"id": "C171", "title": "Conversation templates render every message once, in order, with the right role and separators", "statement": "The plain template joins the trimmed contents; the DeepSeek template renders system message, each question and answer with its role and separator, and ends with the role that has to answer; the chat export alternates user and assistant and leaves out an open answer; trimming removes exactly the white space at both ends; templates can be looked up after initialisation, also when initialised again.", "quantifier": "every conversation of any number of turns, every system message and content", "why_tests_cant": "conversations are unbounded; separators alternate with the position", "anchors": ["mllm/models/deepseek_ocr/conversation_preprocess.hpp:Conversation", "mllm/models/deepseek_ocr/conversation_preprocess.hpp:formatMessages", "mllm/models/deepseek_ocr/conversation_preprocess.hpp:initializeTemplates"]}
{"id": "C172", "title": "The fast Fourier transforms compute the discrete Fourier transform", "statement": "For every length the transform of a signal is the sum of x[i] * exp(-2 pi I i k / n), the inverse the sum with the opposite sign divided by n; lengths that are powers of two and all others give the same transform; the inverse of the transform is the signal; missing samples count as zero.", "quantifier": "every length, every real or complex signal, every frequency", "why_tests_cant": "the algorithms differ by length (bit reversal, butterflies, chirp convolution) and the claim is for all lengths and all signals", "anchors": ["mllm/backends/cpu/ops/STFTOp.cpp:fftRadix2", "mllm/backends/cpu/ops/STFTOp.cpp:fftRadix2Complex", "mllm/backends/cpu/ops/STFTOp.cpp:fftBluestein", "mllm/backends/cpu/ops/STFTOp.cpp:bitReverse", "mllm/backends/cpu/ops/STFTOp.cpp:is_power_of_2"]}
{"id": "C173", "title": "The short-time transform covers the signal frame by frame, and its inverse gives the signal back", "statement": "There is one frame for every position f*hop at which a window fits into the padded signal; each value is the transform of the windowed frame; each row of a batch is transformed; padding mirrors or is zero and reads only samples of the row. Synthesis of the analysis returns the signal wherever the windows do not vanish, and every sample of the output is defined.", "quantifier": "every signal length, window, hop, transform length, batch, padding mode", "why_tests_cant": "all lengths and parities of the parameters; every sample of every signal", "anchors": ["mllm/backends/cpu/ops/STFTOp.cpp:padSignal", "mllm/backends/cpu/ops/STFTOp.cpp:CPUSTFTOp::forward", "mllm/backends/cpu/ops/STFTOp.cpp:CPUISTFTOp::forward", "mllm/core/aops/STFTOp.cpp:reshape", "mllm/core/aops/ISTFTOp.cpp:reshape"]}
{"id": "C174", "title": "Mel features are the normalised triangular filterbank, logarithm and compression of the spectrum", "statement": "The mel and hertz scales are inverse and increasing; the filters' corners start and end at the given frequencies and increase; a filter is zero outside its corners, linear between them, neighbouring filters add up to one between their centres and all enclose the same area; the features keep the order of the energies, lie in a range of width two, and are computed from exactly the configured number of samples; the analysis window is the periodic Hann window.", "quantifier": "every frequency, filter count, sampling rate, spectrum and length of audio", "why_tests_cant": "the statements range over real frequencies and all parameters", "anchors": ["mllm/models/minicpm_o2_6/audio_preprocessor_minicpmo.hpp:hertz_to_mel_slaney", "mllm/models/minicpm_o2_6/audio_preprocessor_minicpmo.hpp:mel_to_hertz_slaney", "mllm/models/minicpm_o2_6/audio_preprocessor_minicpmo.hpp:create_hann_window", "mllm/models/minicpm_o2_6/audio_preprocessor_minicpmo.hpp:create_mel_filterbank", "mllm/models/minicpm_o2_6/audio_preprocessor_minicpmo.hpp:MelSpectrogramFeatures::forward", "mllm/models/minicpm_o2_6/audio_preprocessor_minicpmo.hpp:MiniCPMOAudioProcessor::processAudioData"]}
{"id": "C175", "title": "The audio-token sampler keeps the likeliest tokens and draws from what remains", "statement": "Top-k filtering keeps a token exactly when fewer than max(k, 3) tokens have a larger score; top-p filtering keeps a prefix of the tokens in descending order, at least three, just enough to exceed the probability; a masked end token is never drawn, nor any removed token; token t is drawn exactly for the random numbers in its interval of the cumulated probabilities.", "quantifier": "every row of scores, k, p, step, and random number", "why_tests_cant": "the statements are about every row of real scores and every random number", "anchors": ["mllm/models/minicpm_o2_6/modeling_chattts.hpp:applyTopKWarper", "mllm/models/minicpm_o2_6/modeling_chattts.hpp:applyTopPWarper", "mllm/models/minicpm_o2_6/modeling_chattts.hpp:multinomialSample", "mllm/models/minicpm_o2_6/modeling_chattts.hpp:generate"]}
{"id": "C176", "title": "Audio files are mixed to one channel, resampled to the asked rate and cut into clips", "statement": "At the asked rate the result is the mean of the channels. Otherwise there are ceil(rate * samples / fileRate) samples, each the mean over the channels of the band-limited interpolation of the whole channel at that sample's time; every read is inside the padded channel. Recordings of at least two seconds give three clips of two seconds, at the start, the middle and the end, reading only samples of the recording.", "quantifier": "every sampling rate, number of channels and samples, signal", "why_tests_cant": "all rates and lengths; every sample", "anchors": ["mllm/preprocessor/audio/Audio.cpp:resample", "mllm/preprocessor/audio/Audio.cpp:get_wav_data", "mllm/preprocessor/audio/Audio.cpp:toMono", "mllm/preprocessor/audio/Audio.cpp:clip_sampler", "mllm/preprocessor/audio/Audio.cpp:get_clip_timepoints", "mllm/preprocessor/audio/Audio.cpp:waveClip", "mllm/preprocessor/audio/Audio.cpp:readWAV", "mllm/preprocessor/audio/Audio.cpp:processWAV"]}
{"id": "C177", "title": "Lazily pruned visual tokens: what is attended to has been computed", "statement": "With visual tokens pruned layer by layer and computed late when they are chosen again: whenever an attention reads a position, in the first call or in any later one, the key and value of exactly that token are there; pruning keeps every text token, the order, and the share of the visual tokens that the rate says, rounded up.", "quantifier": "every number of layers, pruning layers and rates, image position, result of top-k, and number of later calls", "why_tests_cant": "which tokens are kept depends on attention scores; the claim is about all choices in all calls", "anchors": ["algorithms/lazy_vlm/models/qwen2_5vl/modeling_qwen2_5vl_fast.hpp:mappingThis2NextPos", "algorithms/lazy_vlm/models/qwen2_5vl/modeling_qwen2_5vl_fast.hpp:forward_lazy_vlm_prefill", "algorithms/lazy_vlm/models/qwen2_5vl/modeling_qwen2_5vl_fast.hpp:forward_lazy_vlm_decode", "algorithms/lazy_vlm/models/qwen2_5vl/lazy_vlm_cfg_fast.hpp:select_high_score_visual_token_prefill", "algorithms/lazy_vlm/models/qwen2_5vl/lazy_vlm_cfg_fast.hpp:select_high_score_visual_token_decode", "algorithms/lazy_vlm/HKVCacheFast.cpp:updateKVCache", "algorithms/lazy_vlm/HKVCacheFast.cpp:updateHiddenStateCache", "algorithms/lazy_vlm/HKVCacheFast.cpp:visitHiddenStateCache"]}
{"id": "C178", "title": "Created tensors hold the values asked for", "statement": "A tensor created with a value holds it in every element. `arange` yields the start, then step by step all the values before the end. Random numbers lie between the ends given, do not repeat within a tensor, and are the same for the same seed only.", "quantifier": "every length, vector width, start, end and step, seed and element", "why_tests_cant": "tests look at a few lengths, steps and seeds; the period of the generator is 2^31", "anchors": ["mllm/core/Tensor.cpp:arange", "mllm/core/Tensor.cpp:random", "mllm/backends/cpu/kernels/common/fill-inl.hpp:fill_arange_impl", "mllm/backends/cpu/kernels/common/fill-inl.hpp:fill_random_impl", "mllm/backends/cpu/kernels/common/fill-inl.hpp:fill_value_impl", "mllm/backends/cpu/kernels/arm/fill.cpp:fill_arange", "mllm/backends/cpu/kernels/arm/fill.cpp:fill_random", "mllm/backends/cpu/ops/FillOp.cpp:forward"]}
{"id": "C179", "title": "Scattering a tensor into shards copies every element once to its place", "statement": "Scattering a tensor along a dimension copies each element to the shard numbered by its index in that dimension, at the place of its other indices, and writes nothing else.", "quantifier": "every shape, dimension and element", "why_tests_cant": "shapes and dimensions are unbounded", "anchors": ["mllm/backends/cpu/ops/Scatter2ShardsOp.cpp:forward"]}
{"id": "C18", "title": "view/reshape keep every element in row-major order", "statement": "view and reshape return a tensor with the same number of elements, in the same row-major order, sharing storage when the input is contiguous; a -1 dimension is inferred so that the element count is preserved.", "quantifier": "every shape, rank, and index", "why_tests_cant": "all ranks and shapes", "anchors": ["mllm/core/TensorViewImpl.cpp", "mllm/core/aops/ViewOp.cpp", "mllm/core/aops/ReshapeOp.cpp"]}
{"id": "C180", "title": "Casts and comparisons produce every element", "statement": "A cast yields a tensor whose elements are the converted elements of the source, however many threads work on it; a comparison yields for every element whether the paired elements are equal.", "quantifier": "every length, vector width and order of the blocks; every pair of shapes", "why_tests_cant": "the claim is about all schedules, lengths and shapes", "anchors": ["mllm/backends/cpu/ops/CastTypeOp.cpp:forward", "mllm/backends/cpu/kernels/arm/cast_types.cpp:int8_2_fp16", "mllm/backends/cpu/kernels/arm/cast_types.cpp:int8_2_fp32", "mllm/backends/cpu/ops/CmpOp.cpp:forward", "mllm/core/aops/CmpOp.cpp:reshape"]}
{"id": "C181", "title": "Codebook indices and codes correspond one to one", "statement": "Every index of the codebook has codes of its own, between -1 and 1, from which the index is found again; codes on the levels have an index in the codebook, from which the codes are found again; and quantizing a value yields the index of the nearest codes.", "quantifier": "every number of dimensions and of levels, index, code and input value, wherever in the tensor", "why_tests_cant": "level lists and inputs are unbounded; tests use one codebook", "anchors": ["mllm/models/minicpm_o2_6/modeling_vector_quantize.hpp:indicesToCodes", "mllm/models/minicpm_o2_6/modeling_vector_quantize.hpp:codesToIndices", "mllm/models/minicpm_o2_6/modeling_vector_quantize.hpp:indicesToLevelIndices", "mllm/models/minicpm_o2_6/modeling_vector_quantize.hpp:create_basis_tensor", "mllm/models/minicpm_o2_6/modeling_vector_quantize.hpp:scaleAndShift", "mllm/models/minicpm_o2_6/modeling_vector_quantize.hpp:scaleAndShiftInverse", "mllm/models/minicpm_o2_6/modeling_vector_quantize.hpp:quantize", "mllm/models/minicpm_o2_6/modeling_vector_quantize.hpp:bound"]}
{"id": "C182", "title": "Audio tokens decode to the sum of their codewords", "statement": "The feature vector decoded from the tokens of all quantizers is the sum of their codewords, scaled by quantizer, group by group, time by time and batch by batch; different tokens have different features; when encoding, the terms and what is left add up to the input.", "quantifier": "every codebook, number of quantizers, groups, rows, times and batches, every token", "why_tests_cant": "token sequences and shapes are unbounded; one token behaves unlike the rest", "anchors": ["mllm/models/minicpm_o2_6/modeling_vector_quantize.hpp:getCodesFromIndices", "mllm/models/minicpm_o2_6/modeling_vector_quantize.hpp:getOutputFromIndices", "mllm/models/minicpm_o2_6/modeling_vector_quantize.hpp:getCodebooks", "mllm/models/minicpm_o2_6/modeling_dvae.hpp:embed", "mllm/models/minicpm_o2_6/modeling_vector_quantize.hpp:ResidualFSQ"]}
{"id": "C183", "title": "ChatTTS tokenizer: text survives encoding and decoding", "statement": "Decoding the identifiers of a text gives its words with single spaces between them, so that apart from white space and control characters (and lower-casing) nothing is lost or added; special tokens are left out; every token comes back from its identifier; the token types fit the inputs built.", "quantifier": "every text, vocabulary, configuration and set of special tokens", "why_tests_cant": "texts and vocabularies are unbounded", "anchors": ["mllm/models/minicpm_o2_6/tokenization_chattts.cpp:encode", "mllm/models/minicpm_o2_6/tokenization_chattts.cpp:decode", "mllm/models/minicpm_o2_6/tokenization_chattts.cpp:detokenize", "mllm/models/minicpm_o2_6/tokenization_chattts.cpp:build_inputs_with_special_tokens", "mllm/models/minicpm_o2_6/tokenization_chattts.cpp:create_token_type_ids_from_sequences", "mllm/preprocessor/tokenizers/WordPiece.cpp:token2id", "mllm/preprocessor/tokenizers/WordPiece.cpp:id2token"]}
{"id": "C184", "title": "Multi-dimensional rotary embedding: one meaning, two implementations", "statement": "pymllm's apply_mrope turns pair j of every query and key head by the cosine and sine of the token's position in the one dimension (t, h or w) that the layout and the sections assign to j, keeps the rest, and raises exactly when consecutive sections do not add up; the fused in-place kernel stores the same numbers for every token and head whatever the program order; tokens with equal positions are turned like text; lengths are kept and query-key products depend only on the differences of positions; the kernel reads only rows of the cache.", "quantifier": "every number of tokens and heads, head size, even rotary size, layout, sections, positions, tensors and order of the programs", "why_tests_cant": "The layouts differ only at boundaries of sections and residues mod 3 and the out-of-range read happens only for padded head sizes at the last position.", "anchors": ["pymllm/layers/rope.py: apply_mrope, _triton_mrope_forward_fused, apply_mrope_fused_", "pymllm/models/qwen3_vl.py: _build_cos_sin_cache"]}
{"id": "C185", "title": "pymllm multimodal positions: what every token of a prompt gets", "statement": "For every prompt of text and images the three-dimensional positions computed in the server are: consecutive equal positions for text and image-start tokens; frame, row and column offsets for image patches; after an image, the position past its longest side. Everything later has larger positions than everything earlier, and no two tokens share all three.", "quantifier": "every sequence of tokens and images, grid sizes, merge size, start position, both models", "why_tests_cant": "prompts mix unboundedly many images of unbounded sizes", "anchors": ["pymllm/models/qwen3_vl.py: get_rope_index, Qwen3VLForConditionalGeneration.forward", "pymllm/models/qwen3_5.py: get_rope_index_qwen3_5, Qwen3_5ForConditionalGeneration.forward"]}
{"id": "C186", "title": "pymllm multimodal decoding goes on where the prompt stopped", "statement": "The position of each generated token, computed from the sequence length and the stored delta, is the one it would have as part of the prompt, and is larger than all positions of the prompt.", "quantifier": "every well-formed prompt, list of generated tokens and number of them, both models", "why_tests_cant": "the number of generated tokens and the images are unbounded", "anchors": ["pymllm/models/qwen3_vl.py: get_rope_index, Qwen3VLForConditionalGeneration.forward", "pymllm/models/qwen3_5.py: get_rope_index_qwen3_5, Qwen3_5ForConditionalGeneration.forward", "pymllm/executor/model_runner.py: prepare_forward_batch_decode"]}
{"id": "C187", "title": "pymllm multimodal batches: requests do not mix up their images", "statement": "In a batch each request gets the positions it would get alone, and a request cannot make the step fail for the others.", "quantifier": "every batch of requests with any number of images each", "why_tests_cant": "the assignment of grids to requests depends on all earlier requests of the batch", "anchors": ["pymllm/models/qwen3_vl.py: get_rope_index, Qwen3VLForConditionalGeneration.forward", "pymllm/models/qwen3_5.py: get_rope_index_qwen3_5, Qwen3_5ForConditionalGeneration.forward"]}
{"id": "C188", "title": "pymllm multimodal prompts and the prefix cache", "statement": "A prompt whose beginning is in the prefix cache gives the same positions for the rest, the same positions for generated tokens and the same image features as without the cache.", "quantifier": "every prompt, cached part, grid sizes, both models", "why_tests_cant": "depends on the history of earlier requests and where their prompts agree", "anchors": ["pymllm/models/qwen3_vl.py: get_rope_index, Qwen3VLForConditionalGeneration.forward", "pymllm/models/qwen3_5.py: get_rope_index_qwen3_5, Qwen3_5ForConditionalGeneration.forward", "pymllm/orchestrator/model_runner_process.py: _allocate_extend"]}
{"id": "C189", "title": "Vision encoder: one order of patches for rotary positions, position embeddings, merging and prompt positions", "statement": "For every batch of images and videos the rotary positions are the rows and columns of the patches in block order; every patch occurs exactly once; the merger joins exactly the patches of one block of one frame, and the merged tokens come in the order of the image's positions in the prompt; sizes the merge size does not divide raise.", "quantifier": "every list of grids, merge size", "why_tests_cant": "an error in one of three independent permutations shows only for particular shapes", "anchors": ["pymllm/models/qwen3_vl.py: Qwen3VLVisionModel._rot_pos_ids", "pymllm/models/qwen3_vl.py: Qwen3VLVisionModel.rot_pos_emb", "pymllm/models/qwen3_vl.py: Qwen3VLVisionModel._get_position_embedding", "pymllm/models/qwen3_vl.py: Qwen3VLVisionPatchMerger.forward"]}
{"id": "C19", "title": "Slicing addresses exactly the requested elements", "statement": "For in-range bounds element (i0,..,in) of t[start:end:step,...] is element (start0+i0*step0,...) of t, negative bounds count from the end, and the result shares the storage of t without leaving it.", "quantifier": "every shape, stride vector, slice index and element index", "why_tests_cant": "all ranks, strides, nested slices", "anchors": ["mllm/core/aops/SliceOp.cpp", "mllm/core/SlicePrimitives.hpp"]}
{"id": "C190", "title": "Vision encoder: position embeddings are interpolated from the table", "statement": "Every patch gets the bilinear interpolation of the learned table at the evenly spaced place of its row and column, from the first to the last entry; no index leaves the table; values stay in the table's range; an image of the table's size gets the table; linear tables are reproduced.", "quantifier": "every table, list of grids, merge size", "why_tests_cant": "indices are clipped only at the last row and column and depend on rounding of quotients for every size", "anchors": ["pymllm/models/qwen3_vl.py: Qwen3VLVisionModel.fast_pos_embed_interpolate", "pymllm/models/qwen3_vl.py: Qwen3VLVisionModel._calculate_indices_and_weights", "pymllm/models/qwen3_vl.py: Qwen3VLVisionModel._get_interpolation_indices", "pymllm/models/qwen3_vl.py: Qwen3VLVisionModel._get_position_embedding"]}
{"id": "C191", "title": "Vision encoder: attention stays within a frame", "statement": "The segment boundaries cut the patches of a batch into its frames: each segment has all patches of one frame of one image and nothing else, and the last boundary is the number of patches.", "quantifier": "every list of grids, merge size", "why_tests_cant": "batches mix unboundedly many images and frames", "anchors": ["pymllm/models/qwen3_vl.py: _compute_cu_seqlens_from_grid"]}
{"id": "C192", "title": "Storing keys and values writes exactly the given cache rows", "statement": "Storing a batch of keys and values at distinct slots leaves in each slot's row of both caches the given row, byte for byte, and every other byte as it was, for every row size, stride, number of warps per row and schedule of the threads; with the automatic choice every non-empty batch of rows of a multiple of four bytes is accepted; an empty batch is a no-op.", "quantifier": "every row size, stride, batch, split, slot assignment and interleaving of threads", "why_tests_cant": "an error in the split or vector arithmetic shows only for particular row sizes, a race only under particular schedules", "anchors": ["mllm-kernel/mllm_kernel/cuda/csrc/store_cache.cuh: store_kvcache", "mllm-kernel/mllm_kernel/cuda/csrc/store_cache.cuh: StoreKVCacheKernel::run", "mllm-kernel/mllm_kernel/cuda/jit/store_cache.py: store_cache"]}
{"id": "C193", "title": "The gated RMS norm kernel computes the norm under every schedule", "statement": "For every row width, epsilon, weight and optional gate, and every schedule of the block's warps, the kernel writes x / sqrt(mean(x\u00b2) + eps) \u00b7 w, times silu of the gate, to every column of its row and to no other cell; no schedule deadlocks; reads of the gate stay inside it.", "quantifier": "every row, width, gate, warp schedule and initial shared memory", "why_tests_cant": "a missing barrier or wrong stride shows only under some schedules and widths", "anchors": ["mllm-kernel/mllm_kernel/cuda/csrc/rms_norm_gated.cuh: rms_norm_gated_kernel", "mllm-kernel/mllm_kernel/cuda/csrc/rms_norm_gated.cuh: run"]}
{"id": "C194", "title": "The fused decode kernel is one step of the gated delta rule", "statement": "For every batch with distinct slots, every key and value dimension and head grouping and every schedule of the warps, the fused decode kernel replaces the matrix of each request's slot and head by the gated delta rule applied to it, writes no other cell of the pool, and outputs the new matrix applied to the normalised query; it agrees with the other decode and prefill backends.", "quantifier": "every batch, shape, input, slot assignment and warp schedule", "why_tests_cant": "a race on shared memory shows only under rare schedules, a wrong layout only for untested dimensions", "anchors": ["mllm-kernel/mllm_kernel/cuda/csrc/gdn_decode.cuh: gdn_decode_kernel", "mllm-kernel/mllm_kernel/cuda/csrc/gdn_decode.cuh: block_reduce_sum", "mllm-kernel/mllm_kernel/cuda/csrc/gdn_decode.cuh: block_reduce_bv", "mllm-kernel/mllm_kernel/cuda/csrc/gdn_decode.cuh: run", "mllm-kernel/mllm_kernel/cuda/jit/gdn_decode.py: gdn_decode"]}
{"id": "C195", "title": "Requests with images are answered from their own images", "statement": "Whatever was served before, the keys and values a request reuses from the prefix cache were computed for exactly the beginning of its own prompt, the pixels of its images included.", "quantifier": "every history of requests, matches, insertions, locks and evictions, every prompt with text and images", "why_tests_cant": "depends on the history of other requests; two requests must share words but not images", "anchors": ["pymllm/orchestrator/model_runner_process.py: _allocate_extend", "pymllm/orchestrator/model_runner_process.py: _insert_into_radix_cache", "pymllm/mem_cache/base_prefix_cache.py: RadixKey", "pymllm/orchestrator/tokenizer_process.py: _tokenize"]}
{"id": "C196", "title": "LongRoPE rotates one conversation consistently", "statement": "Through a whole MiniCPM4 generation the tokens have consecutive positions from 0, and the attention score of any two of them depends on their positions only through the distance; the long factors are used when the context exceeds the original length.", "quantifier": "every configuration, prompt length, number of generated tokens, pair of tokens, query and key", "why_tests_cant": "the factors differ only for prompts beyond the original context, and then only between passes", "anchors": ["mllm/models/minicpm4/modeling_minicpm4.hpp: makeRoPEInvFreqWithLongRoPE", "mllm/models/minicpm4/modeling_minicpm4.hpp: makeRotaryPosEmbedding", "mllm/models/minicpm4/modeling_minicpm4.hpp: MiniCPM4ForCausalLM::forward", "mllm/backends/cpu/ops/RoPEOp.cpp: CPURoPEOp"]}
{"id": "C20", "title": "permute/transpose are index permutations", "statement": "Element i of permute(t, axes) is element j of t with j[axes[k]] = i[k]; transposing twice is the identity; element count is preserved and every stored element is read exactly once.", "quantifier": "every shape and permutation", "why_tests_cant": "all ranks, permutations, shapes", "anchors": ["mllm/core/aops/PermuteOp.cpp", "mllm/core/aops/TransposeOp.cpp", "mllm/backends/cpu/ops/PermuteOp.cpp"]}
{"id": "C21", "title": "Static KV cache returns exactly the appended history", "statement": "After any sequence of updateKVCache calls on a layer (with total length within max_cache_length) the returned key and value tensors contain, for each query-head group, the concatenation of all appended tokens in order; other layers are unaffected.", "quantifier": "every sequence of updates, lengths, head counts and repeat factors", "why_tests_cant": "all histories, sizes and head groupings", "anchors": ["mllm/nn/lmcache/StaticCache.cpp"]}
{"id": "C22", "title": "KV cache never writes outside its buffer", "statement": "updateKVCache writes only inside the addressed head's region of the cache buffer, or reports an error if the cache is full.", "quantifier": "every sequence of updates of any length", "why_tests_cant": "overflow histories at every capacity", "anchors": ["mllm/nn/lmcache/StaticCache.cpp", "mllm/nn/lmcache/StaticCache.cpp:SubStaticCache"]}
{"id": "C23", "title": "BPE merging only concatenates", "statement": "The pieces returned by BPE for a word, concatenated, are the word; no listed merge applies to any adjacent pair of the result; the result is independent of merges that do not occur in the word; the procedure terminates.", "quantifier": "every word and every merge table", "why_tests_cant": "all words, all tables", "anchors": ["mllm/preprocessor/tokenizers/BPE.cpp"]}
{"id": "C24", "title": "Special-token splitting partitions the text", "statement": "Trie::split returns pieces whose concatenation is the text; the pieces that are special tokens are added tokens; at each match position the longest added token is taken.", "quantifier": "every text and every set of added tokens", "why_tests_cant": "all overlaps of tokens in all texts", "anchors": ["mllm/preprocessor/tokenizers/AutoTokenizer.cpp:Trie::split"]}
{"id": "C25", "title": "UTF-8 conversion round-trips", "statement": "utf8string2WideString(wideString2Utf8String(w)) = w for all strings of valid code points.", "quantifier": "every string of code points", "why_tests_cant": "1.1M code points and all strings", "anchors": ["mllm/preprocessor/tokenizers/Unicode.cpp"]}
{"id": "C26", "title": "Byte-to-unicode table is a bijection", "statement": "makeBytes2UnicodeMap assigns each of the 256 byte values a distinct code point, so that byte-level token text can be decoded uniquely.", "quantifier": "every byte string", "why_tests_cant": "all byte strings (the table itself is finite)", "anchors": ["mllm/preprocessor/tokenizers/Unicode.cpp:makeBytes2UnicodeMap"]}
{"id": "C27", "title": "WordPiece pieces spell the word", "statement": "wordpiece_tokenize returns for each word either vocabulary pieces whose concatenation (continuation prefix removed) is the word, each the longest available at its position, or only the unknown token.", "quantifier": "every text and vocabulary", "why_tests_cant": "all words and vocabularies", "anchors": ["mllm/preprocessor/tokenizers/WordPiece.cpp"]}
{"id": "C28", "title": "Symbolic shape expressions follow operator precedence", "statement": "Parsing a printed expression and evaluating it gives the value of the expression under usual arithmetic precedence and left associativity.", "quantifier": "every token sequence of an expression", "why_tests_cant": "all expression shapes and lengths", "anchors": ["mllm/compile/symbolic_expr/Parser.cpp"]}
{"id": "C29", "title": "Parallel loop executes every iteration exactly once", "statement": "Dispatching a loop (start, end, step) on the thread pool executes each iteration start, start+step, ... < end exactly once, for every thread count and every distribution, and never accesses the index buffer out of bounds.", "quantifier": "every start, end, step, thread count", "why_tests_cant": "all loop bounds and thread counts, all schedules", "anchors": ["mllm/engine/HpcThreadPool.cpp", "mllm/core/Parallel.hpp"]}
{"id": "C30", "title": "Requests are served in submission order, each once", "statement": "Requests pushed to the service are handed to workers in FIFO order, each to exactly one worker, and none is lost before shutdown.", "quantifier": "every interleaving of pushes, pops and shutdown", "why_tests_cant": "all schedules", "anchors": ["mllm/engine/service/Service.cpp:RequestPool"]}
{"id": "C31", "title": "Response streams are ordered and complete", "statement": "For each request id, the responses popped are the responses pushed, in order, and every pushed response can be popped even if the pool is stopped after it was pushed.", "quantifier": "every interleaving of push/pop/stop", "why_tests_cant": "all schedules and ids", "anchors": ["mllm/engine/service/Service.cpp:ResponsePool"]}
{"id": "C32", "title": "Memory-solver pass frees after last use", "statement": "In a program processed by the eager memory solver every tensor is allocated before and freed after its last use, and freed at most once; graph results are not freed.", "quantifier": "every program", "why_tests_cant": "all programs", "anchors": ["mllm/compile/passes/EagerMemorySolverPass.cpp"]}
{"id": "C33", "title": "Jump offsets reach their labels", "statement": "After program-id indexing, following each jump's offset from the jump lands on the label it names; instruction ids are consecutive.", "quantifier": "every program with unique labels", "why_tests_cant": "all programs", "anchors": ["mllm/compile/passes/ProgramIntrinsicIdIndexPass.cpp"]}
{"id": "C34", "title": "Command-line parsing assigns each argument once", "statement": "Each flag given on the command line sets the option that declared it and takes as value the following token; tokens that are not consumed become positionals in order.", "quantifier": "every argv and option set", "why_tests_cant": "all argument vectors", "anchors": ["mllm/utils/Argparse.hpp"]}
{"id": "C35", "title": "Reference-counted pointers free exactly at last release", "statement": "An object managed by the intrusive pointer is destroyed exactly when its last owning pointer is destroyed or reassigned, never while an owner exists.", "quantifier": "every sequence of copy/move/reset/assign operations", "why_tests_cant": "all operation histories", "anchors": ["mllm/utils/IntrusivePtr.hpp"]}
{"id": "C36", "title": "Python radix cache match/insert is a longest-prefix match", "statement": "pymllm RadixCache.match_prefix returns, for every history of insert/match/evict, the slots of the longest page-aligned cached prefix of the key, in token order; insert returns the length that was already cached.", "quantifier": "every history of operations, page size, key", "why_tests_cant": "all tree shapes and histories", "anchors": ["pymllm/mem_cache/radix_cache.py"]}
{"id": "C37", "title": "Locked cache entries are never evicted and sizes are conserved", "statement": "Eviction never frees slots of a node on a locked path; evictable_size + protected_size always equals the number of cached tokens.", "quantifier": "every history of insert/lock/unlock/evict", "why_tests_cant": "all histories", "anchors": ["pymllm/mem_cache/radix_cache.py"]}
{"id": "C38", "title": "Allocator translation is exact", "statement": "At every point of any sequence of alloc and free calls on the prefix-cache allocator, physicalAddr(a) returns, for an address that is currently allocated, exactly the storage that the file system's access(a) yields, and for an address that was freed or never allocated, null. A reused address never translates to stale storage.", "quantifier": "all alloc/free histories, all geometries, all addresses", "why_tests_cant": "A stale or missing translation only appears for particular interleavings of alloc, free and blob growth.", "anchors": ["mllm/engine/prefix_cache/Allocator.cpp PrefixCacheAllocator::alloc/free/physicalAddr", "mllm/engine/prefix_cache/TLB.cpp TLB::insert/remove/lookup"]}
{"id": "C39", "title": "Files from the Python converter load in the C++ runtime", "statement": "A V2 model file produced by pymllm's ModelFileV2 (static_write or any sequence of streaming_write calls, then finalize) is loaded by the C++ readers with exactly the names, dtypes, shapes and bytes that were written; a file whose writer died before finalize is refused.", "quantifier": "all tensor dictionaries, all sequences of streaming writes, all crash points before finalize, both reader modes", "why_tests_cant": "the file contents and lengths are unbounded and every crash point of the writer matters", "anchors": ["pymllm/mobile/convertor/model_file_v2.py: ModelFileV2.streaming_write, static_write, finalize", "mllm/core/ParameterFile.cpp: ParameterFileIOImpl<kCPU,kV2>::read"]}
{"id": "C40", "title": "contiguous() keeps every element at its index", "statement": "contiguous() returns a row-major tensor of the same shape whose element at every index equals the element of the (possibly strided) input view at that index.", "quantifier": "every shape, rank >= 1, stride vector and index", "why_tests_cant": "the copy has three branches selected by arithmetic on the strides; only particular stride vectors reach the wrong one", "anchors": ["mllm/backends/cpu/ops/ContiguousOp.cpp", "mllm/core/Tensor.cpp"]}
{"id": "C41", "title": "concat, stack, split and repeat place every element exactly", "statement": "concat(ts,d) returns a tensor whose size along d is the sum of the inputs' sizes and whose element at offset (sizes of earlier inputs)+x along d is element x of the corresponding input, with nothing left unwritten; shape mismatches are refused. stack puts input k at position k of a new dimension. split returns views that partition the dimension in order, and concat of the pieces gives back the original elements. repeat(t,m,d) puts element x at positions x*m .. x*m+m-1. All hold for strided (non-contiguous) inputs too.", "quantifier": "all ranks, shapes, strides, dimension arguments (also negative), numbers of inputs", "why_tests_cant": "the kernels have a contiguous and a strided branch with hand written offset arithmetic; shapes, strides and number of inputs are unbounded", "anchors": ["mllm/core/aops/ConcatOp.cpp", "mllm/core/aops/StackOp.cpp", "mllm/core/aops/SplitOp.cpp", "mllm/core/aops/RepeatOp.cpp", "mllm/backends/cpu/ops/ConcatOp.cpp", "mllm/backends/cpu/ops/StackOp.cpp", "mllm/backends/cpu/ops/RepeatOp.cpp"]}
{"id": "C42", "title": "Dynamic KV cache returns exactly the appended history", "statement": "Every updateKVCache call on a DynamicCache returns, for every batch element and query head, the concatenation of all tokens appended to that layer so far (each query head seeing its key/value head), whatever the chunk lengths and the memory layout of the inputs; other layers are unaffected.", "quantifier": "every sequence of appends, layers, chunk lengths, batch sizes, head counts, input strides", "why_tests_cant": "the history is unbounded and the result goes through repeat and concat with layout-dependent branches", "anchors": ["mllm/nn/lmcache/DynamicCache.cpp DynamicCache::updateKVCache"]}
{"id": "C43", "title": "Byte-level tokenization loses nothing", "statement": "For every valid UTF-8 prompt, Qwen3Tokenizer::tokenize returns tokens whose bytes (special tokens verbatim, other tokens through the inverse byte table) concatenate to exactly the bytes of the prompt; decoding the token ids one by one with detokenize gives the text back.", "quantifier": "every prompt, special-token set, merge table, locale and hash-set iteration order", "why_tests_cant": "unboundedly many texts; characters split across tokens only occur for some vocabularies", "anchors": ["mllm/models/qwen3/tokenization_qwen3.hpp:Qwen3Tokenizer::tokenize", "mllm/models/qwen3/tokenization_qwen3.hpp:Qwen3Tokenizer::detokenize"]}
{"id": "C44", "title": "Pre-tokenizer implements the documented regular expression", "statement": "qwen3Regex splits a text into the successive matches of the regular expression given in its comment (which is that of the reference tokenizer).", "quantifier": "every text and locale classification", "why_tests_cant": "regex alternation, backtracking and lookahead interact over arbitrary texts", "anchors": ["mllm/models/qwen3/tokenization_qwen3.hpp:qwen3TokenizerMatchPattern", "mllm/models/qwen3/tokenization_qwen3.hpp:qwen3Regex"]}
{"id": "C45", "title": "WordPiece text clean-up and special tokens", "statement": "Basic tokenization keeps exactly the characters that are neither white space nor control characters, in order (lower-cased if asked); white space and punctuation separate tokens and each CJK character is a token of its own; special tokens are cut out whole and left unchanged, independently of hash order; the procedure terminates.", "quantifier": "every text, configuration and special-token set", "why_tests_cant": "all texts; hash-map iteration orders", "anchors": ["mllm/preprocessor/tokenizers/WordPiece.cpp:basic_tokenize", "mllm/preprocessor/tokenizers/WordPiece.cpp:split_special_tokens"]}
{"id": "C46", "title": "A compiled module computes what the module computes", "statement": "For a traced module that compiles, loading the program, registering its constants and running it on inputs halts without undefined behaviour and leaves the same outputs and the same effects on caches/devices as calling the module itself on these inputs.", "quantifier": "every module (arbitrarily nested submodule calls), kernel behaviour, constants, inputs and initial state", "why_tests_cant": "unboundedly many modules; the result depends on tracing, lowering, label indexing and the interpreter together", "anchors": ["mllm/nn/Module.cpp:Module::__trace", "mllm/compile/passes/ProgramLoweringPipeline.cpp", "mllm/compile/passes/ProgramIntrinsicIdIndexPass.cpp", "mllm/compile/jit/interpreter/IRInterpreter.cpp:IRInterpreter::run"]}
{"id": "C47", "title": "Calling submodules repeatedly while tracing", "statement": "Tracing gives every call of a submodule a graph name of its own, so that a module that calls the same submodule several times compiles.", "quantifier": "every module and number of calls", "why_tests_cant": "names depend on the history of calls", "anchors": ["mllm/compile/ir/Node.cpp:IRContext::getUniqueModuleName", "mllm/nn/Module.cpp:Module::__trace"]}
{"id": "C48", "title": "A loaded program can be run again", "statement": "Running a loaded program several times gives, run by run, the outputs and effects of calling the module several times.", "quantifier": "every module and every sequence of inputs", "why_tests_cant": "history of runs", "anchors": ["mllm/compile/jit/interpreter/IRInterpreter.cpp:IRInterpreter::run", "mllm/compile/passes/EagerMemorySolverPass.cpp"]}
{"id": "C49", "title": "Sliding-window prefix cache keeps token positions", "statement": "With a sliding window configured, RadixCache.match_prefix returns only slots that an insert supplied for the same tokens, and a sequence just inserted is matched completely.", "quantifier": "every history of insert/match", "why_tests_cant": "needs two inserts that diverge inside an edge; all histories", "anchors": ["pymllm/mem_cache/radix_cache.py:_insert_swa", "pymllm/mem_cache/radix_cache.py:_split_node"]}
{"id": "C50", "title": "The KV slot allocator hands out every slot to at most one holder", "statement": "TokenToKVPoolAllocator.alloc(n) returns n different slots in 1..size (slot 0 is padding and is never handed out), none of which is held by anybody; it returns None exactly when fewer than n slots are available; the available slots, the slots waiting in an open free group and the held slots are together always exactly 1..size. With page_size > 1 the same holds page-wise. Rows of ReqToTokenPool behave the same way.", "quantifier": "every history of alloc/free/free_group calls in which callers give back slots that they hold", "why_tests_cant": "the claim is about every interleaving of allocations and releases; tests replay a few", "anchors": ["pymllm/mem_cache/memory_pool.py: TokenToKVPoolAllocator, ReqToTokenPool, KVPool"]}
{"id": "C51", "title": "KV slots of a serving request hold exactly its own prefix", "statement": "While the model runner serves requests with prefix sharing, every KV-pool slot that the attention of a request reads at position i holds the key/value computed for exactly that request's tokens 0..i; slots handed out to a request are referenced by no other request and by no cache entry; when no request is active every slot is free or cached exactly once; and a prefill always has at least one token to compute.", "quantifier": "all histories of request arrivals, prefix matches, allocations (successful or failed), prefills, cache insertions, decodes, releases and evictions, all prompts and sampled tokens, all pool sizes, for the radix cache, the hybrid mode and the mode without prefix cache", "why_tests_cant": "The property is about aliasing between requests over arbitrary interleavings; wrong aliasing produces plausible text, and the token histories are unbounded.", "anchors": ["pymllm/orchestrator/model_runner_process.py:_allocate_extend", "pymllm/orchestrator/model_runner_process.py:_insert_into_radix_cache", "pymllm/orchestrator/model_runner_process.py:_allocate_decode", "pymllm/orchestrator/model_runner_process.py:_free_rid_resources", "pymllm/mem_cache/radix_cache.py", "pymllm/mem_cache/memory_pool.py"]}
{"id": "C52", "title": "Scheduler token budget is exact and bounded", "statement": "At every moment the token budget the scheduler has charged equals the sum over the running requests of prompt length plus generated tokens minus cached prefix; it returns to zero when nothing runs; the number of running requests never exceeds max_running_requests; and the charged tokens never exceed max_total_tokens.", "quantifier": "all histories of request arrivals, aborts and scheduling iterations, all model results (tokens, prefix hits), all limits", "why_tests_cant": "Leaks and overcommit depend on the whole history of admissions, prefix corrections, aborts and finishes.", "anchors": ["pymllm/orchestrator/scheduler_process.py:get_next_batch_to_run", "pymllm/orchestrator/scheduler_process.py:process_batch_result", "pymllm/orchestrator/scheduler_process.py:stream_output", "pymllm/orchestrator/scheduler_process.py:Req.check_finished", "pymllm/orchestrator/scheduler_process.py:_abort_request"]}
{"id": "C53", "title": "Streaming delivers every token of a request exactly once", "statement": "The incremental token lists sent for a request, concatenated, are always a prefix of the tokens the model produced for that request and of no other; every submitted request that was not aborted is in work or has exactly one final message, which is its last message and completes the delivered tokens to the full output; after an abort no token is produced or sent for the request and nothing ever reopens it.", "quantifier": "all histories of arrivals, aborts and iterations, all sampled tokens, streaming and non-streaming requests mixed", "why_tests_cant": "The claim is about every interleaving of requests in a continuously re-formed batch.", "anchors": ["pymllm/orchestrator/scheduler_process.py:get_next_batch_to_run", "pymllm/orchestrator/scheduler_process.py:process_batch_result", "pymllm/orchestrator/scheduler_process.py:stream_output", "pymllm/orchestrator/scheduler_process.py:Req.check_finished", "pymllm/orchestrator/scheduler_process.py:_abort_request"]}
{"id": "C54", "title": "Answers end exactly at the first stop token or at max_new_tokens", "statement": "A finished request's output contains no stop or EOS token before its last token; reason 'eos' means the last token is one; reason 'length' means there is none and the output has exactly max_new_tokens tokens; no request ever gets more than max_new_tokens tokens.", "quantifier": "all histories, all stop-token lists, all token limits, all sampled tokens", "why_tests_cant": "Must hold for all token sequences a model may produce and all batch compositions.", "anchors": ["pymllm/orchestrator/scheduler_process.py:get_next_batch_to_run", "pymllm/orchestrator/scheduler_process.py:process_batch_result", "pymllm/orchestrator/scheduler_process.py:stream_output", "pymllm/orchestrator/scheduler_process.py:Req.check_finished", "pymllm/orchestrator/scheduler_process.py:_abort_request"]}
{"id": "C55", "title": "Every request is eventually answered", "statement": "If the server has capacity for one request at all, every submitted request that is not aborted receives its final message after finitely many scheduling iterations, regardless of other traffic.", "quantifier": "all reachable scheduler states, all continuations", "why_tests_cant": "Liveness over unbounded executions; starvation needs an adversarial arrival pattern.", "anchors": ["pymllm/orchestrator/scheduler_process.py:get_next_batch_to_run", "pymllm/orchestrator/scheduler_process.py:process_batch_result", "pymllm/orchestrator/scheduler_process.py:stream_output", "pymllm/orchestrator/scheduler_process.py:Req.check_finished", "pymllm/orchestrator/scheduler_process.py:_abort_request"]}
{"id": "C56", "title": "Streamed text adds up to the final text", "statement": "For each request, the concatenation of the incremental text pieces sent to a streaming client equals the full text of the last result: no character is lost, repeated or left over from an earlier request, provided decoding more tokens only extends the text.", "quantifier": "all schedules of requests, aborts and generation steps, all tokenizers whose decoding is monotone, every request", "why_tests_cant": "Tests fix a tokenizer and a schedule; the claim ranges over all interleavings of requests in the scheduler and every point at which a stream may be cut.", "anchors": ["pymllm/orchestrator/detokenizer_process.py:_detokenize", "pymllm/orchestrator/scheduler_process.py:stream_output"]}
{"id": "C57", "title": "Results are handed to the client without loss or lost wake-up", "statement": "Whatever the interleaving of arriving results with the client's iteration, the client sees every result exactly once and in order; the iterator ends only after the final result; a client that has not seen all results is never left waiting without a pending wake-up.", "quantifier": "all interleavings of arrivals and client steps, any number of results", "why_tests_cant": "The order of arrivals relative to the suspension points of the client coroutine is up to the event loop.", "anchors": ["pymllm/orchestrator/request_response_process.py:_recv_loop", "pymllm/engine/launch.py:_stream_results", "pymllm/engine/launch.py:_wait_for_final_result"]}
{"id": "C58", "title": "Aborts are effective", "statement": "When a client aborts a request it submitted, the scheduler sees the abort, and sees it after the request, so the request is not served to its end.", "quantifier": "all interleavings of submissions, queue transmissions and aborts; both transport modes", "why_tests_cant": "An abort races with the queue of not yet transmitted requests.", "anchors": ["pymllm/orchestrator/request_response_process.py:abort_request", "pymllm/orchestrator/request_response_process.py:_send_loop", "pymllm/orchestrator/tokenizer_process.py", "pymllm/orchestrator/scheduler_process.py:recv_requests"]}
{"id": "C59", "title": "Streaming separation of reasoning and content does not depend on the chunks", "statement": "However the answer is cut into chunks, the reasoning and content deltas of the streaming reasoning parser add up to the text between the first start tag and the following end tag, and to the text outside of it; no tag and no text is lost, duplicated or misrouted.", "quantifier": "all texts, all ways to cut them into chunks, all non-empty tags, forced and optional thinking, stream_reasoning on and off", "why_tests_cant": "The number of ways to cut a text is exponential; bugs sit at boundaries inside tags.", "anchors": ["pymllm/parsers/reasoning_parser.py:ReasoningParser.parse_stream_chunk", "pymllm/parsers/reasoning_parser.py:_could_be_partial", "pymllm/server/launch.py:openai_chat_completions"]}
{"id": "C60", "title": "Streaming and one-shot reasoning parsers agree", "statement": "The one-shot parser returns, stripped, the same reasoning and content that the streaming parser delivers in total for the same text, however it is cut.", "quantifier": "all texts and chunkings", "why_tests_cant": "Two independent implementations must agree on every text.", "anchors": ["pymllm/parsers/reasoning_parser.py:ReasoningParser.parse_non_stream", "pymllm/parsers/reasoning_parser.py:ReasoningParser.parse_stream_chunk"]}
{"id": "C61", "title": "Tool calls of a complete answer are extracted exactly", "statement": "For a complete answer, the tool-call parser returns exactly the calls whose bodies are readable, in order and numbered consecutively from 0, and as content exactly the text outside of calls (stripped).", "quantifier": "all texts, formats and body readers", "why_tests_cant": "Ranges over all texts with any number of (possibly unfinished) calls.", "anchors": ["pymllm/parsers/tool_call_parser.py:ToolCallParser.parse_non_stream"]}
{"id": "C62", "title": "Streamed tool calls add up to the calls of the answer", "statement": "However the answer is cut into chunks, each complete call is delivered under its number with its name once and argument pieces that add up to its arguments, no other call is reported, and the content deltas add up to the text outside of calls.", "quantifier": "all texts, all ways to cut them into chunks, all formats and body readers", "why_tests_cant": "Exponentially many cuttings; bugs sit at boundaries inside tags and JSON.", "anchors": ["pymllm/parsers/tool_call_parser.py:ToolCallParser.parse_stream_chunk", "pymllm/parsers/tool_call_parser.py:ToolCallParser.flush", "pymllm/parsers/tool_call_parser.py:ToolCallParser._stream_partial_call", "pymllm/parsers/tool_call_parser.py:ToolCallParser._finalize_call"]}
{"id": "C63", "title": "generate, streamGenerate and chat produce the same tokens", "statement": "For every model, sampler, option set and input, `generate`, `streamGenerate` and iterating `chat` run the same sequence of model steps: feed the input, sample, feed the model's own output with the sampled token as the new sequence. They stop at the first end-of-sequence token or at max_length, whichever is first (a non-positive max_length gives nothing). `generate` returns exactly these tokens, `streamGenerate` calls the callback once per token in order, `chat` yields the same tokens without the final end-of-sequence token, numbered from 0; all leave the model in the same state. top_k takes precedence over top_p over temperature; greedy when none is asked for.", "quantifier": "all models (arbitrary stateful forward), all samplers and random draws, all option values, all inputs, all callbacks and loop bodies", "why_tests_cant": "a test runs one model and one prompt; three hand-copied loops must agree for every point where the run can end", "anchors": ["mllm/models/ARGeneration.cpp: generate, streamGenerate, chat, ARGenerationChatIterator::step"]}
{"id": "C64", "title": "A generation can be continued from the map it returned", "statement": "Calling `generate` again on the map returned by a first call (the model keeping its cache) continues the run: both token lists together are what one call with the summed max_length returns.", "quantifier": "all models not reading the three keys generate adds, all inputs, all length limits", "why_tests_cant": "depends on where the first call ended, for every model and every limit", "anchors": ["mllm/models/ARGeneration.cpp: generate L131-L199"]}
{"id": "C65", "title": "Samplers return an admissible token", "statement": "Greedy sampling returns the lowest-numbered token of maximal logit; temperature sampling returns the token whose interval of the cumulative distribution contains the draw, always a token of the vocabulary; top-k returns a token with fewer than k strictly more probable ones, and can return every token with fewer than k rivals; top-p returns a token such that the strictly more probable ones have mass below p, from a smallest set of mass at least p.", "quantifier": "all probability vectors, all k and p, all random draws, all results the standard library's sort may produce", "why_tests_cant": "ranges over all vectors with ties and over all random draws, including the extreme ones", "anchors": ["mllm/models/ARGeneration.cpp: sampleGreedy, sampleTemperature, sampleTopK, sampleTopP, categoricalSample, sampleFromDistribution"]}
{"id": "C66", "title": "Repetition, frequency and presence penalties are exact", "statement": "Before a token is sampled, the logit of every vocabulary token that occurs in the request's token history is changed exactly once by the documented formula (positive logits divided and others multiplied by the repetition penalty, minus frequency penalty times the number of occurrences, minus presence penalty) and every other logit is untouched; history entries outside the vocabulary are ignored. With penalties in the usual range no logit increases.", "quantifier": "every logits row, every history (any length, repetitions, ids outside the vocabulary) and every choice of the three penalties", "why_tests_cant": "ranges over all histories and all real-valued options", "anchors": ["pymllm/executor/model_runner.py:_apply_penalties"]}
{"id": "C67", "title": "top-k, top-p and min-p keep exactly the documented candidates", "statement": "A token returned by top-k/top-p sampling has positive probability, is among the k most probable tokens, and lies in the smallest most-probable-first set reaching mass top_p of what top-k kept; the weights after top-k are the original ones renormalised; min-p keeps exactly the tokens of probability at least min_p times the maximum.", "quantifier": "every probability vector, k, top_p, min_p, every tie-breaking of the sort and every random draw", "why_tests_cant": "real-valued vectors, library tie-breaking and random draws cannot be enumerated", "anchors": ["pymllm/layers/sampling.py:_torch_top_k_renorm_probs", "pymllm/layers/sampling.py:_torch_top_p_renorm_probs", "pymllm/layers/sampling.py:top_k_top_p_sampling_from_probs", "pymllm/layers/sampling.py:min_p_sampling_from_probs"]}
{"id": "C68", "title": "A request's sampled token does not depend on the other requests in its batch", "statement": "The set of tokens a request can receive in a decoding step is determined by its own logits, history and sampling options, and one request's options never make the step fail for the others.", "quantifier": "every batch of requests with any options, every position in the batch, every draw", "why_tests_cant": "batch composition depends on the schedule; all mixtures of options must be covered", "anchors": ["pymllm/executor/model_runner.py:sample", "pymllm/orchestrator/model_runner_process.py:_extract_sampling_params", "pymllm/layers/sampling.py:_torch_top_k_renorm_probs"]}
{"id": "C69", "title": "Speculative sampling produces the target model's distribution", "statement": "If the draft tokens are sampled from the draft model, the tokens returned by chain speculative sampling, completed by ordinary sampling, have exactly the distribution of ordinary sampling from the target model.", "quantifier": "every vocabulary, every pair of models (arbitrary distributions for every prefix), every number of draft tokens, every observable of the answer", "why_tests_cant": "an equality of probability distributions for all models", "anchors": ["pymllm/layers/sampling.py:_torch_chain_speculative_sampling"]}
{"id": "C70", "title": "Output row of speculative sampling", "statement": "The output row is a prefix of the draft tokens, then exactly one sampled token of the vocabulary, then -1 padding up to num_draft+1; the sampled token has positive residual (or, after full acceptance, target) probability; the accepted count never exceeds the number of draft tokens; the emitted count is the number of draft tokens emitted.", "quantifier": "every number of draft tokens, all probabilities, all random draws", "why_tests_cant": "all accept/reject histories", "anchors": ["pymllm/layers/sampling.py:_torch_chain_speculative_sampling", "pymllm/layers/sampling.py:chain_speculative_sampling"]}
{"id": "C71", "title": "Elementwise binary operators follow broadcasting semantics", "statement": "add, sub, mul and div of two tensors succeed exactly when their shapes broadcast (aligned at the last dimension, each pair of sizes equal or one of them 1), the result has the broadcast shape, and its element at an index is the operator applied to the operands' elements at that index with broadcast dimensions read at position 0.", "quantifier": "every pair of shapes of any ranks and sizes, all element values, both kernel variants", "why_tests_cant": "the set of shape pairs is infinite and the error depends on memory behind the operand", "anchors": ["mllm/core/aops/ElewiseOps.cpp:reshape", "mllm/backends/cpu/ops/ElewiseOps.cpp", "mllm/backends/cpu/kernels/common/ElewiseOps"]}
{"id": "C72", "title": "The causal mask hides exactly the future (and what lies outside the window)", "statement": "After the causal mask, a query sees exactly the keys at or before its own position (the last query aligned with the last key), at most window-many when a sliding window is set; visible scores are unchanged and all others are the mask value.", "quantifier": "every batch, head count, query length, key length, element type and window", "why_tests_cant": "all shapes and histories; the unwritten elements are only visible as stale memory", "anchors": ["mllm/backends/cpu/ops/CausalMaskOp.cpp", "mllm/core/aops/CausalMaskOp.cpp"]}
{"id": "C73", "title": "Gather and embedding return the addressed rows", "statement": "gather along an axis returns, for each index, the slice of the table at that index (negative indices counted from the end); embedding returns row id of the weight for every token id; an index or id outside the table is reported.", "quantifier": "every table shape, axis, index tensor shape and index values", "why_tests_cant": "all shapes, axes and index values", "anchors": ["mllm/backends/cpu/ops/GatherOp.cpp", "mllm/core/aops/GatherOp.cpp", "mllm/backends/cpu/ops/EmbeddingOp.cpp"]}
{"id": "C74", "title": "Top-k and argsort return an ordered selection with matching indices", "statement": "Top-k returns along the axis k values with the positions they came from, all positions distinct, no value left out being better than one returned, best first when sorted is requested; argsort returns a permutation of the positions that orders the values.", "quantifier": "every shape, axis, k, order, every tie-breaking of the library heap and sort", "why_tests_cant": "all values and ties, library freedom", "anchors": ["mllm/backends/cpu/ops/TopKOp.cpp", "mllm/backends/cpu/ops/ArgsortOp.cpp", "mllm/core/aops/TopKOp.cpp", "mllm/core/aops/ArgsortOp.cpp"]}
{"id": "C75", "title": "Padding shows the right element at every position", "statement": "Padding (or cropping, for negative amounts) a tensor succeeds exactly when no dimension gets a negative size; every dimension grows by its two amounts (given last dimension first), and each output element is the input element the mode assigns to it: the constant outside, the mirror image without repeating the border, the nearest element, or the periodic continuation.", "quantifier": "every shape, padding list, mode and contents", "why_tests_cant": "unbounded shapes and amounts (mirroring several times, cropping, missing entries)", "anchors": ["mllm/backends/cpu/ops/PadOp.cpp", "mllm/core/aops/PadOp.cpp"]}
{"id": "C76", "title": "Masked scatter puts source rows at the masked positions in order", "statement": "masked scatter replaces the masked elements of the destination by consecutive source elements, in order, and leaves the other elements alone; where mask and source have the destination's (broadcast) shape a masked element becomes the source element at its own position.", "quantifier": "every destination, mask and source shape, all masks", "why_tests_cant": "all masks and positions of the image in the prompt", "anchors": ["mllm/backends/cpu/ops/MaskedScatterOp.cpp", "mllm/nn/Functional.cpp:maskedScatter", "mllm/models/deepseek_ocr/modeling_deepseek_ocr.hpp"]}
{"id": "C77", "title": "Indexing with slices, lists and index tensors selects the named elements", "statement": "x[indices] with one index per dimension (slice, list of positions or index tensor) returns the elements whose coordinates are the named positions, in the order and shape of the indices; positions outside a dimension are reported.", "quantifier": "every tensor, every combination of indices", "why_tests_cant": "unbounded combinations of index kinds, shapes and values", "anchors": ["mllm/core/aops/IndexOp.cpp"]}
{"id": "C78", "title": "Flash attention is causal softmax attention", "statement": "flashAttention2(Q, K, V) on BSHD tensors returns, for each batch row, query row and head, the average of the values of the keys up to and including the row's own position, weighted by the softmax of the scaled scores with the key head the query head is grouped with; the result does not depend on the number of threads and stays within the bounds of the values seen.", "quantifier": "every batch, sequence, head count and size, every contents, every thread schedule over heads, every vector width, contiguous tensors and cache views", "why_tests_cant": "unbounded shapes and real-valued contents; a running maximum and rescaling that must be exact for every order of scores", "anchors": ["mllm/nn/Functional.cpp:flashAttention2", "mllm/backends/cpu/ops/FlashAttention2Op.cpp", "mllm/backends/cpu/kernels/common/fa2_1/fwd_bshd.hpp", "mllm/backends/cpu/kernels/common/fa2_1/impl-arm.hpp"]}
{"id": "C79", "title": "Attention over cached token addresses does not depend on where tokens are stored", "statement": "radix attention over tables of key and value addresses returns causal softmax attention of the rows stored there: tables holding the same rows at different addresses give the same result, and the same result as flash attention on tensors with these rows.", "quantifier": "every address table (including shared and out-of-order tokens), every shape, contents and schedule, both radix operators", "why_tests_cant": "the placement of tokens by the cache depends on the history of requests", "anchors": ["mllm/backends/cpu/ops/RadixAttnOp.cpp", "mllm/backends/cpu/ops/RadixAttnDiffDimOp.cpp", "mllm/backends/cpu/kernels/common/radix_attn/fwd_bshd.hpp", "mllm/backends/cpu/kernels/common/radix_attn_relax/radix_attn_relax_fwd_bshd.hpp"]}
{"id": "C80", "title": "Chunked prefill and decoding give the rows of one full prefill", "statement": "Attention rows computed chunk by chunk, or token by token, with the keys and values of all earlier tokens in the cache equal the corresponding rows of attention over the whole prompt in one call; tokens after a row make no difference to it.", "quantifier": "every prompt length, chunk boundary and contents", "why_tests_cant": "all ways of cutting a prompt into chunks, and all contents", "anchors": ["mllm/backends/cpu/kernels/common/fa2_1/fwd_bshd.hpp", "mllm/backends/cpu/kernels/common/radix_attn/fwd_bshd.hpp"]}
{"id": "C81", "title": "Sliding-window attention with a sink sees the same window in prefill and decode", "statement": "The sliding-window operators give each token softmax attention, with one more exponential of the sink in the denominator, over the last tokens of the window up to its own position; prefill, decode and append compute the same row for the same token.", "quantifier": "every window size, sequence length, chunking, contents and sink", "why_tests_cant": "the difference only shows for positions beyond the window, for all windows", "anchors": ["mllm/nn/Functional.cpp:radixAttnSWAwSink", "mllm/backends/cpu/ops/RadixAttnWithSinkAndSwaDiffDimOp.cpp", "mllm/backends/cpu/kernels/common/radix_swa_sink/radix_swa_sink_fwd_bshd.hpp", "mllm/backends/cpu/kernels/common/fa2_1_swa_sink/fa2_swa_sink_fwd_bshd.hpp"]}
{"id": "C82", "title": "Paged attention attends to the indexed cache slots", "statement": "Paged attention returns softmax attention over the cache slots named by the index, restricted to the keys the mask leaves visible, and attention weights that are non-negative, sum to one over the visible keys and vanish elsewhere.", "quantifier": "every cache, index, mask, shape, contents and schedule", "why_tests_cant": "all placements of tokens in the cache, all masks and contents", "anchors": ["mllm/backends/cpu/ops/PagedAttnOp.cpp", "mllm/backends/cpu/kernels/common/paged_attn/fwd_bshd.hpp", "mllm/backends/cpu/kernels/common/paged_attn/arch.hpp"]}
{"id": "C83", "title": "A GPU tensor sent through the shared workspace arrives intact", "statement": "A consumer that reconstructs a tensor sent through the CUDA IPC pool obtains a tensor with the dtype, shape and bytes of the one that was sent, although its slice is later reused for other tensors; nested inputs come back as they were sent.", "quantifier": "every interleaving of sender, recycler thread and consumers, every number of consumers, pool size, sequence of tensors and nesting of inputs", "why_tests_cant": "reuse of a slice before the last consumer has copied it needs a particular interleaving of three processes", "anchors": ["pymllm/orchestrator/cuda_ipc_transport.py:MmItemMemoryPool", "pymllm/orchestrator/cuda_ipc_transport.py:CudaIpcTensorTransportProxy.reconstruct_on_device", "pymllm/orchestrator/cuda_ipc_transport.py:_wrap_cuda_tensor"]}
{"id": "C84", "title": "The shared workspace is never handed out twice and never shrinks", "statement": "Slices of tensors that are still in use lie inside the workspace and do not overlap; every byte of the workspace is at any time in exactly one chunk, free or occupied; a slice is granted exactly when a free chunk is large enough, from the smallest such chunk.", "quantifier": "every history of sends, acknowledgements and recycler passes", "why_tests_cant": "splitting and coalescing depend on the whole history of sizes and acknowledgement orders", "anchors": ["pymllm/orchestrator/cuda_ipc_transport.py:MmItemMemoryPool._get_available_chunk", "pymllm/orchestrator/cuda_ipc_transport.py:MmItemMemoryPool._recycle_chunks", "pymllm/orchestrator/cuda_ipc_transport.py:MmItemMemoryPool._merge_chunks"]}
{"id": "C85", "title": "Workspace memory comes back after use", "statement": "A pass of the recycler frees exactly the slices all consumers have acknowledged, and afterwards any run of free bytes can be granted as one slice; in particular an idle pool can hold a tensor as large as the workspace.", "quantifier": "every history of sends, acknowledgements and recycler passes, every size", "why_tests_cant": "fragmentation depends on the whole history", "anchors": ["pymllm/orchestrator/cuda_ipc_transport.py:MmItemMemoryPool._recycle_chunks", "pymllm/orchestrator/cuda_ipc_transport.py:MmItemMemoryPool._merge_chunks", "pymllm/orchestrator/cuda_ipc_transport.py:MmItemMemoryChunk.try_to_recycle"]}
{"id": "C86", "title": "Nested multimodal inputs reach the scheduler unchanged in every transport mode", "statement": "Dicts, lists, tuples and tensors nested in any way arrive with the same structure, keys and tensor contents: on the CPU in default mode, on the GPU in CUDA IPC mode.", "quantifier": "every nested input, every transport mode", "why_tests_cant": "unbounded nesting and contents", "anchors": ["pymllm/orchestrator/shared_memory_queue.py:TensorQueue.put", "pymllm/orchestrator/shared_memory_queue.py:TensorQueue._make_tensors_shareable", "pymllm/orchestrator/cuda_ipc_transport.py:_wrap_recursive", "pymllm/orchestrator/cuda_ipc_transport.py:_unwrap_recursive"]}
{"id": "C87", "title": "Pool transport mode uses the pool", "statement": "With tensor_transport_mode = cuda_ipc_pool and CUDA available, GPU tensors are sent through the workspace and stay on the GPU.", "quantifier": "every sequence of requests and every configuration of the pool", "why_tests_cant": "the fall-back is silent: results are right, only the path differs, for every request", "anchors": ["pymllm/orchestrator/cuda_ipc_transport.py:MmItemMemoryPool.__init__", "pymllm/orchestrator/cuda_ipc_transport.py:MmItemMemoryPool._new_sync_buffer", "pymllm/orchestrator/tokenizer_process.py:TokenizerProcess._ensure_pool"]}
{"id": "C88", "title": "A batch call is its prompts, one by one, answered in order", "statement": "Engine.generate with a list of prompts and per-prompt options sends each prompt with its own options, and returns the final result of each prompt in the order of the prompts, whatever the order in which they finish and whatever other clients do.", "quantifier": "every batch size, every list of options, every interleaving of results and other clients' calls", "why_tests_cant": "results of all clients interleave in any order; batch sizes and option lists are unbounded", "anchors": ["pymllm/engine/io_struct.py:GenerateReqInput.__getitem__", "pymllm/engine/launch.py:Engine.generate", "pymllm/orchestrator/request_response_process.py:RequestResponseProcess.add_request"]}
{"id": "C89", "title": "A client gets the results for its own request, and its id is released", "statement": "A request collects exactly the results that carry its id, in order of arrival, whatever happens to other ids; when the client has its answer or is gone, the id is free again.", "quantifier": "every history of calls, results, aborts and time-outs", "why_tests_cant": "interleavings of any number of clients", "anchors": ["pymllm/orchestrator/request_response_process.py:RequestResponseProcess.add_request", "pymllm/orchestrator/request_response_process.py:RequestResponseProcess._recv_loop", "pymllm/orchestrator/request_response_process.py:RequestResponseProcess.remove_state", "pymllm/engine/launch.py:Engine.generate"]}
{"id": "C90", "title": "Prompt and options reach the scheduler unchanged", "statement": "The tokens of the prompt (or the given token ids), the sampling parameters, the log-probability options, adapter, session and media of a request arrive at the scheduler as given; options left out get the defaults; unknown keyword arguments change nothing.", "quantifier": "every request, tokenizer, processor and image loader", "why_tests_cant": "all combinations of optional fields and extra keywords", "anchors": ["pymllm/engine/io_struct.py:GenerateReqInput.to_request_dict", "pymllm/orchestrator/tokenizer_process.py:TokenizerProcess._tokenize", "pymllm/orchestrator/tokenizer_process.py:TokenizerProcess._collect_mm_inputs"]}
{"id": "C91", "title": "HTTP sampling options take effect", "statement": "temperature, top_p, top_k, max_tokens, stop, seed and the penalties of an OpenAI-style request are what the scheduler and the sampler use; what is not given gets the documented default.", "quantifier": "every combination of options", "why_tests_cant": "every subset and value of the options, through four processes", "anchors": ["pymllm/server/launch.py:_build_sampling_params", "pymllm/orchestrator/scheduler_process.py:Req.__init__", "pymllm/orchestrator/model_runner_process.py:ModelRunnerProcess._forward_batch"]}
{"id": "C92", "title": "A request that cannot be processed fails alone", "statement": "A malformed request is answered with an error; requests of other clients are forwarded as if it had not been sent.", "quantifier": "every sequence of requests", "why_tests_cant": "holds for every position of the bad request in every sequence", "anchors": ["pymllm/orchestrator/tokenizer_process.py:TokenizerProcess.event_loop", "pymllm/orchestrator/tokenizer_process.py:TokenizerProcess._normalize_image_input", "pymllm/server/launch.py:_extract_image_data", "pymllm/orchestrator/scheduler_process.py:SchedulerProcess._process_input_requests"]}
{"id": "C93", "title": "Choice i of a completion answers prompt i", "statement": "In the answer to a /v1/completions request with a list of prompts, the choice with index i is the completion of prompt i; in a stream, the pieces with index i are those of prompt i, in order.", "quantifier": "every number of prompts, every order in which they finish, every cutting into pieces", "why_tests_cant": "depends on the order in which concurrent generations finish", "anchors": ["pymllm/server/launch.py:openai_completions", "pymllm/engine/launch.py:Engine.generate_async"]}
{"id": "C94", "title": "Usage counts all tokens of the request", "statement": "The usage reported for a completion is the sum of prompt and completion tokens over all its prompts; a stream with include_usage reports it once, at its end.", "quantifier": "every number of prompts and every interleaving of their results", "why_tests_cant": "depends on which prompt's chunk comes last", "anchors": ["pymllm/server/launch.py:openai_completions"]}
{"id": "C95", "title": "A failed request is not reported as completed", "statement": "finish_reason is \"length\" exactly if the token limit ended the answer, \"stop\" if an end or stop token did; a request that was aborted or timed out is reported as such.", "quantifier": "every result of every request", "why_tests_cant": "the failure can come at any point of an answer or a stream", "anchors": ["pymllm/server/launch.py:_normalize_finish_reason", "pymllm/server/launch.py:openai_completions", "pymllm/orchestrator/request_response_process.py:RequestResponseProcess.abort_request", "pymllm/orchestrator/request_response_process.py:RequestResponseProcess._cleanup_stale_states"]}
{"id": "C96", "title": "Engine.generate can be called again", "statement": "After a call of Engine.generate has returned, another call returns, too.", "quantifier": "every history of calls and every schedule of the background task", "why_tests_cant": "for every history of calls and scheduling of the background task on its loop", "anchors": ["pymllm/engine/launch.py:Engine.generate", "pymllm/orchestrator/request_response_process.py:RequestResponseProcess.listen", "pymllm/orchestrator/request_response_process.py:RequestResponseProcess._send_loop"]}
{"id": "C97", "title": "A chat stream delivers reasoning, content and calls, and ends properly", "statement": "The events of a streamed chat begin with the role, once, and end with one finish reason, \"tool_calls\" exactly if a call was sent; put together they give the reasoning, the content and the calls of the model's answer, as an answer that is not streamed would.", "quantifier": "every answer and every way to cut it into pieces, every combination of parsers", "why_tests_cant": "tags can be cut at every position", "anchors": ["pymllm/server/launch.py:openai_chat_completions", "pymllm/parsers/reasoning_parser.py:ReasoningParser", "pymllm/parsers/tool_call_parser.py:ToolCallParser"]}
{"id": "C98", "title": "Recurrent layers read a prompt one token at a time", "statement": "On the sequential backend, a prefill leaves a request's recurrent and convolution state, and gives the outputs, of a layer that read its new tokens one after the other; a decode step reads exactly one token.", "quantifier": "every batch, position in it, length (also 0), head count, kernel width of two or more, parameter and initial state, in exact arithmetic", "why_tests_cant": "all lengths, batch layouts and states", "anchors": ["pymllm/layers/attention/gdn_backend.py:GDNAttnBackend.forward_extend", "pymllm/layers/attention/gdn_backend.py:GDNAttnBackend._extend_pytorch_fallback", "pymllm/layers/attention/gdn_backend.py:GDNAttnBackend.forward_decode", "pymllm/layers/attention/gdn_backend.py:GDNAttnBackend._decode_pytorch_fallback"]}
{"id": "C99", "title": "The default batched prefill agrees with token-by-token reading", "statement": "The fully batched chunkwise prefill gives the outputs and the state of reading the tokens one at a time.", "quantifier": "every chunk size, length, head count, batch and initial state, in exact arithmetic", "why_tests_cant": "equality of two algorithms for all lengths, chunk sizes and decays; tests sample decays that never underflow", "anchors": ["pymllm/layers/attention/gdn_chunkwise.py:_batched_chunk_scan", "pymllm/layers/attention/gdn_chunkwise.py:gdn_extend_chunkwise_torch", "pymllm/layers/attention/gdn_backend.py:GDNAttnBackend.forward_extend"]}
