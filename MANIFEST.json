{
 "claims": [
  {
   "property": "C01",
   "status": "partial",
   "theorems": [
    "Verif.Radix.C01_longest_prefix_partial",
    "Verif.Radix.C01_violated",
    "Verif.Radix.separable_of_positions"
   ],
   "note": "Violated by the pinned code (C01_violated: search descends below a partially matched edge). Proved for all histories/queries that are separable (API-level condition)."
  },
  {
   "property": "C02",
   "status": "proved",
   "theorems": [
    "Verif.Radix.C02_result_shape",
    "Verif.Radix.C02_child_choice_unique"
   ],
   "note": "All histories, including throwing inserts."
  },
  {
   "property": "C03",
   "status": "partial",
   "theorems": [
    "Verif.Radix.C03_insert_then_search",
    "Verif.Radix.C03_persistence_violated",
    "Verif.Radix.C03_persistence_partial"
   ],
   "note": "insert-then-search proved for all histories; persistence is violated by the code (witness) and proved for separable histories."
  },
  {
   "property": "C04",
   "status": "proved",
   "theorems": [
    "Verif.Radix.C04_extra_key_isolation",
    "Verif.Radix.C04_find_ignores_nonzero_extra"
   ],
   "note": "Non-interference between extra keys; find only sees extra key 0."
  },
  {
   "property": "C05",
   "status": "proved",
   "theorems": [
    "Verif.Radix.C05_addresses_supplied"
   ],
   "note": ""
  },
  {
   "property": "C06",
   "status": "proved",
   "theorems": [
    "Verif.ZenFS.C06_fields",
    "Verif.ZenFS.C06_access_disjoint"
   ],
   "note": "exact decomposition of addresses and disjoint in-bounds byte ranges, all geometries"
  },
  {
   "property": "C07",
   "status": "partial",
   "theorems": [
    "Verif.ZenFS.C07_violated",
    "Verif.ZenFS.C07_fresh_partial",
    "Verif.ZenFS.C07_reuse_partial",
    "Verif.ZenFS.C07_bitmap_exact_partial"
   ],
   "note": "full property is false of the code (C07_violated, C09_violated_disk: free() indexes the bitmap by lane only; disk blobs have 8x too many bits). Proved: freshness, reuse and bitmap exactness for anonymous blobs with >= 6 address bits when only page-0 addresses are freed"
  },
  {
   "property": "C08",
   "status": "partial",
   "theorems": [
    "Verif.ZenFS.C08_hint_exact_iff",
    "Verif.ZenFS.C08_violated",
    "Verif.ZenFS.C08_hint_partial"
   ],
   "note": "full property is false of the code (C08_violated); exact characterisation of when the hinted range is right (C08_hint_exact_iff)"
  },
  {
   "property": "C09",
   "status": "partial",
   "theorems": [
    "Verif.ZenFS.C09_resolves_partial",
    "Verif.ZenFS.C09_violated_small",
    "Verif.ZenFS.C09_violated_disk"
   ],
   "note": "false for fewer than 6 address bits and for disk blobs (violated theorems); proved for anonymous blobs with >= 6 bits"
  },
  {
   "property": "C10",
   "status": "partial",
   "theorems": [
    "Verif.ZenFS.C10_violated",
    "Verif.ZenFS.C10_recover_forgets",
    "Verif.ZenFS.C10_access_partial"
   ],
   "note": "false of the code: recover() re-marks every slot free. Proved: address translation survives recovery; the first malloc after recovery returns slot 0 of the first blob whatever was live"
  },
  {
   "property": "C100",
   "status": "proved",
   "theorems": [
    "Verif.Gdn.C100_cut",
    "Verif.Gdn.C100_decode"
   ],
   "note": "For the sequential backend; by C99 the batched one agrees with it where it does not underflow."
  },
  {
   "property": "C101",
   "status": "proved",
   "theorems": [
    "Verif.Gdn.C101_prefill_others",
    "Verif.Gdn.C101_decode_others",
    "Verif.Gdn.C101_company"
   ],
   "note": ""
  },
  {
   "property": "C102",
   "status": "partial",
   "theorems": [
    "Verif.Gdn.C102_old_partial",
    "Verif.Gdn.C102_third_token_violated",
    "Verif.Gdn.C102_witness_violated"
   ],
   "note": "Only chunks of at most two tokens: the construction of W uses K(W\u1d40x) instead of W(K\u1d40x), which differs from the third token of a chunk on; the error after three tokens is given exactly (C102_third_token_violated), with a witness at the default chunk size."
  },
  {
   "property": "C103",
   "status": "partial",
   "theorems": [
    "Verif.Hybrid.C103_state_partial",
    "Verif.Hybrid.C103_snapshot_partial",
    "Verif.Hybrid.C103_has_snapshot",
    "Verif.Hybrid.C103_cut_violated",
    "Verif.Hybrid.C103_spread_violated"
   ],
   "note": "Proved for every history in which no used hit was cut back to prompt-2 tokens; a used hit always has its snapshot (all histories). A hit of all but at most one token of the prompt is cut back, yet the snapshot is the one of the uncut match: tokens are read twice (C103_cut_violated, for every such hit), and the wrong state is snapshotted for others (C103_spread_violated)."
  },
  {
   "property": "C104",
   "status": "partial",
   "theorems": [
    "Verif.Hybrid.C104_tracks_partial",
    "Verif.Hybrid.C104_distinct",
    "Verif.Hybrid.C104_all_free_partial",
    "Verif.Hybrid.C104_empty_violated",
    "Verif.Hybrid.C104_starved_violated"
   ],
   "note": "Distinctness holds in every history; conservation in every history without empty prompts: an empty prompt loses a slot for good (C104_empty_violated). Snapshots never make room: with all slots taken, later prefixes are cached but their hits are discarded (C104_starved_violated)."
  },
  {
   "property": "C105",
   "status": "proved",
   "theorems": [
    "Verif.Graph.C105_replay",
    "Verif.Graph.C105_runs"
   ],
   "note": "Padding lanes write only to the padding slot. A captured graph is taken to do what the captured pass does on the current buffers."
  },
  {
   "property": "C106",
   "status": "partial",
   "theorems": [
    "Verif.Graph.C106_replay_partial",
    "Verif.Graph.C106_exact_partial",
    "Verif.Graph.C106_stale",
    "Verif.Graph.C106_padding_violated",
    "Verif.Graph.C106_first_violated"
   ],
   "note": "Proved when no padding lane points to a live row, in particular for batches of captured sizes. The rows of padding lanes are not reset: they are those of the last larger batch, or 0 (C106_stale, all histories), and row 0 is a row of requests. Then a request can be left with the state after the padding lane's old token (C106_padding_violated, for all models beginning with a recurrent layer), already in the first decode step of three requests (C106_first_violated)."
  },
  {
   "property": "C107",
   "status": "proved",
   "theorems": [
    "Verif.Graph.C107_sizes",
    "Verif.Graph.C107_padding",
    "Verif.Graph.C107_admitted",
    "Verif.Graph.C107_lengths",
    "Verif.Graph.C107_sum"
   ],
   "note": ""
  },
  {
   "property": "C108",
   "status": "proved",
   "theorems": [
    "Verif.Flash.C108_segment",
    "Verif.Flash.C108_bounds",
    "Verif.Flash.C108_graph_bounds"
   ],
   "note": "For segments that lie inside the request table."
  },
  {
   "property": "C109",
   "status": "proved",
   "theorems": [
    "Verif.Flash.C109_prefill"
   ],
   "note": "On the stated contract of the FlashInfer kernels."
  },
  {
   "property": "C11",
   "status": "proved",
   "theorems": [
    "Verif.Evict.C11_evict_exact",
    "Verif.Evict.C11_evict_idempotent",
    "Verif.Evict.C11_evict_others",
    "Verif.Evict.C11_evict_conserves"
   ],
   "note": "for all histories of promotes and evictions, all keys, all windows; plus idempotence, effect on other sequences, conservation of addresses"
  },
  {
   "property": "C110",
   "status": "proved",
   "theorems": [
    "Verif.Flash.C110_decode"
   ],
   "note": ""
  },
  {
   "property": "C111",
   "status": "partial",
   "theorems": [
    "Verif.Flash.C111_decode_partial",
    "Verif.Flash.C111_runner_violated",
    "Verif.Flash.C111_prefill_violated",
    "Verif.Flash.C111_prefix_violated",
    "Verif.Flash.C111_witness_violated"
   ],
   "note": "Holds only for decode with a backend that was given the window. The runner never gives it (C111_runner_violated, all inputs); a prefill without cached prefixes ignores it (C111_prefill_violated); with a prefix, new tokens are counted twice and later ones are seen (C111_prefix_violated, exact result; C111_witness_violated)."
  },
  {
   "property": "C112",
   "status": "partial",
   "theorems": [
    "Verif.Vl.C112_patches",
    "Verif.Vl.C112_each_once",
    "Verif.Vl.C112_merge_blocks",
    "Verif.Vl.C112_image_tokens",
    "Verif.Vl.C112_rotary_angles",
    "Verif.Vl.C112_two_images_violated"
   ],
   "note": "One image. With two images in the grid the position table is filled wrongly or refused (C112_two_images_violated)."
  },
  {
   "property": "C113",
   "status": "partial",
   "theorems": [
    "Verif.Vl.C113_smart_resize_partial",
    "Verif.Vl.C113_defaults",
    "Verif.Vl.C113_refuses",
    "Verif.Vl.C113_small_budget_violated"
   ],
   "note": "For budgets that are not absurdly small compared with the block (the defaults qualify, C113_defaults); with max = one block the result exceeds the budget (C113_small_budget_violated)."
  },
  {
   "property": "C114",
   "status": "partial",
   "theorems": [
    "Verif.Vl.C114_prefill_partial",
    "Verif.Vl.C114_decode_partial",
    "Verif.Vl.C114_convert_message",
    "Verif.Vl.C114_tables_partial",
    "Verif.Vl.C114_text_rows_partial",
    "Verif.Vl.C114_image_last_violated",
    "Verif.Vl.C114_short_violated"
   ],
   "note": "Requires text after the image for decode: if the prompt ends with the image the next position collides with image positions (C114_image_last_violated); a prompt with fewer image tokens than cells writes outside the tensor (C114_short_violated)."
  },
  {
   "property": "C115",
   "status": "proved",
   "theorems": [
    "Verif.Vl.C115_window_index_perm",
    "Verif.Vl.C115_mask",
    "Verif.Vl.C115_reverse",
    "Verif.Vl.C115_tower",
    "Verif.Vl.attnBlock_equivariant"
   ],
   "note": "Layers that commute with reordering (attention with a mask given by sets does: attnBlock_equivariant)."
  },
  {
   "property": "C116",
   "status": "partial",
   "theorems": [
    "Verif.Vl.C116_rope_partial",
    "Verif.Vl.C116_mrope_partial",
    "Verif.Vl.C116_odd_dim_violated",
    "Verif.Vl.fits_contig"
   ],
   "note": "Dense last dimension; the multimodal and vision operators only for even head sizes: for odd ones the last element is never written (C116_odd_dim_violated). Exact arithmetic."
  },
  {
   "property": "C117",
   "status": "partial",
   "theorems": [
    "Verif.Vl.C117_table",
    "Verif.Vl.C117_relative",
    "Verif.Vl.C117_norm",
    "Verif.Vl.C117_scores_partial",
    "Verif.Vl.C117_mrope_scores_partial",
    "Verif.Vl.C117_position_zero"
   ],
   "note": "Exact arithmetic; for the table makers of qwen3 (the other text models copy it) and qwen2vl."
  },
  {
   "property": "C118",
   "status": "partial",
   "theorems": [
    "Verif.Ops.C118_clone_partial",
    "Verif.Ops.C118_clone_iff",
    "Verif.Ops.C118_clone_view_violated",
    "Verif.Ops.C118_copy2_partial",
    "Verif.Ops.C118_copy2_view_violated",
    "Verif.Ops.C118_copy2_strided_violated",
    "Verif.Ops.C118_insert_partial",
    "Verif.Ops.C118_insert_short_violated"
   ],
   "note": "For sources that are the whole of their storage and contiguous destinations. bytes() is the size of the storage, so clone of any smaller view leaves its allocations (C118_clone_iff: exactly then), copy2 from one overruns, strided destinations are filled wrongly, and an image longer than the rest of the prompt is written outside the embeddings."
  },
  {
   "property": "C119",
   "status": "partial",
   "theorems": [
    "Verif.Kern.C119_matmul_partial",
    "Verif.Kern.C119_first_rhs_violated",
    "Verif.Kern.C119_matmul_violated",
    "Verif.Kern.C119_no_dot_violated",
    "Verif.Kern.C119_empty_violated",
    "Verif.Kern.C119_strides_ignored_violated",
    "Verif.Kern.C119_transposed_view_violated"
   ],
   "note": "Over any commutative ring (no rounding), float32 operands, contiguous, non-empty; with transpose_b and four or more rows the inner size must be a multiple of the vector width or there must be one matrix. Otherwise: each product of the batch uses the first right-hand matrix; without AVX2/NEON zeros; empty inner size leaves the output unset; strides of views are ignored."
  },
  {
   "property": "C12",
   "status": "partial",
   "theorems": [
    "Verif.Buddy.C12_live_disjoint_partial",
    "Verif.Buddy.C12_size_partial",
    "Verif.Buddy.C12_violated"
   ],
   "note": "false for first-segment capacities that are not powers of two (C12_violated); proved for all histories when the capacity is a power of two (default), with the OS returning non-overlapping memory"
  },
  {
   "property": "C120",
   "status": "partial",
   "theorems": [
    "Verif.Kern.C120_linear_partial",
    "Verif.Kern.C120_few_channels_violated"
   ],
   "note": "Over any commutative ring, default implementation, float32, contiguous input. On x86 a layer with fewer than four input channels leaves its output unset (C120_few_channels_violated)."
  },
  {
   "property": "C121",
   "status": "partial",
   "theorems": [
    "Verif.Kern.C121_softmax_partial",
    "Verif.Kern.C121_exp_arm",
    "Verif.Kern.C121_exp_x86_partial",
    "Verif.Kern.C121_exp_x86_violated",
    "Verif.Kern.C121_softmax_x86_violated",
    "Verif.Kern.C121_axis_refused",
    "Verif.Kern.C121_strides_ignored_violated",
    "Verif.Kern.C121_transposed_view_violated"
   ],
   "note": "Real arithmetic (no rounding), float32, contiguous input. Bound 5e-7 on arm; on x86 only 6.2 %, and entries are really off by more than 2e-4 (C121_exp_x86_violated, C121_softmax_x86_violated: wrong constant for the split of ln 2). Strides of views are ignored."
  },
  {
   "property": "C122",
   "status": "partial",
   "theorems": [
    "Verif.Kern.C122_rmsnorm_partial",
    "Verif.Kern.C122_rmsnorm_inplace_partial",
    "Verif.Kern.C122_rmsnorm_x86_violated",
    "Verif.Kern.C122_rmsnorm_inplace_x86_violated",
    "Verif.Kern.C122_strides_ignored_violated",
    "Verif.Kern.C122_transposed_view_violated"
   ],
   "note": "Real arithmetic, float32, contiguous. On x86 rows must start at vector-aligned addresses: otherwise the aligned load faults (C122_rmsnorm_x86_violated). Strides of views are ignored."
  },
  {
   "property": "C123",
   "status": "partial",
   "theorems": [
    "Verif.Kern.C123_layernorm_partial",
    "Verif.Kern.C123_x86_violated",
    "Verif.Kern.C123_view_refused",
    "Verif.Kern.C123_shape_unchecked_violated"
   ],
   "note": "Real arithmetic, float32, arm. On x86 nothing is computed (C123_x86_violated); a wrong trailing shape whose size divides is accepted (C123_shape_unchecked_violated)."
  },
  {
   "property": "C124",
   "status": "partial",
   "theorems": [
    "Verif.Kern.C124_sum_partial",
    "Verif.Kern.C124_max_partial",
    "Verif.Kern.C124_min_partial",
    "Verif.Kern.C124_mean_partial",
    "Verif.Kern.C124_sum_int_partial",
    "Verif.Kern.C124_max_int_partial",
    "Verif.Kern.C124_min_int_partial",
    "Verif.Kern.C124_mean_int_partial",
    "Verif.Kern.C124_mean_int_violated",
    "Verif.Kern.C124_x86_violated",
    "Verif.Kern.C124_strides_ignored_violated",
    "Verif.Kern.C124_transposed_view_violated",
    "Verif.Kern.C124_axis_unchecked_violated"
   ],
   "note": "Real arithmetic for float32, exact bit vectors for integers, contiguous input. On x86 only the float sum computes anything (C124_x86_violated); integer means wrap when the sum does not fit (C124_mean_int_violated); strides of views are ignored; an axis out of range is not refused. Half types and the int32 mean are not modelled."
  },
  {
   "property": "C125",
   "status": "partial",
   "theorems": [
    "Verif.Kern.C125_sigmoid_arm_partial",
    "Verif.Kern.C125_sigmoid_inplace_arm_partial",
    "Verif.Kern.C125_silu_arm_partial",
    "Verif.Kern.C125_silu_inplace_arm_partial",
    "Verif.Kern.C125_quickgelu_arm_partial",
    "Verif.Kern.C125_relu_arm",
    "Verif.Kern.C125_silu_x86_partial",
    "Verif.Kern.C125_sigmoid_x86_partial",
    "Verif.Kern.C125_silu_x86_violated",
    "Verif.Kern.C125_sigmoid_x86_violated",
    "Verif.Kern.C125_x86_missing_violated",
    "Verif.Kern.C125_strides_ignored_violated",
    "Verif.Kern.C125_transposed_view_violated",
    "Verif.Kern.C125_view_refused"
   ],
   "note": "Real arithmetic, float32, contiguous. arm: relative error 2.2e-7 given an 8-bit reciprocal estimate; ReLU exact. x86: SiLU only to 2.9 % and really off by over 0.14 % for -88..-5 (C125_silu_x86_violated), sigmoid only to 2.3e-4 absolute and off by any factor below -11.5 (C125_sigmoid_x86_violated), ReLU and QuickGELU store nothing (C125_x86_missing_violated). Strides of views are ignored by SiLU, sigmoid, ReLU."
  },
  {
   "property": "C126",
   "status": "partial",
   "theorems": [
    "Verif.Kern.C126_gelu_arm_partial",
    "Verif.Kern.C126_tanh_arm",
    "Verif.Kern.C126_x86_violated"
   ],
   "note": "Real arithmetic, float32, contiguous, arm. On x86 the kernel body is empty and nothing is stored (C126_x86_violated)."
  },
  {
   "property": "C127",
   "status": "partial",
   "theorems": [
    "Verif.Kern.C127_conv1d_partial",
    "Verif.Kern.C127_conv1d_refuses",
    "Verif.Kern.C127_conv2d_partial",
    "Verif.Kern.C127_conv2d_refuses",
    "Verif.Kern.C127_conv3d_partial",
    "Verif.Kern.C127_conv3d_refuses",
    "Verif.Kern.C127_conv1d_no_window_violated",
    "Verif.Kern.C127_conv2d_no_window_violated",
    "Verif.Kern.C127_conv3d_reads_outside_violated",
    "Verif.Kern.C127_conv3d_x86_violated",
    "Verif.Kern.C127_conv1d_strides_ignored_violated",
    "Verif.Kern.C127_conv1d_view_violated"
   ],
   "note": "Exact arithmetic over any commutative ring, float32, contiguous operands, kernel fits. Conv2D and Conv3D on arm. Violations: a kernel larger than the padded input by less than the stride is accepted with one output (C127_conv1d_no_window_violated, C127_conv2d_no_window_violated), for Conv3D computed from memory behind the input (C127_conv3d_reads_outside_violated); Conv3D on x86 stores nothing (C127_conv3d_x86_violated); strides of views are ignored (C127_conv1d_strides_ignored_violated, C127_conv1d_view_violated)."
  },
  {
   "property": "C128",
   "status": "partial",
   "theorems": [
    "Verif.Kern.C128_avgpool_floor",
    "Verif.Kern.C128_avgpool_ceil_partial",
    "Verif.Kern.C128_ceil_divisor_violated",
    "Verif.Kern.C128_ceil_extra_violated",
    "Verif.Kern.C128_no_window_violated",
    "Verif.Kern.C128_refuses"
   ],
   "note": "Real arithmetic, contiguous input, window not larger than the padded line. Complete for ceil_mode = false; with ceil_mode proved without count_include_pad when stride + padding <= window. Violations: ceil_mode with the default divisor (C128_ceil_divisor_violated), ceil_mode with a stride larger than the window (C128_ceil_extra_violated), a window larger than the padded line (C128_no_window_violated)."
  },
  {
   "property": "C129",
   "status": "partial",
   "theorems": [
    "Verif.Kern.C129_nearest1d_partial",
    "Verif.Kern.C129_nearest2d_partial",
    "Verif.Kern.C129_nearest3d_partial",
    "Verif.Kern.C129_linear_partial",
    "Verif.Kern.C129_bilinear_partial",
    "Verif.Kern.C129_bicubic_partial",
    "Verif.Kern.C129_trilinear_partial",
    "Verif.Kern.C129_range",
    "Verif.Kern.C129_constant",
    "Verif.Kern.C129_identity",
    "Verif.Kern.C129_by_scale",
    "Verif.Kern.C129_refuses",
    "Verif.Kern.C129_single_output",
    "Verif.Kern.C129_single_output_violated",
    "Verif.Kern.C129_view_violated",
    "Verif.Kern.C129_channels_violated",
    "Verif.Kern.keys_far"
   ],
   "note": "Real arithmetic, float32, contiguous input, sizes for the spatial dimensions only. Violations: one output on an axis of several samples without aligned corners reads the first sample and skips antialiasing (C129_single_output_violated), strides of views are ignored (C129_view_violated), a size list that covers the channels writes past the output (C129_channels_violated)."
  },
  {
   "property": "C13",
   "status": "partial",
   "theorems": [
    "Verif.Buddy.C13_freed_pool_is_whole_partial",
    "Verif.Buddy.C13_violated"
   ],
   "note": "false for non-power-of-two capacity (C13_violated); proved for power-of-two capacity with the object cache off (the default)"
  },
  {
   "property": "C130",
   "status": "partial",
   "theorems": [
    "Verif.Quant.C130_dequantise_q8_0",
    "Verif.Quant.C130_dequantise_q4_0",
    "Verif.Quant.C130_dequantise_q6_K",
    "Verif.Quant.C130_dequantise_q8_K",
    "Verif.Quant.C130_dequantise_q4_K",
    "Verif.Quant.C130_quantise_q8_0",
    "Verif.Quant.C130_quantise_q4_0",
    "Verif.Quant.C130_quantise_q8_K",
    "Verif.Quant.C130_quantise_q4_K",
    "Verif.Quant.C130_quantise_q6_K",
    "Verif.Quant.C130_roundtrip_q8_0",
    "Verif.Quant.C130_roundtrip_q4_0",
    "Verif.Quant.C130_roundtrip_q8_K",
    "Verif.Quant.C130_portable_violated",
    "Verif.Quant.C130_portable_back_violated"
   ],
   "note": "Real arithmetic; nearest_int is any rounding to a nearest integer (the bit trick needs |x| below 2^22); QK_K = 256. Violations: off Arm a half-precision scale is read as an integer, so a block whose scale is below one half (any GGUF file) reads as zeros, and x86 files read on Arm as numbers above 1000 (C130_portable_violated, C130_portable_back_violated)."
  },
  {
   "property": "C131",
   "status": "partial",
   "theorems": [
    "Verif.Quant.C131_dot_q4_0_partial",
    "Verif.Quant.C131_dot_q8_0_partial",
    "Verif.Quant.C131_dot_q4_K_partial",
    "Verif.Quant.C131_dot_q6_K_partial",
    "Verif.Quant.C131_matvec_q4_K",
    "Verif.Quant.C131_matvec_q6_K",
    "Verif.Quant.C131_odd_blocks_violated",
    "Verif.Quant.C131_i8mm_q4_0_violated",
    "Verif.Quant.C131_i8mm_q8_0_violated",
    "Verif.Quant.C131_no_simd_violated",
    "Verif.Quant.C131_minus_128_violated",
    "Verif.Quant.C131_plain_neon_q4_K_violated"
   ],
   "note": "AVX2, NEON with and without dot product, scalar K kernels; sums in real arithmetic. Violations: NEON q4_0/q8_0 with an odd number of blocks takes in the block behind the row, int8mm builds of both, builds without SIMD write nothing, the byte -128 flips its sign with AVX2, plain NEON sums a group of q4_K in sixteen bits."
  },
  {
   "property": "C132",
   "status": "partial",
   "theorems": [
    "Verif.Quant.C132_linear_q4_K_partial",
    "Verif.Quant.C132_linear_q6_K_partial",
    "Verif.Quant.C132_sliced_input_violated"
   ],
   "note": "All builds but plain NEON; contiguous input; in_channels a multiple of 256. Violation: the products are taken at the strides of the input although the quantised copy is contiguous, so a sliced batched input reads behind the temporary (C132_sliced_input_violated)."
  },
  {
   "property": "C133",
   "status": "partial",
   "theorems": [
    "Verif.Mamba.C133_match",
    "Verif.Mamba.C133_insert",
    "Verif.Mamba.C133_origin",
    "Verif.Mamba.C133_locked",
    "Verif.Mamba.C133_evict",
    "Verif.Mamba.C133_count",
    "Verif.Mamba.C133_sizes_partial",
    "Verif.Mamba.C133_sizes_violated",
    "Verif.Mamba.C133_server_violated"
   ],
   "note": "Proved by simulation: every step is a step the plain radix cache (C36, C37) may take. Violations: extending an unlocked leaf loses evictable tokens (C133_sizes_violated); the server's dec_lock_ref(node, swa_id) raises TypeError with this cache (C133_server_violated)."
  },
  {
   "property": "C134",
   "status": "proved",
   "theorems": [
    "Verif.Mamba.C134_lists",
    "Verif.Mamba.C134_match",
    "Verif.Mamba.C134_insert",
    "Verif.Mamba.C134_evict",
    "Verif.Mamba.C134_evict_states",
    "Verif.Mamba.C134_evict_ends",
    "Verif.Mamba.rep_unique"
   ],
   "note": "Pointer-level model of LRUList; the lists are related to Lean lists by Rep, which determines the list (rep_unique)."
  },
  {
   "property": "C135",
   "status": "partial",
   "theorems": [
    "Verif.Mamba.C135_match",
    "Verif.Mamba.C135_insert",
    "Verif.Mamba.C135_lock",
    "Verif.Mamba.C135_evict",
    "Verif.Mamba.C135_conserved",
    "Verif.Mamba.C135_kept_partial",
    "Verif.Mamba.C135_not_freed_partial",
    "Verif.Mamba.C135_enough_partial",
    "Verif.Mamba.C135_branching",
    "Verif.Mamba.C135_split_violated",
    "Verif.Mamba.C135_exist_violated",
    "Verif.Mamba.C135_leak_violated",
    "Verif.Mamba.C135_lock_violated",
    "Verif.Mamba.C135_size_violated",
    "Verif.Mamba.C135_evict_violated"
   ],
   "note": "Conservation holds for all histories. Protection holds if only nodes with a state are locked; enough is freed if no tokens are asked for. Violations: a split gives the state of the whole sequence to the prefix and leaves an empty one that counts as present, for every one-slot state (C135_split_violated); mamba_exist is true though the state was stored; a split copies the lock count, which is never released; a lock taken without state releases somebody else's; evictable counters mix tokens and slots; evict counts tokens as state slots."
  },
  {
   "property": "C136",
   "status": "partial",
   "theorems": [
    "Verif.Shard.C136_groups",
    "Verif.Shard.C136_coordinates_partial",
    "Verif.Shard.C136_same_calls_partial",
    "Verif.Shard.C136_coordinates_violated",
    "Verif.Shard.C136_same_calls_violated",
    "Verif.Shard.C136_no_dist_violated",
    "Verif.Shard.C136_reinit_violated"
   ],
   "note": "Groups proved for all worlds. Coordinates are unique only when tp and pp are coprime (for all others two processes share coordinates, C136_coordinates_violated); the new_group calls agree only if each kind of parallelism spans the world or is off (C136_same_calls_violated); without torch.distributed tp>1 is accepted; re-initialisation leaves stale ranks and groups."
  },
  {
   "property": "C137",
   "status": "proved",
   "theorems": [
    "Verif.Shard.C137_loads",
    "Verif.Shard.C137_column_shard",
    "Verif.Shard.C137_column",
    "Verif.Shard.C137_row",
    "Verif.Shard.C137_mlp",
    "Verif.Shard.C137_embedding",
    "Verif.Shard.C137_bad_token_violated",
    "Verif.Shard.C137_oversize_violated",
    "Verif.Shard.C137_no_dist_violated"
   ],
   "note": "Exact arithmetic over a commutative ring (float addition order not modelled). Side conditions the code does not enforce are shown necessary: a token id outside the vocabulary becomes a zero vector with 2+ ranks; an oversized checkpoint tensor is accepted with 2+ ranks; tp>1 without torch.distributed returns outF/tp outputs."
  },
  {
   "property": "C138",
   "status": "proved",
   "theorems": [
    "Verif.Shard.C138_qkv",
    "Verif.Shard.C138_numbered",
    "Verif.Shard.C138_forward",
    "Verif.Shard.C138_metadata",
    "Verif.Shard.C138_missized_violated",
    "Verif.Shard.C138_missized_numbered_violated"
   ],
   "note": "Under the condition that the tensors have the right sizes; a wrong-sized shard is not refused but written over its neighbours (C138_missized_violated, C138_missized_numbered_violated)."
  },
  {
   "property": "C139",
   "status": "partial",
   "theorems": [
    "Verif.Shard.C139_load_partial",
    "Verif.Shard.C139_missing_violated",
    "Verif.Shard.C139_head_violated",
    "Verif.Shard.C139_shape_violated",
    "Verif.Shard.C139_broadcast_violated"
   ],
   "note": "Proved for complete checkpoints with right shapes. Violated: nothing is reported. Deleting all tensors of any parameter from any loadable checkpoint still loads and leaves it uninitialised (C139_missing_violated, general); language_model.lm_head.weight is dropped though that prefix is accepted elsewhere; a misshaped embedding is skipped; a one-element norm weight is broadcast."
  },
  {
   "property": "C14",
   "status": "partial",
   "theorems": [
    "Verif.Buddy.C14_accounting_partial"
   ],
   "note": "power-of-two first segment"
  },
  {
   "property": "C140",
   "status": "partial",
   "theorems": [
    "Verif.Ascend.C140_inside_partial",
    "Verif.Ascend.C140_disjoint_partial",
    "Verif.Ascend.C140_pool_size_violated",
    "Verif.Ascend.C140_wrap_violated"
   ],
   "note": "Proved when base and pool size are multiples of 32, the pool is below 64 GiB and requests are below 4 GiB-64. Each condition matters: with any other pool size of at least 64 bytes three requests get a block outside the pool (C140_pool_size_violated, the signed rest is compared as unsigned); requests just below 4 GiB wrap to a block of at most 32 bytes (C140_wrap_violated)."
  },
  {
   "property": "C141",
   "status": "partial",
   "theorems": [
    "Verif.Ascend.C141_disjoint_partial",
    "Verif.Ascend.C141_progress_partial",
    "Verif.Ascend.C141_no_leak_partial",
    "Verif.Ascend.C141_truncated_violated",
    "Verif.Ascend.C141_device_violated"
   ],
   "note": "Proved on one device under the conditions of C140. Violated for tensors of 4 GiB or more (the size is cut to 32 bits: every such tensor overlaps the next one, C141_truncated_violated) and with two devices (the pool is chosen by the current device when freeing, C141_device_violated)."
  },
  {
   "property": "C142",
   "status": "partial",
   "theorems": [
    "Verif.Ascend.C142_choice_partial",
    "Verif.Ascend.C142_fragment_violated"
   ],
   "note": "The choice is proved (same conditions as C140). The last sentence is violated for every pool size: blocks are never split or merged, so after filling the pool with tiny blocks and freeing all of them every request of one byte or more is refused (C142_fragment_violated)."
  },
  {
   "property": "C143",
   "status": "partial",
   "theorems": [
    "Verif.Aot.C143_generate_partial",
    "Verif.Aot.C143_resume_partial",
    "Verif.Aot.refGraph_implements",
    "Verif.Aot.C143_eos_violated",
    "Verif.Aot.C143_full_context_violated",
    "Verif.Aot.C143_empty_violated",
    "Verif.Aot.C143_overflow_violated",
    "Verif.Aot.C143_long_prompt_violated"
   ],
   "note": "Proved for prompts of 1 to context_len - ar_len tokens (any length if ar_len = context_len), prompt plus budget below context_len, and a first token that is not an EOS; also for a prompt continued on a filled cache. Each condition matters: an EOS as first token does not stop (C143_eos_violated); prompt plus budget reaching context_len writes outside the key buffer (C143_full_context_violated); an empty prompt samples from stale logits (C143_empty_violated); a longer prompt that fits the context overwrites keys of other rows (C143_overflow_violated) and gives wrong tokens (C143_long_prompt_violated)."
  },
  {
   "property": "C144",
   "status": "partial",
   "theorems": [
    "Verif.Aot.C144_window",
    "Verif.Aot.C144_start_violated"
   ],
   "note": "Proved for a cache filled from position 0, any window of at least the chunk length. Violated when prefill starts on a cache more than half full (C144_start_violated): the number of cached tokens is subtracted twice, so position 0 is hidden although the window covers it."
  },
  {
   "property": "C145",
   "status": "partial",
   "theorems": [
    "Verif.Aot.C145_rearrange",
    "Verif.Aot.C145_append",
    "Verif.Aot.C145_select_partial",
    "Verif.Aot.C145_zero_violated",
    "Verif.Aot.C145_short_violated"
   ],
   "note": "Rearranging and appending are proved in full; selecting for 1 <= n <= number of selected tokens. Violated for n = 0 (values are written, keys are not, C145_zero_violated) and for selections with fewer than n tokens (keys get copies of token 0, values stay, C145_short_violated)."
  },
  {
   "property": "C146",
   "status": "partial",
   "theorems": [
    "Verif.Stream.C146_chunks",
    "Verif.Stream.C146_eos_shown_violated",
    "Verif.Stream.C146_split_character_violated"
   ],
   "note": "Proved up to the EOS text, for EOS tokens whose text does not end in byte BD. Violated: the text of the EOS token itself is shown (C146_eos_shown_violated), and any character whose bytes are spread over two tokens vanishes, since tokens are converted to strings one by one (C146_split_character_violated)."
  },
  {
   "property": "C147",
   "status": "partial",
   "theorems": [
    "Verif.Stream.C147_chunk_loop_violated",
    "Verif.Stream.C147_speech_loop_violated"
   ],
   "note": "Violated for every answer: the loop over chunks starts with an output that was never generated and never sees the last chunk (C147_chunk_loop_violated); the loop over the speech generator never sees the output with the end of the audio, and no audio at all if the speech ends in the first call (C147_speech_loop_violated). Both theorems also say exactly what is delivered."
  },
  {
   "property": "C148",
   "status": "partial",
   "theorems": [
    "Verif.Stream.C148_text_partial",
    "Verif.Stream.C148_limit_violated",
    "Verif.Stream.C148_short_speech_violated",
    "Verif.Stream.C148_text_only_violated",
    "Verif.Stream.C148_text_only_endless_violated",
    "Verif.Stream.C148_after_marker_violated"
   ],
   "note": "Proved in audio mode for answers up to ten tokens and speech of at least two calls (or at most eight tokens). Violated: max_new_tokens has no effect, the limit is always ten (C148_limit_violated); speech of one call loses the end of the text (C148_short_speech_violated); without audio no text is ever shown (C148_text_only_violated) and short answers loop for ever (C148_text_only_endless_violated); text after <|tts_eos|> in a later chunk is shown and spoken (C148_after_marker_violated)."
  },
  {
   "property": "C149",
   "status": "partial",
   "theorems": [
    "Verif.Stream.C149_cache_partial",
    "Verif.Stream.C149_stale_violated"
   ],
   "note": "Proved if the text known in the first call has ten speech tokens that later text does not change, or is complete. Violated otherwise: the end marker written after a shorter text stays in place of the next token in every later call (C149_stale_violated)."
  },
  {
   "property": "C15",
   "status": "partial",
   "theorems": [
    "Verif.Buddy.C15_diverges",
    "Verif.Buddy.C15_os_failure_unnoticed",
    "Verif.Buddy.C15_terminates_partial",
    "Verif.Buddy.C15_default_threshold"
   ],
   "note": "false: requests above 512 MB loop for ever (C15_diverges), OS failure unnoticed (C15_os_failure_unnoticed). Proved: requests up to 512 MB are served after at most 30 granted segments; the default threshold keeps requests below that"
  },
  {
   "property": "C150",
   "status": "proved",
   "theorems": [
    "Verif.Stream.C150_audio_seamless",
    "Verif.Stream.C150_overlap_add",
    "Verif.Stream.overlap_seg"
   ],
   "note": "Real arithmetic (any field) in place of float. The joined audio includes the last output, which the documented loop does not visit (C147)."
  },
  {
   "property": "C151",
   "status": "partial",
   "theorems": [
    "Verif.Stream.C151_mask",
    "Verif.Stream.C151_chunk25_violated"
   ],
   "note": "Proved for audio chunk sizes of at least 26 (default 50), with the exact set of visible positions; the first audio position (302) is never visible. Violated for an audio chunk size of 25, the number of tokens in a call (C151_chunk25_violated)."
  },
  {
   "property": "C152",
   "status": "partial",
   "theorems": [
    "Verif.Stream.C152_cache_partial",
    "Verif.Stream.C152_cache_overflow_violated"
   ],
   "note": "Proved for the first 28 calls (and for ever if the speech ends in them). Violated: speech that goes on writes outside the cache in the 29th call, before its limit applies (C152_cache_overflow_violated)."
  },
  {
   "property": "C153",
   "status": "proved",
   "theorems": [
    "Verif.Marlin.C153_every_tile_once",
    "Verif.Marlin.C153_counts",
    "Verif.Marlin.C153_locks",
    "Verif.Marlin.C153_scratch",
    "Verif.Marlin.C153_place",
    "Verif.Marlin.C153_groups_whole"
   ],
   "note": "Integers are unbounded in the model (no 32-bit overflow)."
  },
  {
   "property": "C154",
   "status": "proved",
   "theorems": [
    "Verif.Marlin.C154_result_fixed",
    "Verif.Marlin.C154_no_deadlock",
    "Verif.Marlin.C154_terminates",
    "Verif.Marlin.C154_done",
    "Verif.Marlin.C154_exclusive",
    "Verif.Marlin.C154_column_is_full_sum",
    "Verif.Marlin.C154_atomic",
    "Verif.Marlin.C154_needs_zeroed_workspace"
   ],
   "note": "Sequentially consistent memory between blocks (acquire/release semantics are assumed to give it). C154_needs_zeroed_workspace shows the workspace must start with zeros."
  },
  {
   "property": "C155",
   "status": "partial",
   "theorems": [
    "Verif.Marlin.C155_rows_once",
    "Verif.Marlin.C155_terminates",
    "Verif.Marlin.C155_supported",
    "Verif.Marlin.C155_launches_fit",
    "Verif.Marlin.C155_scratch_size",
    "Verif.Marlin.C155_compressed_layers",
    "Verif.Marlin.C155_awq4_partial",
    "Verif.Marlin.C155_compressed_channel_violated",
    "Verif.Marlin.C155_awq8_violated",
    "Verif.Marlin.C155_awq_row_parallel_violated",
    "Verif.Marlin.C155_small_groups_violated",
    "Verif.Marlin.C155_estimate_violated"
   ],
   "note": "Proved for 4-bit layers with group sizes 32, 64, 128 (AWQ also -1 for unsplit layers). Violated: compressed-tensors group_size=-1 is listed as supported but no layer can be created; 8-bit AWQ is accepted but has no kernel; AWQ group_size=-1 on a layer split along the input always fails; groups of fewer than 16 rows divide by zero; the shared-memory estimate is too low for some devices (below 70 KiB)."
  },
  {
   "property": "C156",
   "status": "proved",
   "theorems": [
    "Verif.Marlin.C156_places",
    "Verif.Marlin.C156_awq",
    "Verif.Marlin.C156_gptq",
    "Verif.Marlin.C156_gptq_perm",
    "Verif.Marlin.C156_writes",
    "Verif.Marlin.C156_pipeline"
   ],
   "note": "Words are natural numbers below 2^32; the permutation must map rows to rows."
  },
  {
   "property": "C157",
   "status": "partial",
   "theorems": [
    "Verif.Marlin.C157_weights",
    "Verif.Marlin.C157_scales_partial",
    "Verif.Marlin.C157_wide_scales_partial",
    "Verif.Marlin.C157_wide_scales_violated",
    "Verif.Marlin.C157_pipeline_live"
   ],
   "note": "Proved for weights, and for scales and zero points whose group is not wider than a tile, and for wide groups while the slice has at most 4 tiles. Violated for wide groups (group size 128 with 64-row tiles): scales of an odd tile are read again from the group's first stage with no barrier before another warp may overwrite that stage, so a thread can use the scales of a tile two groups ahead. C157_pipeline_live shows that the modelled pipelines always progress."
  },
  {
   "property": "C158",
   "status": "proved",
   "theorems": [
    "Verif.Marlin.C158_dequant_4",
    "Verif.Marlin.C158_dequant_8",
    "Verif.Marlin.C158_dequant_bf16",
    "Verif.Marlin.C158_awq",
    "Verif.Marlin.C158_awq_bf16",
    "Verif.Marlin.C158_symmetric",
    "Verif.Marlin.C158_symmetric_bf16",
    "Verif.Marlin.C158_cover",
    "Verif.Marlin.C158_column_scales",
    "Verif.Marlin.C158_column_scales_8"
   ],
   "note": "Which stage of shared memory is read is C157's subject. FP8/FP4 types, float zero points, act-order and 8-bit weights with bfloat16 are not modelled."
  },
  {
   "property": "C159",
   "status": "proved",
   "theorems": [
    "Verif.Marlin.C159_block_reduce",
    "Verif.Marlin.C159_slice",
    "Verif.Marlin.C159_write",
    "Verif.Marlin.C159_product"
   ],
   "note": "Exact arithmetic: the rounding of the accumulation and of the stored result is not modelled. Kernels for at most 8 rows (m_block_size_8) are not modelled; scales applied after the sum are C158_column_scales. ldmatrix and mma follow the PTX ISA tables. The global reduction is C154's, applied element by element."
  },
  {
   "property": "C16",
   "status": "partial",
   "theorems": [
    "Verif.ParamFile.v2_roundtrip_partial",
    "Verif.ParamFile.v2_readers_agree",
    "Verif.ParamFile.v2_slice_overflow_violated",
    "Verif.ParamFile.v2_offset_slice_violated",
    "Verif.ParamFile.v2_transposed_violated",
    "Verif.ParamFile.v2_long_names_violated"
   ],
   "note": "Round trip proved for whole (non-view) tensors, both readers; reader agreement for every file; violations proved for sliced/offset/transposed views and names longer than 255 bytes"
  },
  {
   "property": "C160",
   "status": "proved",
   "theorems": [
    "Verif.Slice.C160_grid",
    "Verif.Slice.C160_slices",
    "Verif.Slice.C160_patches",
    "Verif.Slice.C160_pixel_values"
   ],
   "note": "Floating-point intermediate results are arbitrary; int does not overflow; the PNG round trip of a slice is the identity (see C162 for the file itself)."
  },
  {
   "property": "C161",
   "status": "partial",
   "theorems": [
    "Verif.Slice.C161_tag_partial",
    "Verif.Slice.C161_tag_twice_violated",
    "Verif.Slice.C161_slots_partial",
    "Verif.Slice.C161_stray_marker_violated"
   ],
   "note": "Holds when the tag occurs once and the text before the image holds no marker token. Violated otherwise: a second tag reads an image size that does not exist (out of bounds), and a stray marker before the image shifts all bounds, so that embeddings overwrite text and a slot stays empty."
  },
  {
   "property": "C162",
   "status": "partial",
   "theorems": [
    "Verif.Slice.C162_disjoint_names_partial",
    "Verif.Slice.C162_foreign_slice_violated",
    "Verif.Slice.C162_process_ends_violated"
   ],
   "note": "Proved when the random numbers of different processes are disjoint. Violated as the code is: rand() is never seeded, so every process uses the same file names; a process can read back the slice of another one, or find the file removed and end."
  },
  {
   "property": "C163",
   "status": "partial",
   "theorems": [
    "Verif.Slice.C163_audio_slots",
    "Verif.Slice.C163_short_audio_partial",
    "Verif.Slice.C163_long_audio_violated",
    "Verif.Slice.C163_position_table_violated"
   ],
   "note": "Up to 30 seconds every slot is filled and nothing else changes. Violated for longer audio (features are cut at 30 seconds, slots are not), and the encoder always computes 1501 positions while the position table has 1500 rows. The float quotient of the slot count is taken as exact."
  },
  {
   "property": "C164",
   "status": "proved",
   "theorems": [
    "Verif.Bits.C164_unsigned",
    "Verif.Bits.C164_signed"
   ],
   "note": "NEON instructions are modelled lane by lane; values outside the width are excluded, as the code asserts."
  },
  {
   "property": "C165",
   "status": "proved",
   "theorems": [
    "Verif.Bits.C165_size",
    "Verif.Bits.C165_offset",
    "Verif.Bits.C165_round_trip"
   ],
   "note": "Round trip without a lookup table (the code offers no unpacking with one; C166 reads those tiles)."
  },
  {
   "property": "C166",
   "status": "proved",
   "theorems": [
    "Verif.Bits.C166_activations_size",
    "Verif.Bits.C166_1x8x16",
    "Verif.Bits.C166_1x4x16",
    "Verif.Bits.C166_1x1x32",
    "Verif.Bits.C166_no_overflow",
    "Verif.Bits.C166_exact"
   ],
   "note": "Floating-point operations are arbitrary functions applied in the order of the code; C166_exact instantiates them with exact arithmetic of a field."
  },
  {
   "property": "C167",
   "status": "partial",
   "theorems": [
    "Verif.Bits.C167_min_max",
    "Verif.Bits.C167_all_stored",
    "Verif.Bits.C167_error_partial",
    "Verif.Bits.C167_positive_row_violated",
    "Verif.Bits.C167_constant_row_violated"
   ],
   "note": "Exact arithmetic instead of float. Proved for rows with values on both sides of zero. Violated: if the smallest value is above half a step the zero point does not fit int8_t, wraps, and all values are stored as 127; if all values are equal the scale is 0 and only a debug assertion stops."
  },
  {
   "property": "C168",
   "status": "partial",
   "theorems": [
    "Verif.Ocr.C168_crop",
    "Verif.Ocr.C168_center_crop",
    "Verif.Ocr.C168_pad_size",
    "Verif.Ocr.C168_pad",
    "Verif.Ocr.C168_shorter_side",
    "Verif.Ocr.C168_to_tensor",
    "Verif.Ocr.C168_normalize",
    "Verif.Ocr.C168_normalize_in_place_violated"
   ],
   "note": "Exact arithmetic for sizes; interpolation is an arbitrary function of the size. Normalize works in the memory of its argument, so transforming the same tensor twice normalises twice (C168_normalize_in_place_violated)."
  },
  {
   "property": "C169",
   "status": "proved",
   "theorems": [
    "Verif.Ocr.C169_grid",
    "Verif.Ocr.C169_grid_unique",
    "Verif.Ocr.C169_tiles"
   ],
   "note": "Ratios are compared exactly (the code compares doubles). Independence of the order is proved for the limits the model uses (2 to 9 cells)."
  },
  {
   "property": "C17",
   "status": "partial",
   "theorems": [
    "Verif.ParamFile.v1_roundtrip_partial",
    "Verif.ParamFile.v1_unnamed_storage_violated"
   ],
   "note": "Round trip proved when storages carry the registered names; violation proved otherwise"
  },
  {
   "property": "C170",
   "status": "partial",
   "theorems": [
    "Verif.Ocr.C170_features",
    "Verif.Ocr.C170_features_small",
    "Verif.Ocr.C170_prompt",
    "Verif.Ocr.C170_lengths",
    "Verif.Ocr.C170_service",
    "Verif.Ocr.C170_count",
    "Verif.Ocr.C170_base_violated",
    "Verif.Ocr.C170_tile_size_violated",
    "Verif.Ocr.C170_zero_sum_violated",
    "Verif.Ocr.C170_no_image_violated",
    "Verif.Ocr.C170_more_tags_violated",
    "Verif.Ocr.C170_no_tag_violated"
   ],
   "note": "Proved for one image and one tag, sides with a multiple of four patches, tiles of the assumed size. Violated: other base sizes give fewer slots than features; infer cuts tiles of 640 whatever image_size is; an image with as many white as black values is taken for one without tiles; without image images[0] is read; further tags drop text, no tag repeats it."
  },
  {
   "property": "C171",
   "status": "partial",
   "theorems": [
    "Verif.Ocr.Conv.C171_trim",
    "Verif.Ocr.Conv.C171_plain",
    "Verif.Ocr.Conv.C171_deepseek",
    "Verif.Ocr.Conv.C171_openai",
    "Verif.Ocr.Conv.C171_v2_violated",
    "Verif.Ocr.Conv.C171_initialize",
    "Verif.Ocr.Conv.C171_initialize_again_violated"
   ],
   "note": "Violated: the deepseekv2 template is registered with the role '<\uff5cUser\uff5c>' but compares with 'User', so questions are rendered as closed answers; a second initialisation (every infer call) fails an assertion in debug builds."
  },
  {
   "property": "C172",
   "status": "proved",
   "theorems": [
    "Verif.Fft.C172_radix2_complex",
    "Verif.Fft.C172_radix2_real",
    "Verif.Fft.C172_bluestein",
    "Verif.Fft.C172_power_of_two",
    "Verif.Fft.C172_inverse",
    "Verif.Fft.C172_agree"
   ],
   "note": "Exact complex arithmetic; lengths up to 2^32 (powers of two) and 2^30."
  },
  {
   "property": "C173",
   "status": "partial",
   "theorems": [
    "Verif.Fft.C173_frames",
    "Verif.Fft.C173_padding",
    "Verif.Fft.C173_no_padding",
    "Verif.Fft.C173_padding_reads",
    "Verif.Fft.C173_short_violated",
    "Verif.Fft.C173_stft",
    "Verif.Fft.C173_batch_violated",
    "Verif.Fft.C173_roundtrip",
    "Verif.Fft.C173_center_violated",
    "Verif.Fft.C173_same",
    "Verif.Fft.C173_same_odd_violated",
    "Verif.Fft.C173_same_gap_violated",
    "Verif.Fft.C173_same_window_violated",
    "Verif.Fft.C173_normalized_violated"
   ],
   "note": "Proved for one row, center=false (and 'same' with even overlap). Violated: all rows of a batch get the first row's transform; a signal not longer than the mirrored padding is read out of bounds; with center=true the inverse keeps the padding (shifted by n_fft/2); 'same' leaves the last sample unwritten for odd overlaps, reads before the buffer for hop > win and fails an assertion for short windows; 'normalized' divides twice."
  },
  {
   "property": "C174",
   "status": "partial",
   "theorems": [
    "Verif.Fft.C174_scale",
    "Verif.Fft.C174_monotone",
    "Verif.Fft.C174_corners",
    "Verif.Fft.C174_triangle",
    "Verif.Fft.C174_partition",
    "Verif.Fft.C174_filterbank",
    "Verif.Fft.C174_area",
    "Verif.Fft.C174_bins",
    "Verif.Fft.C174_window_violated",
    "Verif.Fft.C174_window_symmetric",
    "Verif.Fft.C174_compress",
    "Verif.Fft.C174_mel",
    "Verif.Fft.C174_fit",
    "Verif.Fft.C174_frames"
   ],
   "note": "Exact real arithmetic. Violated: the 'periodic' window divides by n+1 instead of n, so it differs from the window the comments name from two samples on."
  },
  {
   "property": "C175",
   "status": "partial",
   "theorems": [
    "Verif.Codec.C175_topk",
    "Verif.Codec.C175_topp",
    "Verif.Codec.C175_pick",
    "Verif.Codec.C175_positive",
    "Verif.Codec.C175_no_end",
    "Verif.Codec.C175_chosen_kept",
    "Verif.Codec.C175_range_violated",
    "Verif.Codec.C175_zero_violated",
    "Verif.Codec.C175_same_number_violated"
   ],
   "note": "Exact real arithmetic. Violated: a random number above the (rounded) sum gives a token beyond the vocabulary; the number zero draws token 0 even if its probability is zero; the generator is seeded anew for every draw, so all steps and codebooks use one and the same random number."
  },
  {
   "property": "C176",
   "status": "partial",
   "theorems": [
    "Verif.Codec.C176_same_rate",
    "Verif.Codec.C176_resample",
    "Verif.Codec.C176_reads",
    "Verif.Codec.C176_clips",
    "Verif.Codec.C176_clip_reads",
    "Verif.Codec.C176_short_violated",
    "Verif.Codec.C176_overflow_violated"
   ],
   "note": "Exact real arithmetic; clips for (3a+8b)*rate < 2^31 with a/b the duration in lowest terms. Violated: recordings under two seconds give three clips reading beyond the recording; the int arithmetic of the fractions overflows for ten seconds and one sample at 16 kHz."
  },
  {
   "property": "C177",
   "status": "partial",
   "theorems": [
    "Verif.Lazy.C177_prefill",
    "Verif.Lazy.C177_kept",
    "Verif.Lazy.C177_decode_partial",
    "Verif.Lazy.C177_delay_violated",
    "Verif.Lazy.C177_unwritten_violated",
    "Verif.Lazy.C177_overflow_violated",
    "Verif.Lazy.C177_trailing_violated"
   ],
   "note": "Proved for the first call, and for later calls if no token is computed late while one in front of it is dropped. Violated otherwise: indices are taken for positions, another token is computed instead and the attention reads memory nothing was written to. Also violated: the hidden state cache has a row per visual token but is written at absolute positions, past its end; an image at the end of the prompt makes the selection fail."
  },
  {
   "property": "C178",
   "status": "partial",
   "theorems": [
    "Verif.Fill.C178_value",
    "Verif.Fill.C178_arange",
    "Verif.Fill.C178_arange_int",
    "Verif.Fill.C178_arange_all",
    "Verif.Fill.C178_arange_last_violated",
    "Verif.Fill.C178_random_range",
    "Verif.Fill.C178_random_distinct",
    "Verif.Fill.C178_random_seed",
    "Verif.Fill.C178_random_shift_violated"
   ],
   "note": "Numbers are exact. Proved in exact arithmetic, but `arange` leaves the last value out whenever the step does not divide the interval, and one seed gives different numbers in full and in half precision on x86 (moved by one)."
  },
  {
   "property": "C179",
   "status": "partial",
   "theorems": [
    "Verif.Fill.C179_scatter_partial",
    "Verif.Fill.C179_last_violated",
    "Verif.Fill.C179_first_violated"
   ],
   "note": "Proved for row-major sources and every dimension but the first and the last. Violated for the last (the rows overlap) and for the first (memory behind the source is copied behind the shards)."
  },
  {
   "property": "C18",
   "status": "partial",
   "theorems": [
    "Verif.Tensor.view_keeps_elements",
    "Verif.Tensor.view_same_sequence",
    "Verif.Tensor.view_accepts",
    "Verif.Tensor.view_infers",
    "Verif.Tensor.view_refuses",
    "Verif.Tensor.view_refuses_bad_dims",
    "Verif.Tensor.view_refuses_inference",
    "Verif.Tensor.unsqueeze_keeps",
    "Verif.Tensor.flatten_keeps",
    "Verif.Tensor.squeeze_keeps",
    "Verif.Tensor.reshape_violated"
   ],
   "note": "view (and squeeze/unsqueeze/flatten built on it) proved in full for every shape, stride, index; reshape on the CPU never writes its output (reshape_violated)."
  },
  {
   "property": "C180",
   "status": "partial",
   "theorems": [
    "Verif.Fill.C180_cast_arm",
    "Verif.Fill.C180_cast_x86_violated",
    "Verif.Fill.C180_equal_partial",
    "Verif.Fill.C180_equal_violated"
   ],
   "note": "Casts proved for ARM; on x86 the operator does nothing and the result is uninitialised. Comparison proved where the first operand needs no repetition; otherwise memory behind it is read."
  },
  {
   "property": "C181",
   "status": "partial",
   "theorems": [
    "Verif.Fsq.C181_index",
    "Verif.Fsq.C181_code",
    "Verif.Fsq.C181_distinct",
    "Verif.Fsq.C181_even_violated",
    "Verif.Fsq.C181_odd_violated"
   ],
   "note": "Exact arithmetic. The correspondence is proved for every list of two levels or more. Quantizing is violated: with an even number of levels values are clipped to the wrong side and the index leaves the codebook; with an odd number it comes out one too low above the middle."
  },
  {
   "property": "C182",
   "status": "partial",
   "theorems": [
    "Verif.Fsq.C182_decode_partial",
    "Verif.Fsq.C182_zero_violated",
    "Verif.Fsq.C182_collision_violated",
    "Verif.Fsq.C182_fewer_violated",
    "Verif.Fsq.C182_embed_partial",
    "Verif.Fsq.C182_batch_violated",
    "Verif.Fsq.C182_residual",
    "Verif.Fsq.C182_residual_step"
   ],
   "note": "Proved for one batch and tokens other than 0. Violated: token 0 is taken for a masked token and decodes to nothing, so that it cannot be told from the middle token; tokens of fewer quantizers lose rows; several batches come out as one."
  },
  {
   "property": "C183",
   "status": "partial",
   "theorems": [
    "Verif.Token.C183_words",
    "Verif.Token.C183_text_partial",
    "Verif.Token.C183_content_partial",
    "Verif.Token.C183_ids_partial",
    "Verif.Token.C183_file_ids",
    "Verif.Token.C183_roundtrip_partial",
    "Verif.Token.C183_ids_violated",
    "Verif.Token.C183_types_partial",
    "Verif.Token.C183_types_violated"
   ],
   "note": "Proved for texts whose words can be cut into vocabulary pieces, without special tokens in them, and special tokens of the form `[X]`. Identifiers come back from vocabulary files always, from JSON if no two tokens share one (violated otherwise). A pair with an empty second part gets one type too few."
  },
  {
   "property": "C184",
   "status": "partial",
   "theorems": [
    "Verif.Mrope.C184_reference",
    "Verif.Mrope.C184_fused",
    "Verif.Mrope.C184_fused_eq",
    "Verif.Mrope.C184_text",
    "Verif.Mrope.C184_relative",
    "Verif.Mrope.C184_norm",
    "Verif.Mrope.C184_reads_partial",
    "Verif.Mrope.C184_reads_violated"
   ],
   "note": "Proved over exact numbers: the meaning of apply_mrope, equality of the fused kernel with it for all shapes, layouts and program orders, the text case, the norm, relative positions. Reads inside the cache hold when the padded head size is the rotary size or the layout is not interleaved (_partial); otherwise violated: lanes past the rotary part have the t mask on, so a token at the last position reads past the cache. Not modelled: bf16 rounding, the is_neox_style=False branch (never used)."
  },
  {
   "property": "C185",
   "status": "partial",
   "theorems": [
    "Verif.Vpos.C185_positions",
    "Verif.Vpos.C185_text",
    "Verif.Vpos.C185_order",
    "Verif.Vpos.C185_distinct_partial",
    "Verif.Vpos.C185_distinct_violated"
   ],
   "note": "Positions, deltas and order proved for all well-formed prompts and both models. Distinctness holds for Qwen3-VL always and for Qwen3.5 when images have at most one frame (_partial); with more frames violated: all frames get the same positions."
  },
  {
   "property": "C186",
   "status": "proved",
   "theorems": [
    "Verif.Vpos.C186_decode",
    "Verif.Vpos.C186_fresh"
   ],
   "note": "Proved for all generated tokens, even image-start tokens. For Qwen3-VL without a cached part (see C188)."
  },
  {
   "property": "C187",
   "status": "partial",
   "theorems": [
    "Verif.Vpos.C187_batch_partial",
    "Verif.Vpos.C187_batch_violated"
   ],
   "note": "Proved when ordinary tokens are neither the image-start token nor the placeholder. Violated otherwise: a request without an image that contains the image-start token takes the grid of the next request, and the whole step raises."
  },
  {
   "property": "C188",
   "status": "partial",
   "theorems": [
    "Verif.Vpos.C188_prefix_partial",
    "Verif.Vpos.C188_prefix_vl_violated",
    "Verif.Vpos.C188_prefix_q5_violated",
    "Verif.Vpos.C188_features",
    "Verif.Vpos.C188_features_violated"
   ],
   "note": "Proved for Qwen3.5 when the cached part takes as many positions as tokens (e.g. only text). Violated by Qwen3-VL after any cached part (positions restart at 0) and by Qwen3.5 after a cached image of at least two rows and columns. Features: a repeated prompt with an image has more features than placeholders left (Qwen3-VL raises). Cached parts that end inside an image, and that the cache key does not contain the pixels, are not modelled."
  },
  {
   "property": "C189",
   "status": "proved",
   "theorems": [
    "Verif.Vit.C189_rotary",
    "Verif.Vit.C189_raise",
    "Verif.Vit.C189_once",
    "Verif.Vit.C189_merge"
   ],
   "note": "Proved for all grids; looking up cosines by position (rows and columns below 8192) and the arithmetic of the layers are not modelled."
  },
  {
   "property": "C19",
   "status": "partial",
   "theorems": [
    "Verif.Tensor.slice_elements_partial",
    "Verif.Tensor.slice_slice",
    "Verif.Tensor.slice_minus_one_zero_violated",
    "Verif.Tensor.slice_out_of_range_violated"
   ],
   "note": "proved for every in-range selection except the literal range -1:0, which the code misreads (violated); out-of-range bounds are accepted and leave the tensor (violated)."
  },
  {
   "property": "C190",
   "status": "proved",
   "theorems": [
    "Verif.Vit.C190_interpolation",
    "Verif.Vit.C190_bounds",
    "Verif.Vit.C190_identity",
    "Verif.Vit.C190_linear",
    "Verif.Vit.C190_ends"
   ],
   "note": "Proved over exact numbers for each component of the embedding; np.linspace in float32 and rounding of the weights are not modelled."
  },
  {
   "property": "C191",
   "status": "proved",
   "theorems": [
    "Verif.Vit.C191_segments"
   ],
   "note": "Proved for all batches; int32 overflow of the sums is not modelled."
  },
  {
   "property": "C192",
   "status": "partial",
   "theorems": [
    "Verif.Cuda.C192_rows",
    "Verif.Cuda.C192_auto",
    "Verif.Cuda.C192_empty_violated",
    "Verif.Cuda.C192_aligned",
    "Verif.Cuda.C192_aligned_violated"
   ],
   "note": "Proved for non-empty batches; an empty batch is proved to be rejected (an empty grid is a launch error); alignment holds when bases and strides are multiples of the vector width, and is proved to fail for views whose row stride is not, which every check accepts. Duplicate slots are left out."
  },
  {
   "property": "C193",
   "status": "partial",
   "theorems": [
    "Verif.Cuda.C193_norm",
    "Verif.Cuda.C193_sum",
    "Verif.Cuda.C193_progress",
    "Verif.Cuda.C193_reachable",
    "Verif.Cuda.C193_gate_violated"
   ],
   "note": "Proved with exact sums (float rounding not modelled); reads of the gate are proved to leave it when it is smaller than the input, which is accepted because its shape is not checked."
  },
  {
   "property": "C194",
   "status": "partial",
   "theorems": [
    "Verif.Cuda.C194_state",
    "Verif.Cuda.C194_cells",
    "Verif.Cuda.C194_output_partial",
    "Verif.Cuda.C194_vector_sums",
    "Verif.Cuda.C194_vector_progress",
    "Verif.Cuda.C194_vector_finish",
    "Verif.Cuda.C194_race_violated",
    "Verif.Cuda.C194_layout_violated",
    "Verif.Cuda.C194_layout_128",
    "Verif.Cuda.C194_group",
    "Verif.Cuda.C194_norm_violated"
   ],
   "note": "State update proved for every schedule and every key dimension the buffers are laid out for (33-64, 97-128, 225-256). The two vector sums and the broadcast between them are proved, for any number of warps, to hand every warp the right value under every schedule, and no schedule to get stuck (C194_vector_*). The output is proved when the query's length has been summed right; a schedule is proved to exist in which warp 1 reads the keys' partial sum instead (no barrier between the two scalar sums through one buffer). Other key dimensions are proved to overlap or leave shared memory; the normalisation is proved to differ from the other backends'. Float rounding is not modelled."
  },
  {
   "property": "C195",
   "status": "partial",
   "theorems": [
    "Verif.Mmc.C195_words_partial",
    "Verif.Mmc.C195_images_violated"
   ],
   "note": "Proved for every history when the reused part of the prompt is text. With images it is proved to fail: the cache key holds token ids only and every image has the same placeholder, so the same words about another image of the same size reuse the first image's keys and values for all but the last two positions."
  },
  {
   "property": "C196",
   "status": "partial",
   "theorems": [
    "Verif.LongRope.C196_positions",
    "Verif.LongRope.C196_relative_partial",
    "Verif.LongRope.C196_long_violated",
    "Verif.LongRope.C196_grow_violated",
    "Verif.LongRope.C196_scaling"
   ],
   "note": "Positions proved for every prompt and length; distance-only scores proved for prompts within the original context (or equal factors). For longer prompts it is proved to fail: cached keys carry the long factors and every later query the short ones. A generation that outgrows the context is proved never to get the long factors. Floats are reals."
  },
  {
   "property": "C20",
   "status": "partial",
   "theorems": [
    "Verif.Tensor.permute_elements_partial",
    "Verif.Tensor.permute_bijective",
    "Verif.Tensor.transpose_elements_partial",
    "Verif.Tensor.transpose_transpose_partial",
    "Verif.Tensor.transpose_refuses",
    "Verif.Tensor.transpose_zero_one_violated",
    "Verif.Tensor.permute_view_violated"
   ],
   "note": "proved for row-major inputs of any rank and permutation (both kernel branches) and for transpose except dims {0,1} of rank != 2, where nothing is copied (violated); kernels ignore strides of non-row-major views (violated)."
  },
  {
   "property": "C21",
   "status": "partial",
   "theorems": [
    "Verif.KVCache.static_history_partial",
    "Verif.KVCache.static_update_returns_partial",
    "Verif.KVCache.tokens_chunked",
    "Verif.KVCache.static_fa2_violated",
    "Verif.KVCache.static_heads_violated"
   ],
   "note": "Proved for eager mode with kv_heads dividing q_heads, any interleaving of appends, clears and rollbacks over all layers. The code violates the claim in fa2 mode (append is not implemented but only logs) and when q_heads is not a multiple of kv_heads."
  },
  {
   "property": "C22",
   "status": "partial",
   "theorems": [
    "Verif.KVCache.static_update_frame",
    "Verif.KVCache.static_overflow_violated",
    "Verif.KVCache.sub_update_refuses",
    "Verif.KVCache.sub_update_frame"
   ],
   "note": "Frame property proved within capacity; the code has no capacity check: every overflowing append is out-of-bounds (static_overflow_violated, general). The sub-cache does check: refusal and frame proved."
  },
  {
   "property": "C23",
   "status": "proved",
   "theorems": [
    "Verif.Token.bpe_spec",
    "Verif.Token.bpe_order_irrelevant",
    "Verif.Token.bpe_concat",
    "Verif.Token.bpe_no_merge_left",
    "Verif.Token.bpe_irrelevant_merges"
   ],
   "note": "Termination, canonical merge order, independence of hash order and of irrelevant merges; int64 rank overflow not modelled."
  },
  {
   "property": "C24",
   "status": "partial",
   "theorems": [
    "Verif.Token.split_partition",
    "Verif.Token.split_greedy_partial",
    "Verif.Token.split_longest_violated",
    "Verif.Token.split_misses_token_violated"
   ],
   "note": "Concatenation proved for all tokens and texts. The longest-match part is FALSE in general (two violation theorems); proved for delimited, prefix-free special tokens (as all shipped tokenizers use)."
  },
  {
   "property": "C25",
   "status": "proved",
   "theorems": [
    "Verif.Token.utf8_roundtrip",
    "Verif.Token.encode_injective",
    "Verif.Token.encode_standard",
    "Verif.Token.utf8_roundtrip_bytes"
   ],
   "note": "Round trip for all code points <= 0x10FFFF, agreement with standard UTF-8, injectivity."
  },
  {
   "property": "C26",
   "status": "proved",
   "theorems": [
    "Verif.Token.bytes_unicode_bijection",
    "Verif.Token.byte_text_roundtrip",
    "Verif.Token.byte_text_printable"
   ],
   "note": "All byte strings; the 256-entry table by kernel evaluation of the construction loop."
  },
  {
   "property": "C27",
   "status": "proved",
   "theorems": [
    "Verif.Token.wordpiece_spec",
    "Verif.Token.wordpiece_edge",
    "Verif.Token.wordpiece_in_vocab"
   ],
   "note": "Subword splitting for every vocabulary and word."
  },
  {
   "property": "C28",
   "status": "partial",
   "theorems": [
    "Verif.SymExpr.parse_precedence_partial",
    "Verif.SymExpr.eval_precedence_partial",
    "Verif.SymExpr.precedence_violated",
    "Verif.SymExpr.mod_precedence_violated",
    "Verif.SymExpr.parse_print_partial",
    "Verif.SymExpr.eval_parse_print_partial",
    "Verif.SymExpr.print_negative_violated",
    "Verif.SymExpr.unbalanced_diverges",
    "Verif.SymExpr.isStatic_eval",
    "Verif.SymExpr.isStatic_iff",
    "Verif.SymExpr.eval_total"
   ],
   "note": "Sentences whose right operands of +/- have at most two factors and without mixed % are parsed to the textbook tree and value (all arithmetics, all dictionaries); printing then parsing is the identity without negative/float literals. The full property is false: 1+2*3*4 is read as (1+2*3)*4, % binds like +, a + -5 reads as a + (a - 5), an unclosed ( never ends."
  },
  {
   "property": "C29",
   "status": "partial",
   "theorems": [
    "Verif.Pool.parallel_for_exactly_once_partial",
    "Verif.Pool.parallel_for_at_most_once",
    "Verif.Pool.index_buffer_in_bounds_partial",
    "Verif.Pool.index_buffer_violated",
    "Verif.Pool.shared_slot_violated",
    "Verif.Pool.push_completes",
    "Verif.Pool.idle_during_push_hangs",
    "Verif.Pool.slots_exclusive",
    "Verif.Pool.shares_perm"
   ],
   "note": "All interleavings of callers and workers: a completed loop ran each iteration exactly once, at no time twice; no deadlock while the pool is active; slot acquisition is exclusive. Needs step | range (else the index buffer is overrun: index_buffer_violated) and one slot per caller, which the CPU backend does not give (shared_slot_violated); idle() during a loop hangs it (idle_during_push_hangs)."
  },
  {
   "property": "C30",
   "status": "partial",
   "theorems": [
    "Verif.Service.requests_fifo",
    "Verif.Service.request_wakeup",
    "Verif.Service.exited_stopped",
    "Verif.Service.request_served",
    "Verif.Service.stop_drops_requests_violated",
    "Verif.Service.unknown_model_violated"
   ],
   "note": "FIFO, exactly-once, no lost worker wake-up, EF-progress before stop for every interleaving; requests accepted before stop are dropped by it and an unknown model name crashes (violations proved)"
  },
  {
   "property": "C31",
   "status": "partial",
   "theorems": [
    "Verif.Service.responses_ordered",
    "Verif.Service.stream_inv",
    "Verif.Service.responses_prefix",
    "Verif.Service.responses_complete",
    "Verif.Service.single_client_wakeup_partial",
    "Verif.Service.lost_wakeup_violated",
    "Verif.Service.stop_drops_responses_violated"
   ],
   "note": "Ordered, exactly-once, complete streams for every interleaving; client wake-up only for one client thread (lost wake-up with notify_one proved for two), stop discards waiting responses (violation proved)"
  },
  {
   "property": "C32",
   "status": "partial",
   "theorems": [
    "Verif.Compile.C32_solver_frees_after_last_use",
    "Verif.Compile.C32_solved_module_is_eager_module_partial",
    "Verif.Compile.C32_returned_tensor_freed_violated",
    "Verif.Compile.C32_returned_view_freed_violated"
   ],
   "note": "Order of frees proved in full (each read tensor freed exactly once, directly after its last reader, nothing else freed). Results preserved only if no op reads the storage of a result; otherwise the result is freed before it is returned (two violations proved)."
  },
  {
   "property": "C33",
   "status": "partial",
   "theorems": [
    "Verif.Compile.C33_indexing_succeeds_iff",
    "Verif.Compile.C33_ids_consecutive",
    "Verif.Compile.C33_jump_offsets_reach_labels_partial",
    "Verif.Compile.C33_jump_exact"
   ],
   "note": "Ids consecutive, indexing succeeds iff labels unique and jumps resolved; jumps reach their labels for programs of less than 2^31 instructions; the exact range is the int range of the offset."
  },
  {
   "property": "C34",
   "status": "proved",
   "theorems": [
    "Verif.Args.C34_parse_ok_iff",
    "Verif.Args.C34_reading_unique",
    "Verif.Args.C34_last_value_wins",
    "Verif.Args.C34_default",
    "Verif.Args.C34_unknown_iff",
    "Verif.Args.C34_flags_declared",
    "Verif.Args.C34_positional_declared",
    "Verif.Args.C34_value_may_be_a_flag",
    "Verif.Args.C34_extra_positionals_ignored",
    "Verif.Args.C34_negative_positional_rejected",
    "Verif.Args.C34_integer_trailing_garbage"
   ],
   "note": "parse is characterised completely (success and result, unknown options) against a declarative reading of the command line into segments; declaring flags too. Facts users may not expect are proved beside it: extra positionals are dropped, a value may itself look like a flag, negative positionals are rejected, integers accept trailing garbage. printHelp and the dynamic type check of get are not modelled."
  },
  {
   "property": "C35",
   "status": "partial",
   "theorems": [
    "Verif.Ptr.C35_deleted_exactly_at_last_release_partial",
    "Verif.Ptr.C35_last_release_deletes_partial",
    "Verif.Ptr.C35_api_without_converting_moves",
    "Verif.Ptr.C35_converting_move_violated",
    "Verif.Ptr.C35_converting_move_assign_violated"
   ],
   "note": "Proved for all interleavings of pointer operations of any number of threads without converting moves: counter = number of owners, no use of a deleted object, an object that had an owner is deleted exactly when the last owner goes. The converting move constructor/assignment (IntrusivePtr<U>&&) is proved to delete the object while the new pointer owns it (violation). Memory orders not modelled."
  },
  {
   "property": "C36",
   "status": "partial",
   "theorems": [
    "Verif.PyRadix.C36_match",
    "Verif.PyRadix.C36_insert",
    "Verif.PyRadix.C36_origin",
    "Verif.PyRadix.C36_match_origin",
    "Verif.PyRadix.C36_unaligned_violated"
   ],
   "note": "Proved for all histories with keys of whole pages (no sliding window): longest prefix, slots in token order, prefix length of insert, and every returned slot was supplied for the same tokens. False for keys that are not whole pages (C36_unaligned_violated)."
  },
  {
   "property": "C37",
   "status": "partial",
   "theorems": [
    "Verif.PyRadix.C37_locked_survive",
    "Verif.PyRadix.C37_evict",
    "Verif.PyRadix.C37_evict_locked",
    "Verif.PyRadix.C37_protected",
    "Verif.PyRadix.C37_sizes_partial",
    "Verif.PyRadix.C37_sizes_exact_partial",
    "Verif.PyRadix.C37_sizes_violated"
   ],
   "note": "Locked prefixes survive every call, eviction frees exactly the removed slots and enough or everything unlocked, protected size exact. The size equation is false (C37_sizes_violated: _add_leaf subtracts the parent leaf); proved as inequality, and as equality when no insert extends an unlocked leaf."
  },
  {
   "property": "C38",
   "status": "partial",
   "theorems": [
    "Verif.ZenFS.C38_tlb_exact_partial"
   ],
   "note": "for anonymous blobs with >= 6 address bits and frees in page 0 only"
  },
  {
   "property": "C39",
   "status": "partial",
   "theorems": [
    "Verif.ParamFile.py_static_roundtrip_partial",
    "Verif.ParamFile.py_streaming_roundtrip_partial",
    "Verif.ParamFile.py_unfinalized_refused",
    "Verif.ParamFile.py_streaming_capacity_violated",
    "Verif.ParamFile.py_write_after_finalize_violated",
    "Verif.ParamFile.py_bfloat16_violated"
   ],
   "note": "Static and streaming round trip and refusal of unfinished files proved; violations: capacity check off by one, writing after finalize, bfloat16 element size"
  },
  {
   "property": "C40",
   "status": "partial",
   "theorems": [
    "Verif.Tensor.contiguous_elements_partial",
    "Verif.Tensor.contiguous_square_violated"
   ],
   "note": "proved for rank 1, row-major and all strides outside the wrong fast path; violated when stride[d]=stride[d+1]^2 for all d (e.g. strides [4,2])."
  },
  {
   "property": "C41",
   "status": "partial",
   "theorems": [
    "Verif.Tensor.concat_elements",
    "Verif.Tensor.concat_covers",
    "Verif.Tensor.concat_refuses",
    "Verif.Tensor.stack_elements",
    "Verif.Tensor.split_elements",
    "Verif.Tensor.concat_split",
    "Verif.Tensor.repeat_elements_partial",
    "Verif.Tensor.repeat_view_violated"
   ],
   "note": "concat, stack, split proved in full (any strides). repeat reads its input as if row-major: violated on views (repeat_view_violated), proved for row-major inputs."
  },
  {
   "property": "C42",
   "status": "partial",
   "theorems": [
    "Verif.KVCache.dynamic_history_partial",
    "Verif.KVCache.dynamic_view_violated"
   ],
   "note": "Proved for row-major inputs in eager mode and for arbitrary strides in fa2 mode; violated for strided inputs in eager mode because repeat ignores strides."
  },
  {
   "property": "C43",
   "status": "partial",
   "theorems": [
    "Verif.Token.qwen_regex_lossless",
    "Verif.Token.qwen_tokenize_lossless",
    "Verif.Token.qwen_detokenize_partial",
    "Verif.Token.qwen_detokenize_violated"
   ],
   "note": "Byte losslessness proved in full. Decoding id by id is FALSE in general (violation theorem); proved when no token ends inside a character (without special tokens)."
  },
  {
   "property": "C44",
   "status": "partial",
   "theorems": [
    "Verif.Token.qwen_regex_documented_partial",
    "Verif.Token.qwen_regex_documented_violated"
   ],
   "note": "FALSE in general (three witnesses); proved for texts without adjacent white space and upper-case contractions."
  },
  {
   "property": "C45",
   "status": "partial",
   "theorems": [
    "Verif.Token.ws_tokenize_spec",
    "Verif.Token.punct_split_spec",
    "Verif.Token.basic_tokenize_content",
    "Verif.Token.basic_tokenize_tokens",
    "Verif.Token.basic_tokenize_cjk",
    "Verif.Token.special_verbatim",
    "Verif.Token.split_special_spec",
    "Verif.Token.split_special_order_partial",
    "Verif.Token.split_special_diverges_violated",
    "Verif.Token.split_special_order_violated",
    "Verif.Token.special_cjk_violated",
    "Verif.Token.max_chars_violated",
    "Verif.Token.lower_ascii",
    "Verif.Token.basic_tokenize_separates"
   ],
   "note": "Content, white space, punctuation, CJK proved; special tokens proved for non-empty prefix-free sets; violations: empty special token diverges, order dependence for prefixes, CJK special tokens missed, byte-counted limit."
  },
  {
   "property": "C46",
   "status": "partial",
   "theorems": [
    "Verif.Compile.C46_compiled_module_is_eager_module_partial",
    "Verif.Compile.C46_without_views_partial",
    "Verif.Compile.C46_stale_view_violated"
   ],
   "note": "Proved for modules in which no tensor is used after another view of its storage was produced (in particular without views); fails for such uses (violation proved). Less than 2^31 instructions."
  },
  {
   "property": "C47",
   "status": "partial",
   "theorems": [
    "Verif.Compile.C47_distinct_modules_compile_partial",
    "Verif.Compile.C47_compiles_iff_names",
    "Verif.Compile.C47_third_call_violated"
   ],
   "note": "Modules with pairwise different names compile; compilation succeeds iff generated names differ; the third call of the same submodule gets a duplicate name and compilation fails (violation proved)."
  },
  {
   "property": "C48",
   "status": "partial",
   "theorems": [
    "Verif.Compile.C48_runs_of_a_loaded_program_partial",
    "Verif.Compile.C48_constants_freed_violated"
   ],
   "note": "Any number of runs equals as many calls if no op writes into the storage of a constant and the memory solver is not used; with the solver constants are freed by the first run (violation proved)."
  },
  {
   "property": "C49",
   "status": "partial",
   "theorems": [
    "Verif.PyRadix.C49_swa_violated"
   ],
   "note": "Violated: _insert_swa drops the node returned by _split_node. Only calls without tombstones are modelled; the witness history is a tree without tombstones."
  },
  {
   "property": "C50",
   "status": "partial",
   "theorems": [
    "Verif.PyPool.C50_conserve",
    "Verif.PyPool.C50_alloc",
    "Verif.PyPool.C50_rows",
    "Verif.PyPool.C50_page_partial",
    "Verif.PyPool.C50_page_violated",
    "Verif.PyPool.C50_page_part_violated",
    "Verif.PyPool.C50_page_rows_violated",
    "Verif.PyPool.C50_nested_group_violated"
   ],
   "note": "Proved for page_size 1 over all histories, with free groups (not nested) and with and without need_sort; the rows too. For page_size > 1 only histories that return whole allocations (C50_page_partial); returning slots of a page one by one double-allocates it (C50_page_violated, C50_page_part_violated) and slots beyond the KVPool rows are handed out (C50_page_rows_violated). Nested free groups leak (C50_nested_group_violated)."
  },
  {
   "property": "C51",
   "status": "partial",
   "theorems": [
    "Verif.Runner.C51_kv_partial",
    "Verif.Runner.C51_share_partial",
    "Verif.Runner.C51_fresh_partial",
    "Verif.Runner.C51_no_leak_partial",
    "Verif.Runner.C51_extend_len",
    "Verif.Runner.C51_garbage_violated",
    "Verif.Runner.C51_double_violated",
    "Verif.Runner.C51_empty_extend_violated"
   ],
   "note": "Proved for all histories until the first release, and for all histories once total_len leaves out the last sampled token (fix); the code itself violates it: C51_garbage_violated, C51_double_violated, C51_empty_extend_violated (one-token cached prompt)."
  },
  {
   "property": "C52",
   "status": "partial",
   "theorems": [
    "Verif.Sched.C52_budget",
    "Verif.Sched.C52_idle",
    "Verif.Sched.C52_prompts",
    "Verif.Sched.C52_overcommit_violated"
   ],
   "note": "Exactness, return to zero, request limit and a bound on prompt tokens proved for all histories; the bound on generated tokens is false of the code: C52_overcommit_violated."
  },
  {
   "property": "C53",
   "status": "proved",
   "theorems": [
    "Verif.Sched.C53_prefix",
    "Verif.Sched.C53_msg",
    "Verif.Sched.C53_final_last",
    "Verif.Sched.C53_status",
    "Verif.Sched.C53_prompt_delivery",
    "Verif.Sched.C53_closed_stays",
    "Verif.Sched.C53_abort",
    "Verif.Sched.C53_chain"
   ],
   "note": "All clauses, for all histories with unique request ids."
  },
  {
   "property": "C54",
   "status": "partial",
   "theorems": [
    "Verif.Sched.C54_complete",
    "Verif.Sched.C54_limit_partial",
    "Verif.Sched.C54_zero_violated"
   ],
   "note": "Proved in full except that max_new_tokens <= 0 still yields one token (C54_zero_violated)."
  },
  {
   "property": "C55",
   "status": "partial",
   "theorems": [
    "Verif.Sched.C55_answered_partial",
    "Verif.Sched.C55_oversize_violated",
    "Verif.Sched.C55_starvation_violated"
   ],
   "note": "Proved with an explicit bound when no further requests arrive and the prompt fits the limits; false otherwise: oversized prompts are never answered nor rejected, and arrivals can starve a running request for any number of iterations."
  },
  {
   "property": "C56",
   "status": "partial",
   "theorems": [
    "Verif.Deliver.C56_delta_partial",
    "Verif.Deliver.C56_split_character_violated",
    "Verif.Deliver.C56_stale_text_violated"
   ],
   "note": "Proved for decoders that are monotone in the token list. Violated by byte-level BPE (replacement characters: the second half of a split character is never sent) and when a request id is reused after an abort."
  },
  {
   "property": "C57",
   "status": "proved",
   "theorems": [
    "Verif.Deliver.C57_lossless",
    "Verif.Deliver.C57_end",
    "Verif.Deliver.C57_complete",
    "Verif.Deliver.C57_wakeup",
    "Verif.Deliver.C57_final"
   ],
   "note": "All interleavings; nothing arrives after the final result (C53_final_last). Time-out cleanup and coroutine cancellation are not modelled."
  },
  {
   "property": "C58",
   "status": "partial",
   "theorems": [
    "Verif.Deliver.C58_order_partial",
    "Verif.Deliver.C58_arrives",
    "Verif.Deliver.C58_overtake_violated",
    "Verif.Deliver.C58_shared_queue_violated"
   ],
   "note": "Proved when the request has been transmitted before the abort. Violated: an abort overtakes a queued request; with the shared queue the scheduler never sees any abort."
  },
  {
   "property": "C59",
   "status": "partial",
   "theorems": [
    "Verif.Parse.C59_no_tag",
    "Verif.Parse.C59_open",
    "Verif.Parse.C59_closed",
    "Verif.Parse.C59_chunk_invariant",
    "Verif.Parse.C59_no_tag_in_content",
    "Verif.Parse.C59_forced_partial",
    "Verif.Parse.C59_content_stream",
    "Verif.Parse.C59_tail_lost_violated",
    "Verif.Parse.C59_forced_chunks_violated",
    "Verif.Parse.C59_forced_lost_violated",
    "Verif.Parse.C59_buffered_reasoning_violated"
   ],
   "note": "Proved for optional thinking for every text and cutting, up to the held tail, which is characterised exactly (held iff the text ends like the beginning of the awaited tag); forced thinking proved if a start tag occurs only at the beginning. Violations: the held tail is never flushed; forced mode depends on the chunks and can lose the whole answer; stream_reasoning=False never delivers reasoning."
  },
  {
   "property": "C60",
   "status": "partial",
   "theorems": [
    "Verif.Parse.C60_no_tag",
    "Verif.Parse.C60_closed",
    "Verif.Parse.C60_open",
    "Verif.Parse.C60_agree_partial",
    "Verif.Parse.C60_early_end_violated"
   ],
   "note": "Proved unless an end tag occurs before the start tag, where they disagree (violation proved)."
  },
  {
   "property": "C61",
   "status": "proved",
   "theorems": [
    "Verif.Parse.C61_parts_unique",
    "Verif.Parse.C61_whole"
   ],
   "note": "Against a declarative decomposition of the text, shown to exist uniquely; reading of a body (json/regex) is a parameter; a JSON body that is not an object raises in the code (not modelled)."
  },
  {
   "property": "C62",
   "status": "partial",
   "theorems": [
    "Verif.Parse.C62_content_partial",
    "Verif.Parse.C62_call_partial",
    "Verif.Parse.C62_last_call_partial",
    "Verif.Parse.C62_no_other_partial",
    "Verif.Parse.C62_one_chunk",
    "Verif.Parse.C62_end_tag_cut_violated",
    "Verif.Parse.C62_extra_brace_violated",
    "Verif.Parse.C62_index_violated",
    "Verif.Parse.C62_tail_lost_violated"
   ],
   "note": "Proved if no end tag is cut by a chunk boundary and the partial readings fit the call; for one chunk unconditionally. Violations: a cut end tag turns the rest of the answer into arguments; a chunk that ends before the end tag adds a brace to the arguments; unreadable calls shift the numbers; held content is never flushed."
  },
  {
   "property": "C63",
   "status": "proved",
   "theorems": [
    "Verif.Gen.generation_modes_agree"
   ],
   "note": "tensors, forward and the samplers are arbitrary oracles; timing calls and device copies are not modelled"
  },
  {
   "property": "C64",
   "status": "partial",
   "theorems": [
    "Verif.Gen.generate_resumes_partial",
    "Verif.Gen.generate_resumes_violated"
   ],
   "note": "holds when the first call met no end-of-sequence token; violated otherwise: the loop breaks before the output is stored, so the returned map holds the token before the end-of-sequence token and a second call feeds it twice (generate_resumes_violated)"
  },
  {
   "property": "C65",
   "status": "partial",
   "theorems": [
    "Verif.Gen.greedy_argmax",
    "Verif.Gen.categorical_interval",
    "Verif.Gen.categorical_violated",
    "Verif.Gen.topK_sound",
    "Verif.Gen.topK_complete",
    "Verif.Gen.topK_violated",
    "Verif.Gen.topP_sound",
    "Verif.Gen.topP_mass"
   ],
   "note": "violated at three places: probabilities summing to less than the draw give token vocab_size (categorical_violated), the draw 0 gives token 0 even when its probability is 0, and top_k larger than the vocabulary is undefined behaviour (topK_violated). Probabilities are rationals: sums exact, no NaN"
  },
  {
   "property": "C66",
   "status": "proved",
   "theorems": [
    "Verif.Sample.penalties_exact",
    "Verif.Sample.penalties_discourage"
   ],
   "note": "Logits are rationals. applyPenalty models one row."
  },
  {
   "property": "C67",
   "status": "partial",
   "theorems": [
    "Verif.Sample.topKTopP_sound",
    "Verif.Sample.topK_renorm_exact",
    "Verif.Sample.minP_support",
    "Verif.Sample.topK_ties_violated"
   ],
   "note": "PyTorch path only. Ties: the k-th value is a threshold, so more than k candidates can survive and k=1 is not greedy decoding (topK_ties_violated)."
  },
  {
   "property": "C68",
   "status": "partial",
   "theorems": [
    "Verif.Sample.batch_raises_iff",
    "Verif.Sample.sampled_isolated_partial",
    "Verif.Sample.greedy_isolated_partial",
    "Verif.Sample.default_request_violated",
    "Verif.Sample.greedy_mixed_violated"
   ],
   "note": "Holds when every request carries 1 <= top_k <= vocab and top_p >= 0 and the request is sampled, or when the whole batch is greedy. Fails otherwise: default options (top_k = -1) make the whole batch raise (batch_raises_iff, default_request_violated); a temperature-0 request with tied logits changes behaviour next to a sampled one (greedy_mixed_violated)."
  },
  {
   "property": "C69",
   "status": "partial",
   "theorems": [
    "Verif.Sample.speculative_preserves_law_partial",
    "Verif.Sample.speculative_law_violated"
   ],
   "note": "Proved for all pairs of models that are not within the code's numerical thresholds (1e-10 for draft probabilities, 1e-8 for the total difference); inside the thresholds the law is off (speculative_law_violated)."
  },
  {
   "property": "C70",
   "status": "partial",
   "theorems": [
    "Verif.Sample.chain_shape",
    "Verif.Sample.emitted_count_violated"
   ],
   "note": "All but the emitted count, which also counts the replacement token (emitted_count_violated)."
  },
  {
   "property": "C71",
   "status": "partial",
   "theorems": [
    "Verif.Ops.elewise_returns_iff",
    "Verif.Ops.elewise_correct_partial",
    "Verif.Ops.elewise_reads_outside_violated"
   ],
   "note": "Holds for contiguous operands when only the second operand is repeated, along one block of dimensions (or is a scalar). Whenever the first operand has to be repeated the kernel reads memory behind it (elewise_reads_outside_violated)."
  },
  {
   "property": "C72",
   "status": "partial",
   "theorems": [
    "Verif.Ops.causal_mask_fp32",
    "Verif.Ops.causal_mask_one",
    "Verif.Ops.causal_mask_fp16_partial",
    "Verif.Ops.causal_mask_window_partial",
    "Verif.Ops.mask_history_violated",
    "Verif.Ops.mask_decode_window_violated",
    "Verif.Ops.mask_overflow_violated"
   ],
   "note": "Holds for fp32 without a window and at least as many keys as queries; for fp16 and for windows only when the score matrix is square. Violated otherwise: with history the fp16 and windowed kernels leave the last query's own score unwritten, decoding ignores the window, and more queries than keys overruns the row."
  },
  {
   "property": "C73",
   "status": "partial",
   "theorems": [
    "Verif.Ops.gather_elements",
    "Verif.Ops.gather_range_violated",
    "Verif.Ops.embed_elements",
    "Verif.Ops.embed_range_violated"
   ],
   "note": "Proved for in-range indices; out-of-range indices are not reported: gather leaves the slice unwritten, embedding reads outside the table. GGUF-quantised embedding weights are not modelled."
  },
  {
   "property": "C74",
   "status": "partial",
   "theorems": [
    "Verif.Ops.topk_correct",
    "Verif.Ops.topk_short_violated",
    "Verif.Ops.argsort_correct"
   ],
   "note": "Proved for 1 <= k <= axis size and totally ordered values (no NaN); with larger k the result's tail is never written (topk_short_violated)."
  },
  {
   "property": "C75",
   "status": "partial",
   "theorems": [
    "Verif.Ops.pad_returns_iff",
    "Verif.Ops.pad_source_unique",
    "Verif.Ops.pad_elements_partial",
    "Verif.Ops.pad_view_violated"
   ],
   "note": "Proved for row-major inputs (fp32, unbounded integers); a strided view is read in memory order instead (pad_view_violated)."
  },
  {
   "property": "C76",
   "status": "partial",
   "theorems": [
    "Verif.Ops.scatter_where",
    "Verif.Ops.scatter_order_violated"
   ],
   "note": "The elementwise form is proved for all broadcastable shapes. The consecutive form, which is how the model code uses it, fails: token s receives image row s mod N (scatter_order_violated)."
  },
  {
   "property": "C77",
   "status": "partial",
   "theorems": [
    "Verif.Ops.index_elements_partial",
    "Verif.Ops.index_range_violated",
    "Verif.Ops.index_rank2_violated"
   ],
   "note": "Proved for forward slices, lists and one-dimensional index tensors. Out-of-range and negative positions are not reported but leave the result unwritten (index_range_violated); a two-dimensional index tensor is read transposed (index_rank2_violated)."
  },
  {
   "property": "C78",
   "status": "partial",
   "theorems": [
    "Verif.Attn.flash_attention_partial",
    "Verif.Attn.causal_between",
    "Verif.Attn.cache_view_packed",
    "Verif.Attn.flash_batch_violated",
    "Verif.Attn.flash_short_violated",
    "Verif.Attn.flash_heads_violated"
   ],
   "note": "Exact over the reals (no rounding) for evenly grouped heads, at most as many query rows as keys, row-major keys and values (including one-row cache views). Fails for several batch rows over a cache view (flash_batch_violated: row 1 reads row 0's cache), for query tensors longer than the keys (flash_short_violated: not a number), and for unevenly grouped heads (flash_heads_violated: reads past the last head)."
  },
  {
   "property": "C79",
   "status": "partial",
   "theorems": [
    "Verif.Attn.radix_attention_partial",
    "Verif.Attn.radix_layout_partial",
    "Verif.Attn.radix_flash_partial",
    "Verif.Attn.radix_x86_violated",
    "Verif.Attn.radix_view_violated"
   ],
   "note": "Proved over the reals for builds with vector primitives and contiguous queries. On x86 the primitives are empty functions and the result is never written (radix_x86_violated); RadixAttnOp does not check the layout of the query and reads views in memory order (radix_view_violated)."
  },
  {
   "property": "C80",
   "status": "partial",
   "theorems": [
    "Verif.Attn.flash_chunk_partial",
    "Verif.Attn.radix_chunk_partial"
   ],
   "note": "Proved over the reals, for flash and radix attention, under the conditions of C78 and C79 (the failures listed there apply)."
  },
  {
   "property": "C81",
   "status": "partial",
   "theorems": [
    "Verif.Attn.swa_prefill_partial",
    "Verif.Attn.swa_decode_partial",
    "Verif.Attn.swa_decode_one_partial",
    "Verif.Attn.swa_agree_partial",
    "Verif.Attn.flash_swa_partial",
    "Verif.Attn.flash_swa_refuses",
    "Verif.Attn.swa_window_violated",
    "Verif.Attn.swa_rows_violated",
    "Verif.Attn.swa_append_violated"
   ],
   "note": "Exact for prefill (window+1 keys), for decode of one token (the first min(length, window) table slots), and prefill and decode agree while the sequence fits in the window; the tensor variant refuses longer keys. Once the window is full prefill and decode differ for every table (swa_window_violated); a decode chunk of several rows lets rows see later tokens (swa_rows_violated); append, and every pattern on x86, writes nothing (swa_append_violated)."
  },
  {
   "property": "C82",
   "status": "partial",
   "theorems": [
    "Verif.Attn.paged_attention_partial",
    "Verif.Attn.softWeight_distribution",
    "Verif.Attn.paged_unwritten_violated",
    "Verif.Attn.paged_batch_violated",
    "Verif.Attn.paged_masked_violated"
   ],
   "note": "Proved over the reals for the ARM build when weights are requested, the head size is a multiple of 4, heads group evenly, and there is one batch row or an index as long as the cache. Otherwise: without weights, or refused sizes, the output is never written (paged_unwritten_violated); other batch rows read the wrong cache (paged_batch_violated); a fully masked row averages the hidden values (paged_masked_violated)."
  },
  {
   "property": "C83",
   "status": "partial",
   "theorems": [
    "Verif.Ipc.pool_delivers_what_was_sent_partial",
    "Verif.Ipc.slice_is_stable_until_acknowledged",
    "Verif.Ipc.pool_roundtrip_partial",
    "Verif.Ipc.failed_export_delivers_raw_bytes_violated",
    "Verif.Ipc.failed_export_leaks_violated"
   ],
   "note": "Proved for every interleaving, for proxies that carry an IPC handle, starting from the state the constructor describes (see C87: the constructor itself raises). If the handle cannot be exported the consumer gets the raw int8 slice instead of the tensor (failed_export_delivers_raw_bytes_violated) and the slice is never freed (failed_export_leaks_violated)."
  },
  {
   "property": "C84",
   "status": "proved",
   "theorems": [
    "Verif.Ipc.slices_disjoint_and_inside",
    "Verif.Ipc.workspace_is_partitioned",
    "Verif.Ipc.reserve_succeeds_iff",
    "Verif.Ipc.reserve_takes_the_smallest"
   ],
   "note": "Invariant over all interleavings (from the state the constructor describes, see C87)."
  },
  {
   "property": "C85",
   "status": "partial",
   "theorems": [
    "Verif.Ipc.recycler_frees_exactly_the_acknowledged",
    "Verif.Ipc.free_run_is_usable_partial",
    "Verif.Ipc.idle_pool_recovers_partial",
    "Verif.Ipc.empty_tensor_fragments_violated"
   ],
   "note": "Coalescing is proved for histories without empty tensors. A tensor without elements leaves a free chunk of length zero that can separate its neighbours: an idle pool then refuses a tensor as large as itself (empty_tensor_fragments_violated)."
  },
  {
   "property": "C86",
   "status": "partial",
   "theorems": [
    "Verif.Ipc.default_mode_roundtrip",
    "Verif.Ipc.cuda_ipc_mode_roundtrip",
    "Verif.Ipc.pool_roundtrip_partial",
    "Verif.Ipc.pool_mode_rejects_views_violated"
   ],
   "note": "Default and plain CUDA IPC modes for all inputs; the pool mode for tensors that can be viewed as bytes (pool_roundtrip_partial). A non-contiguous GPU tensor, or one without dimensions, raises in pool mode (pool_mode_rejects_views_violated)."
  },
  {
   "property": "C87",
   "status": "partial",
   "theorems": [
    "Verif.Ipc.pool_constructor_raises_violated",
    "Verif.Ipc.pool_mode_never_uses_the_pool_violated",
    "Verif.Ipc.pool_constructor_reordered_succeeds"
   ],
   "note": "Fails always: the constructor uses _sync_pool before assigning it, the AttributeError is caught and the sender falls back to the default mode for good, so every GPU tensor is copied to the CPU (pool_mode_never_uses_the_pool_violated). With the two lines exchanged the constructor succeeds (pool_constructor_reordered_succeeds)."
  },
  {
   "property": "C88",
   "status": "partial",
   "theorems": [
    "Verif.Serve.C88_split_partial",
    "Verif.Serve.C88_collect_partial",
    "Verif.Serve.C88_answers_partial",
    "Verif.Serve.C88_one_prompt_violated",
    "Verif.Serve.C88_one_id_violated",
    "Verif.Serve.C88_short_list_violated"
   ],
   "note": "Proved for batches of two or more prompts with different ids. A batch of one prompt is registered under the text of its id list and is never answered (C88_one_prompt_violated); one id for the whole batch makes generate wait for ever (C88_one_id_violated); a list that is too short fails after some prompts have been sent (C88_short_list_violated)."
  },
  {
   "property": "C89",
   "status": "partial",
   "theorems": [
    "Verif.Serve.C89_own_results_partial",
    "Verif.Serve.C89_released",
    "Verif.Serve.C89_same_id_violated",
    "Verif.Serve.C89_sync_leak_violated"
   ],
   "note": "Proved as long as no other request uses the id. A second request with the id of a running one cuts the first client off for ever (C89_same_id_violated). Synchronous generate never releases its entries (C89_sync_leak_violated)."
  },
  {
   "property": "C90",
   "status": "partial",
   "theorems": [
    "Verif.Serve.C90_text_partial",
    "Verif.Serve.C90_ids_partial",
    "Verif.Serve.C90_image_partial"
   ],
   "note": "For text prompts, token-id prompts, and text with images (with a processor that succeeds). A failing request is C92; extra keywords that have the name of a field override it and are excluded."
  },
  {
   "property": "C91",
   "status": "partial",
   "theorems": [
    "Verif.Serve.C91_options_partial",
    "Verif.Serve.C91_stop_seed_ignored_violated",
    "Verif.Serve.C91_stop_string_violated"
   ],
   "note": "Proved for all options but stop and seed, which are put into the parameters and never read (C91_stop_seed_ignored_violated): a generation goes on after a stop string and ends with \"length\" (C91_stop_string_violated, through the scheduler model)."
  },
  {
   "property": "C92",
   "status": "partial",
   "theorems": [
    "Verif.Serve.C92_forwarded_partial",
    "Verif.Serve.C92_all_lost_violated",
    "Verif.Serve.C92_image_url_violated",
    "Verif.Serve.C92_option_list_violated",
    "Verif.Serve.C92_param_list_violated"
   ],
   "note": "Proved while every request can be processed. One request that raises ends the tokenizer process and with it all later requests (C92_all_lost_violated); an image URL that is not a local file, with a multimodal processor, is such a request (C92_image_url_violated), so are option lists in a batch of one (C92_option_list_violated, C92_param_list_violated)."
  },
  {
   "property": "C93",
   "status": "partial",
   "theorems": [
    "Verif.Serve.C93_in_order_partial",
    "Verif.Serve.C93_each_once_partial",
    "Verif.Serve.C93_stream_partial",
    "Verif.Serve.C93_order_violated",
    "Verif.Serve.C93_stream_index_violated",
    "Verif.Serve.C93_stream_batch_violated"
   ],
   "note": "Every answer is there once and numbered without gaps, and in order if the prompts finish in order; the stream of one prompt is complete. Otherwise choices are numbered in order of completion (C93_order_violated, a run of the front end), and the stream of a batch carries index 0 for all prompts, so that two batches with different answers give the same events (C93_stream_index_violated, C93_stream_batch_violated)."
  },
  {
   "property": "C94",
   "status": "partial",
   "theorems": [
    "Verif.Serve.C94_total",
    "Verif.Serve.C94_stream_partial",
    "Verif.Serve.C94_stream_batch_violated"
   ],
   "note": "Proved for answers that are not streamed and for the stream of one prompt. The stream of a batch reports the numbers of the last chunk only (C94_stream_batch_violated)."
  },
  {
   "property": "C95",
   "status": "partial",
   "theorems": [
    "Verif.Serve.C95_reason_partial",
    "Verif.Serve.C95_reported_done_violated",
    "Verif.Serve.C95_abort_stop_violated",
    "Verif.Serve.C95_stream_silent_violated",
    "Verif.Serve.C97_failure_violated"
   ],
   "note": "Proved for answers that end by themselves. An aborted or timed-out request is an empty answer with \"stop\" (C95_reported_done_violated, C95_abort_stop_violated); in a stream it leaves no trace: no reason, no error (C95_stream_silent_violated, and C97_failure_violated for chats)."
  },
  {
   "property": "C96",
   "status": "partial",
   "theorems": [
    "Verif.Serve.Loop.C96_first_call_partial",
    "Verif.Serve.Loop.C96_only_first_returns_violated",
    "Verif.Serve.Loop.C96_one_raises_violated",
    "Verif.Serve.Loop.C96_second_call_violated"
   ],
   "note": "Only the first call can return: each call has its own event loop, closed afterwards, but the background task stays on the loop of the first call (C96_only_first_returns_violated: in every history). The second call raises RuntimeError, the third waits for ever (C96_second_call_violated); at most one call ever raises (C96_one_raises_violated)."
  },
  {
   "property": "C97",
   "status": "partial",
   "theorems": [
    "Verif.Serve.C97_shape",
    "Verif.Serve.C97_reasoning",
    "Verif.Serve.C97_content",
    "Verif.Serve.C97_content_tools",
    "Verif.Serve.C97_tools",
    "Verif.Serve.C97_no_parser",
    "Verif.Serve.C97_message",
    "Verif.Serve.C97_think_partial",
    "Verif.Serve.C97_think_tools_partial",
    "Verif.Serve.C97_calls_partial",
    "Verif.Serve.C97_tail_lost_violated",
    "Verif.Serve.C97_failure_violated"
   ],
   "note": "The shape is proved for every answer and parser; reasoning, content and calls are reduced to the parsers (C59-C62) and proved for tagged answers under the conditions there; the answer that is not streamed is proved for every tagged text (C97_message). What the reasoning parser keeps back at the end is never sent, while an answer that is not streamed contains it (C97_tail_lost_violated); failures leave no trace (C97_failure_violated)."
  },
  {
   "property": "C98",
   "status": "proved",
   "theorems": [
    "Verif.Gdn.C98_prefill",
    "Verif.Gdn.C98_decode"
   ],
   "note": "Against Spec.lean (Mem.after, Mem.answer), for real numbers."
  },
  {
   "property": "C99",
   "status": "partial",
   "theorems": [
    "Verif.Gdn.C99_chunkwise_partial",
    "Verif.Gdn.C99_scan_partial",
    "Verif.Gdn.C99_faded_value_violated",
    "Verif.Gdn.C99_faded_witness_violated"
   ],
   "note": "Proved as long as within each chunk the accumulated decay stays above 1e-30. Beyond, the guard meant to avoid overflow drops the value of the token altogether, although the token itself must answer with it: any other value gives the same result (C99_faded_value_violated, for all inputs; C99_faded_witness_violated)."
  }
 ]
}