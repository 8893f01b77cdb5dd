{
 "claims": [
  {
   "property": "C01",
   "status": "proved",
   "theorems": [
    "Verif.Props.C01_numel_counts_channels",
    "Verif.Props.C01_sizes",
    "Verif.Props.C01_union_raw_list_violated"
   ],
   "note": "For every spec reachable through the public API (Built). C01_sizes: sizes has the number of channels of every code. union with a raw list of codes is outside Built: C01_union_raw_list_violated."
  },
  {
   "property": "C02",
   "status": "proved",
   "theorems": [
    "Verif.Props.C02_normalize_idempotent",
    "Verif.Props.C02_normalize_concat",
    "Verif.Props.C02_alias_meaning",
    "Verif.Props.C02_slice_meaning",
    "Verif.Props.C02_slice_forms",
    "Verif.Props.C02_refused",
    "Verif.Props.C02_only_value_errors",
    "Verif.Props.C02_numbers",
    "Verif.Props.C02_not_numbers"
   ],
   "note": "Idempotence, no remaining shorthand, meaning of aliases and of slices in every spelling, and which slices are refused (no stop, step zero, a dotted root)."
  },
  {
   "property": "C03",
   "status": "partial",
   "theorems": [
    "Verif.Props.C03_concise_lossless",
    "Verif.Props.C03_concise_general",
    "Verif.Props.C03_concise_idempotent",
    "Verif.Props.C03_noncanonical_violated",
    "Verif.Props.C03_concise_raises"
   ],
   "note": "Lossless for canonically spelled integer suffixes; in general only the spelling of the suffix changes; C03_noncanonical_violated and C03_concise_raises show the rest is false of the code."
  },
  {
   "property": "C04",
   "status": "proved",
   "theorems": [
    "Verif.Props.C04_set_operations",
    "Verif.Props.C04_plain_codes_partial",
    "Verif.Props.C04_repeated_codes_violated",
    "Verif.Props.C04_malformed",
    "Verif.Props.C04_malformed_self"
   ],
   "note": "For all pairs of specs that can be expanded; what happens with the others is C04_malformed and C04_malformed_self. Beyond the statement: plain lists of codes as the other operand, where the superset test fails for repeated codes (C04_repeated_codes_violated)."
  },
  {
   "property": "C05",
   "status": "proved",
   "theorems": [
    "Verif.Props.C05_streams_roundtrip",
    "Verif.Props.C05_spec_roundtrip",
    "Verif.Props.C05_codes_roundtrip"
   ],
   "note": ""
  },
  {
   "property": "C06",
   "status": "proved",
   "theorems": [
    "Verif.Props.C06_getitem_int",
    "Verif.Props.C06_getitem_list",
    "Verif.Props.C06_getitem_slice",
    "Verif.Props.C06_getitem_step",
    "Verif.Props.C06_step_zero",
    "Verif.Props.C06_reverse"
   ],
   "note": "All integers, lists and slices, with and without a step."
  },
  {
   "property": "C07",
   "status": "partial",
   "theorems": [
    "Verif.Props.C07_coerce_history_independent_partial",
    "Verif.Props.C07_coerce_meaning",
    "Verif.Props.C07_coerce_float_violated"
   ],
   "note": "Proved for strings, integers, lists, specs, channel specs, None; false for floats (C07_coerce_float_violated)."
  },
  {
   "property": "C08",
   "status": "partial",
   "theorems": [
    "Verif.Props.C08_component_indices",
    "Verif.Props.C08_fused_component_indices_partial",
    "Verif.Props.C08_fused_component_indices_violated"
   ],
   "note": "ChannelSpec.component_indices proved; FusedChannelSpec.component_indices only for specs without slice codes, false otherwise (C08_fused_component_indices_violated)."
  },
  {
   "property": "C09",
   "status": "proved",
   "theorems": [
    "Verif.Props.C09_numel_streams_fuse",
    "Verif.Props.C09_repeated_stream_violated",
    "Verif.Props.C09_normalize_merges_violated",
    "Verif.Props.C09_coerce_fused"
   ],
   "note": "Repeated streams and normalize-merging are shown to break the agreement (violated theorems)."
  },
  {
   "property": "C10",
   "status": "partial",
   "theorems": [
    "Verif.Props.C10_encode_partial",
    "Verif.Props.C10_repeated_code_violated",
    "Verif.Props.C10_zero_size_code_violated",
    "Verif.Props.C10_mode0_alias_violated",
    "Verif.Props.C10_item_order",
    "Verif.Props.C10_overlap_violated",
    "Verif.Props.C10_raises_iff",
    "Verif.Props.C10_mode0_partial",
    "Verif.Props.C10_joined_key_violated",
    "Verif.Props.C10_no_channels_violated"
   ],
   "note": "Proved for streams with distinct, nonempty codes and any item grouping; when it raises, exactly, for all streams; independence of the order of the item for all specs and items; mode 0 for specs without shorthand. Repeated or zero channel codes violate it, mode 0 raises for aliases, for keys of several streams and for streams without channels, and the modes disagree where arrays overlap."
  },
  {
   "property": "C11",
   "status": "partial",
   "theorems": [
    "Verif.Props.C11_decode",
    "Verif.Props.C11_decode_encode_partial",
    "Verif.Props.C11_encode_decode",
    "Verif.Props.C11_zero_size_code_violated"
   ],
   "note": "encode(decode(x)) = x proved for all specs with distinct, nonempty codes, codes without channels included (C11_encode_decode); decode(encode(x)) for codes with channels, false otherwise (C11_zero_size_code_violated)."
  },
  {
   "property": "C12",
   "status": "proved",
   "theorems": [
    "Verif.Props.C12_difference_intersection",
    "Verif.Props.C12_malformed",
    "Verif.Props.C12_union",
    "Verif.Props.C12_normalize_streams"
   ],
   "note": "The kinds of exceptions for specs that can not be expanded are C12_malformed."
  },
  {
   "property": "C13",
   "status": "partial",
   "theorems": [
    "Verif.Props.C13_late_fuse_assoc",
    "Verif.Props.C13_late_fuse_identity",
    "Verif.Props.C13_late_fuse_streams",
    "Verif.Props.C13_sum_streams",
    "Verif.Props.C13_string_operand_violated"
   ],
   "note": "Monoid laws proved; string operands raise (C13_string_operand_violated)."
  },
  {
   "property": "C14",
   "status": "proved",
   "theorems": [
    "Verif.Props.C14_subsequence_index"
   ],
   "note": "For lists without repeats (ordered sets)."
  },
  {
   "property": "C15",
   "status": "proved",
   "theorems": [
    "Verif.Props.C15_insert",
    "Verif.Props.C15_delitem_int",
    "Verif.Props.C15_delitem_list",
    "Verif.Props.C15_delitem_out_of_range",
    "Verif.Props.C15_delitem_slice",
    "Verif.Props.C15_tables_consistent",
    "Verif.Props.C15_insert_out_of_range_violated",
    "Verif.Props.C15_repeated_positions_violated"
   ],
   "note": "For in-range positions and distinct list positions; out-of-range inserts and repeated positions corrupt the table (C15_insert_out_of_range_violated, C15_repeated_positions_violated)."
  },
  {
   "property": "C16",
   "status": "partial",
   "theorems": [
    "Verif.Props.C16_path_sanitize_legal",
    "Verif.Props.C16_path_sanitize_unchanged",
    "Verif.Props.C16_path_sanitize_length_partial",
    "Verif.Props.C16_path_sanitize_length_violated"
   ],
   "note": "Legal characters and identity proved for every hash; the length bound maxlen is false of the code (C16_path_sanitize_length_violated), a weaker bound is proved."
  },
  {
   "property": "C17",
   "status": "partial",
   "theorems": [
    "Verif.Props.C17_concise_same_pairs_partial",
    "Verif.Props.C17_sorted_partial",
    "Verif.Props.C17_order_violated",
    "Verif.Props.C17_empty_channels_violated",
    "Verif.Props.C17_noncanonical_violated",
    "Verif.Props.C17_normalize_streams",
    "Verif.Props.C17_normalize_accepts"
   ],
   "note": "Proved at string level (parse of the printed text) for canonical integer suffixes and specs that do not mix empty and non-empty channel lists; both restrictions are necessary (violated theorems). The parts are sorted; the channel lists of a sensor keep the order of the spec (C17_order_violated)."
  },
  {
   "property": "C18",
   "status": "proved",
   "theorems": [
    "Verif.Props.C18_late_fuse_streams",
    "Verif.Props.C18_late_fuse_monoid",
    "Verif.Props.C18_matching_sensor"
   ],
   "note": ""
  },
  {
   "property": "C19",
   "status": "proved",
   "theorems": [
    "Verif.Props.C19_roundtrip",
    "Verif.Props.C19_codes_in_range",
    "Verif.Props.C19_requantize",
    "Verif.Props.C19_monotone",
    "Verif.Props.C19_dequantize"
   ],
   "note": "Exact rational arithmetic; NaN as a separate value. Also: codes fit the dtype, re-quantizing is exact, monotone."
  },
  {
   "property": "C20",
   "status": "partial",
   "theorems": [
    "Verif.Props.C20_covers_and_least",
    "Verif.Props.C20_identity",
    "Verif.Props.C20_negative_size_violated",
    "Verif.Props.C20_nonneg"
   ],
   "note": "Covering and leastness hold for every affine map; the size is negative when the warp leaves the positive quadrant (C20_negative_size_violated)."
  },
  {
   "property": "C21",
   "status": "partial",
   "theorems": [
    "Verif.Props.C21_pointwise_max_partial",
    "Verif.Props.C21_order_partial",
    "Verif.Props.C21_zero_size_violated"
   ],
   "note": "Exact wherever a known size is positive or none is known; a known zero can be lost (C21_zero_size_violated)."
  },
  {
   "property": "C22",
   "status": "partial",
   "theorems": [
    "Verif.Props.C22_slice_rows",
    "Verif.Props.C22_slice_rows_partial",
    "Verif.Props.C22_full_axis",
    "Verif.Props.C22_int_row",
    "Verif.Props.C22_negative_start_violated",
    "Verif.Props.C22_negative_int_violated",
    "Verif.Props.C22_reversed_violated",
    "Verif.Props.C22_slice_bands_partial",
    "Verif.Props.C22_int_band_partial",
    "Verif.Props.C22_last_band_violated",
    "Verif.Props.C22_stop_wrapped_twice_violated",
    "Verif.Props.C22_ellipsis",
    "Verif.Props.C22_axes_independent",
    "Verif.Props.C22_empty_ellipsis_violated"
   ],
   "note": "Non-negative starts with non-empty selections; negative starts, negative integers, reversed bounds, the last band by -1, and an empty ellipsis are wrong in the code (_violated). GDAL's window read is external; whether it accepts empty windows is a parameter."
  },
  {
   "property": "C23",
   "status": "proved",
   "theorems": [
    "Verif.Props.C23_lru",
    "Verif.Props.C23_bounded",
    "Verif.Props.C23_read",
    "Verif.Props.C23_read_own_write"
   ],
   "note": ""
  },
  {
   "property": "C24",
   "status": "partial",
   "theorems": [
    "Verif.Props.C24_crop_is_numpy_slice",
    "Verif.Props.C24_crop_announces",
    "Verif.Props.C24_lazy_crop_partial",
    "Verif.Props.C24_lazy_channels_violated",
    "Verif.Props.C24_padded_channels_violated"
   ],
   "note": "proved for the default flags (any bounds, any in-range channel list) and for lazy=True without chan_idxs; with lazy=True or padding the code ignores chan_idxs (proved as violations)"
  },
  {
   "property": "C25",
   "status": "proved",
   "theorems": [
    "Verif.Props.C25_crop_tower_fused",
    "Verif.Props.C25_crop_of_crop"
   ],
   "note": "towers of crops over a leaf of any height; a crop of a crop over any node"
  },
  {
   "property": "C26",
   "status": "proved",
   "theorems": [
    "Verif.Props.C26_padded_crop",
    "Verif.Props.C26_sides",
    "Verif.Props.C26_backward_slice",
    "Verif.Props.C26_flags",
    "Verif.Props.C26_channels"
   ],
   "note": "pixels of the tree as built, for a warp function that moves pixels by integer offsets exactly; ranges over all slices, paddings and images"
  },
  {
   "property": "C27",
   "status": "partial",
   "theorems": [
    "Verif.Props.C27_take_by_code_partial",
    "Verif.Props.C27_take_by_index",
    "Verif.Props.C27_raises_iff_missing",
    "Verif.Props.C27_index_succeeds",
    "Verif.Props.C27_repeated_codes_violated"
   ],
   "note": "proved on pixels for images with distinct codes and for positions; with repeated codes the code returns a wrong channel (proved as a violation)"
  },
  {
   "property": "C28",
   "status": "proved",
   "theorems": [
    "Verif.Props.C28_construction",
    "Verif.Props.C28_announces",
    "Verif.Props.C28_pixels",
    "Verif.Props.C28_codes"
   ],
   "note": "construction iff sizes agree, announced metadata, and pixels of every part"
  },
  {
   "property": "C29",
   "status": "proved",
   "theorems": [
    "Props.C29_size",
    "Props.C29_sizes_compose",
    "Props.C29_count",
    "Props.C29_optimize"
   ],
   "note": "Sizes, overview counts (any image) and optimized form (chains of overviews over a leaf, any length)."
  },
  {
   "property": "C30",
   "status": "proved",
   "theorems": [
    "Verif.Props.C30_images",
    "Verif.Props.C30_concat_violated",
    "Props.C30_optimize",
    "Props.C30_values"
   ],
   "note": "Chains of warps of any length over any image without overviews optimize to what one warp by the composed transform optimizes to, with the same finalized arrays (C30_images); for concats this fails when the warps lead back to the identity (C30_concat_violated). Over a leaf the result is one warp with the last parameters; values of the chain and of the single warp agree exactly where no intermediate canvas clips (any source tree)."
  },
  {
   "property": "C31",
   "status": "partial",
   "theorems": [
    "Verif.Props.C31_on_top",
    "Verif.Props.C31_self",
    "Verif.Props.C31_placed_partial",
    "Verif.Props.C31_groupoid_partial",
    "Verif.Props.C31_chains_partial",
    "Verif.Props.C31_groupoid_violated",
    "Verif.Props.C31_part_violated"
   ],
   "note": "Identity on itself and composition along operations for all images, concats included; composition and inversion for images without concats and for images placed in one common space. Concats that show the same files with different offsets: violated. Assumes that udict & keeps the order of the first operand."
  },
  {
   "property": "C32",
   "status": "partial",
   "theorems": [
    "Props.C32_geometry_and_coverage_partial",
    "Props.C32_border_blend_violated"
   ],
   "note": "Geometry and linear-interpolation coverage proved for all scalings/translations, and for all other transforms at output pixels not left of or above the source; shown to fail otherwise (C32_border_blend_violated)."
  },
  {
   "property": "C33",
   "status": "partial",
   "theorems": [
    "Props.C33_geometry",
    "Props.C33_size_partial",
    "Props.C33_size_violated"
   ],
   "note": "Transform, channels and coverage proved for all crops and levels, with exact comparisons and, up to level 26, with those of the code; size equality proved for aligned crops and shown to fail in general (C33_size_violated)."
  },
  {
   "property": "C34",
   "status": "proved",
   "theorems": [
    "Props.C34_split",
    "Props.C34_tolerance",
    "Props.C34_split_padded",
    "Props.C34_absorb"
   ],
   "note": "Rule-level theorems for the split (three result shapes, number of overviews) and for absorbing overviews; C34_tolerance bounds the drift which the comparisons of the code allow."
  },
  {
   "property": "C35",
   "status": "partial",
   "theorems": [
    "Props.C35_crop",
    "Props.C35_overview",
    "Props.C35_warp_partial",
    "Props.C35_warp_violated"
   ],
   "note": "Crops: exact for all trees. Overviews and warps: for resampling that picks pixels. Fails for warps of integer images at the border and with interpolation (C35_warp_violated)."
  },
  {
   "property": "C36",
   "status": "partial",
   "theorems": [
    "Props.C36_paced_partial",
    "Props.C36_arrays_snug_partial",
    "Props.C36_arrays_ends_violated",
    "Props.C36_calls_partial",
    "Verif.Props.C36_arrays_once_partial",
    "Verif.Props.C36_channels",
    "Verif.Props.C36_sources_partial",
    "Verif.Props.C36_size_partial",
    "Verif.Props.C36_no_warps_partial",
    "Verif.Props.C36_arrays_flat_partial",
    "Verif.Props.C36_arrays_moves_partial",
    "Verif.Props.C36_size_violated",
    "Verif.Props.C36_tolerance_violated",
    "Verif.Props.C36_empty_violated",
    "Props.C36_snug_partial",
    "Props.C36_ends_violated",
    "Verif.Props.C36_points_partial",
    "Verif.Props.C36_arrays_whole_partial",
    "Verif.Props.C36_cut_violated"
   ],
   "note": "Channels of all trees with the code's tolerances; sources of all channels that show something where comparisons with the identity are exact (Sharp), which those of the code are for images without overviews whose warps have the default tolerance (sharp_code); sizes without overviews; everything without warps; arrays of crops, selections, dequantizations and concats; arrays and points with warps where nothing is cut off before the last step and every channel shows something (arrays for mirrored, turned and moved images); arrays of files and channels without data that are cropped, dequantized, stacked and then scaled and moved at most once with linear interpolation, cropped and stacked again (C36_arrays_once_partial). Sizes with overviews, transforms within the tolerance, transforms of empty channels, and pixels of images cut off earlier change: violated. With overviews of crops that start at multiples of the overview step, the optimized image has the same size and shows all that was shown (C36_paced_partial). If these crops also end at such multiples or at the border, exactly the same is shown (C36_snug_partial); otherwise the last row of the overview may show more (C36_ends_violated). If the pixels of overviews are computed from the blocks they cover, the arrays are the same, too (C36_arrays_snug_partial), and may not be if crops end elsewhere (C36_arrays_ends_violated). For calls of crop, get_overview and dequantize on stacks of files, with crops whose bounds are pixels of the overviews taken after them, all calls succeed and finalize() gives the same array of the announced shape with and without optimizing (C36_calls_partial)."
  },
  {
   "property": "C37",
   "status": "partial",
   "theorems": [
    "Props.C37_paced_partial",
    "Verif.Props.C37_normal_form_partial",
    "Verif.Props.C37_normal_form_single_partial",
    "Verif.Props.C37_normal_form_violated",
    "Verif.Props.C37_terminates_partial",
    "Verif.Props.C37_stack",
    "Verif.Props.C37_no_overviews_partial",
    "Props.C37_rigid_terminates_partial"
   ],
   "note": "Termination for images without overviews and for deep enough pyramids scaled along the axes; normal form without overviews and of all results that are not concats. Concats whose parts change their size stay as they are: violated. Termination for images with any overviews whose warps turn, mirror and move without scaling, and for images without warps (C37_rigid_terminates_partial); normal form and one result for images without warps whose crops start at multiples of the overview step (C37_paced_partial)."
  },
  {
   "property": "C38",
   "status": "partial",
   "theorems": [
    "Verif.Props.C38_partial",
    "Verif.Props.C38_sequence_partial",
    "Verif.Props.C38_bystander_partial",
    "Verif.Props.C38_violated",
    "Verif.Props.C38_crop_violated"
   ],
   "note": "Heap model: dequantize metadata lives in a store, node identity for the memo is an arbitrary oracle. Proved for every dictionary, all trees, all sharing, also when an exception is raised and for sequences of calls: the dictionary is unchanged unless it belongs to a dequantization above an overview or above a warp above a leaf with overviews; objects outside the optimized trees are unchanged. C38_violated: optimizing dequantize(overview).warp(scale 2) changes the dsize the input announces."
  },
  {
   "property": "C39",
   "status": "partial",
   "theorems": [
    "Verif.Props.C39_partial",
    "Verif.Props.C39_converse_partial",
    "Verif.Props.C39_violated"
   ],
   "note": "Proved for all sharing patterns and tolerances when no dequantization is above or below an overview or above a leaf with overviews: result and exceptions with the memo equal those without; conversely when the memoized run ends the plain one does, with the same result. C39_violated: with a shared dequantized overview the metadata assignment makes the optimized concat impossible to finalize."
  },
  {
   "property": "C40",
   "status": "proved",
   "theorems": [
    "Verif.Props.C40_traverse",
    "Verif.Props.C40_leafs",
    "Verif.Props.C40_graph"
   ],
   "note": "Positions are paths of part numbers; also the printed graph."
  },
  {
   "property": "C41",
   "status": "partial",
   "theorems": [
    "Verif.Props.C41_arguments",
    "Verif.Props.C41_returned",
    "Verif.Props.C41_undo_all",
    "Verif.Props.C41_components_partial",
    "Verif.Props.C41_native_scale",
    "Verif.Props.C41_squash",
    "Verif.Props.C41_return_warp",
    "Verif.Props.C41_undo_warps",
    "Verif.Props.C41_offset_violated",
    "Verif.Props.C41_empty_violated",
    "Verif.Props.C41_scale_violated",
    "Verif.Props.C41_squash_violated",
    "Verif.Props.C41_optimized_before"
   ],
   "note": "Proved for chains over a leaf with the decomposition of kwimage as a parameter: the returned warp is the transform from the image to the result, undoing everything gives the identity and loses nothing, the retained components stay and the removed ones vanish (in the transform back to the leaf) when the removed ones are those applied first, and remove=['scale'] gives the native scale for similarities and axis aligned warps. Violated for other choices (offset only, rotation without offset gives an empty image, scale with shear and rotation) and for the returned warp with squash_nans. Optimizing before undoing changes nothing for images without overviews (C41_optimized_before)."
  },
  {
   "property": "C42",
   "status": "proved",
   "theorems": [
    "Props.C42_each_node_once",
    "Props.C42_edges",
    "Props.C42_edges_once",
    "Props.C42_ellipsis",
    "Props.C42_sources",
    "Props.C42_source_order",
    "Props.C42_whole_graph",
    "Props.C42_depth",
    "Props.C42_depth_violated"
   ],
   "note": "Every node reachable from the sources has exactly one line, every edge is drawn (in undirected graphs exactly once), ellipses appear exactly where a connection is left out, and the default sources reach the whole graph and are as few as possible. The (strongly) connected components are networkx's and are assumed correct. max_depth bounds the depth without vertical chains; with vertical chains it does not (C42_depth_violated)."
  },
  {
   "property": "C43",
   "status": "proved",
   "theorems": [
    "Verif.Props.C43_numel_late_fuse",
    "Verif.Props.C43_split_streams"
   ],
   "note": ""
  },
  {
   "property": "C44",
   "status": "partial",
   "theorems": [
    "Verif.Props.C44_nearest_pixels_partial",
    "Verif.Props.C44_nearest_raises",
    "Verif.Props.C44_nearest_raises_violated",
    "Verif.Props.C44_nearest_scale_ignores_transform",
    "Verif.Props.C44_nearest_size_violated",
    "Verif.Props.C44_nearest_rotation_violated",
    "Verif.Props.C44_nearest_others_partial",
    "Verif.Props.C44_nearest_mirror",
    "Verif.Props.C44_nearest_faithful"
   ],
   "note": "pixels proved for axis aligned transforms with an offset when no exception is raised; raising (iff), pure scales, sizes and rotations are proved to violate the statement"
  },
  {
   "property": "C45",
   "status": "partial",
   "theorems": [
    "Props.C45_paced_partial",
    "Verif.Props.C45_finalize_default_partial",
    "Props.C45_finalize_paced_partial",
    "Verif.Props.C45_announced_shape",
    "Verif.Props.C45_finalize_succeeds",
    "Verif.Props.C45_finalize_shape_partial",
    "Verif.Props.C45_finalize_channels",
    "Verif.Props.C45_finalize_shape_violated",
    "Verif.Props.C45_explicit_size_violated",
    "Verif.Props.C45_explicit_size_raises"
   ],
   "note": "shape and success for every tree built with the API (shape: any warp, also nearest; success: without nearest warps, which C44 treats); with the default optimize step shape and success proved for images without overviews (success: also at most one dequantization per path, no nearest warps, no empty selections), and violated with overviews; concatenations with an explicit dsize announce it unchecked (violated); the resampling functions are assumed to give the requested size. Also with the optimize step for images without warps whose crops below overviews start at multiples of the overview step (shape: C45_paced_partial; success, with the same restrictions and overviews from level 1 on: C45_finalize_paced_partial)."
  },
  {
   "property": "C46",
   "status": "proved",
   "theorems": [
    "Props.C46_round_trip",
    "Props.C46_whole_graph",
    "Props.C46_empty",
    "Props.C46_refused",
    "Props.C46_mixed",
    "Props.C46_depth_violated",
    "Props.C46_label_violated"
   ],
   "note": "Strings of the lines and the parser are modelled; C46_round_trip is for all graphs, glyph sets, vertical chains or not, and all sources that reach every node; C46_whole_graph for the default sources; C46_empty for the empty graph; C46_refused says which texts are refused, and how. With max_depth and vertical chains edges are invented (C46_depth_violated), and a label '!' turns an undirected graph into a directed one (C46_label_violated); both are outside the property. strip is modelled for ASCII white space."
  },
  {
   "property": "C47",
   "status": "proved",
   "theorems": [
    "GdalAux.C47_pixels",
    "GdalAux.C47_strategies_agree",
    "GdalAux.C47_announced_shape",
    "GdalAux.C47_mixed_types_violated",
    "GdalAux.C47_strategies_differ_violated",
    "GdalAux.C47_one_band_violated",
    "GdalAux.C47_no_bands"
   ],
   "note": "For files whose bands share one type and one size at the level (RegularFile); without a common type the read rounds and the two strategies differ, and a file with one band gives a two-dimensional array (_violated). GDAL's copy of a window and kwimage's last fallback are external (the fallback is a parameter)."
  },
  {
   "property": "C48",
   "status": "partial",
   "theorems": [
    "GdalAux.C48_auto",
    "GdalAux.C48_masked_partial",
    "GdalAux.C48_nan",
    "GdalAux.C48_unknown",
    "GdalAux.C48_nan_nodata_violated"
   ],
   "note": "Everything but masking with a NaN no-data value, which masks nothing (C48_nan_nodata_violated). 'auto' is 'float' for all files and indices; unknown methods are refused unless no band is selected."
  },
  {
   "property": "C49",
   "status": "partial",
   "theorems": [
    "GdalAux.C49_compose",
    "GdalAux.C49_shape",
    "GdalAux.C49_pixels",
    "GdalAux.C49_no_overviews_violated",
    "GdalAux.C49_missing",
    "GdalAux.C49_unnamed_dataset_violated",
    "GdalAux.C49_negative_violated"
   ],
   "note": "Composition, counts, shapes, pixels and the ValueError past the last overview; violated for files without any overview (shape and reading disagree), for overviews whose dataset GDAL cannot name (full resolution pixels), and for negative levels (AttributeError)."
  },
  {
   "property": "C50",
   "status": "partial",
   "theorems": [
    "Verif.Props.C50_resize",
    "Verif.Props.C50_resize_again",
    "Verif.Props.C50_scale",
    "Verif.Props.C50_lazy_iff",
    "Verif.Props.C50_lazy_partial",
    "Verif.Props.C50_lazy_size_violated",
    "Verif.Props.C50_resizes",
    "Verif.Props.C50_resize_back_violated"
   ],
   "note": "Proved: sizes, channels and transforms of resize and scale, composition of resizes (C50_resizes: any number of resizes has the optimized form and the finalized array of the last one, all images without overviews; for concats it fails when the last size is the one they have, C50_resize_back_violated), when exactly a lazy warp returns the image itself, and that this is harmless when only the identity passes for the identity. With the tolerance of the code a lazy warp can announce another size (C50_lazy_size_violated). Images of size zero are excluded for resize (numpy divides by zero)."
  },
  {
   "property": "C51",
   "status": "partial",
   "theorems": [
    "Verif.Props.C51_middle_once_partial",
    "Verif.Props.C51_evaluate",
    "Verif.Props.C51_operations",
    "Verif.Props.C51_middle_partial",
    "Verif.Props.C51_shape_violated",
    "Props.C51_middle_snug_partial",
    "Props.C51_overview_steps",
    "Props.C51_stored_violated",
    "Verif.Props.C51_middle_whole_partial"
   ],
   "note": "Proved: metadata and array of the evaluated image; operations afterwards agree whenever optimizing does not change the array, which is proved for crops, selections, dequantizations and concats of files (C51_middle_partial) and for mirrored, turned and moved images of which nothing is cut off before the last step (C51_middle_whole_partial), and for images in which every pixel is interpolated at most once, by scaling and moving with linear interpolation (C51_middle_once_partial). False with overviews, where the array has another shape than announced (C51_shape_violated). Overviews taken after evaluate are covered if overviews are simulated in the same way before and after (C51_overview_steps); those stored in a file are lost (C51_stored_violated). For images with overviews and without warps it holds if crops start and end on pixels of the overviews taken after them and overviews are computed from blocks (C51_middle_snug_partial)."
  },
  {
   "property": "C52",
   "status": "partial",
   "theorems": [
    "Verif.Props.C52_set",
    "Verif.Props.C52_persists",
    "Verif.Props.C52_as_if_built",
    "Verif.Props.C52_finalize_partial",
    "Verif.Props.C52_overviews_violated",
    "Verif.Props.C52_backend_violated",
    "Verif.Props.C52_origin",
    "Verif.Props.C52_given_or_default"
   ],
   "note": "Setting, persistence and the as-if-built law are proved for every image. That every executed warp uses the parameters is proved for images without overviews; with overviews every warp has the given or the default parameters (C52_given_or_default, C52_origin) and the default ones do occur (C52_overviews_violated); the backend is lost when warps are fused (C52_backend_violated)."
  },
  {
   "property": "C53",
   "status": "partial",
   "theorems": [
    "Verif.Props.C53_reads_iff",
    "Verif.Props.C53_metadata",
    "Verif.Props.C53_overviews_violated",
    "Verif.Props.C53_again",
    "Verif.Props.C53_succeeds",
    "Verif.Props.C53_late_partial",
    "Verif.Props.C53_unknown_size",
    "Verif.Props.C53_half_violated",
    "Verif.Props.C53_concat_violated",
    "Verif.Props.C53_concat_sizes_violated"
   ],
   "note": "Which files are read, what they determine, idempotence and success are proved for every image. The refinement theorem excludes half known sizes and concats of unknown size or channel count, for which it fails (three witnesses); a given number of overviews is overwritten when other metadata is missing."
  },
  {
   "property": "C54",
   "status": "partial",
   "theorems": [
    "Props.C54_paced_partial",
    "Verif.Props.C54_idempotent_partial",
    "Verif.Props.C54_fixed_form_partial",
    "Verif.Props.C54_overviews_violated",
    "Verif.Props.C54_raises_violated",
    "Verif.Props.C54_file_partial"
   ],
   "note": "Proved for all images without overviews and for files with overviews under one warp (any invertible map, any size); violated with overviews and more operations: the second pass splits what the first one absorbed, and may raise KeyError. Also for images without warps whose crops below overviews start at multiples of the overview step (C54_paced_partial). In terms of the calls made: C61_calls_partial."
  },
  {
   "property": "C55",
   "status": "partial",
   "theorems": [
    "Props.C55_paced_partial",
    "Verif.Props.C55_no_exception_partial",
    "Verif.Props.C55_same_result_partial",
    "Verif.Props.C55_unknown_overviews_violated",
    "Verif.Props.C55_overview_of_concat_violated",
    "Verif.Props.C55_empty_part_violated",
    "Verif.Props.C55_two_dequantizations_violated",
    "Verif.Props.C55_unnamed_violated",
    "Verif.Props.C55_no_channels_violated"
   ],
   "note": "C55_no_exception_partial: images without overviews, with codes for all channels, without empty channel selections and with at most one dequantization per path are optimized without an exception. C55_paced_partial: the same with overviews from level 1 on, if there are no warps and crops below overviews start at multiples of the overview step. Outside of that six exceptions are proved to occur (C55_*_violated)."
  },
  {
   "property": "C56",
   "status": "partial",
   "theorems": [
    "Verif.Props.C56_counts",
    "Verif.Props.C56_same_image",
    "Verif.Props.C56_take_by_spec_partial",
    "Verif.Props.C56_take_succeeds",
    "Verif.Props.C56_take_by_position",
    "Verif.Props.C56_spelling_violated"
   ],
   "note": "Every selection on written specs is proved to be the selection on expanded specs, and the results agree with the channel of each code; selection by code needs distinct codes. The spelling a selection announces changes, shown on a concat (C56_spelling_violated)."
  },
  {
   "property": "C57",
   "status": "partial",
   "theorems": [
    "Verif.Props.C57_succeeds_iff",
    "Verif.Props.C57_labels_partial",
    "Verif.Props.C57_optimized",
    "Verif.Props.C57_shorthand_violated"
   ],
   "note": "Proved for specs written without shorthand, with and without optimization (overviews included); success is characterized exactly. With shorthand as_xarray raises (C57_shorthand_violated)."
  },
  {
   "property": "C58",
   "status": "partial",
   "theorems": [
    "Verif.Props.C58_fields",
    "Verif.Props.C58_comments",
    "Verif.Props.C58_refused",
    "Verif.Props.C58_unclosed",
    "Verif.Props.C58_data_file",
    "Verif.Props.C58_empty_list_violated",
    "Verif.Props.C58_last_comma_violated",
    "Verif.Props.C58_brace_violated"
   ],
   "note": "Every layout of fields, lists over several lines, descriptions and comments is read back exactly; empty lists, a comma before the closing brace and cells ending in a brace are read differently (witnesses). Text of the file is given; ASCII white space and case."
  },
  {
   "property": "C59",
   "status": "partial",
   "theorems": [
    "Verif.Props.C59_same_selection_partial",
    "Verif.Props.C59_nothing_else",
    "Verif.Props.C59_ellipsis_violated",
    "Verif.Props.C59_last_band_violated"
   ],
   "note": "The rasterio and spectral readers select what the GDAL reader selects, for indices without ellipsis, with non-empty windows and existing bands, whatever the libraries do elsewhere. Ellipsis and bands counted from the end differ (witnesses)."
  },
  {
   "property": "C60",
   "status": "partial",
   "theorems": [
    "Verif.Props.C60_has_data_partial",
    "Verif.Props.C60_negative_violated"
   ],
   "note": "Yes exactly if some pixel is not zero, for files without negative pixels; with negative pixels it fails (witness)."
  },
  {
   "property": "C61",
   "status": "partial",
   "theorems": [
    "Props.C61_calls_partial",
    "Verif.Props.C61_pixels",
    "Verif.Props.C61_finalize_partial",
    "Verif.Props.C61_finalize_once_partial",
    "Props.C61_finalize_snug_partial",
    "Verif.Props.C61_finalize_whole_partial"
   ],
   "note": "pixels of the description for every image; the default finalize, which optimizes, for images without warps and overviews, or mirrored, turned and moved images of which nothing is cut off before the last step, or images in which every pixel is interpolated at most once, by scaling and moving with linear interpolation, with codes and at most one dequantization per path; slices have no step; also images with overviews and without warps, if crops start and end on pixels of the overviews taken after them and overviews are computed from blocks (C61_finalize_snug_partial) For calls of crop, get_overview and dequantize on stacks of files with crops on pixels of later overviews: C61_calls_partial, which also says that the self-check passes and that optimizing twice changes nothing."
  },
  {
   "property": "C62",
   "status": "partial",
   "theorems": [
    "Props.C62_paced_partial",
    "Verif.Props.C62_validate_partial",
    "Verif.Props.C62_concat",
    "Verif.Props.C62_meaning",
    "Verif.Props.C62_refused",
    "Verif.Props.C62_overviews_violated",
    "Props.C62_passes_paced_partial"
   ],
   "note": "passes for images without overviews and nearest warps, with codes, without empty selections, at most one dequantization per path; concats pass with overviews, too; violated with overviews. Also for images without warps whose crops below overviews start at multiples of the overview step (C62_paced_partial, C62_passes_paced_partial). In terms of the calls made: C61_calls_partial."
  },
  {
   "property": "C63",
   "status": "partial",
   "theorems": [
    "Verif.Props.C63_scales",
    "Verif.Props.C63_tests",
    "Verif.Props.C63_downs",
    "Verif.Props.C63_level_partial",
    "Verif.Props.C63_full",
    "Verif.Props.C63_mirrored_violated",
    "Verif.Props.C63_upscale_partial",
    "Verif.Props.C63_nested_violated",
    "Verif.Props.C63_enlarged_violated"
   ],
   "note": "The comparisons of the model are the tests of the code with real scales, angles and logarithms (C63_scales, C63_tests, C63_downs); the level of a warped file is proved for all maps and sizes, with the signed scales of the code; for arbitrary images an overview in the result is scaled up by less than two (C63_upscale_partial). Mirrored images are read from overviews that are too coarse (C63_mirrored_violated), images scaled down and up again from one that is too coarse by almost two (C63_nested_violated), and overviews scaled up by two from full resolution (C63_enlarged_violated)."
  },
  {
   "property": "C64",
   "status": "partial",
   "theorems": [
    "Verif.Props.C64_values",
    "Verif.Props.C64_masks_partial",
    "Verif.Props.C64_masks_optimized_partial",
    "Verif.Props.C64_concat_violated",
    "Verif.Props.C64_optimize_violated"
   ],
   "note": "Values never depend on masks (all images whose no-data leaves are NaN). The mask is the image of the masks of the files for images without concats, warps and overviews, with and without optimization. Violated by concats of several images (np.concatenate drops masks), and so optimize changes whether a pixel is masked. Missing: warps and overviews, whose treatment of masks is external. DelayedNodata with 'ma': see C79."
  },
  {
   "property": "C65",
   "status": "partial",
   "theorems": [
    "Verif.Props.C65_contains",
    "Verif.Props.C65_fused_contains_violated",
    "Verif.Props.C65_fused_contains_partial",
    "Verif.Props.C65_split_partial",
    "Verif.Props.C65_split_violated"
   ],
   "note": "Membership in written specs of several streams: all strings, exceptions included, except for the empty code. split: all strings whose streams have channels, all with a name; else see the witness. Fused specs: without shorthand; violated with shorthand ('r' is not in 'rgb', 'rgb' is)."
  },
  {
   "property": "C66",
   "status": "partial",
   "theorems": [
    "Verif.Props.C66_shapes",
    "Verif.Props.C66_encode_partial",
    "Verif.Props.C66_empty_stream_violated"
   ],
   "note": "Shapes: all specs of distinct nonempty streams. encode of items of these shapes: streams without repeated, nameless or empty codes (C10 fails for these). A spec with an empty stream raises KeyError."
  },
  {
   "property": "C67",
   "status": "partial",
   "theorems": [
    "Verif.Props.C67_mode",
    "Verif.Props.C67_versions_partial",
    "Verif.Props.C67_short_version_violated"
   ],
   "note": "All versions with at least three numbers for kwimage and two for cv2, followed by any suffix. Violated for kwimage '0.12', which compares as older than 0.12.0."
  },
  {
   "property": "C68",
   "status": "partial",
   "theorems": [
    "Verif.Props.C68_shortest_partial",
    "Verif.Props.C68_slices_compared",
    "Verif.Props.C68_canonical",
    "Verif.Props.C68_alias_violated",
    "Verif.Props.C68_step_violated",
    "Verif.Props.C68_streams_partial",
    "Verif.Props.C68_streams_violated"
   ],
   "note": "Minimal among all spellings by single codes and slices without a step; equal for specs of the same channels; streams one by one when their concise spellings differ. Violated for aliases ('rgb' has one code, its concise spelling three), slices with steps, and streams with equal concise spelling, which are merged."
  },
  {
   "property": "C69",
   "status": "partial",
   "theorems": [
    "Verif.Props.C69_origin",
    "Verif.Props.C69_independent",
    "Verif.Props.C69_independent_default_partial",
    "Verif.Props.C69_take",
    "Verif.Props.C69_nearest_violated"
   ],
   "note": "Provenance of every channel is kept by optimize for all tolerances, with overviews, and by take_channels. Channel k of fin (nearest warps axis aligned) and of the default finalize (no nearest warps) depends on its source channel only, for external functions that act channel by channel and files of fixed shape and dtype (the automatic border value depends on the dtype of the whole array: C87). Violated for nearest neighbour warps off the axes."
  },
  {
   "property": "C70",
   "status": "proved",
   "theorems": [
    "Verif.Props.C70_stays_nan",
    "Verif.Props.C70_missing_code",
    "Verif.Props.C70_border_violated"
   ],
   "note": "For every tree and every later operation, optimized or not, given distinct codes and warps with the automatic border value; with an explicit border value the missing channel shows that value (C70_border_violated). External functions are assumed to turn NaN channels into NaN channels."
  },
  {
   "property": "C71",
   "status": "partial",
   "theorems": [
    "Props.C71_read_alike",
    "Props.C71_accepts",
    "Props.C71_chans",
    "Props.C71_chans_mixed",
    "Props.C71_round_trip",
    "Props.C71_coerce_number",
    "Props.C71_empty_violated",
    "Props.C71_codes_violated",
    "Props.C71_parens_violated",
    "Props.C71_numel_violated",
    "Props.C71_fused",
    "Props.C71_fused_refuses",
    "Props.C71_fused_normalize",
    "Props.C71_fused_concise_partial",
    "Props.C71_fused_concise_violated",
    "Props.C71_names"
   ],
   "note": "Reading alike, acceptance, chans (equal and mixed sensors), round trip, numbers of channels, and FusedSensorChanSpec from_spec/normalize are proved in general. concise() of a fused sensor spec keeps the channels for canonical suffixes but is not concise (witness). Violations: empty spec, codes outside the grammar, parentheses, numel with repeated streams."
  },
  {
   "property": "C72",
   "status": "partial",
   "theorems": [
    "Verif.Props.C72_pixels",
    "Verif.Props.C72_accepts",
    "Verif.Props.C72_stored",
    "Verif.Props.C72_negative_first_part",
    "Verif.Props.C72_take_partial",
    "Verif.Props.C72_negative_pixels",
    "Verif.Props.C72_optimize_partial",
    "Verif.Props.C72_negative_violated",
    "Verif.Props.C72_optimize_negative_violated",
    "Verif.Props.C72_optimize_number_violated",
    "Verif.Props.C72_optimize_slice_violated"
   ],
   "note": "Pixels, codes, numbers of channels and exceptions of image[y, x, c] are proved for every image and every list, number and slice; take_channels with a list for all images and for concats without negative numbers. Violated: negative numbers in concats look into the first part only (proved for all concats), and optimizing a crop of a concat turns a number into a NaN channel, a slice into a TypeError and a negative number into another channel. Optimize is modelled where the optimized source is a concat."
  },
  {
   "property": "C73",
   "status": "proved",
   "theorems": [
    "Verif.Props.C73_equal_interchangeable",
    "Verif.Props.C73_equivalence",
    "Verif.Props.C73_normalized_decides",
    "Verif.Props.C73_texts",
    "Verif.Props.C73_length",
    "Verif.Props.C73_spelling"
   ],
   "note": "equality compares the codes as written: rgb and r|g|b have the same channels but are different, and len counts codes until the spec is normalized (C73_spelling)"
  },
  {
   "property": "C74",
   "status": "partial",
   "theorems": [
    "Verif.Props.C74_one_colour",
    "Verif.Props.C74_nearest_partial",
    "Verif.Props.C74_other_partial",
    "Verif.Props.C74_too_many",
    "Verif.Props.C74_tuple_violated",
    "Verif.Props.C74_text_violated",
    "Verif.Props.C74_raises_violated",
    "Verif.Props.C74_fraction"
   ],
   "note": "Other interpolations: all borders, types and numbers of channels, given that the resampling fills with the colours handed to it. Nearest neighbours: one colour for all channels. Violated with nearest neighbours for tuples of different colours, texts, NaN in integer images and images without channels."
  },
  {
   "property": "C75",
   "status": "partial",
   "theorems": [
    "FilesAux.C75_pixels_partial",
    "FilesAux.C75_optimized_partial",
    "FilesAux.C75_built_partial",
    "FilesAux.C75_one_band_violated",
    "FilesAux.C75_simulated_violated",
    "FilesAux.C75_empty_violated"
   ],
   "note": "Proved for trees whose crops show something and whose simulated overviews are not of one-band files, with any mixture of files and arrays in memory, and for images built with the API without overviews in addition that they succeed with the announced sizes. False for one-band files: without an operation the array has two dimensions, and taking the channel of a simulated overview raises IndexError. Empty crops depend on GDAL."
  },
  {
   "property": "C76",
   "status": "proved",
   "theorems": [
    "Verif.Props.C76_text",
    "Verif.Props.C76_classes",
    "Verif.Props.C76_read_back",
    "Verif.Props.C76_labels_violated"
   ],
   "note": "The text for all images, labels, glyph sets and both layouts; reading back with the identifiers of the nodes. With equal labels reading back merges nodes (C76_labels_violated), which is outside the property. Labels (ub.urepr of the metadata) are arbitrary; rich is not modelled."
  },
  {
   "property": "C77",
   "status": "partial",
   "theorems": [
    "Verif.Props.C77_opens",
    "Verif.Props.C77_opens_header",
    "Verif.Props.C77_opens_hidden",
    "Verif.Props.C77_kept",
    "Verif.Props.C77_overviews",
    "Verif.Props.C77_retry",
    "Verif.Props.C77_cache",
    "Verif.Props.C77_cache_violated",
    "Verif.Props.C77_overview_violated"
   ],
   "note": "Which file is opened, persistence for the object and for overviews taken after the first access, failing accesses, and transparency of the cache while files that can be opened are not changed: all sequences of actions. Violated: with the cache, changed files are shown as they were to new objects; overviews taken before the first access open the file on their own. Threads and what GDAL does when an open file is overwritten in place are external."
  },
  {
   "property": "C78",
   "status": "partial",
   "theorems": [
    "Verif.Props.C78_mask_partial",
    "Verif.Props.C78_pixels_partial",
    "Verif.Props.C78_none",
    "Verif.Props.C78_order",
    "Verif.Props.C78_integers",
    "Verif.Props.C78_complex",
    "Verif.Props.C78_complex_violated"
   ],
   "note": "Proved for arrays of truth values, integers, floats and complex numbers (not wider than Python's floats) with every real no-data value, NaN, infinities and texts, and for complex arrays with complex no-data values as well. Violated for complex no-data values in arrays of integers. Rounding to the dtype is not modelled."
  },
  {
   "property": "C79",
   "status": "partial",
   "theorems": [
    "Verif.Props.C79_finalize",
    "Verif.Props.C79_optimize",
    "Verif.Props.C79_crops",
    "Verif.Props.C79_concat_violated"
   ],
   "note": "Proved for all sequences of crops, selections and warps with the default finalize, and without optimization for crops and selections. In concats with other images nothing is masked and the pixels are what np.empty found (C79_concat_violated)."
  },
  {
   "property": "C80",
   "status": "partial",
   "theorems": [
    "Verif.Props.C80_assign",
    "Verif.Props.C80_when_partial",
    "Verif.Props.C80_number",
    "Verif.Props.C80_names_partial",
    "Verif.Props.C80_late_violated",
    "Verif.Props.C80_late_crop_violated",
    "Verif.Props.C80_stale_violated",
    "Verif.Props.C80_count_violated",
    "Verif.Props.C80_none_violated",
    "Verif.Props.C80_concat_violated",
    "Verif.Props.C80_concat_assign"
   ],
   "note": "Proved for all programs: assigning a spec gives it to the image, leaves all bands and all images not made from it alone (C80_assign), commutes with programs that neither crop channels of images made from it nor assign to what it is made of (C80_when_partial), and numbers of channels are right in all careful programs (C80_number), names in those that name everything (C80_names_partial). The general claim is violated: a crop of an unnamed image reads all names of the image once it is named (C80_late_violated), a crop keeps old names (C80_stale_violated), a number or None assigned to a crop brings back the names of its image (C80_count_violated, C80_none_violated), and a concat never learns its number (C80_concat_violated)."
  },
  {
   "property": "C81",
   "status": "proved",
   "theorems": [
    "Change.C81_optimize",
    "Change.C81_announced",
    "Change.C81_pixels",
    "Change.C81_select",
    "Change.C81_equal_names_violated"
   ],
   "note": "For all images, tolerances and replacements that keep the sizes of files; exceptions included. The files shown by renamed images are given by an environment that agrees with the renaming; whether a leaf has names at all is kept."
  },
  {
   "property": "C82",
   "status": "partial",
   "theorems": [
    "Verif.Props.C82_ungrouped",
    "Verif.Props.C82_groups",
    "Verif.Props.C82_select",
    "Verif.Props.C82_select_codes",
    "Verif.Props.C82_optimized_partial",
    "Verif.Props.C82_optimized_once_partial",
    "Verif.Props.C82_optimized_forms_partial",
    "Verif.Props.C82_overviews_violated",
    "Props.C82_optimized_snug_partial",
    "Verif.Props.C82_optimized_whole_partial"
   ],
   "note": "Everything but optimizing for all images that can be built. Optimized forms and the arrays of finalize() for all images without overviews in which files and selections have channels (C82_optimized_forms_partial; a group in which nothing is left to read loses parts without channels, so there the forms may differ). With overviews a concat of which an optimized part changes size is left alone with all its parts, so groups matter (C82_overviews_violated). Arrays agree for images with overviews and without warps, if crops start and end on pixels of the overviews taken after them and overviews are computed from blocks (C82_optimized_snug_partial)."
  },
  {
   "property": "C83",
   "status": "partial",
   "theorems": [
    "Props.C83_arrays_snug_partial",
    "Props.C83_results_snug_partial",
    "Props.C83_calls_partial",
    "Verif.Props.C83_announced_partial",
    "Verif.Props.C83_channels",
    "Verif.Props.C83_sources",
    "Verif.Props.C83_arrays_flat_partial",
    "Verif.Props.C83_finalize_flat_partial",
    "Verif.Props.C83_arrays_moves_partial",
    "Verif.Props.C83_calls",
    "Verif.Props.C83_overviews_violated",
    "Props.C83_paced_partial",
    "Props.C83_snug_partial",
    "Props.C83_finalize_paced_partial",
    "Verif.Props.C83_arrays_once_partial",
    "Verif.Props.C83_results",
    "Verif.Props.C83_arrays_whole_partial"
   ],
   "note": "Channels and sources for all images; sizes, optimized forms and the arrays of the default finalize for all images without overviews, with any warps (C83_results); with overviews sizes change (C83_overviews_violated). Arrays without optimizing: images without warps and overviews, mirrored, turned and moved images, and images in which every pixel is interpolated at most once, by scaling and moving with linear interpolation. With overviews and without warps, if crops start on pixels of the overviews taken after them: sizes, channels, sources and success of finalize (C83_paced_partial, C83_finalize_paced_partial), exactly the same points if they end there, too (C83_snug_partial). Then arrays agree, too, if the pixels of overviews are computed from the blocks they cover (C83_arrays_snug_partial, C83_results_snug_partial). For calls of crop, get_overview and dequantize on stacks of files with crops on pixels of later overviews, optimize may be called anywhere between them: finalize() gives the array computed without optimizing (C83_calls_partial)."
  },
  {
   "property": "C84",
   "status": "partial",
   "theorems": [
    "Props.C84_calls_partial",
    "Verif.Props.C84_finalize_once_partial",
    "Verif.Props.C84_announced",
    "Verif.Props.C84_arrays",
    "Verif.Props.C84_codes",
    "Verif.Props.C84_missing_codes",
    "Verif.Props.C84_optimized",
    "Verif.Props.C84_finalize_flat_partial",
    "Verif.Props.C84_nearest_violated",
    "Props.C84_finalize_snug_partial",
    "Verif.Props.C84_finalize_whole_partial"
   ],
   "note": "Sequences of warps, crops, paddings, overviews and dequantizations before and after selecting by position or by distinct codes. Partial because it fails for nearest neighbour warps that are not aligned with the axes (C84_nearest_violated), and optimized arrays are compared for crops and dequantizations (C84_finalize_flat_partial) and for mirrored, turned and moved images of which nothing is cut off before the last step (C84_finalize_whole_partial) and for images in which every pixel is interpolated at most once, by scaling and moving with linear interpolation (C84_finalize_once_partial) only; for the rest C84_optimized compares sources and transforms. Also compared for images with overviews and without warps, if crops start and end on pixels of the overviews taken after them and overviews are computed from blocks (C84_finalize_snug_partial). For crops, overviews and dequantizations of stacks of files with crops on pixels of later overviews, selecting before and after succeeds and finalize() gives the same array (C84_calls_partial)."
  },
  {
   "property": "C85",
   "status": "partial",
   "theorems": [
    "Verif.Props.C85_read_back",
    "Verif.Props.C85_same_pixels",
    "Verif.Props.C85_arrays_violated",
    "Verif.Props.C85_raises_iff",
    "Verif.Props.C85_announced",
    "Verif.Props.C85_raises_violated"
   ],
   "note": "Files and pixels without data; names in the spelling that concise keeps (C03). The channels, their number and the size a description tells are right for every leaf (C85_announced). Arrays in memory with the same size and channels have equal descriptions (C85_arrays_violated), and an image with a code like band.raw has none (C85_raises_violated)."
  },
  {
   "property": "C86",
   "status": "partial",
   "theorems": [
    "Props.C86_calls_partial",
    "Verif.Props.C86_files_partial",
    "Verif.Props.C86_never_more_partial",
    "Verif.Props.C86_unread",
    "Verif.Props.C86_unread_optimized_partial",
    "Verif.Props.C86_flat",
    "Verif.Props.C86_window_partial",
    "Verif.Props.C86_outside_violated",
    "Verif.Props.C86_nearest_violated",
    "Verif.Props.C86_files_violated",
    "Props.C86_files_paced_partial",
    "Verif.Props.C86_window_parts_partial",
    "Verif.Props.C86_concat_partial"
   ],
   "note": "Proved for all images without overviews: the files read are those that channels come from, windows never grow, pixels outside of the windows do not matter, images without warps read windows of their own size, and parts of warped files, of warped parts of files and of both dequantized read only pixels near those shown; images made from concats read what images made in the same way from the parts read (C86_concat_partial). Violations are proved on images: a concat with overviews that stays unoptimized reads files that show nowhere, nearest interpolation reads whole files, and a part to the left of a file reads most of it because the end of the slice is negative. With overviews the files read are those that channels come from if there are no warps and crops start on pixels of the overviews taken after them (C86_files_paced_partial). Also in terms of the calls made (C86_calls_partial)."
  },
  {
   "property": "C87",
   "status": "partial",
   "theorems": [
    "Props.C87_calls_partial",
    "Props.C87_snug_partial",
    "Verif.Props.C87_common_partial",
    "Verif.Props.C87_kind_partial",
    "Verif.Props.C87_type_partial",
    "Verif.Props.C87_same",
    "Verif.Props.C87_floats",
    "Verif.Props.C87_integers_partial",
    "Verif.Props.C87_border_partial",
    "Verif.Props.C87_whole_floats_partial",
    "Verif.Props.C87_whole_integers_partial",
    "Verif.Props.C87_selection_violated",
    "Verif.Props.C87_border_violated"
   ],
   "note": "Types of optimized arrays (C87_kind_partial, C87_type_partial), kept by optimize without selections (C87_same, with overviews), common types (C87_common_partial), border by the type of each channel (C87_border_partial), images of one kind (C87_floats, C87_integers_partial), whose arrays do not change when they are mirrored, turned and moved and nothing is cut off (C87_whole_floats_partial, C87_whole_integers_partial). Images with overviews and crops on overview pixels but no warps show the same pixels with and without optimizing, whatever the types of their files (C87_snug_partial). Missing: overviews and nearest neighbour warps for the types and borders of channels, types that numpy promotes differently in another order. Before optimizing the claim fails: C87_selection_violated (one integer channel of a concat with floats is an array of floats), C87_border_violated (the border of an integer channel next to floats is NaN before and 0 after optimizing). Also in terms of the calls made (C87_calls_partial)."
  },
  {
   "property": "C88",
   "status": "partial",
   "theorems": [
    "Verif.Props.C88_size_partial",
    "Verif.Props.C88_size_violated",
    "Verif.Props.C88_resize",
    "Verif.Props.C88_coordinate_crop",
    "Verif.Props.C88_coordinate_crop_inside"
   ],
   "note": "The array is smaller than announced by less than a pixel along each axis, and agrees exactly for whole sizes (C88_size_partial); for others the claim fails (C88_size_violated). resize and _coordinate_crop as stated, without optimization."
  },
  {
   "property": "C89",
   "status": "partial",
   "theorems": [
    "Props.C89_calls_partial",
    "Verif.Props.C89_announced",
    "Verif.Props.C89_arrays",
    "Verif.Props.C89_results",
    "Verif.Props.C89_identity_violated",
    "Props.C89_finalize_snug_partial"
   ],
   "note": "Announcements and exceptions for all concats and sequences (C89_announced), arrays without optimizing (C89_arrays: both have the same array or both have none), optimized images and default arrays without overviews (C89_results), default arrays of images with overviews and crops on overview pixels but no warps (C89_finalize_snug_partial). Partial because a warp by the identity that keeps the size is left out for the concat but not for its parts, where it replaces the interpolation of a moved part (C89_identity_violated); overviews together with warps are not compared when optimized. For crops, overviews and dequantizations of stacks of files with crops on pixels of later overviews, all calls succeed on the stack and on its parts and finalize() gives the same array (C89_calls_partial)."
  },
  {
   "property": "C90",
   "status": "partial",
   "theorems": [
    "Verif.Props.C90_operations",
    "Verif.Props.C90_count",
    "Verif.Props.C90_old",
    "Verif.Props.C90_files",
    "Verif.Props.C90_after",
    "Verif.Props.C90_kept_partial",
    "Verif.Props.C90_warps_lost",
    "Verif.Props.C90_dequantized_warp",
    "Verif.Props.C90_cropped_dequantized",
    "Verif.Props.C90_cropped_warp",
    "Verif.Props.C90_violated"
   ],
   "note": "The claim as stated fails: names assigned to a warped warp, an identity warp, a dequantized warp, a cropped warp, a cropped crop or warped NaNs are lost (C90_violated, C90_warps_lost). C90_kept_partial: kept when no rule applies to the operation after its source is optimized. The other sentences are proved for all chains without concats and overviews (C90_operations, C90_count, C90_old, C90_files, C90_after)."
  },
  {
   "property": "C91",
   "status": "partial",
   "theorems": [
    "Props.C91_paced_partial",
    "Props.C91_calls_partial",
    "OverviewsAux.C91_number",
    "OverviewsAux.C91_unknown",
    "OverviewsAux.C91_optimized_partial",
    "OverviewsAux.C91_stacks_partial",
    "OverviewsAux.C91_stack_announced_partial",
    "OverviewsAux.C91_announced_partial",
    "OverviewsAux.C91_stored",
    "OverviewsAux.C91_unoptimized_violated",
    "OverviewsAux.C91_warp_violated",
    "OverviewsAux.C91_stack_violated",
    "OverviewsAux.C91_negative_violated"
   ],
   "note": "The number is proved for all images (C91_number, C91_unknown), and overviews of overviews of a file show the stored picture (C91_stored). That announced overviews are not simulated is proved for finalize() of one file with crops, channel selections, dequantizations and overviews (C91_announced_partial), and with scalings if the file has enough overviews (C91_optimized_partial); for stacks of files, dequantized and with overviews taken anywhere, and crops and selections of these (C91_stacks_partial, C91_stack_announced_partial). It fails without optimizing, for warped images, for stacks of crops and past the last overview (C91_unoptimized_violated, C91_warp_violated, C91_stack_violated, C91_negative_violated). Stacks may have crops below overviews if these start at multiples of the overview step (C91_paced_partial). In terms of the calls, this holds for crops whose bounds are pixels of the overviews taken after them, if every file has the overviews taken (C91_calls_partial)."
  }
 ]
}