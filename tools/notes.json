{
 "C01": {
  "status": "proved",
  "note": "For every spec reachable through the public API (Built). C01_sizes: sizes has the number of channels of every code. union with a raw list of codes is outside Built: C01_union_raw_list_violated."
 },
 "C02": {
  "status": "proved",
  "note": "Idempotence, no remaining shorthand, meaning of aliases and of slices in every spelling, and which slices are refused (no stop, step zero, a dotted root)."
 },
 "C03": {
  "status": "partial",
  "note": "Lossless for canonically spelled integer suffixes; in general only the spelling of the suffix changes; C03_noncanonical_violated and C03_concise_raises show the rest is false of the code."
 },
 "C04": {
  "status": "proved",
  "note": "For all pairs of specs that can be expanded; what happens with the others is C04_malformed and C04_malformed_self. Beyond the statement: plain lists of codes as the other operand, where the superset test fails for repeated codes (C04_repeated_codes_violated)."
 },
 "C05": {
  "status": "proved",
  "note": ""
 },
 "C06": {
  "status": "proved",
  "note": "All integers, lists and slices, with and without a step."
 },
 "C07": {
  "status": "partial",
  "note": "Proved for strings, integers, lists, specs, channel specs, None; false for floats (C07_coerce_float_violated)."
 },
 "C08": {
  "status": "partial",
  "note": "ChannelSpec.component_indices proved; FusedChannelSpec.component_indices only for specs without slice codes, false otherwise (C08_fused_component_indices_violated)."
 },
 "C09": {
  "status": "proved",
  "note": "Repeated streams and normalize-merging are shown to break the agreement (violated theorems)."
 },
 "C10": {
  "status": "partial",
  "note": "Proved for streams with distinct, nonempty codes and any item grouping; when it raises, exactly, for all streams; independence of the order of the item for all specs and items; mode 0 for specs without shorthand. Repeated or zero channel codes violate it, mode 0 raises for aliases, for keys of several streams and for streams without channels, and the modes disagree where arrays overlap."
 },
 "C11": {
  "status": "partial",
  "note": "encode(decode(x)) = x proved for all specs with distinct, nonempty codes, codes without channels included (C11_encode_decode); decode(encode(x)) for codes with channels, false otherwise (C11_zero_size_code_violated)."
 },
 "C12": {
  "status": "proved",
  "note": "The kinds of exceptions for specs that can not be expanded are C12_malformed."
 },
 "C13": {
  "status": "partial",
  "note": "Monoid laws proved; string operands raise (C13_string_operand_violated)."
 },
 "C14": {
  "status": "proved",
  "note": "For lists without repeats (ordered sets)."
 },
 "C15": {
  "status": "proved",
  "note": "For in-range positions and distinct list positions; out-of-range inserts and repeated positions corrupt the table (C15_insert_out_of_range_violated, C15_repeated_positions_violated)."
 },
 "C16": {
  "status": "partial",
  "note": "Legal characters and identity proved for every hash; the length bound maxlen is false of the code (C16_path_sanitize_length_violated), a weaker bound is proved."
 },
 "C17": {
  "status": "partial",
  "note": "Proved at string level (parse of the printed text) for canonical integer suffixes and specs that do not mix empty and non-empty channel lists; both restrictions are necessary (violated theorems). The parts are sorted; the channel lists of a sensor keep the order of the spec (C17_order_violated)."
 },
 "C18": {
  "status": "proved",
  "note": ""
 },
 "C19": {
  "status": "proved",
  "note": "Exact rational arithmetic; NaN as a separate value. Also: codes fit the dtype, re-quantizing is exact, monotone."
 },
 "C20": {
  "status": "partial",
  "note": "Covering and leastness hold for every affine map; the size is negative when the warp leaves the positive quadrant (C20_negative_size_violated)."
 },
 "C21": {
  "status": "partial",
  "note": "Exact wherever a known size is positive or none is known; a known zero can be lost (C21_zero_size_violated)."
 },
 "C22": {
  "status": "partial",
  "note": "Non-negative starts with non-empty selections; negative starts, negative integers, reversed bounds, the last band by -1, and an empty ellipsis are wrong in the code (_violated). GDAL's window read is external; whether it accepts empty windows is a parameter."
 },
 "C23": {
  "status": "proved",
  "note": ""
 },
 "C24": {
  "status": "partial",
  "note": "proved for the default flags (any bounds, any in-range channel list) and for lazy=True without chan_idxs; with lazy=True or padding the code ignores chan_idxs (proved as violations)"
 },
 "C25": {
  "status": "proved",
  "note": "towers of crops over a leaf of any height; a crop of a crop over any node"
 },
 "C26": {
  "status": "proved",
  "note": "pixels of the tree as built, for a warp function that moves pixels by integer offsets exactly; ranges over all slices, paddings and images"
 },
 "C27": {
  "status": "partial",
  "note": "proved on pixels for images with distinct codes and for positions; with repeated codes the code returns a wrong channel (proved as a violation)"
 },
 "C28": {
  "status": "proved",
  "note": "construction iff sizes agree, announced metadata, and pixels of every part"
 },
 "C29": {
  "status": "proved",
  "note": "Sizes, overview counts (any image) and optimized form (chains of overviews over a leaf, any length)."
 },
 "C30": {
  "status": "proved",
  "note": "Chains of warps of any length over any image without overviews optimize to what one warp by the composed transform optimizes to, with the same finalized arrays (C30_images); for concats this fails when the warps lead back to the identity (C30_concat_violated). Over a leaf the result is one warp with the last parameters; values of the chain and of the single warp agree exactly where no intermediate canvas clips (any source tree)."
 },
 "C31": {
  "status": "partial",
  "note": "Identity on itself and composition along operations for all images, concats included; composition and inversion for images without concats and for images placed in one common space. Concats that show the same files with different offsets: violated. Assumes that udict & keeps the order of the first operand."
 },
 "C32": {
  "status": "partial",
  "note": "Geometry and linear-interpolation coverage proved for all scalings/translations, and for all other transforms at output pixels not left of or above the source; shown to fail otherwise (C32_border_blend_violated)."
 },
 "C33": {
  "status": "partial",
  "note": "Transform, channels and coverage proved for all crops and levels, with exact comparisons and, up to level 26, with those of the code; size equality proved for aligned crops and shown to fail in general (C33_size_violated)."
 },
 "C34": {
  "status": "proved",
  "note": "Rule-level theorems for the split (three result shapes, number of overviews) and for absorbing overviews; C34_tolerance bounds the drift which the comparisons of the code allow."
 },
 "C35": {
  "status": "partial",
  "note": "Crops: exact for all trees. Overviews and warps: for resampling that picks pixels. Fails for warps of integer images at the border and with interpolation (C35_warp_violated)."
 },
 "C36": {
  "status": "partial",
  "note": "Channels of all trees with the code's tolerances; sources of all channels that show something where comparisons with the identity are exact (Sharp), which those of the code are for images without overviews whose warps have the default tolerance (sharp_code); sizes without overviews; everything without warps; arrays of crops, selections, dequantizations and concats; arrays and points with warps where nothing is cut off before the last step and every channel shows something (arrays for mirrored, turned and moved images); arrays of files and channels without data that are cropped, dequantized, stacked and then scaled and moved at most once with linear interpolation, cropped and stacked again (C36_arrays_once_partial). Sizes with overviews, transforms within the tolerance, transforms of empty channels, and pixels of images cut off earlier change: violated. With overviews of crops that start at multiples of the overview step, the optimized image has the same size and shows all that was shown (C36_paced_partial). If these crops also end at such multiples or at the border, exactly the same is shown (C36_snug_partial); otherwise the last row of the overview may show more (C36_ends_violated). If the pixels of overviews are computed from the blocks they cover, the arrays are the same, too (C36_arrays_snug_partial), and may not be if crops end elsewhere (C36_arrays_ends_violated). For calls of crop, get_overview and dequantize on stacks of files, with crops whose bounds are pixels of the overviews taken after them, all calls succeed and finalize() gives the same array of the announced shape with and without optimizing (C36_calls_partial)."
 },
 "C37": {
  "status": "partial",
  "note": "Termination for images without overviews and for deep enough pyramids scaled along the axes; normal form without overviews and of all results that are not concats. Concats whose parts change their size stay as they are: violated. Termination for images with any overviews whose warps turn, mirror and move without scaling, and for images without warps (C37_rigid_terminates_partial); normal form and one result for images without warps whose crops start at multiples of the overview step (C37_paced_partial)."
 },
 "C38": {
  "status": "partial",
  "note": "Heap model: dequantize metadata lives in a store, node identity for the memo is an arbitrary oracle. Proved for every dictionary, all trees, all sharing, also when an exception is raised and for sequences of calls: the dictionary is unchanged unless it belongs to a dequantization above an overview or above a warp above a leaf with overviews; objects outside the optimized trees are unchanged. C38_violated: optimizing dequantize(overview).warp(scale 2) changes the dsize the input announces."
 },
 "C39": {
  "status": "partial",
  "note": "Proved for all sharing patterns and tolerances when no dequantization is above or below an overview or above a leaf with overviews: result and exceptions with the memo equal those without; conversely when the memoized run ends the plain one does, with the same result. C39_violated: with a shared dequantized overview the metadata assignment makes the optimized concat impossible to finalize."
 },
 "C40": {
  "status": "proved",
  "note": "Positions are paths of part numbers; also the printed graph."
 },
 "C41": {
  "status": "partial",
  "note": "Proved for chains over a leaf with the decomposition of kwimage as a parameter: the returned warp is the transform from the image to the result, undoing everything gives the identity and loses nothing, the retained components stay and the removed ones vanish (in the transform back to the leaf) when the removed ones are those applied first, and remove=['scale'] gives the native scale for similarities and axis aligned warps. Violated for other choices (offset only, rotation without offset gives an empty image, scale with shear and rotation) and for the returned warp with squash_nans. Optimizing before undoing changes nothing for images without overviews (C41_optimized_before)."
 },
 "C42": {
  "status": "proved",
  "note": "Every node reachable from the sources has exactly one line, every edge is drawn (in undirected graphs exactly once), ellipses appear exactly where a connection is left out, and the default sources reach the whole graph and are as few as possible. The (strongly) connected components are networkx's and are assumed correct. max_depth bounds the depth without vertical chains; with vertical chains it does not (C42_depth_violated)."
 },
 "C43": {
  "status": "proved",
  "note": ""
 },
 "C44": {
  "status": "partial",
  "note": "pixels proved for axis aligned transforms with an offset when no exception is raised; raising (iff), pure scales, sizes and rotations are proved to violate the statement"
 },
 "C45": {
  "status": "partial",
  "note": "shape and success for every tree built with the API (shape: any warp, also nearest; success: without nearest warps, which C44 treats); with the default optimize step shape and success proved for images without overviews (success: also at most one dequantization per path, no nearest warps, no empty selections), and violated with overviews; concatenations with an explicit dsize announce it unchecked (violated); the resampling functions are assumed to give the requested size. Also with the optimize step for images without warps whose crops below overviews start at multiples of the overview step (shape: C45_paced_partial; success, with the same restrictions and overviews from level 1 on: C45_finalize_paced_partial)."
 },
 "C46": {
  "status": "proved",
  "note": "Strings of the lines and the parser are modelled; C46_round_trip is for all graphs, glyph sets, vertical chains or not, and all sources that reach every node; C46_whole_graph for the default sources; C46_empty for the empty graph; C46_refused says which texts are refused, and how. With max_depth and vertical chains edges are invented (C46_depth_violated), and a label '!' turns an undirected graph into a directed one (C46_label_violated); both are outside the property. strip is modelled for ASCII white space."
 },
 "C47": {
  "status": "proved",
  "note": "For files whose bands share one type and one size at the level (RegularFile); without a common type the read rounds and the two strategies differ, and a file with one band gives a two-dimensional array (_violated). GDAL's copy of a window and kwimage's last fallback are external (the fallback is a parameter)."
 },
 "C48": {
  "status": "partial",
  "note": "Everything but masking with a NaN no-data value, which masks nothing (C48_nan_nodata_violated). 'auto' is 'float' for all files and indices; unknown methods are refused unless no band is selected."
 },
 "C49": {
  "status": "partial",
  "note": "Composition, counts, shapes, pixels and the ValueError past the last overview; violated for files without any overview (shape and reading disagree), for overviews whose dataset GDAL cannot name (full resolution pixels), and for negative levels (AttributeError)."
 },
 "C50": {
  "status": "partial",
  "note": "Proved: sizes, channels and transforms of resize and scale, composition of resizes (C50_resizes: any number of resizes has the optimized form and the finalized array of the last one, all images without overviews; for concats it fails when the last size is the one they have, C50_resize_back_violated), when exactly a lazy warp returns the image itself, and that this is harmless when only the identity passes for the identity. With the tolerance of the code a lazy warp can announce another size (C50_lazy_size_violated). Images of size zero are excluded for resize (numpy divides by zero)."
 },
 "C51": {
  "status": "partial",
  "note": "Proved: metadata and array of the evaluated image; operations afterwards agree whenever optimizing does not change the array, which is proved for crops, selections, dequantizations and concats of files (C51_middle_partial) and for mirrored, turned and moved images of which nothing is cut off before the last step (C51_middle_whole_partial), and for images in which every pixel is interpolated at most once, by scaling and moving with linear interpolation (C51_middle_once_partial). False with overviews, where the array has another shape than announced (C51_shape_violated). Overviews taken after evaluate are covered if overviews are simulated in the same way before and after (C51_overview_steps); those stored in a file are lost (C51_stored_violated). For images with overviews and without warps it holds if crops start and end on pixels of the overviews taken after them and overviews are computed from blocks (C51_middle_snug_partial)."
 },
 "C52": {
  "status": "partial",
  "note": "Setting, persistence and the as-if-built law are proved for every image. That every executed warp uses the parameters is proved for images without overviews; with overviews every warp has the given or the default parameters (C52_given_or_default, C52_origin) and the default ones do occur (C52_overviews_violated); the backend is lost when warps are fused (C52_backend_violated)."
 },
 "C53": {
  "status": "partial",
  "note": "Which files are read, what they determine, idempotence and success are proved for every image. The refinement theorem excludes half known sizes and concats of unknown size or channel count, for which it fails (three witnesses); a given number of overviews is overwritten when other metadata is missing."
 },
 "C54": {
  "status": "partial",
  "note": "Proved for all images without overviews and for files with overviews under one warp (any invertible map, any size); violated with overviews and more operations: the second pass splits what the first one absorbed, and may raise KeyError. Also for images without warps whose crops below overviews start at multiples of the overview step (C54_paced_partial). In terms of the calls made: C61_calls_partial."
 },
 "C55": {
  "status": "partial",
  "note": "C55_no_exception_partial: images without overviews, with codes for all channels, without empty channel selections and with at most one dequantization per path are optimized without an exception. C55_paced_partial: the same with overviews from level 1 on, if there are no warps and crops below overviews start at multiples of the overview step. Outside of that six exceptions are proved to occur (C55_*_violated)."
 },
 "C56": {
  "status": "partial",
  "note": "Every selection on written specs is proved to be the selection on expanded specs, and the results agree with the channel of each code; selection by code needs distinct codes. The spelling a selection announces changes, shown on a concat (C56_spelling_violated)."
 },
 "C57": {
  "status": "partial",
  "note": "Proved for specs written without shorthand, with and without optimization (overviews included); success is characterized exactly. With shorthand as_xarray raises (C57_shorthand_violated)."
 },
 "C58": {
  "status": "partial",
  "note": "Every layout of fields, lists over several lines, descriptions and comments is read back exactly; empty lists, a comma before the closing brace and cells ending in a brace are read differently (witnesses). Text of the file is given; ASCII white space and case."
 },
 "C59": {
  "status": "partial",
  "note": "The rasterio and spectral readers select what the GDAL reader selects, for indices without ellipsis, with non-empty windows and existing bands, whatever the libraries do elsewhere. Ellipsis and bands counted from the end differ (witnesses)."
 },
 "C60": {
  "status": "partial",
  "note": "Yes exactly if some pixel is not zero, for files without negative pixels; with negative pixels it fails (witness)."
 },
 "C61": {
  "status": "partial",
  "note": "pixels of the description for every image; the default finalize, which optimizes, for images without warps and overviews, or mirrored, turned and moved images of which nothing is cut off before the last step, or images in which every pixel is interpolated at most once, by scaling and moving with linear interpolation, with codes and at most one dequantization per path; slices have no step; also images with overviews and without warps, if crops start and end on pixels of the overviews taken after them and overviews are computed from blocks (C61_finalize_snug_partial) For calls of crop, get_overview and dequantize on stacks of files with crops on pixels of later overviews: C61_calls_partial, which also says that the self-check passes and that optimizing twice changes nothing."
 },
 "C62": {
  "status": "partial",
  "note": "passes for images without overviews and nearest warps, with codes, without empty selections, at most one dequantization per path; concats pass with overviews, too; violated with overviews. Also for images without warps whose crops below overviews start at multiples of the overview step (C62_paced_partial, C62_passes_paced_partial). In terms of the calls made: C61_calls_partial."
 },
 "C63": {
  "status": "partial",
  "note": "The comparisons of the model are the tests of the code with real scales, angles and logarithms (C63_scales, C63_tests, C63_downs); the level of a warped file is proved for all maps and sizes, with the signed scales of the code; for arbitrary images an overview in the result is scaled up by less than two (C63_upscale_partial). Mirrored images are read from overviews that are too coarse (C63_mirrored_violated), images scaled down and up again from one that is too coarse by almost two (C63_nested_violated), and overviews scaled up by two from full resolution (C63_enlarged_violated)."
 },
 "C64": {
  "status": "partial",
  "note": "Values never depend on masks (all images whose no-data leaves are NaN). The mask is the image of the masks of the files for images without concats, warps and overviews, with and without optimization. Violated by concats of several images (np.concatenate drops masks), and so optimize changes whether a pixel is masked. Missing: warps and overviews, whose treatment of masks is external. DelayedNodata with 'ma': see C79."
 },
 "C65": {
  "status": "partial",
  "note": "Membership in written specs of several streams: all strings, exceptions included, except for the empty code. split: all strings whose streams have channels, all with a name; else see the witness. Fused specs: without shorthand; violated with shorthand ('r' is not in 'rgb', 'rgb' is)."
 },
 "C66": {
  "status": "partial",
  "note": "Shapes: all specs of distinct nonempty streams. encode of items of these shapes: streams without repeated, nameless or empty codes (C10 fails for these). A spec with an empty stream raises KeyError."
 },
 "C67": {
  "status": "partial",
  "note": "All versions with at least three numbers for kwimage and two for cv2, followed by any suffix. Violated for kwimage '0.12', which compares as older than 0.12.0."
 },
 "C68": {
  "status": "partial",
  "note": "Minimal among all spellings by single codes and slices without a step; equal for specs of the same channels; streams one by one when their concise spellings differ. Violated for aliases ('rgb' has one code, its concise spelling three), slices with steps, and streams with equal concise spelling, which are merged."
 },
 "C69": {
  "status": "partial",
  "note": "Provenance of every channel is kept by optimize for all tolerances, with overviews, and by take_channels. Channel k of fin (nearest warps axis aligned) and of the default finalize (no nearest warps) depends on its source channel only, for external functions that act channel by channel and files of fixed shape and dtype (the automatic border value depends on the dtype of the whole array: C87). Violated for nearest neighbour warps off the axes."
 },
 "C70": {
  "status": "proved",
  "note": "For every tree and every later operation, optimized or not, given distinct codes and warps with the automatic border value; with an explicit border value the missing channel shows that value (C70_border_violated). External functions are assumed to turn NaN channels into NaN channels."
 },
 "C71": {
  "status": "partial",
  "note": "Reading alike, acceptance, chans (equal and mixed sensors), round trip, numbers of channels, and FusedSensorChanSpec from_spec/normalize are proved in general. concise() of a fused sensor spec keeps the channels for canonical suffixes but is not concise (witness). Violations: empty spec, codes outside the grammar, parentheses, numel with repeated streams."
 },
 "C72": {
  "status": "partial",
  "note": "Pixels, codes, numbers of channels and exceptions of image[y, x, c] are proved for every image and every list, number and slice; take_channels with a list for all images and for concats without negative numbers. Violated: negative numbers in concats look into the first part only (proved for all concats), and optimizing a crop of a concat turns a number into a NaN channel, a slice into a TypeError and a negative number into another channel. Optimize is modelled where the optimized source is a concat."
 },
 "C73": {
  "status": "proved",
  "note": "equality compares the codes as written: rgb and r|g|b have the same channels but are different, and len counts codes until the spec is normalized (C73_spelling)"
 },
 "C74": {
  "status": "partial",
  "note": "Other interpolations: all borders, types and numbers of channels, given that the resampling fills with the colours handed to it. Nearest neighbours: one colour for all channels. Violated with nearest neighbours for tuples of different colours, texts, NaN in integer images and images without channels."
 },
 "C75": {
  "status": "partial",
  "note": "Proved for trees whose crops show something and whose simulated overviews are not of one-band files, with any mixture of files and arrays in memory, and for images built with the API without overviews in addition that they succeed with the announced sizes. False for one-band files: without an operation the array has two dimensions, and taking the channel of a simulated overview raises IndexError. Empty crops depend on GDAL."
 },
 "C76": {
  "status": "proved",
  "note": "The text for all images, labels, glyph sets and both layouts; reading back with the identifiers of the nodes. With equal labels reading back merges nodes (C76_labels_violated), which is outside the property. Labels (ub.urepr of the metadata) are arbitrary; rich is not modelled."
 },
 "C77": {
  "status": "partial",
  "note": "Which file is opened, persistence for the object and for overviews taken after the first access, failing accesses, and transparency of the cache while files that can be opened are not changed: all sequences of actions. Violated: with the cache, changed files are shown as they were to new objects; overviews taken before the first access open the file on their own. Threads and what GDAL does when an open file is overwritten in place are external."
 },
 "C78": {
  "status": "partial",
  "note": "Proved for arrays of truth values, integers, floats and complex numbers (not wider than Python's floats) with every real no-data value, NaN, infinities and texts, and for complex arrays with complex no-data values as well. Violated for complex no-data values in arrays of integers. Rounding to the dtype is not modelled."
 },
 "C79": {
  "status": "partial",
  "note": "Proved for all sequences of crops, selections and warps with the default finalize, and without optimization for crops and selections. In concats with other images nothing is masked and the pixels are what np.empty found (C79_concat_violated)."
 },
 "C80": {
  "status": "partial",
  "note": "Proved for all programs: assigning a spec gives it to the image, leaves all bands and all images not made from it alone (C80_assign), commutes with programs that neither crop channels of images made from it nor assign to what it is made of (C80_when_partial), and numbers of channels are right in all careful programs (C80_number), names in those that name everything (C80_names_partial). The general claim is violated: a crop of an unnamed image reads all names of the image once it is named (C80_late_violated), a crop keeps old names (C80_stale_violated), a number or None assigned to a crop brings back the names of its image (C80_count_violated, C80_none_violated), and a concat never learns its number (C80_concat_violated)."
 },
 "C81": {
  "status": "proved",
  "note": "For all images, tolerances and replacements that keep the sizes of files; exceptions included. The files shown by renamed images are given by an environment that agrees with the renaming; whether a leaf has names at all is kept."
 },
 "C82": {
  "status": "partial",
  "note": "Everything but optimizing for all images that can be built. Optimized forms and the arrays of finalize() for all images without overviews in which files and selections have channels (C82_optimized_forms_partial; a group in which nothing is left to read loses parts without channels, so there the forms may differ). With overviews a concat of which an optimized part changes size is left alone with all its parts, so groups matter (C82_overviews_violated). Arrays agree for images with overviews and without warps, if crops start and end on pixels of the overviews taken after them and overviews are computed from blocks (C82_optimized_snug_partial)."
 },
 "C83": {
  "status": "partial",
  "note": "Channels and sources for all images; sizes, optimized forms and the arrays of the default finalize for all images without overviews, with any warps (C83_results); with overviews sizes change (C83_overviews_violated). Arrays without optimizing: images without warps and overviews, mirrored, turned and moved images, and images in which every pixel is interpolated at most once, by scaling and moving with linear interpolation. With overviews and without warps, if crops start on pixels of the overviews taken after them: sizes, channels, sources and success of finalize (C83_paced_partial, C83_finalize_paced_partial), exactly the same points if they end there, too (C83_snug_partial). Then arrays agree, too, if the pixels of overviews are computed from the blocks they cover (C83_arrays_snug_partial, C83_results_snug_partial). For calls of crop, get_overview and dequantize on stacks of files with crops on pixels of later overviews, optimize may be called anywhere between them: finalize() gives the array computed without optimizing (C83_calls_partial)."
 },
 "C84": {
  "status": "partial",
  "note": "Sequences of warps, crops, paddings, overviews and dequantizations before and after selecting by position or by distinct codes. Partial because it fails for nearest neighbour warps that are not aligned with the axes (C84_nearest_violated), and optimized arrays are compared for crops and dequantizations (C84_finalize_flat_partial) and for mirrored, turned and moved images of which nothing is cut off before the last step (C84_finalize_whole_partial) and for images in which every pixel is interpolated at most once, by scaling and moving with linear interpolation (C84_finalize_once_partial) only; for the rest C84_optimized compares sources and transforms. Also compared for images with overviews and without warps, if crops start and end on pixels of the overviews taken after them and overviews are computed from blocks (C84_finalize_snug_partial). For crops, overviews and dequantizations of stacks of files with crops on pixels of later overviews, selecting before and after succeeds and finalize() gives the same array (C84_calls_partial)."
 },
 "C85": {
  "status": "partial",
  "note": "Files and pixels without data; names in the spelling that concise keeps (C03). The channels, their number and the size a description tells are right for every leaf (C85_announced). Arrays in memory with the same size and channels have equal descriptions (C85_arrays_violated), and an image with a code like band.raw has none (C85_raises_violated)."
 },
 "C86": {
  "status": "partial",
  "note": "Proved for all images without overviews: the files read are those that channels come from, windows never grow, pixels outside of the windows do not matter, images without warps read windows of their own size, and parts of warped files, of warped parts of files and of both dequantized read only pixels near those shown; images made from concats read what images made in the same way from the parts read (C86_concat_partial). Violations are proved on images: a concat with overviews that stays unoptimized reads files that show nowhere, nearest interpolation reads whole files, and a part to the left of a file reads most of it because the end of the slice is negative. With overviews the files read are those that channels come from if there are no warps and crops start on pixels of the overviews taken after them (C86_files_paced_partial). Also in terms of the calls made (C86_calls_partial)."
 },
 "C87": {
  "status": "partial",
  "note": "Types of optimized arrays (C87_kind_partial, C87_type_partial), kept by optimize without selections (C87_same, with overviews), common types (C87_common_partial), border by the type of each channel (C87_border_partial), images of one kind (C87_floats, C87_integers_partial), whose arrays do not change when they are mirrored, turned and moved and nothing is cut off (C87_whole_floats_partial, C87_whole_integers_partial). Images with overviews and crops on overview pixels but no warps show the same pixels with and without optimizing, whatever the types of their files (C87_snug_partial). Missing: overviews and nearest neighbour warps for the types and borders of channels, types that numpy promotes differently in another order. Before optimizing the claim fails: C87_selection_violated (one integer channel of a concat with floats is an array of floats), C87_border_violated (the border of an integer channel next to floats is NaN before and 0 after optimizing). Also in terms of the calls made (C87_calls_partial)."
 },
 "C88": {
  "status": "partial",
  "note": "The array is smaller than announced by less than a pixel along each axis, and agrees exactly for whole sizes (C88_size_partial); for others the claim fails (C88_size_violated). resize and _coordinate_crop as stated, without optimization."
 },
 "C89": {
  "status": "partial",
  "note": "Announcements and exceptions for all concats and sequences (C89_announced), arrays without optimizing (C89_arrays: both have the same array or both have none), optimized images and default arrays without overviews (C89_results), default arrays of images with overviews and crops on overview pixels but no warps (C89_finalize_snug_partial). Partial because a warp by the identity that keeps the size is left out for the concat but not for its parts, where it replaces the interpolation of a moved part (C89_identity_violated); overviews together with warps are not compared when optimized. For crops, overviews and dequantizations of stacks of files with crops on pixels of later overviews, all calls succeed on the stack and on its parts and finalize() gives the same array (C89_calls_partial)."
 },
 "C90": {
  "status": "partial",
  "note": "The claim as stated fails: names assigned to a warped warp, an identity warp, a dequantized warp, a cropped warp, a cropped crop or warped NaNs are lost (C90_violated, C90_warps_lost). C90_kept_partial: kept when no rule applies to the operation after its source is optimized. The other sentences are proved for all chains without concats and overviews (C90_operations, C90_count, C90_old, C90_files, C90_after)."
 },
 "C91": {
  "status": "partial",
  "note": "The number is proved for all images (C91_number, C91_unknown), and overviews of overviews of a file show the stored picture (C91_stored). That announced overviews are not simulated is proved for finalize() of one file with crops, channel selections, dequantizations and overviews (C91_announced_partial), and with scalings if the file has enough overviews (C91_optimized_partial); for stacks of files, dequantized and with overviews taken anywhere, and crops and selections of these (C91_stacks_partial, C91_stack_announced_partial). It fails without optimizing, for warped images, for stacks of crops and past the last overview (C91_unoptimized_violated, C91_warp_violated, C91_stack_violated, C91_negative_violated). Stacks may have crops below overviews if these start at multiples of the overview step (C91_paced_partial). In terms of the calls, this holds for crops whose bounds are pixels of the overviews taken after them, if every file has the overviews taken (C91_calls_partial)."
 }
}