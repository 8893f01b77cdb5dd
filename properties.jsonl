{"id": "C01", "title": "numel counts exactly the normalized channels", "statement": "For every FusedChannelSpec built through the public API, numel() equals the number of codes in normalize().as_list() and equals sum(sizes()); if one of the calls raises, all of them raise the same exception.", "quantifier": "every list of channel code strings, including aliases, every slice syntax (positive, negative, zero step, reversed bounds) and malformed codes; every spec reachable by the API", "why_tests_cant": "the number of slice codes, their bounds and step are unbounded integers; a test samples a handful of strings", "anchors": ["delayed_image/channel_spec.py:FusedChannelSpec.numel", "delayed_image/channel_spec.py:FusedChannelSpec.sizes", "delayed_image/channel_spec.py:FusedChannelSpec.normalize", "delayed_image/channel_spec.py:_parse_concise_slice_syntax"]}
{"id": "C02", "title": "normalize is idempotent and removes all shorthand", "statement": "normalize() returns a spec none of whose codes is an alias (rgb, rgba, dxdy, fxfy) or contains ':', it is a fixed point of normalize(), and each code expands independently: normalizing a concatenation of specs is concatenating the normalizations. Bounds of slices are exactly the texts that int() accepts (signs, white space, single underscores between digits); all others raise ValueError.", "quantifier": "every list of channel code strings for which normalize does not raise", "why_tests_cant": "universal over unbounded strings and list lengths", "anchors": ["delayed_image/channel_spec.py:FusedChannelSpec.normalize", "delayed_image/channel_spec.py:FusedChannelSpec.concat"]}
{"id": "C03", "title": "concise is lossless", "statement": "For every spec whose dotted codes carry canonical decimal indices, concise().normalize() gives exactly the same ordered channel list as normalize(); concise is idempotent; in general only the spelling of the integer suffix is canonicalised.", "quantifier": "every ordered list of channel codes (any runs, gaps, repeats, negative indices) for which concise does not raise", "why_tests_cant": "run-length grouping is a stateful loop whose correctness depends on every possible interleaving of roots and indices", "anchors": ["delayed_image/channel_spec.py:FusedChannelSpec.concise", "delayed_image/channel_spec.py:FusedChannelSpec.normalize"]}
{"id": "C04", "title": "fused set operations obey set semantics and keep order", "statement": "union, difference and intersection return exactly the channels in self-or-other, self-and-not-other, self-and-other (after normalization), ordered by first appearance (self then other), union and difference without repeats; issubset / issuperset decide inclusion.", "quantifier": "all pairs of fused specs", "why_tests_cant": "ranges over all pairs of unbounded ordered lists", "anchors": ["delayed_image/channel_spec.py:FusedChannelSpec.union", "delayed_image/channel_spec.py:FusedChannelSpec.difference", "delayed_image/channel_spec.py:FusedChannelSpec.intersection", "delayed_image/channel_spec.py:FusedChannelSpec.issubset", "delayed_image/channel_spec.py:FusedChannelSpec.issuperset"]}
{"id": "C05", "title": "spec strings round-trip", "statement": "coerce(s).spec == s for every string s; for every nonempty list of pipe-free codes, coerce('|'.join(codes)) has exactly those codes; ChannelSpec stream strings split and join the same way.", "quantifier": "all strings and all lists of codes", "why_tests_cant": "unbounded strings", "anchors": ["delayed_image/channel_spec.py:FusedChannelSpec.parse", "delayed_image/channel_spec.py:FusedChannelSpec.spec", "delayed_image/channel_spec.py:ChannelSpec.parse", "delayed_image/channel_spec.py:ChannelSpec.keys"]}
{"id": "C06", "title": "indexing a fused spec selects normalized channels", "statement": "spec[i] is the i-th normalized channel (negative i from the end, IndexError out of range), spec[list] the listed channels in the listed order, spec[a:b] the contiguous normalized range, spec[a:b:k] every k-th channel between the bounds, backwards for negative k (ValueError for k = 0); and the numel of the result is the number of selected channels.", "quantifier": "all specs and all integer, list and slice indices", "why_tests_cant": "unbounded integers and lists", "anchors": ["delayed_image/channel_spec.py:FusedChannelSpec.__getitem__"]}
{"id": "C07", "title": "coercion does not depend on history", "statement": "FusedChannelSpec.coerce(data) for a string, list, integer or spec returns the same channels whatever sequence of coerce / from_spec / from_int / normalize calls was made earlier in the process.", "quantifier": "all finite histories of API calls sharing the class-level memo and every argument", "why_tests_cant": "quantifies over all call histories against a process-global mutable cache", "anchors": ["delayed_image/channel_spec.py:FusedChannelSpec.coerce", "delayed_image/channel_spec.py:FusedChannelSpec.from_spec", "delayed_image/channel_spec.py:FusedChannelSpec.from_int", "delayed_image/channel_spec.py:FusedChannelSpec._memo"]}
{"id": "C08", "title": "component_indices partition the channel axis", "statement": "component_indices() assigns to the codes of a spec consecutive slices starting at 0, whose lengths are the number of channels of each code and whose union is exactly [0, numel()).", "quantifier": "all specs without repeated codes", "why_tests_cant": "unbounded code lists and slice sizes", "anchors": ["delayed_image/channel_spec.py:FusedChannelSpec.component_indices", "delayed_image/channel_spec.py:ChannelSpec.component_indices"]}
{"id": "C09", "title": "ChannelSpec sizes, numel, streams and fuse agree", "statement": "For a ChannelSpec with distinct nonempty streams, numel() is the sum of sizes(), equals fuse().numel() and the sum over streams() of numel; fuse() lists the channels of the streams in order.", "quantifier": "all comma separated channel specs", "why_tests_cant": "unbounded number of streams and codes", "anchors": ["delayed_image/channel_spec.py:ChannelSpec.numel", "delayed_image/channel_spec.py:ChannelSpec.sizes", "delayed_image/channel_spec.py:ChannelSpec.fuse", "delayed_image/channel_spec.py:ChannelSpec.streams"]}
{"id": "C10", "title": "encode places every requested channel correctly", "statement": "encode(item) (default mode) returns for every stream an array whose channel rows are, in order, the rows of the item that hold the stream's codes, independently of how the item's keys group or order the codes; the slice-merging optimisation never changes the result.", "quantifier": "all channel specs, all items (dicts from fused keys to arrays) and all array contents", "why_tests_cant": "the merge loop depends on every adjacency pattern of codes in item keys and streams", "anchors": ["delayed_image/channel_spec.py:ChannelSpec.encode", "delayed_image/channel_spec.py:_cached_single_fused_mapping", "delayed_image/channel_spec.py:ChannelSpec.component_indices"]}
{"id": "C11", "title": "decode inverts encode", "statement": "For every spec with pairwise distinct codes, decode(encode(item)) returns every component array of the item unchanged, and encode(decode(inputs)) == inputs.", "quantifier": "all specs and all per-code arrays of the right channel count", "why_tests_cant": "unbounded arrays and code lists", "anchors": ["delayed_image/channel_spec.py:ChannelSpec.encode", "delayed_image/channel_spec.py:ChannelSpec.decode"]}
{"id": "C12", "title": "multi-stream set operations act stream-wise", "statement": "ChannelSpec.difference / intersection(other) filter every normalized stream by the channels of other and drop exactly the streams that become empty; union lists the normalized streams of both.", "quantifier": "all pairs of channel specs", "why_tests_cant": "unbounded", "anchors": ["delayed_image/channel_spec.py:ChannelSpec.difference", "delayed_image/channel_spec.py:ChannelSpec.intersection", "delayed_image/channel_spec.py:ChannelSpec.union"]}
{"id": "C13", "title": "late fusion is a monoid", "statement": "For ChannelSpec / FusedChannelSpec a + b is associative with the empty spec as identity, its streams are the streams of a followed by those of b, sum() over a list of specs works, and a string operand is accepted like the equivalent spec.", "quantifier": "all specs and all finite lists of specs", "why_tests_cant": "algebraic law over unbounded operands", "anchors": ["delayed_image/channel_spec.py:BaseChannelSpec.late_fuse", "delayed_image/channel_spec.py:BaseChannelSpec.__radd__"]}
{"id": "C14", "title": "subsequence_index finds exactly contiguous occurrences", "statement": "subsequence_index(a, b) returns a slice s with a[s] == b iff b occurs contiguously in a, and None otherwise.", "quantifier": "all pairs of ordered sets", "why_tests_cant": "unbounded", "anchors": ["delayed_image/channel_spec.py:subsequence_index"]}
{"id": "C15", "title": "ordered-set helpers keep index and item tables consistent", "statement": "After any sequence of oset_insert / oset_delitem calls with in-range positions the ordered set's item list has no repeats, its index table maps exactly the items to their positions, and the item order is the obvious list insert / delete.", "quantifier": "all finite operation sequences", "why_tests_cant": "history quantification over a mutable structure", "anchors": ["delayed_image/channel_spec.py:oset_insert", "delayed_image/channel_spec.py:oset_delitem"]}
{"id": "C16", "title": "path_sanitize is a valid, bounded file name", "statement": "path_sanitize() contains none of | < > : ? *, does not end with '.' or ' ', is injective-safe on unsanitized text without these characters (returned unchanged when short), and its length is at most maxlen.", "quantifier": "all spec strings and all maxlen", "why_tests_cant": "all strings", "anchors": ["delayed_image/channel_spec.py:_path_sanitize_v2", "delayed_image/channel_spec.py:BaseChannelSpec.path_sanitize"]}
{"id": "C17", "title": "concise sensor-channel specs denote the same sensor/channel pairs", "statement": "SensorChanSpec.concise() denotes exactly the same set of (sensor, ordered channel list) pairs as the original.", "quantifier": "all sensor/channel specs (any grouping, duplicates, wildcard)", "why_tests_cant": "two-pass grouping over unbounded lists", "anchors": ["delayed_image/sensorchan_spec.py:SensorChanTransformer.stream", "delayed_image/sensorchan_spec.py:SensorChanSpec.concise", "delayed_image/sensorchan_spec.py:SensorChanSpec.normalize"]}
{"id": "C18", "title": "matching_sensor selects exactly the sensor's streams", "statement": "matching_sensor(s) has, in order, exactly the streams whose sensor is s or '*'; with s == '*' it is the spec itself; with no match it is an empty-channel spec of sensor s. late_fuse concatenates streams.", "quantifier": "all specs and sensors", "why_tests_cant": "unbounded", "anchors": ["delayed_image/sensorchan_spec.py:SensorChanSpec.matching_sensor", "delayed_image/sensorchan_spec.py:SensorChanSpec.late_fuse", "delayed_image/sensorchan_spec.py:SensorChanSpec.streams"]}
{"id": "C19", "title": "quantize/dequantize round-trip error is below one quantum", "statement": "For every finite value in [old_min, old_max], dequantize(quantize_float01(x)) differs from x by less than one quantization step (and never overshoots it); out-of-range values are clipped; NaN survives as NaN and no finite value becomes NaN.", "quantifier": "all rational pixel values, all old_min < old_max, all integer dtypes (signed and unsigned)", "why_tests_cant": "continuum of values", "anchors": ["delayed_image/helpers.py:quantize_float01", "delayed_image/helpers.py:dequantize"]}
{"id": "C20", "title": "automatic output size covers the warped image", "statement": "_auto dsize: for dsize='auto' the output canvas contains every warped source point that has non-negative coordinates and is the smallest integer canvas with that property; identity and None transforms keep the size.", "quantifier": "all affine transforms and all source sizes", "why_tests_cant": "continuum", "anchors": ["delayed_image/helpers.py:_auto_dsize", "delayed_image/delayed_nodes.py:DelayedWarp.__init__"]}
{"id": "C21", "title": "_largest_shape is the pointwise maximum", "statement": "The largest shape of a list of shapes is, in every dimension, the maximum of the known (not None) sizes, and None only if no shape knows it; it does not depend on the order of the shapes.", "quantifier": "all lists of shapes of any rank with None entries", "why_tests_cant": "unbounded", "anchors": ["delayed_image/helpers.py:_largest_shape"]}
{"id": "C22", "title": "lazy file indexing agrees with numpy slicing", "statement": "Indexing a lazy frame file along one axis with a slice, integer or None reads exactly the rows numpy would select.", "quantifier": "all axis lengths and all slice bounds and integers, including negative and out-of-range ones", "why_tests_cant": "unbounded integers", "anchors": ["delayed_image/lazy_loaders.py:_rectify_slice_dim", "delayed_image/lazy_loaders.py:LazyGDalFrameFile.__getitem__"]}
{"id": "C23", "title": "CacheDict is a bounded LRU map", "statement": "After any sequence of writes and reads a CacheDict never holds more than cache_len keys, holds exactly the cache_len most recently used distinct keys that were written, and a hit returns the last value written for that key.", "quantifier": "all operation sequences and all capacities > 0", "why_tests_cant": "history quantification", "anchors": ["delayed_image/lazy_loaders.py:CacheDict.__setitem__", "delayed_image/lazy_loaders.py:CacheDict.__getitem__"]}
{"id": "C24", "title": "crop selects the sliced pixels", "statement": "x.crop((slice(y0,y1), slice(x0,x1)), chan_idxs) with default flags has the shape and pixels of numpy's x[y0:y1, x0:x1][:, :, chan_idxs], also for negative, missing and out-of-range bounds.", "quantifier": "all image sizes, all slice bounds, all channel index lists", "why_tests_cant": "unbounded integers", "anchors": ["delayed_image/delayed_nodes.py:ImageOpsMixin.crop", "delayed_image/delayed_nodes.py:DelayedCrop.__init__", "delayed_image/delayed_nodes.py:DelayedCrop._finalize"]}
{"id": "C25", "title": "fusing nested crops is exact", "statement": "optimizing a crop of a crop gives a single crop selecting the same pixels and channels in the same order.", "quantifier": "all pairs of crops on all images", "why_tests_cant": "unbounded", "anchors": ["delayed_image/delayed_nodes.py:DelayedCrop._opt_fuse_crops"]}
{"id": "C26", "title": "padded crop has the requested extent", "statement": "crop(..., clip=False, wrap=False, pad=p) has exactly the requested extent plus padding; pixels inside the image are the image's pixels at the requested coordinates and all others are border.", "quantifier": "all slices (including negative and out-of-range starts), pads and image sizes", "why_tests_cant": "unbounded integers", "anchors": ["delayed_image/delayed_nodes.py:ImageOpsMixin._padded_crop"]}
{"id": "C27", "title": "take_channels returns the requested channels in order", "statement": "On a DelayedChannelConcat take_channels(names or indices) yields an image whose channel list is the request, each output channel coming from the named input channel and missing names giving all-NaN channels ('error' policy raises iff some name is missing).", "quantifier": "all concat trees with distinct channel names and all requests (any order, repeats, missing)", "why_tests_cant": "segment accumulation loop over unbounded requests", "anchors": ["delayed_image/delayed_nodes.py:DelayedChannelConcat.take_channels", "delayed_image/delayed_nodes.py:_InnerAccumSegment", "delayed_image/delayed_nodes.py:DelayedImage.take_channels"]}
{"id": "C28", "title": "concat lays channels out in order", "statement": "DelayedChannelConcat channels, num_channels and shape are the concatenation / sum of the parts'; construction fails iff the parts' sizes differ; channel k of the result is the channel of the part that holds it.", "quantifier": "all lists of parts", "why_tests_cant": "unbounded", "anchors": ["delayed_image/delayed_nodes.py:DelayedChannelConcat.__init__", "delayed_image/delayed_nodes.py:DelayedChannelConcat.channels", "delayed_image/delayed_nodes.py:DelayedChannelConcat._finalize"]}
{"id": "C29", "title": "overview sizes compose", "statement": "get_overview(a).get_overview(b) and get_overview(a+b) have the same size for every image, and optimizing the former gives the latter; overview count decreases by the level.", "quantifier": "all sizes and all levels", "why_tests_cant": "nested ceiling division over unbounded integers", "anchors": ["delayed_image/delayed_nodes.py:DelayedOverview.__init__", "delayed_image/delayed_nodes.py:DelayedOverview._opt_fuse_overview"]}
{"id": "C30", "title": "fusing warps composes their transforms", "statement": "A chain of warps with the same parameters optimizes to exactly what one warp by the composed transform, with the last size, optimizes to, so finalize interpolates once and returns the same array as for the single warp; unless the image contains a concat and the composition leads back to the identity at the image's size, where the parameters of the parts are lost. Over a file the result is one warp with the parameters of the last call. Its values equal those of the unfused chain wherever the intermediate canvases did not clip.", "quantifier": "all invertible affine transforms, sizes, chain lengths, all images (the optimized form: without overviews)", "why_tests_cant": "continuum of transforms", "anchors": ["delayed_image/delayed_nodes.py:DelayedWarp._opt_fuse_warps", "delayed_image/delayed_nodes.py:DelayedWarp.__init__"]}
{"id": "C31", "title": "get_transform_from is a groupoid", "statement": "get_transform_from(self) is the identity, composes along chains (A from B after B from C = A from C), inverts on swapping, and for a node and its ancestor equals the composition of the operations between them.", "quantifier": "all operation trees with invertible transforms", "why_tests_cant": "all trees", "anchors": ["delayed_image/delayed_nodes.py:ImageOpsMixin.get_transform_from", "delayed_image/delayed_nodes.py:DelayedImage.get_transform_from_leaf"]}
{"id": "C32", "title": "moving a crop under a warp keeps geometry and coverage", "statement": "When optimize rewrites crop-of-warp to warp-of-crop the transform from the source image to the output and the output size are unchanged, and every source pixel that any output pixel needs (nearest or bilinear sampling) lies inside the new inner crop.", "quantifier": "all invertible transforms and all crop boxes", "why_tests_cant": "continuum", "anchors": ["delayed_image/helpers.py:_swap_warp_after_crop", "delayed_image/delayed_nodes.py:DelayedCrop._opt_warp_after_crop"]}
{"id": "C33", "title": "moving a crop after an overview keeps geometry", "statement": "When optimize rewrites overview-of-crop, the transform from source to output is unchanged, the new crop covers the requested region and the output size is unchanged.", "quantifier": "all crops and levels", "why_tests_cant": "unbounded", "anchors": ["delayed_image/delayed_nodes.py:DelayedOverview._opt_crop_after_overview", "delayed_image/helpers.py:_swap_crop_after_warp"]}
{"id": "C34", "title": "splitting a warp into overview and residual preserves the transform", "statement": "When optimize replaces a downscaling warp by a warp of an overview (or absorbs an overview into a warp) the total transform, the output size and the interpolation parameters are unchanged and no more overviews are used than exist.", "quantifier": "all transforms and overview counts", "why_tests_cant": "continuum", "anchors": ["delayed_image/delayed_nodes.py:DelayedWarp._opt_split_warp_overview", "delayed_image/delayed_nodes.py:DelayedWarp._opt_absorb_overview"]}
{"id": "C35", "title": "dequantize commutes with geometric operations", "statement": "Optimize may move dequantize below crop, overview and warp without changing any pixel that comes from the image.", "quantifier": "all images, quantizations and crops", "why_tests_cant": "all pixel values", "anchors": ["delayed_image/delayed_nodes.py:DelayedDequantize._opt_dequant_before_other", "delayed_image/delayed_nodes.py:DelayedCrop._opt_dequant_after_crop", "delayed_image/delayed_nodes.py:DelayedOverview._opt_dequant_after_overview"]}
{"id": "C36", "title": "optimize preserves size, channels and leaf transforms", "statement": "For every operation tree, optimize() returns a tree with the same dsize, channel list and channel count, in which every output channel comes from the same leaf channel through the same total affine transform.", "quantifier": "all operation trees of any depth", "why_tests_cant": "structural induction over all trees", "anchors": ["delayed_image/delayed_nodes.py:DelayedChannelConcat.optimize", "delayed_image/delayed_nodes.py:DelayedWarp.optimize", "delayed_image/delayed_nodes.py:DelayedCrop.optimize", "delayed_image/delayed_nodes.py:DelayedOverview.optimize", "delayed_image/delayed_nodes.py:DelayedDequantize.optimize"]}
{"id": "C37", "title": "optimize terminates and reaches a normal form", "statement": "optimize() terminates on every tree and each root-to-leaf path of the result below concats is at most one warp, one dequantize, one crop and one overview over a leaf (except documented nearest-interpolation or empty crops).", "quantifier": "all trees", "why_tests_cant": "termination", "anchors": ["delayed_image/delayed_nodes.py:DelayedCrop.optimize", "delayed_image/delayed_nodes.py:DelayedWarp.optimize", "delayed_image/delayed_nodes.py:DelayedOverview.optimize"]}
{"id": "C38", "title": "optimize does not modify its input", "statement": "Calling optimize() on a tree leaves dsize, channels, transform and quantization of every already existing node unchanged.", "quantifier": "all trees (including shared subtrees) and all sequences of optimize calls", "why_tests_cant": "heap aliasing over all trees", "anchors": ["delayed_image/delayed_nodes.py:DelayedWarp._opt_absorb_overview", "delayed_image/delayed_base.py:OptimizeContext"]}
{"id": "C39", "title": "the per-call optimize memo is transparent", "statement": "Optimizing a DAG with shared nodes with the memo gives the same result as optimizing the unfolded tree without it.", "quantifier": "all DAGs", "why_tests_cant": "all sharing patterns", "anchors": ["delayed_image/delayed_base.py:OptimizeContext", "delayed_image/delayed_nodes.py:DelayedChannelConcat.optimize"]}
{"id": "C40", "title": "tree traversal visits every node, leafs() every leaf", "statement": "_traverse yields every node of the tree exactly once per path and leafs() exactly the leaf nodes.", "quantifier": "all trees", "why_tests_cant": "structural induction over a stack loop", "anchors": ["delayed_image/delayed_base.py:DelayedOperation._traverse", "delayed_image/delayed_base.py:DelayedOperation.leafs"]}
{"id": "C41", "title": "undo_warp inverts exactly the non-retained components", "statement": "undo_warp returns an image whose transform from the leaf has exactly the retained components; with return_warp the returned warp composed with the image's transform gives it.", "quantifier": "all trees", "why_tests_cant": "continuum", "anchors": ["delayed_image/delayed_nodes.py:DelayedImage.undo_warp"]}
{"id": "C42", "title": "network text prints each reachable node exactly once", "statement": "generate_network_text emits exactly one labelled line per node reachable from the sources (no max_depth / collapse), and terminates on every finite graph.", "quantifier": "all finite directed graphs and source lists", "why_tests_cant": "stack machine over all graphs", "anchors": ["delayed_image/util/util_network_text.py:generate_network_text"]}
{"id": "C43", "title": "numel and split of sensor-channel specs", "statement": "The number of channels of a late fused sensor-channel spec is the sum of the numbers of its operands; split() has exactly one single-channel stream per channel of every stream, with the same sensor, in order (and keeps an empty stream empty).", "quantifier": "all sensor/channel spec strings that parse", "why_tests_cant": "unbounded strings and stream lists", "anchors": ["delayed_image/sensorchan_spec.py:SensorChanSpec.numel", "delayed_image/sensorchan_spec.py:SensorChanSpec.split", "delayed_image/sensorchan_spec.py:SensorChanSpec.late_fuse"]}
{"id": "C44", "title": "nearest warp samples the pixel that the transform maps to each output pixel", "statement": "Finalizing warp(T, dsize, interpolation='nearest') gives an array of the requested dsize whose pixel at (x, y) is the source pixel containing the image of the output pixel under T inverse, and the border value (NaN) where that falls outside the source; it does not raise.", "quantifier": "every image, every invertible transform (axis aligned with and without offset, or general) and every requested size", "why_tests_cant": "the code takes three different paths depending on the transform, one of which compares the result for T and for T inverse and keeps the one with more data; tests check a few pixels of a few transforms", "anchors": ["delayed_image/delayed_nodes.py:DelayedWarp._finalize"]}
{"id": "C45", "title": "finalized arrays have the announced shape", "statement": "For every image that can be constructed with the public operations, finalize() gives an array with dsize[1] rows, dsize[0] columns and num_channels channels, and the entries of the channel list name its channels.", "quantifier": "every operation tree built from leafs with crop, padded crop, warp, overview, dequantize, concat and take_channels, for any pixel data and any resampling kernel of the right shape", "why_tests_cant": "the announced shape is computed from metadata and the array from data; agreement must hold at every node of unboundedly many trees", "anchors": ["delayed_image/delayed_nodes.py:DelayedArray.shape", "delayed_image/delayed_nodes.py:DelayedImage.num_channels", "delayed_image/delayed_base.py:DelayedOperation.finalize"]}
{"id": "C46", "title": "Network text can be read back", "statement": "parse_network_text applied to the lines of generate_network_text returns the graph that was printed: the same nodes, each once, the same edges, with their directions, for the ASCII and the unicode glyphs and with or without vertical chains. Any other text gives a graph or an IndexError, AssertionError or ValueError, depending only on its first character and on whether every line has a space before its node and at most one backedge symbol.", "quantifier": "all networkx graphs, directed or not, with cycles, loops and several components, all label functions whose labels are different, not empty, free of white space and of glyph characters and not '...', all sources from which every node can be reached, no max_depth and no collapsed nodes", "why_tests_cant": "The parser keeps a stack of frames that it unwinds by indentation, with an exception for vertical chains; whether the parent it finds is the parent that was drawn depends on the whole text above, for graphs of any size and depth.", "anchors": ["delayed_image/util/util_network_text.py:parse_network_text", "delayed_image/util/util_network_text.py:generate_network_text"]}
{"id": "C47", "title": "lazy files return the stored pixels", "statement": "Indexing a LazyGDalFrameFile returns, for the rows, columns and bands of the index, exactly the pixels stored for those bands at the overview the reference stands for, in an array of the announced shape; the dataset-level fast path and the band-level compatibility path return the same array.", "quantifier": "all files, overviews, windows, band lists (also negative and repeated) and both settings of the fast path", "why_tests_cant": "files, windows and band lists are unbounded and the fallback hides which path ran", "anchors": ["delayed_image/lazy_loaders.py:LazyGDalFrameFile.__getitem__", "delayed_image/lazy_loaders.py:LazyGDalFrameFile._dataset_read_as_array", "delayed_image/lazy_loaders.py:LazyGDalFrameFile._compat_gdal_read", "delayed_image/lazy_loaders.py:_gdal_read_kwimage_compatible"]}
{"id": "C48", "title": "no-data pixels are hidden exactly", "statement": "With nodata_method 'ma' exactly the pixels that carry the no-data value of their own band are masked and all values are kept; with 'float', 'nan' or 'auto' exactly those pixels (and stored NaNs) are NaN in a float array and all others keep their value; other methods are refused.", "quantifier": "all files, no-data values per band, pixel values, windows and band lists", "why_tests_cant": "pixel and no-data values are unbounded; bands can differ", "anchors": ["delayed_image/lazy_loaders.py:LazyGDalFrameFile._dataset_read_as_array", "delayed_image/lazy_loaders.py:_gdal_read_kwimage_compatible"]}
{"id": "C49", "title": "overviews of lazy files add up", "statement": "get_overview(a).get_overview(b) reads what get_overview(a + b) reads, num_overviews decreases by the level, the shape at an existing overview is that of the overview in the file, and levels that do not exist are a ValueError for shape and for reading alike.", "quantifier": "all files and all levels", "why_tests_cant": "all levels of all pyramids", "anchors": ["delayed_image/lazy_loaders.py:LazyGDalFrameFile.get_overview", "delayed_image/lazy_loaders.py:LazyGDalFrameFile.shape", "delayed_image/lazy_loaders.py:LazyGDalFrameFile._read_ds"]}
{"id": "C50", "title": "resize, scale and lazy warps show the warped image", "statement": "resize(d) announces size d and shows every channel through the one transform that takes the corners of the image to the corners of the new canvas, so that resizing any number of times is optimized to the same image, and finalized to the same array, as resizing once to the last size (concats: unless this is the size they have); scale multiplies coordinates by the factors and its automatic canvas is the scaled size rounded up; a lazy warp returns the image itself only if no other size was asked for and the transform is (close to) the identity, and then announces and shows what the warp would.", "quantifier": "all images, sizes, scale factors, transforms and interpolation settings", "why_tests_cant": "sizes, factors and transforms are unbounded; the lazy shortcut compares with a tolerance", "anchors": ["delayed_image/delayed_nodes.py:ImageOpsMixin.warp", "delayed_image/delayed_nodes.py:ImageOpsMixin.scale", "delayed_image/delayed_nodes.py:ImageOpsMixin.resize"]}
{"id": "C51", "title": "evaluating in the middle changes nothing", "statement": "evaluate() returns an image with the size and channels of the original that finalizes to the array the original finalizes to, and any further operations on it raise the same errors, announce the same metadata and finalize to the same pixels as on the original.", "quantifier": "all images and all finite sequences of warps, crops, channel selections and dequantizations applied afterwards", "why_tests_cant": "all operation sequences on all images", "anchors": ["delayed_image/delayed_nodes.py:DelayedImage.evaluate", "delayed_image/delayed_leafs.py:DelayedIdentity"]}
{"id": "C52", "title": "parameters given to finalize reach every warp", "statement": "finalize(interpolation=..., antialias=..., ...) carries out every warp of the image with the given parameters and leaves all others as they were; sizes, channels and the place of the data do not change; the result is that of an image built with these parameters in the first place; and since the arguments are stored in the image, a later finalize without arguments gives the same array.", "quantifier": "all images, all sets of warp parameters and all sequences of finalize calls", "why_tests_cant": "all operation trees and all parameter combinations; optimize rearranges the warps after the parameters are set", "anchors": ["delayed_image/delayed_base.py:DelayedOperation.finalize", "delayed_image/delayed_base.py:DelayedOperation._set_nested_params", "delayed_image/delayed_nodes.py:DelayedWarp.optimize"]}
{"id": "C53", "title": "prepare fills in what is unknown", "statement": "prepare() makes the size, number of channels and number of overviews of every file known: what the user gave is kept, the rest is read from the file, a file whose metadata was given completely is not opened, and preparing again does nothing. Operations applied to files before prepare, followed by prepare, give the image that the same operations give on prepared files.", "quantifier": "all a-priori metadata, all files and all programs of crops, warps, overviews, dequantizations and concats", "why_tests_cant": "all combinations of known and unknown metadata under all operation trees", "anchors": ["delayed_image/delayed_leafs.py:DelayedLoad.prepare", "delayed_image/delayed_leafs.py:DelayedLoad._load_metadata", "delayed_image/delayed_base.py:DelayedOperation.prepare", "delayed_image/delayed_nodes.py:DelayedChannelConcat.__init__"]}
{"id": "C54", "title": "optimizing twice changes nothing", "statement": "optimize() applied to an optimized image returns the same image: nothing is left to do, so it does not matter whether an image is optimized once, twice or by finalize again.", "quantifier": "all images, all operation trees", "why_tests_cant": "the rules of optimize enable each other in all orders; that none applies to any result is a statement about all trees", "anchors": ["delayed_image/delayed_nodes.py:DelayedWarp.optimize", "delayed_image/delayed_nodes.py:DelayedCrop.optimize", "delayed_image/delayed_nodes.py:DelayedOverview.optimize", "delayed_image/delayed_nodes.py:DelayedDequantize.optimize", "delayed_image/delayed_nodes.py:DelayedChannelConcat.optimize"]}
{"id": "C55", "title": "optimize raises no exception", "statement": "optimize() of any image that was built without an exception returns an image; it raises no exception of its own.", "quantifier": "all images, all operation trees built with the API, all stack depths that suffice", "why_tests_cant": "each rule of optimize builds new nodes whose constructors check their arguments; that no check ever fails in any order of rules is a statement about all trees", "anchors": ["delayed_image/delayed_nodes.py:DelayedWarp.optimize", "delayed_image/delayed_nodes.py:DelayedWarp._opt_absorb_overview", "delayed_image/delayed_nodes.py:DelayedCrop.optimize", "delayed_image/delayed_nodes.py:DelayedOverview.optimize", "delayed_image/delayed_nodes.py:DelayedDequantize.optimize", "delayed_image/delayed_nodes.py:DelayedChannelConcat.take_channels"]}
{"id": "C56", "title": "Shorthand in channel specs makes no difference", "statement": "Writing the channel codes of an image or of a request with shorthand (rgb, a.0:3, a:3) instead of the codes it stands for changes nothing: the announced codes, expanded, the number of channels, the array, and the result of selecting channels by code or by position are the same.", "quantifier": "all images, all operation trees over leaves whose specs can be expanded, all spellings, all requests, all pixel contents", "why_tests_cant": "specs are stored as written and expanded in different places; that every combination of spelling, tree and request agrees is a statement about all of them", "anchors": ["delayed_image/delayed_nodes.py:DelayedImage.__init__", "delayed_image/delayed_nodes.py:DelayedImage.take_channels", "delayed_image/delayed_nodes.py:DelayedChannelConcat.take_channels", "delayed_image/delayed_nodes.py:DelayedImage._validate", "delayed_image/channel_spec.py:FusedChannelSpec"]}
{"id": "C57", "title": "as_xarray labels every channel with its code", "statement": "as_xarray() of an image with a channel spec finalizes to the array of the image with one label per channel along c; selecting a label with take_channels gives the channel with that label, and optimization changes no label.", "quantifier": "all images, all operation trees, all channel specs, all pixel contents", "why_tests_cant": "labels and channels are computed along different paths through the tree; their agreement is a statement about all trees and specs", "anchors": ["delayed_image/delayed_nodes.py:DelayedAsXarray", "delayed_image/delayed_nodes.py:ImageOpsMixin.as_xarray", "delayed_image/channel_spec.py:FusedChannelSpec.code_list"]}
{"id": "C58", "title": "ENVI headers are read field by field", "statement": "Reading an ENVI header returns exactly the fields that are written in it, whatever the layout: keys without case, values without surrounding white space, lists in braces cell by cell also over several lines, the description as text; comments can stand anywhere; files that are not ENVI headers and braces that are never closed are errors; the data file belonging to the header has the extension named by interleave.", "quantifier": "all headers: any number and order of fields, rows, cells, comments and line breaks", "why_tests_cant": "the layout of headers is free text; that each layout means the same is a statement about all of them", "anchors": ["delayed_image/lazy_loaders.py:_read_envi_header", "delayed_image/lazy_loaders.py:LazyGDalFrameFile._reload_cache"]}
{"id": "C59", "title": "All lazy readers select the same pixels", "statement": "Indexing a file opened with GDAL, rasterio or spectral reads the same rows, columns and bands for the same index.", "quantifier": "all files of all sizes, all indices (integers, slices, lists of bands, missing entries), all behaviour of the libraries outside of the raster", "why_tests_cant": "each reader has its own index arithmetic (bands counted from zero or one, sizes or ends of windows), and agreement is a statement about all indices and sizes", "anchors": ["delayed_image/lazy_loaders.py:LazyGDalFrameFile.__getitem__", "delayed_image/lazy_loaders.py:LazyRasterIOFrameFile.__getitem__", "delayed_image/lazy_loaders.py:LazySpectralFrameFile.__getitem__", "delayed_image/lazy_loaders.py:_rectify_slice_dim"]}
{"id": "C60", "title": "The check for data overlooks no pixel", "statement": "Checking a file for data says yes exactly if the file has a pixel that is not zero, wherever in the file it is.", "quantifier": "all files of all sizes, all pixel contents", "why_tests_cant": "the check looks at growing windows around the centre of the file before it looks at everything; that no place is overlooked is a statement about all sizes and all places", "anchors": ["delayed_image/lazy_loaders.py:_validate_nonzero_data"]}
{"id": "C61", "title": "Images can be indexed like arrays", "statement": "image[y0:y1, x0:x1] and image[y0:y1, x0:x1, channels] describe an image whose finalized array is what numpy gives for the same index of the finalized array of image, for any start and stop, also negative, missing or beyond the border; an index that is no pair or triple raises.", "quantifier": "all images, all slices, all lists of channel numbers", "why_tests_cant": "the index is applied to a description and moves through optimization before any pixel is read; agreement with numpy is a statement about all trees and indices", "anchors": ["delayed_image/delayed_nodes.py:DelayedImage.__getitem__", "delayed_image/delayed_nodes.py:DelayedChannelConcat.__getitem__"]}
{"id": "C62", "title": "The self-check accepts every image", "statement": "_validate() passes for every image that was put together with the API: the optimized image announces the same codes, number of channels and shape, and the array has the announced shape. If it passes, this is so; if it raises an AssertionError, some of this is not so, and the only other exceptions are those of optimize and finalize.", "quantifier": "all images put together with the API", "why_tests_cant": "the self-check looks at one image at a time; that it never fails is a statement about all of them", "anchors": ["delayed_image/delayed_nodes.py:DelayedImage._validate", "delayed_image/delayed_nodes.py:DelayedChannelConcat._validate"]}
{"id": "C63", "title": "Overviews are used only where they are fine enough", "statement": "When an image with overviews is scaled down, optimize reads it from the coarsest overview that is at least as fine as the result in both directions (or the last overview there is), so that no resolution is lost and no pixels are read needlessly; images scaled to more than half of their size in one direction are read from the full resolution.", "quantifier": "all files with any number of overviews, all affine maps, all sizes", "why_tests_cant": "the level is chosen with logarithms of scales decomposed from arbitrary matrices; that the choice is right for every rotation, shear, mirroring and scale is not a matter of examples", "anchors": ["delayed_image/delayed_nodes.py:DelayedWarp._opt_split_warp_overview", "delayed_image/delayed_nodes.py:_prepare_scale_residual", "delayed_image/helpers.py:_decompose_scale"]}
{"id": "C64", "title": "Masked pixels stay masked", "statement": "With nodata_method='ma', a pixel of the finalized array is masked exactly if the pixel of the file it comes from is masked, whether or not the image is optimized, and the values of the array do not depend on the masks.", "quantifier": "all images put together with the API, all files and masks", "why_tests_cant": "masks are carried along by numpy, differently in every operation; which compositions lose them cannot be listed by examples", "anchors": ["delayed_image/lazy_loaders.py:LazyGDalFrameFile.__getitem__", "delayed_image/delayed_nodes.py:DelayedChannelConcat._finalize", "delayed_image/delayed_nodes.py:DelayedCrop._finalize", "delayed_image/delayed_nodes.py:DelayedDequantize._finalize"]}
{"id": "C65", "title": "Membership and splitting agree with the channels of a spec", "statement": "`code in spec` holds exactly if code is one of the channels of the spec (those of fuse().normalize()), for fused specs and for specs of several streams; split() lists exactly the channels, each as a stream of its own and in order, keeps the fused channels and is idempotent.", "quantifier": "all spec strings, all codes", "why_tests_cant": "ranges over all strings, with repeated and empty streams, shorthand and malformed codes", "anchors": ["delayed_image/channel_spec.py:ChannelSpec.__contains__", "delayed_image/channel_spec.py:ChannelSpec.unique", "delayed_image/channel_spec.py:FusedChannelSpec.__contains__", "delayed_image/channel_spec.py:ChannelSpec.split", "delayed_image/channel_spec.py:FusedChannelSpec.split"]}
{"id": "C66", "title": "Items of the announced shapes can be encoded", "statement": "_item_shapes(dims) names every code of the spec once with the number of its channels and the dimensions; an item with arrays of these shapes is accepted by encode, and the arrays of the streams have the sizes announced by sizes().", "quantifier": "all channel specs, all dimensions, all arrays", "why_tests_cant": "unbounded codes, streams and arrays", "anchors": ["delayed_image/channel_spec.py:ChannelSpec._item_shapes", "delayed_image/channel_spec.py:ChannelSpec.encode", "delayed_image/channel_spec.py:ChannelSpec.sizes"]}
{"id": "C67", "title": "Nearest neighbour warps do not depend on the installed libraries", "statement": "With cv2 4.13 and kwimage before 0.12, warp_affine takes the matrix the wrong way round for float64 arrays and nearest neighbours. The result of finalize is the same with and without this defect, whatever versions are installed.", "quantifier": "all versions of kwimage and cv2, all arrays, all invertible transforms, all backends and dtypes", "why_tests_cant": "tests run with one set of installed libraries", "anchors": ["delayed_image/delayed_nodes.py:_version_tuple", "delayed_image/delayed_nodes.py:_warp_affine_matrix_mode", "delayed_image/delayed_nodes.py:DelayedWarp._finalize"]}
{"id": "C68", "title": "concise specs are short", "statement": "No spelling of the same channels has fewer codes than the one concise() returns, and specs of the same channels have the same concise spelling. For specs of several streams, the streams of the concise spec are the concise streams.", "quantifier": "all channel specs, of one and of several streams, and all other spellings of the same channels", "why_tests_cant": "tests compare a few specs with one expected text each, minimality speaks of all spellings", "anchors": ["delayed_image/channel_spec.py:FusedChannelSpec.concise", "delayed_image/channel_spec.py:ChannelSpec.concise"]}
{"id": "C69", "title": "channels do not influence each other", "statement": "Every channel of an image comes from one channel of one file (or from none). Its values in the finalized array depend on nothing else: exchanging the contents of any other channel of any file leaves it unchanged. optimize() and take_channels() keep, for every channel, the file, the channel of the file and the dequantizations on the way.", "quantifier": "all images built with the API, all channels, all tolerances of optimize, all pairs of contents of the files that agree on one channel", "why_tests_cant": "noninterference compares all pairs of contents, and the provenance is about all trees; tests fix one tree and one array", "anchors": ["delayed_image/delayed_nodes.py:DelayedChannelConcat.take_channels", "delayed_image/delayed_nodes.py:DelayedWarp._finalize", "delayed_image/delayed_nodes.py:DelayedCrop.optimize", "delayed_image/delayed_nodes.py:DelayedWarp.optimize", "delayed_image/delayed_nodes.py:DelayedOverview.optimize"]}
{"id": "C70", "title": "missing channels stay NaN", "statement": "A channel that is asked for and does not exist is NaN everywhere in the finalized array, whatever warps, crops, paddings, overviews and dequantizations follow, and whether the image is optimized or not.", "quantifier": "all images with distinct codes, all requests with unknown codes, all later operations, all contents of files", "why_tests_cant": "the NaN channel passes through every rewrite of optimize in every order of operations; tests sample a few orders", "anchors": ["delayed_image/delayed_nodes.py:DelayedChannelConcat.take_channels", "delayed_image/delayed_leafs.py:DelayedNans", "delayed_image/delayed_nodes.py:DelayedWarp._finalize"]}
{"id": "C71", "title": "channel specs and sensor-channel specs convert into each other", "statement": "SensorChanSpec.coerce of a channel spec has one stream of the sensor * per stream of the spec, with the same channels; a text without parentheses that both classes accept is read alike. SensorChanSpec.chans gives the channels back, stream by stream, when all sensors are equal, and raises otherwise. FusedSensorChanSpec.coerce accepts exactly the specs with one stream, and its normalize() and concise() keep sensor and channels.", "quantifier": "all texts, all channel specs whose codes are identifiers of the grammar, all numbers of channels, all sensor-channel specs with any number of streams", "why_tests_cant": "agreement of two parsers is a statement about all texts; tests compare a handful of specs with expected strings", "anchors": ["delayed_image/sensorchan_spec.py:SensorChanSpec.chans", "delayed_image/sensorchan_spec.py:SensorChanSpec.coerce", "delayed_image/sensorchan_spec.py:FusedSensorChanSpec.from_spec", "delayed_image/sensorchan_spec.py:FusedSensorChanSpec.concise", "delayed_image/channel_spec.py:ChannelSpec.streams"]}
{"id": "C72", "title": "channel numbers mean what they mean in numpy", "statement": "The third entry of image[y, x, c], the argument chan_idxs of crop and the list given to take_channels select channels as numpy does along the last axis: negative numbers count from the end, a single number gives one channel, a slice a range of channels. The codes of the result are those of the selected channels, numbers out of range raise IndexError, and optimize does not change what is selected.", "quantifier": "all images with any pixels, all lists of integers, all integers, all slices with or without a step, all concats with any number of parts", "why_tests_cant": "where a number counted from the end lands depends on how the channels are distributed over the parts of a concat and on whether the crop is optimized; tests use non-negative lists on a few images", "anchors": ["delayed_image/delayed_nodes.py:DelayedCrop.__init__", "delayed_image/delayed_nodes.py:DelayedCrop.optimize", "delayed_image/delayed_nodes.py:DelayedChannelConcat.take_channels", "delayed_image/delayed_nodes.py:DelayedImage.take_channels", "delayed_image/delayed_nodes.py:_InnerAccumSegment", "delayed_image/channel_spec.py:FusedChannelSpec.__getitem__"]}
{"id": "C73", "title": "equal channel specs are interchangeable", "statement": "Fused channel specs that compare equal give the same list, sizes, count, concise form, selections and set operations, as the object and as the operand, whether or not one of them has been normalized before. Comparing the normalized specs decides whether two specs have the same channels in the same order, and the length of a normalized spec is its number of channels.", "quantifier": "all fused specs obtained by the constructors and by any sequence of operations, all operands", "why_tests_cant": "a spec carries a hidden mark that it is normalized, which changes the path taken by nearly every method; tests do not compare every method over all ways of obtaining equal specs", "anchors": ["delayed_image/channel_spec.py:FusedChannelSpec.__eq__", "delayed_image/channel_spec.py:FusedChannelSpec.__len__", "delayed_image/channel_spec.py:FusedChannelSpec.normalize"]}
{"id": "C74", "title": "pixels outside of the source show the border value", "statement": "Where a warp has no source pixel, every channel of the result shows what border_value asks for: NaN for floats and 0 (or the fill value of a masked array) for integers if it is 'auto', the number if it is a number, and the entry of the channel if it is a tuple, for every interpolation and any number of channels. Tuples of more than four entries are refused.", "quantifier": "all arrays, all types, all border values, all transforms and sizes, any number of channels", "why_tests_cant": "the colour depends on the type of the array, the number of channels, the interpolation and on which of four code paths the transform takes; tests look at a few combinations with one colour", "anchors": ["delayed_image/delayed_nodes.py:DelayedWarp._finalize", "delayed_image/delayed_nodes.py:DelayedWarp.__init__", "delayed_image/delayed_nodes.py:ImageOpsMixin.warp"]}
{"id": "C75", "title": "images of files show the pixels stored in the files", "statement": "Finalizing any operation tree over files read by GDAL gives the pixels that the same tree gives on the whole pictures stored in the files: windows, channels and overviews that are passed on to the file while reading make no difference. The array has the three dimensions that the image announces.", "quantifier": "all operation trees, all files with bands of one type and size, all no-data methods, with and without the fast reader, optimized or not", "why_tests_cant": "whether a node is handed an array or a reference to a file depends on every node below it; tests compare a few trees on a few files, with three bands", "anchors": ["delayed_image/delayed_leafs.py:DelayedLoad._finalize", "delayed_image/delayed_nodes.py:DelayedCrop._finalize", "delayed_image/delayed_nodes.py:DelayedOverview._finalize", "delayed_image/delayed_nodes.py:DelayedConcat._finalize", "delayed_image/delayed_base.py:DelayedOperation.finalize", "delayed_image/lazy_loaders.py:LazyGDalFrameFile.__getitem__", "delayed_image/lazy_loaders.py:LazyGDalFrameFile.__array__"]}
{"id": "C76", "title": "print_graph draws exactly the operations of an image", "statement": "The text printed by print_graph/write_network_text of an image is the drawing of its operation tree: the image itself first, below each operation what it is applied to, the parts of a concatenation in their order, every occurrence of a shared image drawn again. Printed without labels, the text can be read back and gives one node per operation, named after its class, and exactly the edges of the tree.", "quantifier": "all images, with and without vertical chains, ASCII or Unicode, all labels", "why_tests_cant": "the text is made by a general graph printer that may skip nodes, draw edges to the right or insert ellipses; that none of this happens for a tree of any shape, and that nodes appear in the order of the parts, is a statement about all trees", "anchors": ["delayed_image/delayed_base.py:DelayedOperation.as_graph", "delayed_image/delayed_base.py:DelayedOperation.write_network_text", "delayed_image/util/util_network_text.py:generate_network_text"]}
{"id": "C77", "title": "a lazy file keeps showing the data it opened", "statement": "A file is opened at the first access to its data (for an ENVI header, the file of the same name with the extension the header gives). From then on the object, and every overview taken from it, shows the same data, whatever happens to the file. An access that fails leaves no trace and can be repeated. The optional global cache of open files makes no difference.", "quantifier": "all sequences of creating files, accessing them, taking overviews and changing the disk, all cache lengths", "why_tests_cant": "the property is about every interleaving of accesses with changes of the disk and with evictions from the cache; tests use files that do not change and no cache", "anchors": ["delayed_image/lazy_loaders.py:LazyGDalFrameFile._reload_cache", "delayed_image/lazy_loaders.py:LazyGDalFrameFile.get_absolute_overview", "delayed_image/lazy_loaders.py:CacheDict"]}
{"id": "C78", "title": "a no-data value marks exactly the pixels equal to it", "statement": "dequantize turns a finite pixel into NaN exactly if it equals the no-data value of the quantization, whatever the type of the array (truth values, integers, floats, complex numbers) and whatever the no-data value is (integer, float, complex number, truth value, NaN, infinity, text, out of range); all other pixels are rescaled, and nothing raises.", "quantifier": "all array types and pixels, all scalars of Python as no-data values, all quantizations", "why_tests_cant": "the test whether a value fits the type has many branches on types and ranges; that skipping the comparison never loses a pixel needs an argument for every type and value", "anchors": ["delayed_image/helpers.py:_scalar_is_representable_in_dtype", "delayed_image/helpers.py:dequantize"]}
{"id": "C79", "title": "images without data stay without data", "statement": "A DelayedNans or DelayedNodata image that is cropped, restricted to some of its channels and warped any number of times is finalized to an array of the announced shape in which every pixel is NaN (DelayedNans, nodata_method None, 'float' or 'nan') or masked (nodata_method 'ma'); any other nodata_method raises KeyError. optimize leaves a single leaf with the same channels and the same nodata_method.", "quantifier": "all images without data, all sequences of crops, selections and invertible warps, all tolerances of optimize", "why_tests_cant": "the operations rebuild the leaf with new sizes and channels; that the method, the size and the channels survive every sequence of rebuilding needs an induction over the operations", "anchors": ["delayed_image/delayed_leafs.py:DelayedNans", "delayed_image/delayed_leafs.py:DelayedNodata"]}
{"id": "C80", "title": "naming the channels of an image that exists", "statement": "Assigning a channel spec to the channels of an image gives the image this spec and as many channels as it names, changes nothing that any image shows, and does not rename images that are not made from it. It does not matter whether the names are assigned before or after other images are made from it (a concat has no setter and raises AttributeError). As long as every image is made with or given as many channels as it has bands, every image announces as many channels, and as many names, as it shows.", "quantifier": "all programs that make leaves, warps, crops with channel indices and concats and assign to their channels in any order, sharing images freely", "why_tests_cant": "the channels and their number are stored in each object or read through to the objects it is made from, so what an image announces depends on the order of all earlier assignments and constructions; a test fixes one order", "anchors": ["delayed_image/delayed_nodes.py:DelayedImage.channels", "delayed_image/delayed_nodes.py:DelayedImage.num_channels", "delayed_image/delayed_nodes.py:DelayedChannelConcat.channels", "delayed_image/delayed_nodes.py:DelayedCrop"]}
{"id": "C81", "title": "names, files and quantizations do not influence what is done", "statement": "What optimize does with an image depends only on sizes, transforms, positions and numbers of channels and overviews: the same operations on other files of the same sizes, with other channel names and other quantization metadata, are optimized to the same operations on these, or raise the same exception. So renaming the channels of the files changes no pixel of the finalized image. Selecting by position is unaffected; selecting by renamed names selects the same channels as long as different names stay different.", "quantifier": "all images, all renamings of channels (for selection by name: injective ones), all replacements of files and quantizations, all tolerances", "why_tests_cant": "it relates two runs of the optimizer on all pairs of images that differ in leaves only; a test compares one pair", "anchors": ["delayed_image/delayed_nodes.py:DelayedWarp.optimize", "delayed_image/delayed_nodes.py:DelayedCrop.optimize", "delayed_image/delayed_nodes.py:DelayedOverview.optimize", "delayed_image/delayed_nodes.py:DelayedDequantize.optimize", "delayed_image/delayed_nodes.py:DelayedChannelConcat.take_channels"]}
{"id": "C82", "title": "how images are grouped into concats makes no difference", "statement": "Concatenating images in groups and then the groups succeeds exactly if concatenating all images at once does, and gives an image with the same size, channels, number of overviews, sources and array. The same holds for concats in concats anywhere in an image, and for selecting channels by position or by distinct names from it. Optimizing succeeds with groups exactly if it succeeds without them, and the results differ only in how parts are grouped, so the default finalize, which optimizes, gives the same arrays.", "quantifier": "all images, all partitions of lists of images into non-empty groups, all depths of nesting, all selections", "why_tests_cant": "nesting is unbounded; a test shows one nesting of a few images", "anchors": ["delayed_image/delayed_nodes.py:DelayedChannelConcat", "delayed_image/delayed_nodes.py:DelayedChannelConcat.take_channels", "delayed_image/delayed_nodes.py:DelayedChannelConcat.num_overviews"]}
{"id": "C83", "title": "optimizing intermediate images makes no difference", "statement": "Replacing any of the images an image is made of by what optimize returns for them, at any places and any number of times, gives an image that can be built by the same calls, announces the same size and channels, takes every channel that shows something from the same channel of the same file through the same transform and dequantizations, and is optimized to the same image, so that finalize returns the same array. Without optimizing, it has the same array (crops, channel selections, dequantizations, concats) or the same values wherever there is data (warps by whole pixels).", "quantifier": "all images (sizes, optimized forms and arrays: without overviews), all sets of intermediate images optimized in advance, any number of times", "why_tests_cant": "the intermediate images and the order of optimizing them are arbitrary; a test optimizes a few", "anchors": ["delayed_image/delayed_nodes.py:DelayedImage.optimize", "delayed_image/delayed_base.py:DelayedOperation.optimize", "delayed_image/delayed_nodes.py:DelayedChannelConcat.optimize"]}
{"id": "C84", "title": "channels can be selected before or after other operations", "statement": "Selecting channels and then warping, cropping, padding, dequantizing and taking overviews any number of times gives the same image as doing all that to the whole image and selecting the channels at the end: the same exceptions, size, channels, sources, transforms and array, and the same sources when optimized. This holds for selections by position and for selections by distinct codes, also with codes that the image does not have (which are NaN).", "quantifier": "all images, all selections, all sequences of operations (nearest neighbour warps aligned with the axes)", "why_tests_cant": "sequences of operations and selections are unbounded; a test compares the two orders for one image and one sequence", "anchors": ["delayed_image/delayed_nodes.py:DelayedImage.take_channels", "delayed_image/delayed_nodes.py:DelayedChannelConcat.take_channels", "delayed_image/delayed_nodes.py:DelayedWarp._finalize", "delayed_image/delayed_nodes.py:ImageOpsMixin"]}
{"id": "C85", "title": "the nested description tells the whole image", "statement": "nesting() of an image lists all its operations in order with all their parameters and the channels of its files: the image can be read from the description again, so images of files with equal descriptions have the same size, channels and pixels. It raises an exception only for channel codes with a dot that are not a name, one dot and an integer.", "quantifier": "all images of files and of pixels without data, all trees of operations, all channel specs with and without shorthand", "why_tests_cant": "trees and specs are unbounded; that two different images never have the same description is a statement about all pairs of images", "anchors": ["delayed_image/delayed_base.py:DelayedOperation.nesting", "delayed_image/channel_spec.py:FusedChannelSpec.concise"]}
{"id": "C86", "title": "an optimized image reads only what it needs", "statement": "After optimize an image reads exactly the files that its channels come from, whatever else it was made of. It never reads more of a file than the image it was made of, and looks at no pixel outside the parts that it reads. Of crops, channel selections, dequantizations and concats it reads parts that have exactly the size of the image. Of a part of a warped file it reads only pixels around those that are shown, up to two pixels and the extent of one pixel of the result.", "quantifier": "all images without overviews, all warps, crops, selections, dequantizations and concats, all files and all contents of the pixels that are not read", "why_tests_cant": "how much is read shows in no array; it depends on the order of all rewrites and on the geometry of each crop, and tests compare arrays of small pictures that fit in memory anyway", "anchors": ["delayed_image/delayed_nodes.py: DelayedCrop.optimize, DelayedCrop._opt_warp_after_crop, DelayedCrop._opt_fuse_crops, DelayedChannelConcat.take_channels", "delayed_image/helpers.py: _swap_warp_after_crop"]}
{"id": "C87", "title": "the element type of arrays and the border that depends on it", "statement": "The array of an optimized image has the element type that holds the values of all its channels, each as it comes from its file or from its last dequantization, whatever else the image was made of; it has floats iff one of its channels has. If channels are not selected from several images put together, then optimize keeps the element type. In an optimized image every channel is warped as if the whole image had the type of the channel, so what lies outside of the source is NaN for a channel of floats and 0 for a channel of integers, whatever the other channels are. If all files have floats, or all have integers, then optimizing does not change which border is used.", "quantifier": "all images of files with any boolean, integer or float types (types that numpy promotes in any order), all warps, crops, selections, dequantizations and concats, all resampling functions that act channel by channel", "why_tests_cant": "which type an array has depends on all files put together and on the order in which warps and concats are evaluated, which optimize changes; tests use arrays of one type and look at the inside of the picture", "anchors": ["delayed_image/delayed_nodes.py: DelayedWarp._finalize, DelayedChannelConcat._finalize, DelayedDequantize._finalize, DelayedImage.finalize", "delayed_image/delayed_leafs.py: DelayedNans._finalize", "delayed_image/helpers.py: dequantize"]}
{"id": "C88", "title": "sizes that are not whole", "statement": "warp, scale and resize with a size that is not whole announce and return the same size. resize takes the corner of the image to the corner of the announced size, and less than a pixel is cut off. _coordinate_crop of a box shows the pixels of the image counted from the corner of the box, border outside of the image, and as many pixels as fit into the box; for a whole box within the image it is the crop.", "quantifier": "all images, sizes, boxes with whole corners, external functions that move whole pixels", "why_tests_cant": "sizes and boxes are arbitrary numbers; tests use whole ones", "anchors": ["delayed_image/helpers.py:_ensure_valid_dsize", "delayed_image/delayed_nodes.py:DelayedWarp._finalize", "delayed_image/delayed_nodes.py:ImageOpsMixin._coordinate_crop", "delayed_image/delayed_nodes.py:ImageOpsMixin.resize"]}
{"id": "C89", "title": "operations on a concat are operations on its parts", "statement": "Warping, cropping, padding, dequantizing a channel concat and taking overviews of it, any number of times, gives the same image as doing it to each part and concatenating the results: the same exceptions, size, channels, sources, transforms and array. optimize gives the same image, so the default finalize gives the same array.", "quantifier": "all concats, all sequences of operations (arrays without optimizing: nearest neighbour warps aligned with the axes; optimized: no overviews)", "why_tests_cant": "the parts and the sequences of operations are unbounded; a test compares one concat and one sequence", "anchors": ["delayed_image/delayed_nodes.py:DelayedChannelConcat", "delayed_image/delayed_nodes.py:ImageOpsMixin", "delayed_image/delayed_nodes.py:DelayedImage._opt_push_under_concat", "delayed_image/delayed_nodes.py:DelayedWarp.optimize"]}
{"id": "C90", "title": "Names assigned to an image survive optimize", "statement": "After image.channels = 'a|b|c', image.optimize() has the names a, b, c. Names have no influence on which operations optimize leaves, the result has as many names as channels or none, every name of the result was a name of the file or was assigned to one of the operations, names of files survive all operations, and names assigned to an image that has been optimized survive optimizing it again.", "quantifier": "all chains of warps, crops with and without channel selections and dequantizations of any length over a file or NaN leaf without overviews, with names assigned to any of the operations, all fuels, all numerical tests", "why_tests_cant": "Whether a name survives depends on which of the rules of optimize fires and on whether that rule copies a node or builds a new one; tests assign names to files, not to every operation of every chain.", "anchors": ["delayed_image/delayed_nodes.py: DelayedImage.channels, DelayedWarp.optimize, DelayedWarp._opt_fuse_warps, DelayedCrop.optimize, DelayedCrop._opt_fuse_crops, DelayedCrop._opt_warp_after_crop, DelayedCrop._opt_dequant_after_crop, DelayedDequantize.optimize, DelayedDequantize._opt_dequant_before_other", "delayed_image/delayed_leafs.py: DelayedNans._optimized_crop, DelayedNans._optimized_warp"]}
{"id": "C91", "title": "num_overviews counts the overviews that are left, and overviews that are announced are read from the file", "statement": "image.num_overviews is a number just if that many overviews are left of every file in the image after those that were taken; it is None if the files differ, and a TypeError just if that is so below an overview that was taken. If it says v, image.get_overview(k).finalize() for 0 <= k <= v is made from overviews stored in the file: imresize is not called to simulate one. Overviews of overviews show the stored picture with num_overviews coarser ones after it.", "quantifier": "all images of any depth and number of files for the number; for reading, all images made of one file by any sequence of crops, channel selections, dequantizations and overviews (and scalings, if the file has enough overviews), all stacks of files with dequantizations and overviews anywhere and crops and selections above, all files, all numbers of overviews, all ways to resample and to simulate, all recursion limits", "why_tests_cant": "A simulated overview has the same shape as a stored one, so tests of shapes pass either way; whether it is simulated depends on the order of all operations and on every rule of optimize.", "anchors": ["delayed_image/delayed_nodes.py: DelayedImage.num_overviews, DelayedConcat.num_overviews, DelayedOverview.num_overviews, DelayedOverview._finalize, DelayedImage.get_overview, DelayedOverview.optimize", "delayed_image/lazy_loaders.py: LazyGDalFrameFile.num_overviews, LazyGDalFrameFile.get_overview"]}
