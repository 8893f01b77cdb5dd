# A Lean 4 model of delayed_image

## Method

The Python sources in `/repo/delayed_image` are transcribed by hand, function by function and
branch by branch, into total Lean functions.  Exceptions are values (`Except PyErr`).  Every
definition cites the file and lines it models.  Model files are `lean/Verif/<Area>.lean`, helper
lemmas live next to them, and the property theorems live in `lean/Verif/Props/<Area>.lean`, in the
namespace `Verif.Props`, with a non-vacuity `example` beside each theorem or at the end of its file (some are in `Props/Cases.lean` and `Props/MoreCases.lean`).  Specifications are small
definitions in the `Props` files that do not use the helpers of the model.

Where the English property is false of the code, the negation is proved on a concrete witness (a
theorem whose name ends in `_violated`) and the true part is proved under a name ending in `_partial`
or under hypotheses that are named in the comment.  `MANIFEST.json` lists all of them, with one note
per property on what is missing; it is generated by `tools/manifest.py` from the theorem names and
`tools/notes.json`.

`seeded/LOG.jsonl` records the wrong programs the theorems were tested against.

## Trusted base

* Lean's kernel.  No axioms of our own; every theorem depends on at most `propext`,
  `Classical.choice` and `Quot.sound`.  No `sorry`, `native_decide`, `bv_decide`.
* The transcription from Python to Lean (read by eye against /repo; cited in comments).
* Python strings are `List Char` (`isWs` and `strip` know ASCII white space only).  Python ints are
  `Int` or `Nat`.  Python floats are exact rationals (`Rat`), so rounding error is outside the model;
  NaN is a separate value where it matters (C19, C35, C44, C47, C48).
* External libraries have no source in the sandbox.  What is used from them is modelled from their
  documentation and listed here as an assumption:
  * `ubelt`: `oset` (insertion ordered set), `take`, `flatten`, `group_items`, `unique`, `allsame`,
    `dict_isect`; `udict & udict` keeps the order of the first operand (C31).
  * `kwarray`: `FlatIndexer.unravel`, `embed_slice`, `padded_slice`, `atleast_nd`.
  * `kwimage`: `Boxes.from_slice(clip, wrap)`, `quantize` (floor and ceil), `Affine` as 2x3 matrices
    with `decompose` a parameter whose factors multiply back as translation, rotation, shear, scale
    (C41); `warp_affine` and `imresize` are parameters of the pixel semantics (`Env`), see below.
  * numpy: slicing, concatenation, `astype` truncation, `np.equal` (NaN equals nothing), `result_type`.
  * `lark`: the grammar is modelled at the level of the parse tree it produces (C17).
  * `networkx`: strongly connected components and the condensation are assumed correct (C42).
  * GDAL: a band is its type, no-data value and pixels; a window read copies pixels, converting to the
    buffer type; windows that leave the raster fail; whether empty windows are accepted is a parameter.

## Model assumptions of the image trees

* `Node.lean` is the tree of operations with the metadata of each node.  The number attached to a leaf
  stands for the identity of the object.  Nodes are values; where identity matters (C38, C39) there is
  a separate model with a store (`Heap*.lean`): dequantization dictionaries live in cells, the identity
  of nodes for the memo is an arbitrary oracle, and the only mutable state is the `dsize` a
  dequantization announces (the code assigns children only on fresh copies).
* `Opt.lean` is `optimize` with fuel; `Halt.lean` and `Terminate.lean` remove the fuel.
* `Tagged.lean` is `optimize` on chains whose operations have names of their own; `TaggedLemmas.lean` shows that it refines `Opt.lean`.
* Comparisons with tolerance (`isclose_identity` and the like) are a parameter; theorems either hold
  for every tolerance or name `Exact` (the comparison decides equality) or `Sharp` (it does on the given image;
  `sharp_code`: the comparisons of the code do on images without overviews whose warps have `noop_eps=0`).
* Pixels (`Raster.lean`): `Env` holds the resampling functions.  `Env.Shaped` (results have the
  requested size), `Env.Ok` and `Env.Matches` (mirroring, quarter turns and moves by whole pixels move pixels exactly) are named as
  hypotheses where used.  Linear interpolation enters only through its support (C32) and, where it scales and moves, through
  `Env.Linear` (`Props/Once.lean`): values depend on the pixels less than a pixel away and on relative positions, and the centre
  of a pixel has its value.  Bilinear interpolation with a constant border is shown to be one (`bil_linear`).  Arrays of integers (`Types.lean`, C87)
  take the same functions with another border.  `Env.Blocks` (`Props/Blocks.lean`): a pixel of an overview is computed from the block of
  pixels it covers, overviews of overviews are overviews, and dequantizing can be done before or after.  Overviews that choose the corner of each
  block are such (`corner_blocks`); averages of rounded values are not, and nothing is claimed about their arrays.

## Per property

| id | model | proof | outcome |
|----|-------|-------|---------|
| C01 | `ChannelSpec.lean`: code expansion, slice syntax, range, sizes, numel, normalize | induction on the code list; CPython's length formula vs iterating the range | proved |
| C02 | same | induction; output codes contain no ':' and are no alias | proved |
| C03 | concise loop as a left fold with its accumulator | loop invariant relating emitted parts and open run to the processed prefix | false for spellings like `a.01`; proved for canonical ones |
| C04 | oset, union/difference/intersection | induction; first-occurrence order specification | proved |
| C05 | split / join | induction on strings | proved |
| C06 | python index/slice normalisation; `Stride.lean`: slices with a step as CPython adjusts them | arithmetic and list lemmas; slices with a step against the set of positions they name and their direction | proved |
| C07 | memo table as explicit state | invariant over all operation histories | false for floats (`1.0` and `1` share a key) |
| C08 | component_indices loops | induction | false for the fused variant with slice codes |
| C09 | parsed dict (insertion ordered) | induction | proved for distinct streams |
| C10, C11 | arrays as lists of channel rows; merge loop | loop invariant: concatenated slices are unchanged | zero-size or repeated codes break it |
| C12, C13 | stream lists | list algebra | string operands of `+` raise |
| C14, C15 | ordered set as (items, index map) | invariant over operations | proved in range |
| C16 | character replacement | list lemmas | the length bound is false |
| C17, C18 | parser and printer of sensor-channel text; grouping loops | set equality via membership in group_items | mixing empty and other lists changes meaning |
| C19 | exact rational quantization | floor inequalities | proved |
| C20 | max/ceil of warped corners | an affine map on a box is bounded by its corners | sizes can be negative |
| C21 | zip_longest fold | induction | a known zero is lost |
| C22 | `Loader.lean`: slice rectification, ellipsis, windows | case analysis against numpy's rule | negative starts and integers are wrong |
| C23 | ordered association list | refinement to the usage history | proved |
| C24-C26 | python slice semantics, images as functions on the pixel grid | arithmetic | lazy or padded crops drop chan_idxs |
| C27, C28 | concat parts, segment loop | loop invariant | repeated codes give a wrong channel |
| C29 | ceiling division | nested ceil lemma | proved |
| C30, C31 | rational affine group; `Opt.lean` | ring identities, induction over op chains; the optimized forms of chains over any image without overviews by induction over its optimized form (`Props/Same.lean`) | C30 false for concats warped back to where they were (`C30_concat_violated`); C31 false for concats with different offsets |
| C32, C33 | quantized boxes | floor/ceil inequalities | rotated border blends and overview sizes change |
| C34 | transform splitting | matrix identities | proved |
| C35 | pixelwise maps | extensionality | border values differ |
| C36, C37 | `Opt.lean`; rule sets `Rules` | one induction over `optimize` for any predicate its rules keep; measures for termination; for arrays scaled and moved once, the crop moved under a warp keeps the pixels linear interpolation needs (C32) and shifts them by whole pixels (`Props/Once.lean`); with overviews, images that are turned, mirrored and moved but not scaled are done after finitely many steps (`Props/Rigid.lean`), and those without warps keep their size if crops below overviews start at multiples of the overview step (`Props/Aligned.lean`), and show exactly the same if these also end there or at the border (`Props/Snug.lean`); then the arrays are the same, too, if each pixel of an overview is computed from the block it covers (`Props/Blocks.lean`; in terms of the calls made, `Props/Calls.lean`) | other sizes change with overviews; images cut off before a later warp may show more (`Props/Whole.lean`); some concats stay as they are |
| C38 | store of metadata cells (`Heap*.lean`) | frame property of every rule | one assignment reaches the input |
| C39 | memo over the store | simulation with the run without memo | false with that assignment |
| C40 | stack traversal | stack invariant | proved |
| C41 | undo_warp over an abstract decomposition | group identities | false for several choices |
| C42 | stack machine of the text generator | DFS invariant | proved; max_depth is not kept with vertical chains |
| C43 | split and numel of sensor-channel specs | induction | proved |
| C44 | nearest warp sampling | floor arithmetic | raises or shifts for several transforms |
| C45 | shapes of finalized arrays | induction over trees built with the API | false with overviews under optimize, except where crops start at multiples of the overview step (`Props/Aligned.lean`, `Props/Lasting.lean`), and for concatenations with an explicit `dsize`, which is not checked |
| C46 | printer and parser of network text, on strings | simulation of the parser's stack along the generator | proved |
| C47-C49 | `Gdal.lean`: overviews, band selection, both read strategies, no-data | equational proof that both paths give the specified array | mixed types, NaN no-data, missing overviews |
| C50 | `Raster.lean`: `warp`, `scale`, `resize` over the denotation of trees | matrix identities; case analysis of the shortcut | sizes of lazy warps differ within the tolerance |
| C51 | `evaluate` as a fresh leaf and an extended environment | simulation along the operations; pixel semantics respects equal arrays | false with overviews under optimize; holds with overviews where crops start and end on their pixels (`Props/Stepped.lean`) |
| C52 | `Params.lean`: nested parameters set in place before optimize | induction over trees; `warpAlgos` kept by every rule without overviews | overviews drop the interpolation; fused warps drop the backend |
| C53 | `Prepare.lean`: files with a-priori metadata, trees over them, `prepare` | induction over programs: building late and preparing refines preparing first | a given number of overviews can be overwritten; concats and half known sizes stay unknown |
| C54 | `Opt.lean`; `Fix.lean`: the images on which no rule applies | induction over the recursion: every result without overviews is such an image, and such images are returned unchanged | with overviews the second pass may read another overview or raise KeyError; not without warps if crops start at multiples of the overview step (`Props/Aligned.lean`) |
| C55 | `Opt.lean`; `Total.lean`: images with codes, without empty selections, with one dequantization per path | induction over the recursion: every exception is the one of the stack bound, and the recursion ends (C37) | also with overviews from level 1 on if there are no warps and crops start at multiples of the overview step (`Props/Lasting.lean`); otherwise TypeError, AttributeError, KeyError, AssertionError and the empty concat occur, each proved on an image |
| C56 | `Written.lean`: trees whose leaves keep their spec as written, selection on them | every selection on written specs maps to the selection on expanded specs; then C27 | codes must be distinct for selection by code; the spelling itself is not kept, so `_validate` can raise |
| C57 | `DelayedAsXarray._finalize` over both kinds of trees; xarray refuses labels of the wrong number | channel counts by induction over trees, labels by C36 and C56 | with shorthand there are fewer labels than channels and it raises |
| C58 | `Envi.lean`: the loop over the lines as one pass with the open brace as state | layouts are data (`Item`), written and read back; induction over rows and items | `{}` reads as one empty cell, and so does a comma before `}`; a cell ending with a brace at a line end closes the value |
| C59 | `Readers.lean`: index arithmetic of the rasterio and spectral readers; what the libraries do outside of the raster is arbitrary | case analysis, windows as intervals | only GDAL's reader knows the ellipsis; rasterio refuses bands counted from the end |
| C60 | `Readers.lean`: windows around the centre, sums, last look at the whole file; exceptions read as no | windows are inside of the file; sums of non-negative numbers | negative pixels hide others |
| C61 | `Check.lean`: indices are crops | C24 for the pixels; C36 and C55 for the default finalize | from beginning to end only without overviews, and with warps that mirror, turn and move, or scale and move once; holds with overviews where crops start and end on their pixels (`Props/Stepped.lean`) |
| C62 | `Check.lean`: the assertions of `_validate` | C36, C45 and C55 together | fails with overviews, where optimized images announce other shapes; passes where crops start at multiples of the overview step (`Props/Aligned.lean`, `Props/Lasting.lean`) |
| C63 | `Scale.lean`: the scales and the number of levels as they are computed, over the reals | scales by trigonometry, levels by floor and log; the tests of `Opt.lean` on squares are proved to be the tests of the code; optimize of a warped file evaluated symbolically | a mirrored axis has a negative scale, which passes for small; for arbitrary images the invariant "a warp over an overview scales by less than two" is part of the normal form of `OptLemmas.lean`; images scaled twice may lose up to one level |
| C64 | `Masked.lean`: `_finalize` on pairs of a value and a mask; what resampling and overviews make of masks is given by the environment | by induction on the image: the values are those of `Raster.lean`; without concats, warps and overviews the mask is the image of the masks | concats of several images lose the masks, so optimization changes them; `DelayedNodata` is not described |
| C65 | `Split.lean`: `in`, `unique` and `split` of both classes | membership for all strings, by reducing the dict of streams to the list of distinct streams; `split` by evaluating the joined string | fused specs look at the written codes; channels without a name are lost |
| C66 | `Split.lean`: `_item_shapes` | evaluation of the loops; `encode` by C10 | as C10; a spec with an empty stream raises |
| C67 | `Runtime.lean`: `_version_tuple`, the comparison of tuples, the choice of the convention and the two candidates | reading of version texts by induction on digits; the mode is `inverse` exactly for the versions with the defect, so the candidates are those of `Raster.lean` | kwimage versions with two numbers |
| C68 | `ChannelSpec.lean`, `Chan.lean`: the loop of `concise` | invariant: the number of codes written is the number of runs of consecutive channels, a lower bound for every other spelling | aliases and slices with a step are longer when concise, equal streams are merged (witnesses) |
| C69 | `SrcRules.lean`: origins of channels, over `Opt.lean` and `Raster.lean` | origins are an invariant of every rewrite (no exactness needed); a relation between two runs of `_finalize` that agree on one channel, by induction on the tree | nearest neighbour warps that are not aligned with the axes choose between two results by all channels (witness); the external functions are assumed to act channel by channel |
| C70 | as C69 | origins (C69) and induction over `_finalize` | warps with a border value fill it in (witness); the external functions are assumed to turn NaN into NaN |
| C71 | `SensorChans.lean`: `chans`, `coerce`, `FusedSensorChanSpec`, over `SensorChan.lean` and `Chan.lean` | each code of the grammar expands as `FusedChannelSpec` expands it, text that looks like a sensor is malformed as a channel; induction over streams and codes | codes outside the grammar raise, the empty spec raises, parentheses differ, `concise()` of a fused sensor spec writes slices out (witnesses) |
| C72 | `ChanIdx.lean`: crops as they are built with a list, number or slice of channels (with or without a step, `Stride.lean`), their array and codes, `take_channels` with integers, and `optimize` of a crop over a concat; over `Node.lean`, `Raster.lean`, `Opt.lean` | numpy's rule as a separate relation; Python's list indexing and numpy's agree by induction; take_channels with non-negative numbers refines the one with positions, with negative ones it is proved to be take_channels of the first part | in concats negative numbers count from the end of the first part; after optimize a number gives a NaN channel `u0` and a slice raises TypeError (witnesses) |
| C73 | `Equal.lean`: `__eq__` and `__len__` of fused specs, over `ChannelSpec.lean` | from the invariant that the mark is only set on specs with nothing to expand (induction over all ways to obtain a spec): every method then depends on the written codes only | `rgb` and `r\|g\|b` are different although they have the same channels, and the length of `rgb` is 1 (witness); `ChannelSpec` and sensor specs have no equality |
| C74 | `Border.lean`: the border value and the type of the array in `DelayedWarp._finalize`; refines `finWarp` of `Raster.lean`; resampling is a parameter that fills pixels with the colours it is given | the wanted colour as a separate relation; with one colour the refined warp is proved equal to the one of `Raster.lean`, for the rest case analysis over the paths of the code | with nearest neighbours all channels get the first entry of a tuple, a text as border chooses the inverse transform, NaN for integers and images without channels raise (witnesses); infinities and ranges of integers are not described |
| C75 | `Files.lean`: `_finalize` where nodes hand on lazy references, over the reader of `Gdal.lean`; refines `fin` of `Raster.lean`; masks are left out | the picture of a file as a separate specification; simulation by induction over the tree: what is handed on is either a reference that stands for the picture at a level, or an array with the same pixels; with C47 for the windows that are read and C45 for their sizes | one-band files give two dimensions, taking the channel of a simulated overview of one raises, empty crops depend on GDAL (witnesses); files with bands of several types or sizes are the subject of C47 |
| C76 | `Show.lean`: the graph of `_traversed_graph` as a networkx graph, printed by `NetText.lean`; labels and the components found by networkx are parameters | a recursive drawing as a separate specification; the loop of the printer simulates it, by induction over the tree (the graph as a list of subtrees that follow each other); reading back by C46 and C40 | labels that are equal are read as one node (witness); what `rich` makes of a line is left out |
| C77 | `Opening.lean`: objects, disk and cache as a state, the disk changing at any time; the headers of `Envi.lean`, the cache of `Loader.lean` | invariants over all sequences of actions; the cache by a simulation: what is in it is on the disk | with the cache (off by default) files that are changed are shown as they were, and overviews taken before the first access open the file themselves (witnesses) |
| C78 | `Nodata.lean`: `_scalar_is_representable_in_dtype` for all kinds of dtypes, and `dequantize` of one pixel | specification over the extended reals; case analysis over kinds and scalars: a value that some pixel equals is representable; agrees with `Helpers.lean` for integers | floats are not rounded to the dtype; complex no-data values in integer arrays are not masked (witness) |
| C79 | `Masked.lean`: `DelayedNodata._finalize`; `Opt.lean`: `_optimized_crop` and `_optimized_warp` of leaves without data, which keep their kind | induction over the operations | in concats with other images masks are dropped and the pixels are uninitialized memory (C79_concat_violated); warps without optimization are external |
| C80 | `Rename.lean`: a store of leaves, channel-preserving operations, crops with `chan_idxs` and concats with the metadata each stores, the `channels` setter and the reading through to `subdata`; sizes and positions are left out, an image shows a list of bands of leaves | induction over the program; assignments commute with statements that read nothing from the renamed image | crops keep the names they were made with (C80_stale_violated) or read names of another number through (C80_late_violated, C80_count_violated, C80_none_violated); a concat keeps the number it was made with (C80_concat_violated); `optimize` after an assignment is not modelled |
| C81 | the model of `optimize`, `take_channels` and `finalize` (`Opt.lean`, `Node.lean`, `Raster.lean`) | naturality: every step of the optimizer commutes with replacing names, files and quantizations, by induction over its calls | selection by name needs a renaming that keeps names apart (C81_equal_names_violated); whether names are known must not change |
| C82 | `Node.lean`, `Raster.lean` | stacking arrays is associative; induction over the tree for the image without groups (`ungroup`), which can be built too (`BuiltIff.lean`) | optimized forms and their arrays for all images without overviews, by an induction that follows the parts of concats through `optimize` (`Stretch.lean`, `Props/Regroup.lean`); with overviews it fails (`C82_overviews_violated`); holds with overviews where crops start and end on their pixels (`Props/Stepped.lean`) |
| C83 | `Opt.lean`; rule sets `Rules` | induction over the replacements (`Early`) for any predicate the rules of `optimize` keep; optimized forms of images without overviews are the same (`Props/Same.lean`) | with overviews sizes change, and a later concat raises: proved on an image; not so without warps if crops start at multiples of the overview step (`Props/EarlyPaced.lean`); arrays if they end there, too (`Props/Blocks.lean`; for `optimize` between calls, `Props/Calls.lean`) |
| C84 | `Node.lean`, `Raster.lean`; sequences of calls (`Job`, `runAll`) | a relation between the two images is carried through every call (`Carried`); warping and resizing are assumed to treat all channels alike (`Env.Even`), overviews only if used | fails for nearest neighbour warps that are not aligned with the axes: proved on an image; holds with overviews where crops start and end on their pixels (`Props/Stepped.lean`; in terms of the calls, `Props/Calls.lean`) |
| C85 | `Nesting.lean` on written trees | a reader of descriptions (`readNest`) is a left inverse, by induction; `concise` is lossless (C03); when it raises, exactly; what is told at the top, by induction | arrays in memory are not told apart, and codes like `band.raw` raise: proved on images |
| C86 | `Opt.lean`, `Raster.lean`; files and windows of a tree as a separate specification | sources and normal form for the files; rules with windows that shrink; pixels by induction on trees; bounds of the slices of both paths of `_opt_warp_after_crop`, also for warps of parts and of dequantized parts, with the fusion of crops and the order of dequantizations | fails with overviews in concats, with nearest interpolation, and to the left of or above a file, where a negative end of a slice wraps around: proved on images; files with overviews where crops start on their pixels (`Props/Stepped.lean`; in terms of the calls, `Props/Calls.lean`) |
| C87 | `Types.lean`: the type of the array of a tree, `np.promote_types`, and `_finalize` where warps choose the border by the type; over `Opt.lean`, `Raster.lean` | the type of a channel by its origin (C69) as a separate specification; sets of types in which promotion is associative; the deep normal form of `optimize` has no concats below warps, so every channel is warped with arrays of its own type | with overviews and crops on overview pixels (`Stepped.lean`; in terms of the calls, `Calls.lean`) no border is filled, so types do not matter; other overviews and nearest neighbour warps are missing; selections change the type and concats below warps the border (witnesses); masked arrays are in C74 |
| C88 | `FloatSize.lean`: warps with rational sizes, `_ensure_valid_dsize`, `_coordinate_crop` | floor arithmetic; the pixels from those of moved images (C26) | the size is announced as given but the array is truncated (witness); `optimize` of such warps is not described |
| C89 | `Node.lean`, `Raster.lean`, `Opt.lean`; sequences of calls as for C84 | announced: carried through every call, then the parts are put together again; arrays: each part shows its channels of the concat (C28) before and so after the calls; optimized: one step pushes an operation under the concat, and results are compared part by part; with overviews and crops on overview pixels (`Stepped.lean`; in terms of the calls, `Calls.lean`), both sides are compared with what they show unoptimized | fails when optimized for a warp by the identity that keeps the size: proved on an image |
| C90 | chains whose operations carry their own names (`Tagged.lean`) | refinement of `Opt.lean` by induction on the fuel with an invariant on the names; optimized images are fixed points; concrete chains for the counterexamples | The claim fails: `C90_violated` lists six kinds of images whose assigned names are replaced by those of the file; `C90_warps_lost` says which names a warped warp has. Proved: the operations are not influenced (`C90_operations`), number and origin of names (`C90_count`, `C90_old`), names of files stay (`C90_files`), names assigned after optimizing stay (`C90_after`), names of operations to which no rule applies stay (`C90_kept_partial`), and which names moved operations have (`C90_dequantized_warp`, `C90_cropped_dequantized`, `C90_cropped_warp`). No concats, no overviews, no assigned names of the wrong number. |
| C91 | `num_overviews` (`Node.lean`), `_finalize` on files (`Files.lean`) | structural induction against a list of leaves with the levels above them; for reading, `optimize` keeps the invariant of C37 (enough overviews) and its normal form has overviews only of leaves, so no overview is past the file, and what is shown does not depend on the function that simulates | Reading is for one file (`C91_announced_partial`, `C91_optimized_partial`) and for stacks of files with crops only above overviews (`C91_stacks_partial`, `C91_stack_announced_partial`) or starting at multiples of the overview step (`C91_paced_partial`; in terms of the calls, `C91_calls_partial`). It fails without optimizing (`C91_unoptimized_violated`), for warped images (`C91_warp_violated`: the warp uses up overviews that are still announced) and for stacks of crops (`C91_stack_violated`). Past the last overview numbers are negative (`C91_negative_violated`). |

## Code modelled, by source file

| source | modelled, in `lean/Verif` | not modelled |
|--------|---------------------------|--------------|
| `channel_spec.py` | `FusedChannelSpec` and the parser of slices: `ChannelSpec`, `Written` (specs as written), `Equal`, `Split`; `ChannelSpec` with `encode` and `decode`: `Chan`; `path_sanitize`, `subsequence_index`, `oset_insert`, `oset_delitem`: `Oset` | the abstract base class, `info`, `_demo_item`, `__nice__` |
| `sensorchan_spec.py` | the grammar as a parser, the transformer, normalizing and concise spelling: `SensorChan`; the classes over it: `SensorChans` | `lark` itself, subclasses of `str` |
| `delayed_base.py` | traversal: `Walk`; descriptions and graphs: `Nesting`, `Show`; `prepare`: `Prepare`; nested parameters: `Params`; `finalize`: `Raster`, `Files`, `Types`; the memo of `optimize`: `Heap` | `__nice__`, `rich` output |
| `delayed_leafs.py` | `DelayedLoad`: `Prepare`, `Files`; `DelayedNans`: `Node`, `Opt`; `DelayedNodata`: `Masked`; `DelayedIdentity`: `Raster` | demo images |
| `delayed_nodes.py` | constructors, sizes, channels, transforms, `take_channels`: `Node`, `ChanIdx`, `Written`, `Rename` (specs assigned later); `optimize` of all classes: `Opt`, `Heap` (with identities), `Tagged` (with names of operations); `_finalize` of all classes: `Raster`, `Border`, `Masked`, `Types`, `Files`, `Runtime`; `_validate`, `__getitem__`: `Check`; `warp`, `scale`, `resize`, `crop`, `evaluate`: `Raster`; `undo_warp`, `undo_warps`: `Undo`; scales of warps: `Scale`; `_coordinate_crop`: `FloatSize` | `DelayedStack` and `DelayedFrameStack` (raise `NotImplementedError`), chunks and attributes of `xarray` |
| `helpers.py` | sizes, `dequantize`, `quantize_float01`: `Helpers`, `Nodata`, `FloatSize` (sizes that are not whole); swaps of crops and warps: `Opt`; `_decompose_scale`: `Scale` | `mkslice` |
| `lazy_loaders.py` | slices and cache: `Loader`; GDAL reader, overviews, no-data: `Gdal`; opening files: `Opening`; other readers, `_validate_nonzero_data`: `Readers`; ENVI headers: `Envi` | availability checks, `dtype`, demo images |
| `util/util_network_text.py` | `generate_network_text`: `NetText`; `parse_network_text`: `NetParse` | `forest_str` (calls `write_network_text`), output streams |
| `debug_utils.py`, `demo.py`, `_typing.py`, `constants.py`, `__init__.py` | nothing | everything (debugging output, demo data, types, names) |

## Not modelled

What GDAL, rasterio and spectral do when opening files and beyond selecting pixels, resampling kernels beyond nearest and the support
of linear interpolation, complex pixel types and colour tables, xarray beyond the labels of the channels, debugging and
profiling output, the demo data generators, and the command line.
