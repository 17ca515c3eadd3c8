# Formal model of imageproc: design

The subject is the Rust source in `/repo` (image-rs/imageproc, pinned commit). The
model and proofs are Lean 4 in `lean/Verif/`. Properties are in `properties.jsonl`,
their status in `MANIFEST.json`, the mutation log in `seeded/LOG.jsonl`.

## Modelling conventions

* One Lean definition per Rust function; each carries a comment with file and lines and
  the simplifications made.
* `&mut` arguments become returned values. A panic (failed assertion, index out of
  bounds, unsigned underflow in checked arithmetic, division by zero) is `none`.
  Property theorems state `= some r` whenever they claim the call does not panic.
* `Image α` is a width, a height and a pixel function on `Nat × Nat`; `get`/`put` return
  `none` outside the bounds. Pixel storage as a flat buffer is modelled only where the
  code uses flat indexing itself (rotate180, transpose, map_pixels2, kernels, HoG views).
* `for` loops over integer ranges are `forRange lo hi body`, a structural recursion in
  the `Option` monad. `while`/`loop` uses fuel, together with a theorem that a stated amount of
  fuel suffices (termination).
* Fixed-width integers are `Nat`/`Int`; where the property is about overflow or
  underflow the model makes the range check explicit.
* Floating point is modelled by exact arithmetic (`Rat`, `Int` after scaling, or a
  linearly ordered field), except in `Verif/Float`, where every operation is followed by IEEE
  rounding (C116 and later). `Float/Basic` defines rounding to nearest, ties to even, with `p` bits
  and smallest exponent `emin`, over any ordered field with floor; `rnd32`, `rnd64` are the two
  formats. Subnormals are included. Overflow to infinity, NaN and the sign of zero are not
  represented; the theorems bound the values so that overflow cannot happen. The exception is
  `Float/WarpModel`, whose number type has NaN and both infinities, because mappings supplied by the
  user may return them; there `unsafe_get_pixel` reads the flat buffer and `none` is undefined behaviour.
* rayon parallel iterators are modelled by an arbitrary order of the per-item work
  (a permutation), where a property speaks about schedules.
* External calls (random numbers, trigonometry, exp, fonts) are parameters.

## Layout

`Verif/<Area>/Model.lean` the model (some small areas keep model and proofs in one file); `Spec.lean`
independent specification where it is long; `Lemmas*.lean` proofs; `Props.lean` and the other files the
property theorems, named `Cxx_...`, with `example`s. Shared: `Verif/Basic/*` (images, loops, clamping).
`tools/manifest.py` rebuilds `MANIFEST.json` from the theorem names and `tools/status.json`.

## Trusted base

* Lean 4.33.0 kernel. Axioms: only `propext`, `Classical.choice`, `Quot.sound`. `AXIOMS.txt` lists, for
  every theorem named in `MANIFEST.json`, the axioms it depends on (output of `#print axioms`).
* That the model follows the Rust text: checked by reading, by the citations, and by the
  seeded-bug log `seeded/LOG.jsonl`.
* In that log `proofs_broken` lists what Lean reported; `theorems_failed` adds the property theorems
  whose proofs use those declarations, found by name. A broken proof does not by itself show that
  the theorem is false of the edited program. `claim_source` says whether the claim was written down
  before the run or read off the theorems that failed (generated edits, and one batch whose claim
  numbers were wrong). Edits that did not typecheck and builds that were killed are left out, except
  two stopped builds that carry a note.
* The semantics given to `image`-crate primitives (`get_pixel`, `put_pixel`, `from_vec`,
  `enumerate_pixels`, `SubImage::inner_mut`), to `std` (sorting, iterators, saturating and checked
  arithmetic), to rayon, and to external functions taken as parameters.
* Fixed-width and floating-point effects not mentioned in a property (rounding is modelled only in
  `Verif/Float`; there, that the compiled program performs each operation in the type written in the
  source, without fused or extended-precision arithmetic).

## What is modelled

| source file | model | remarks |
|-------------|-------|---------|
| binary_descriptors/{mod,brief,constants}.rs | Brief/ | random test pairs and hash positions are parameters |
| compose.rs | Compose/ | all functions; `u32` sums in both build profiles in Compose/Machine |
| contours.rs | Contours/ | all functions |
| contrast.rs | Contrast/ | all functions; f32/f64 exact, Kapur over ℝ; Otsu level in `f64` in Float/Otsu; counts and areas in both build profiles in Contrast/OtsuMachine, Float/AreaM |
| corners.rs | Corners/ | FAST-9/12, score, oriented FAST; the random sample is a parameter; the threshold index in `f32` in Float/Oriented |
| definitions.rs | Definitions/Clamp, Suppress/Model (`Position`, `Score`) | clamping of NaN in Noise/Double and Float/WarpModel |
| distance_transform.rs | Distance/, Morphology/Model (`u8` versions) | exact rationals with infinities |
| drawing/*.rs | Drawing/ | fonts are parameters; `f32` exact, in `f32` for lines (Float/Line, Float/AntiLine), polygons (Float/Polygon), Bezier curves (Float/Bezier) and ellipses (Float/Ellipse); rectangles, circles, ellipses, crosses and the line iterator in machine arithmetic (Float/Rect, Float/Circle, Float/EllipseM, Float/Cross, Float/LineM, Float/TextM); flood fill with `i32` coordinates in both build profiles (Drawing/FillMachine); Blend is an arbitrary pixel operation |
| edges.rs | Edges/ | all functions; blur, Sobel, `atan2`, `hypot` over ℝ in Edges/Full, in `f32` in Float/Canny; `u32` sizes in both build profiles in Edges/Machine |
| filter/mod.rs, kernel.rs | Filter/Model, Filter/Separable, Gradients/Model, Edges/Full | sequential and parallel 2-d filter, three-zone 1-d filters, Gaussian kernel; one-dimensional filters in `i32` in Filter/Wide and Filter/Tall |
| filter/{bilateral,box_filter,median,sharpen}.rs | Filter/ | weights of the bilateral filter are parameters; in `f32` with the Gaussian weights in Float/Bilateral, sharpening in `f32` in Float/Sharpen |
| geometric_transformations.rs | Geom/, Compose/Model (flips, rotations) | SVD solver is a parameter; warping in `f32` in Float/Warp*, rotation in Float/Rotate, scaling in Float/Scale, projective maps in Float/Projective; `translate` in `i32` in Float/Translate |
| geometry.rs, point.rs | Geometry/ | hull over ℤ, areas and simplification over a field, arc length and rectangle over ℝ; contour area, simplification, arc length and rectangle in `f64` in Float/Area, Float/Simplify, Float/Arc, Float/MinRect; hull in `i32` with `f64` distances in Float/Hull |
| gradients.rs | Gradients/ | magnitude is the integer square root |
| haar.rs | Haar/ | all functions; enumeration, count and evaluation in both build profiles (Haar/Release, Haar/Count, Haar/Wide) |
| hog.rs | Hog/ | all functions except `view_mut`, `from_raw` length check message text; `hog` in `f32` in Float/Hog, HogImage, HogNorm |
| hough.rs | Hough/ | trigonometric table is a parameter, instance over ℝ; votes in `f32` in Float/Hough, `intersection_points` in Float/Clip, `draw_polar_lines` in Float/PolarDraw; the diagonal in both build profiles in Stats/Machine |
| image_hash/*.rs | ImageHash/ | resize and 1-d cosine transform are parameters, instance over ℝ |
| integral_image.rs | Integral/, Contrast/Machine (both build profiles) | accumulators generic, checked `u32` arithmetic for sums; `variance` in `f64` in Float/Stats |
| local_binary_patterns.rs | Lbp/ | all functions and tables |
| map.rs | Map/ | flat buffers; parallel versions under every schedule |
| math.rs | Math/Norms, Hog/Model | over ℝ |
| morphology.rs | Morphology/ | all functions |
| noise.rs | Noise/ | the random stream is a parameter; Gaussian noise in `f64` with NaN in Noise/Double |
| pixelops.rs | PixelOps/ | exact arithmetic |
| rect.rs | Drawing/RectModel | all functions; in machine arithmetic in Float/Rect |
| region_labelling.rs, union_find.rs | Regions/, UnionFind/ | all functions |
| seam_carving.rs | Seam/ | all functions; `u32` path energies in both build profiles (Seam/Machine) |
| stats.rs | Stats/ | exact arithmetic; counters in `u32` in both build profiles in Stats/Machine; PSNR over ℝ; root mean squared error in `f64` in Float/Stats |
| suppress.rs | Suppress/ | all functions |
| template_matching.rs | Template/ | all functions; exact arithmetic |
| utils.rs | Utils/ | `pixel_diffs`, the summaries, the comparison macros and the content of the messages; not their layout |
| window.rs | Float/Window, Utils/Display | size and placement of the shown image; event loop; not the windows themselves |

Not modelled: creating, positioning and painting windows in `window.rs`, `doc_macros.rs`, the literal-image macros and
the string formatting of `utils.rs`, `proptest_utils.rs`, loading images from files, and the thin wrappers that
copy an image and call the modelled `_mut` function.

## Findings

Places where the code does not do what its documentation or an obvious reading promises. Each is
proved; the theorem is named.

| where | behaviour | theorem |
|-------|-----------|---------|
| `connected_components` | panics when every pixel is its own region (e.g. a 1x1 image with background elsewhere) | C06_negation, C06_fails_iff |
| `threshold` | `ToZero` and `ToZeroInverted` are exchanged with respect to their documentation | C16_negation |
| `compose::replace` | last row and column of the bottom image are never written | C22_negation |
| `compose::overlay` | reads the pixel to draw from the bottom image | C23_negation |
| `Projection::from_matrix` | rejects small determinants, accepts matrices with zero corner entry and returns non-finite entries | C26_negation |
| `phash` | 64 equal coefficients 0.1 give a hash with every bit set, since their mean is rounded below them | C150_negation |
| `interpolate_bilinear`, `interpolate_bicubic` | integer positions in the last rows/columns give the default colour | C27_negation_bilinear, C27_negation_bicubic |
| `local_maxima` | last occupied row is never examined | C30_negation |
| binary `dilate`, `erode` | `k = 255` changes every pixel; an image without foreground flips for `k >= w + h` | C33_negation |
| grayscale `open`, `close` | not idempotent or one-sided for asymmetric masks; zero-width image panics | C35_negation, C34_zero_width |
| `bilateral_filter` | panics for radius 91 and above | C41_large_radius |
| `median_filter` | window size overflows `u32` | C39_overflow |
| `flood_fill` | does not terminate when the fill colour is the seed's colour | C44_negation |
| `draw_polygon` | a single vertex draws nothing | C47_negation |
| antialiased lines | weights leave 0..1 for negative coordinates | C48_negation |
| `hysteresis` | two of eight neighbours are missing, weak pixels above (right) are dropped | C50_negation |
| `find_contours` | no contour for regions made of complete rows; borders missed when the last column is touched | C53_negation, C94_negation |
| `approximate_polygon_dp` | equal end points drop every vertex between | C56_negation |
| `find_vertical_seam` | seam is not minimal (stale minimum in the retrace) | C59_negation |
| `draw_vertical_seams` | wrong column when an earlier seam lies between | C61_negation |
| `local_binary_pattern` | bit order is the opposite of the documented one | C62_negation |
| `is_corner_fast12` | quick rejection misses corners | C65_negation |
| `find_extremes` | first in raster order, not lexicographically smallest | C68_negation |
| `brief` | first test of each group of 128 is lost | C71_negation |
| `match_binary_descriptors` | a descriptor is used twice when the first list is longer | C72_negation |
| `map_pixels2` | accepts some images of different sizes | C74_negation |
| `HogSpec::from_options` | panics instead of returning an error; zero orientations accepted | C77_negation |
| `salt_and_pepper_noise` | rate 0 can change a pixel | C78_negation_rate_zero |
| `separable_filter` | intermediate image is clamped | C87_negation |
| Hough `intersection_points` | a line through the top edge and a bottom corner shrinks to a point | C92_negation, C113_negation |
| ellipses | tips missing for `a >= 8 b^2` | C97_negation, C98_negation |
| `arc_length` | closed two-point arc omits the way back | C104_negation |
| `intensity_centroid` | wrong moments next to the left and upper border | C108_negation |
| `oriented_fast` | automatic threshold panics for target 0 and small images | C109_negation |
| `oriented_fast` | automatic threshold panics when the image has 2^25 pixels per corner asked for (`f32` rounding) | C135_negation |
| `rotate_about_center` | half a turn differs from `rotate180`: shifted by one pixel right and down, first row and column default | C137_negation |
| `Projection::scale` | enlarging 41 times with bilinear interpolation does not reproduce the input at multiples of 41: 255 becomes 254 | C147_negation |
| `Projection::from_matrix` | a singular matrix (219 291 -203; -40 153 204; 179 444 1) gets the determinant 1 in `f32` and is accepted | C149_negation |
| `intersection_points` | a line through a corner can be lost: 123 degrees, r = -1550 crosses 930 columns of a 3776 x 604 image and gives `None`; the main diagonal of 102 x 102 becomes one point | C152_negation |
| `draw_antialiased_line_segment` | a long shallow line far from the origin never leaves its row and misses its end point; weights slightly negative next to row or column 0 (`f32` rounding) | C138_negation, C138_negation_weight |
| `sharpen_gaussian` | constant areas lose one level (value 5 becomes 4 for `sigma = 0.5`, `amount = 1`): the `f32` result is just below the integer and is rounded down | C139_negation |
| `draw_cubic_bezier_curve` | the pixel of a non-integer end point can be missed (end (327.5, 0): drawn up to 327, rounded end 328): in `f32` the last parameter `N * (1/N)` is below one | C140_negation |
| `display_image` | a very wide image is scaled to height zero (1000x1 in a 150x150 window) | C141_negation, C141_height |
| `display_multiple_images` | closing one window twice (a held Q key) ends the display while others are open | C144_negation |
| `approximate_polygon_dp` | never returns for two neighbouring points with coordinates around 10^8 and `epsilon = 0.5`: the last point is computed to be off its own line | C145_negation |
| `describe_pixel_diffs` | panics on an empty list of differences | C142_empty |
| `canny` | with an `atan2` that is off by one unit in the last place the gradient (-985, -408) gets the wrong direction | C136_sharp |
| `min_area_rect` | never tries the closing hull edge; rounding can exclude points | C110_negation |
| `min_area_rect` | panics for `Point<u32>` when a corner of the rotated rectangle has a negative coordinate, e.g. (0,0), (1,0), (2,2) | C110_unsigned_negation |
| `convex_hull` | cross products overflow `i32` once points are 46341 apart: debug builds panic, release builds return a hull in the wrong direction | C154_negation |
| `Rect` | `right`, `bottom` overflow when the corner past the rectangle is not an `i32`: debug builds panic at (2147483647, 0) size 1, release builds lose the rectangle for size 2; `Region<f32>` contains the column right of the rectangle when the corner is rounded up | C155_negation |
| `draw_hollow_circle` | debug builds panic when an extreme point is not an `i32`, although only the part inside the image is to be drawn | C156_panics, C156_negation |
| `adaptive_threshold` | debug builds panic on a white image of 3000 by 3000 pixels: sums of the whole image are kept in `u32` and `a + b - c - d` overflows from 8.4 megapixels on; release builds misclassify for radii from 2052 on | C157_panics, C157_negation |
| `suppress_non_maximum`, `local_maxima` | with radius `u32::MAX` debug builds panic; release builds keep the top left pixel only, and return dominated points | C158_max_radius, C158_negation |
| `box_filter`, `median_filter` | release builds of `box_filter` return 0 for a single white pixel with x radius 8421505 (the window sum wraps) and debug builds panic; release builds of `median_filter` return 255 for every single-pixel image when the kernel has at least 2^31 pixels (radii from 23170), debug builds panic | `C159_negation`, `C159_box_single`, `C159_median_single` |
| `find_contours::<T>` | panics when a contour point does not fit the integer type `T` (`u8` and a dot in column 256) | `C160_negation`, `C160_panics` |
| `draw_hollow_ellipse`, `draw_filled_ellipse` | debug builds panic for radii from 46341 on, since the squares are `i32` products; release builds draw a vertical segment when the width radius is a multiple of 65536; a height radius of 0 gives only the centre although a width radius of 0 gives the whole segment | `C161_panics`, `C161_vertical`, `C161_flat`, `C161_negation` |
| `draw_cross` | debug builds panic for centres at the ends of the `i32` range although "coordinates outside image bounds" are documented as handled; release builds are right everywhere | C162 |
| `translate` | for `ty < height - 2^31` debug builds panic and release builds repeat the top row where the bottom row is the nearest | C163 |
| `BresenhamLineIter`, `draw_line_segment` and the functions that call it | a line whose larger end on the major axis is at least `2^31 - 1` (for example `i32::MAX as f32`) never ends in release builds and panics in debug builds | C164 |
| `draw_text` | debug builds panic if a glyph reaches past the end of the `i32` range; release builds are right for every position | C165 |
| `find_contours` | an object that touches the left edge of the image is reported as `Hole`, without an `Outer` contour; objects to the right of it become its children, and its holes have no parent | C166_negation, C167_negation, C168_negation |
| `dilate`, `grayscale_dilate` | on black-and-white images the two differ for radius 255 and, with L1 and LInf, for radii of at least width + height: an empty image turns white under `dilate` | C171_negation |
| `box_filter` | turning the image by 90 degrees and filtering differs from filtering and turning by up to one level, because the horizontal means are rounded down before the vertical pass (C178) |
| `dilate`, `erode` | repeated application with radii `k`, `m` is not `k + m` for `L2`, nor for `L1` on images without foreground (background) once `k + m` reaches width plus height (C181) |
| `corners_fast12` | an image and its quarter turn can have different corners (C182; from the missed arcs of C65) |
| `draw_polygon` | listing the vertices backwards can paint different pixels in single precision (C184); pixel iterators over a line ignore the order of the end points, so they may run from end to start (C184) |
| `draw_polygon` | vertices left of column 0: a crossing half-way between two columns is rounded away from zero, so the filled shape changes when it is moved across column 0 (C185) |
| `detect_lines` | an image with a side of 65536: debug builds panic on the squared diagonal, release builds wrap it and lose almost every line | C190_lines_negation |
| `vertical_filter` | 2^31 - 1 rows and a kernel of 5 weights: release builds read outside the image without a check; more than 2^31 rows: only the first row is read | C205_unsafe, C205_tall |
| `horizontal_filter` | 2^31 - 1 columns and a kernel of 5 weights: release builds read outside the image without a check; more than 2^31 columns: only the first column is read | C204_unsafe, C204_wide |
| `canny` | 1x0 image: panic in debug builds only; 0x3 image: panic in both; 2^32 pixels: debug builds panic computing a capacity | C203_negation, C203_large |
| `crop` (release) | 1x1 image, rectangle x = 2^31, width = 2^31, height = 0: accepted although it leaves the image | C202_negation |
| `replace` (release) | 3x2 image, top of width 2^32 - 1 at column 1: nothing is pasted | C202_negation_replace |
| `HaarFeature::evaluate` | on the integral image of squares of a white 130 x 130 image debug builds panic; on larger features release builds return wrapped sums | C200_negation_debug, C200_negation_release |
| `number_of_haar_features` | for 640 x 480 debug builds panic and release builds return 331280384 instead of 90525593600 | C199_negation |
| `enumerate_haar_features` | for a frame with a side of 255 debug builds panic and release builds leave out every feature that is one block wide (or high) | C198_debug, C198_release, C198_negation |
| `find_vertical_seam`, `shrink_width` | a 2 x 4210753 image makes debug builds panic and release builds return a seam that ends in the wrong column | C197_debug_iff, C197_negation |
| `flood_fill` | a seed in a column or row beyond `2^31` fills nothing; a seed in column `2^31` panics in debug builds | C196_negation, C196_panics |
| `kapur_level`, `oriented_fast`, `canny` | from `2^32` pixels on debug builds panic; a release build returns Kapur level 0 (one class empty) instead of 50 for 65536 x 65537 pixels, and `oriented_fast` without a threshold panics for 65536 x 65536 | C195_kapur_negation, C195_fast_negation, C195_canny |
| `draw_polar_lines` | nothing is drawn of a line that crosses 930 columns of a 3776 x 604 image close to a corner | C194_negation |
| `otsu_level` | from 17 million pixels on the product of a level and its count can wrap: debug builds panic, release builds return a wrong level (0 instead of 100 for a 34-megapixel picture) | C193_negation, C193_negation64 |
| `suppress_non_maximum` | on signed images a second application removes negative maxima the first one kept | C192_negation_suppress |
| `approximate_polygon_dp` | closed curves lose a corner on every application | C192_negation_closed |
| `flood_fill` | repeating a fill may never return | C192_negation_fill |
| `match_histogram` | the result can have levels the target has not: with a black and white target, two thirds dark pixels become 254 | C191_negation_levels |
| `match_histogram` | beyond 2^24 pixels an image is changed by matching it with itself: one white pixel next to 2^24 black ones turns black | C191_negation_self |
| `histogram`, `percentile`, `root_mean_squared_error`, `peak_signal_to_noise_ratio` | `u32` counts overflow: a black 65536 x 65536 image has an empty histogram in release builds, and comparing 32768 x 32768 RGBA images divides by zero | C190_negation |
| `layout_glyphs` | kerning is looked up with exchanged arguments and applied one glyph late | C111_kerning_negation |
| `render_hist_grid` | every star is drawn on the whole image | C114_last_cell_only |
| Haar enumeration | overflows for side 255 | C64_defined |
| Hough accumulator | bucket 0 is twice as wide as the others | C58_bucket_width |
| `scharr` gradients | `f32` rounding gives a magnitude one too large | C116_scharr_negation |
| `gaussian_blur_f32` | constant images become up to two levels darker (single-precision weights sum to less than one) | C119_negation |
| `variance` | negative for some large constant regions (7329x7329 pixels of value 5): double-precision cancellation | C126_negation |
| `bilateral_filter` | constant images can become one level darker (the rounded quotient of the two sums falls below the constant) | C124_negation |
| `equalize_histogram` | large images (132854 pixels) can come out one level brighter than the exact formula | C120_negation |
| `match_template` (normalised cross-correlation) | with templates of more than 258 pixels an imperfect patch can score above a perfect match (1 + 2^-22 against 1) | C122_negation |
| `match_template` (squared differences) | with templates of more than 258 pixels a farther patch can get a smaller score | C122_negation_order |
| `interpolate` | equal pixels can come out one darker | C117_equal_negation |
| `contour_area` | a triangle of area 1/2 with coordinates near 2^31 has area 0 | C127_negation |
| `detect_lines` | a horizontal segment in row y, right of the diagonal, is reported at distance y-1 (the `f32` cosine of 90 degrees is negative, the cast truncates); the unit test for row 2 expects distance 1 | C131_negation, C131_negation_reported |
| `draw_polygon` | an edge that meets a row exactly half-way between two columns can be put one column to the left, since the fraction is rounded in `f32` first: the triangle (0,0), (11,22), (0,22) loses the pixel (7,13) | C132_negation |
| `otsu_level` | with equally good splits `f64` rounding decides: the pixels 0, 1, 1, 2 give level 1, not the smallest best level 0 | C133_negation |
| `warp_with`, bicubic | a NaN x coordinate passes the range checks: an image of one column is read beyond its buffer | C128_negation_nan |
| `warp_into_with`, bilinear | a NaN coordinate reads the origin even of an empty image; of other images it gives white, not the default | C128_negation_empty, C128_nan_white |
| `warp`, bicubic | panics for images of 16777222 or more rows (16777215 + 4 rounds to five rows) | C128_negation_tall |
| `warp`, nearest | the identity moves columns of images wider than 8388610 (x + 0.5 rounds to even) | C129_negation |
| `warp`, bilinear | a constant image of value 7 can come out as 5 | C130_negation |
| `otsu_level` | `u32` overflow for more than 2^32/255 pixels of level 255 | C15_large_image_overflows |

Seen while reading, outside the model: the documentation of `HogOptions::signed` is inverted; the Haar
documentation formula has `2 * s` for `k * s`; the BRIEF documentation says radius 5 where the code uses 2.

## Plan per property

| id | modelled | proof |
|----|----------|-------|
| C01 | `DisjointSetForest` arrays as functions, `root` with fuel | invariant: parent graph is a forest with a rank function (depth), `root` preserves the set of roots and each element's root; history induction, refinement to `EqvGen` |
| C02 | `num_trees` | invariant: sum over roots; number of roots = number of classes |
| C03 | `trees` | grouping lemma on top of C01 |
| C04 | two-pass `connected_components` with the real forest | pass-1 invariant: provisional labels' closure = connectivity of scanned prefix; pass 2 renumbering |
| C05 | same | pass-2 invariant on first appearances |
| C06 | same | FALSE: forest has `image_size` slots but labels go up to `image_size`. Negation with witness 1x1; positive theorem with the exact condition (number of provisional labels < number of pixels) |
| C07 | `Rect` | omega |
| C08 | `draw_filled_rect_mut` | loop rule |
| C09 | `integral_image_impl` | loop rule, double sums |
| C10 | `sum_image_pixels` | sums algebra with checked subtraction |
| C11 | running sums | loop rule |
| C12 | `histogram`, `cumulative_histogram` | induction |
| C13 | `percentile` | least-element scan; the floor division analysed |
| C14 | `adaptive_threshold` | on top of C10 |
| C15 | `otsu_level` over ℚ | scan invariant: best so far |
| C16 | `threshold_mut` | case analysis; ToZero/ToZeroInverted FALSE as documented (swapped): negation + partial |
| C17 | `stretch_contrast_mut` | arithmetic |
| C18 | `equalize_histogram_mut` | arithmetic over ℚ |
| C19 | `histogram_lut` | scan invariant, monotone cumulative fractions |
| C20 | `crop` | direct |
| C21 | flips, rotations | in-place swap loops |
| C22 | `replace_mut` | FALSE at last row/column: negation + exact theorem of what is written |
| C23 | `overlay_mut` | FALSE (reads bottom image): negation + exact theorem |
| C24 | `translate` | loop rule |
| C25 | `Projection` ops over a field | ring/field identities |
| C26 | `from_matrix` over a field | FALSE (determinant tolerance, corner entry zero): negation + partial |
| C27 | `interpolate_*`, `warp` | FALSE for bilinear/bicubic at the last row/column: negation + exact domain |
| C28 | `blend_bilinear` | inequality over ordered field with floor |
| C29 | `suppress_non_maximum` | block-argument refinement |
| C30 | `local_maxima` | FALSE (last row ignored): negation + exact theorem |
| C31 | distance transform sweeps | forward/backward sweep invariants |
| C32 | 1-d lower envelope + two passes | envelope invariant, over ℚ |
| C33 | `dilate`, `erode` | on top of C31; FALSE when there is no foreground / k=255: negation + partial |
| C34 | `mask_reduce` | direct |
| C35 | opening/closing | Galois adjunction for symmetric masks; FALSE for asymmetric: negation |
| C36 | masks | membership, disk recurrences |
| C37 | `filter` | direct |
| C38 | fast 1-d filters | three-zone equality |
| C39 | `median_filter` | histogram = multiset invariant along the snake |
| C40 | `box_filter` | on top of C11 |
| C41 | `bilateral_filter` | weighted mean bounds |
| C42 | Bresenham with doubled integer error | error-term invariant |
| C43 | drawing | loop over iterator |
| C44 | `flood_fill_mut` | stack invariants + lexicographic termination; FALSE when fill colour = seed colour (diverges): negation |
| C45 | `draw_hollow_circle_mut` | decision-variable invariant |
| C46 | `draw_filled_circle_mut` | spans |
| C47 | `draw_polygon_with_mut` | parity of crossings |
| C48 | `plot_wu_line` over ℚ | FALSE for negative coordinates: negation + partial |
| C49 | `draw_cross_mut` | direct |
| C50 | `hysteresis` | FALSE (two neighbours missing): negation; exact theorem for the neighbour set used |
| C51 | border following | injective successor on a finite state space |
| C52 | same | trace invariants |
| C53 | same | FALSE for the image border: negation; partial |
| C54 | `convex_hull` | Graham scan invariant |
| C55 | shoelace | list algebra |
| C56 | `approximate_polygon_dp` | well-founded recursion; FALSE for closed curves (degenerate baseline) |
| C57 | `intersection_points` | field case analysis |
| C58 | `detect_lines` | counting invariant |
| C59 | seam search | FALSE (stale minimum): negation; path validity proved |
| C60 | seam removal | loop rule |
| C61 | seam drawing | FALSE: negation; single seam partial |
| C62 | LBP tables | finite tables (genuinely complete), bit order doc FALSE |
| C63 | Haar evaluate | sums algebra |
| C64 | Haar enumeration | counting |
| C65 | FAST tests | FAST-9 exact; FAST-12 FALSE |
| C66 | FAST score | monotonicity + binary search |
| C67 | template matching | sums, Cauchy-Schwarz |
| C68 | `find_extremes` | scan invariant; tie-break doc FALSE |
| C69 | `Bits64` | bit lemmas |
| C70 | transposes | loop rule |
| C71 | BRIEF | FALSE (first bit of each chunk lost): negation; partial |
| C72 | matching | list invariants with arbitrary hash positions |
| C73 | maps | permutation-invariance |
| C74 | `map_pixels2` | FALSE: negation |
| C75 | clamp | arithmetic |
| C76 | kernels, `sobel_gradient_map` | arithmetic on explicit kernels |
| C77 | HoG layout | arithmetic; underflow panic: negation |
| C78 | salt and pepper | stream parameter |
| C79 | `pixel_diffs` | direct |
| C80 | `min_max` | loop invariant |
| C81, C106 | `mean_squared_error` and what is built on it | sums; Minkowski inequality |
| C82, C83 | control points, rotation about a point | field identities; solver is a parameter |
| C84 | `gaussian_noise_mut` | stream parameter |
| C85, C86 | L2 transform and binary opening/closing | on top of C32/C33; adjunction |
| C87, C88 | separable filters, Gaussian blur | sums; real exponential in Edges/Full |
| C89, C115 | `non_maximum_suppression`, `canny` | on top of C50, C76, C88; angle sectors over ℝ by sine differences |
| C136 | `canny` in `f32` | integer gradients keep 2.9e-7 rad away from the sector boundaries (`|v² + 2uv - u²| ≥ 1`); the monotone rounded conversion is evaluated at rational points beside each boundary |
| C137 | `rotate`, `rotate_about_center` in `f32` | rounding errors of two matrix products and the affine map bounded by `17 N / 2^24`; nearest pixel stable within 7/16 |
| C138 | antialiased lines in `f32` | error of the accumulated coordinate by induction; stuck when the gradient is at most half a unit in the last place; dyadic slopes exact |
| C139 | `sharpen_gaussian` in `f32` | kernel accuracy of C119 reused for real-valued pixels with underflow, second pass by convexity of the weights; combination by absolute errors |
| C140 | `draw_cubic_bezier_curve_mut` in `f32` | every operation rounded; absolute error of a sample against the Bernstein form, number of segments from a square root of relative accuracy 2^-20; segments through C118 |
| C141 | sizes and placement in `window.rs`, in `f32` | error of the scale factor times a side below one half; truncation of values near an integer |
| C142 | `describe_pixel_diffs` | folds of minima and maxima; region rows by lists; `pixel_diffs` by C79 |
| C143 | ellipses in `f32` | error bounds quadratic in the number of steps for `p`; invariants of C97 with tolerance; decisions may differ from exact ones without accumulating |
| C144 | event loop of `display_multiple_images` | state machine over arbitrary event sequences; counting of close events |
| C145 | `approximate_polygon_dp` in `f64` | recursion proved for any distance that vanishes at the last point; distances exact inside for integers up to 2^25, relative error 2^-51; FALSE beyond: negation |
| C146 | `arc_length` in `f64` | relative error by induction over the sum |
| C147 | `Projection::scale` and `warp` in `f32` | relative error `3 / 2^24` cleared of the denominator, integrality decides the pixel; powers of two exact |
| C148 | `map_projective`, `warp` in `f32`, all classes | error of a quotient from the errors of its terms; nearest pixel stable within 7/16; zero divisors give infinities, which every interpolation rejects |
| C149 | `from_matrix`, `try_inverse`, `normalize`, `class_from_matrix` in `f32` | whole numbers exact up to the determinant, two rounded divisions; products of a singular affine matrix round alike |
| C150 | `phash` in `f32` | rounding error of a running sum; whole sums exact |
| C151 | `kapur_level` in `f64` | forward error analysis over ℝ with a logarithm of bounded relative error as a parameter |
| C152 | `intersection_points` in `f32` | relative error `2^-22` per coordinate; the side tests agree away from the corners; same selection of two points |
| C153 | `min_area_rect` in `f64` | forward error analysis against the exact rectangle of the same edge; quarter turns absorb the wrap-around of `%`; axis-parallel angles are exactly 0 |
| C154 | `convex_hull` in `i32`, distances in `f64` | a triangle in a square of side S has doubled area at most S^2; rounded square roots keep the order of whole numbers up to 2^34 |
| C155 | `Rect` in `i32`/`u32`/`f32` | case analysis on wrapping of `as i32`; intersection widths fit since they are bounded by the first rectangle's |
| C156 | circles in `i32`, lines in `f32` | the error term stays between 1 - 2y and 2x + 1, hence no operation overflows |
| C157 | integral images and `adaptive_threshold` in `u32`, both build profiles | tables modulo the accumulator range; differences cancel the wraps |
| C158 | `suppress_non_maximum`, `local_maxima` in `u32`, both build profiles | without overflow equal to the C29/C30 models; one block when the radius covers the image |
| C159 | `box_filter` and `median_filter` with large radii in `u32`, both build profiles | running sums are congruent mod 2^32, window differences are exact while they fit; refinement of the C39/C40 models; single-pixel images evaluated in closed form |
| C160 | coordinate type of `find_contours` | the generic search commutes with converting the points: simulation of the trace, the scan and the loops |
| C161 | ellipses in `i32` and `f32`, both build profiles | loop counters bound the coordinates, so nothing overflows and the C143 model is reproduced; the wrapped square 0 keeps the decision variable constant |
| C162 | `draw_cross` in `i32` arithmetic: right for every centre in release builds, exact panic condition in debug builds | `Float/Cross.lean`; the loops agree cell by cell, wrapping sends a sum off the image to the other side of it |
| C163 | `translate` in `i32` arithmetic: exact result of release builds and exact panic condition for every shift | `Float/Translate.lean`; one row as a function of its source row, then the loop |
| C164 | termination of the line iterator with `i32` positions: exact condition for release builds, panic in debug builds, agreement with C118 up to `2^29` | `Float/LineM.lean`; induction over the calls of `next` |
| C165 | `draw_text` with `i32` coordinates: release builds agree with exact arithmetic for every position, debug builds exactly when every glyph fits | `Float/TextM.lean`; sums that wrap stay off the image |
| C166-C168 | contours as objects and holes, nesting, number of objects | discrete Jordan argument: winding number of a border (`Contours/Wind.lean`), invariant of the scan (`Contours/Tree.lean`) |
| C169-C171 | brightness maps and inversion against rank filters, grayscale against binary morphology | `Relations/Morph.lean`, from the exact specifications C33, C34 and the median specification |
| C172, C173 | flips and quarter turns commute with distances, morphology, adaptive threshold, components, fill; fill = one component | `Relations/Motion.lean`, arbitrary maps of the pixel grid that keep horizontal and vertical distances (or exchange them) |
| C174 | convex hull as a function of the point set | `Geometry/HullUnique.lean`: at most one polygon satisfies the specification of C54 |
| C175-C177 | statistics against pixel positions, equalisation twice and after brightness curves, levels against brightness | `Relations/Levels.lean`, from C12, C15, C18, C19, C96, C120 |
| C178-C180 | filters, gradients and local binary patterns against flips, turns, sums and brightness | `Relations/Filters.lean`, `Relations/Gradients.lean`, `Relations/Lbp.lean`: the window of a turned pixel is the turned window (borders included) |
| C181-C182 | morphology radii and norms; FAST corners against flips, turns, brightness | `Relations/Radii.lean` (a pixel between, splitting the radius), `Relations/Corners.lean` (the ring turns with the image) |
| C183 | a constant added to the image, through gradients, seams, HOG, blur and Canny | `Relations/Offsets.lean`: kernels of total weight zero; loops that agree on reachable states |
| C184 | lines and polygons against the order of their points | `Relations/Drawing.lean`: the edge list up to permutation, reversal and edges without length |
| C185 | drawing commutes with moving | `Relations/Moves.lean`: every shape paints a set of positions, the sets move with the parameters; line iterators step in parallel |
| C186 | results shrink when parameters get stricter | `Relations/Stricter.lean`: monotonicity of the exact characterisations; counting argument for labels |
| C187 | steps, repetition and order do not matter | `Relations/Steps.lean`: every drawing call paints a fixed set of positions; bounds form of the intersection; loop splitting for seams |
| C188 | processing pieces of an image | `Relations/Pieces.lean`: clamped reads and clipped windows of a piece and of the whole agree away from inner sides; applied to the exact characterisations |
| C189 | values ignored when moving, channels separate when computing | `Relations/Channels.lean`: relational parametricity from the exact characterisations |
| C190 | statistics and line detection with `u32` counts, both build profiles | `Stats/Machine.lean`: bounded loops refine the exact loops, wrapping loops are their image modulo 2^32 |
| C191 | levels of matched histograms, matching twice, matching with the own histogram, in `f32` | `Float/MatchLevels.lean`: the level is a function of the source fraction alone; brightest pixel of each output level; gap of fractions against the rounding error |
| C192 | `approximate_polygon_dp`, `connected_components`, `suppress_non_maximum`, `threshold`, `flood_fill` on their own results | `Relations/Again.lean`: the first farthest point stays the first farthest among the kept points; two raster-ordered labellings of one partition agree by induction on raster order |
| C193 | `otsu_level` with `u32` counts and products in both build profiles | `Contrast/OtsuMachine.lean`, `Float/OtsuLarge.lean`: refinement of the C15 model while every level times its count fits; a banded 34-megapixel image evaluated from its three counts |
| C194 | `draw_polar_lines` in `f32` | `Float/PolarDraw.lean`: clipping (C152) followed by the line iterator (C118); the deviation of a pixel from the line is split along the chord and across it |
| C195 | `kapur_level`, `oriented_fast`, `canny` with `u32` areas in both build profiles | `Float/AreaM.lean`: refinement of C151, C135, C136 while the area fits; quotients of at least one never pass the Kapur test; a search that starts outside the image finds nothing |
| C196 | `flood_fill_mut` with `i32` coordinates in both build profiles | `Drawing/FillMachine.lean`: refinement of C44 with bounds on every stack entry; seeds beyond column `2^31` |
| C197 | `find_vertical_seam`, `shrink_width` with `u32` path energies in both build profiles | `Seam/Machine.lean`: table lemma generic in the sum, gradients at most 1442, exact debug panic condition, wrapped table of release builds, a 2 x 4210753 witness |
| C198 | `enumerate_haar_features`, `number_of_haar_features` for all `u8` frames in both build profiles | `Haar/Release.lean`: block sizes wrap to an empty range, exact release list, count for all `u8` frames |
| C199 | `number_of_haar_features` for all `u32` sizes in both build profiles | `Haar/Count.lean`: cardinality of the set of features in the frame, wrapped intermediates agree modulo 2^31, exact debug condition, thresholds 258/259 for square frames |
| C200 | `evaluate` on `integral_image` and `integral_squared_image` with `u32`/`i32` arithmetic in both build profiles | `Haar/Wide.lean`: terms modulo 2^32, signed sum wrapped into `i32`, bounds from the feature area, two witnesses |
| C201 | `gaussian_noise` on any number of channels with `f64` samples, infinities and NaN | `Noise/Double.lean`: one loop invariant, monotone rounding between neighbouring integers |
| C202 | `crop`, `replace`, `overlay` on `u32` coordinates in both build profiles | `Compose/Machine.lean`: the last column before 2^32 is never inside, so wrapped sums are caught by the pixel access; wrapped pastes have an empty range |
| C203 | `canny` on `u32` sizes in both build profiles, empty and very large images | `Edges/Machine.lean`: a wrapped neighbour is outside every image, hence both profiles panic there; loops with a wrapped bound are empty or fail at once |
| C204 | `horizontal_filter` in `i32`, both build profiles, widths up to 2^32 | `Filter/Wide.lean`: two wrapping steps cancel as long as the result fits; a wrapped column is negative and passes the upper limit |
| C205 | `vertical_filter` in `i32`, both build profiles, heights up to 2^32 | `Filter/Tall.lean`: as C204, over rows |
| C90 | `phash` | linearity of the transform, invariance |
| C91 | HoG cell histograms | interpolation weights |
| C92, C113 | polar lines | case analysis on the four edges |
| C93-C95 | contours against cracks between pixels | border = orbit of the tracing step |
| C96 | `kapur_level` | entropy identities over ℝ |
| C97, C98 | ellipses | midpoint decision variable |
| C99-C101 | outlines, Bezier curves | on top of C42/C43 |
| C102 | `weighted_sum`, `interpolate` | arithmetic |
| C103 | sharpening | on top of C37 and C88 |
| C104, C110 | arc length, smallest rectangle | real plane geometry |
| C105 | norms | Euclidean space |
| C107-C109 | oriented FAST | sorting, moments |
| C111 | text | list loop over glyphs |
| C112 | comparison helpers | on top of C79 |
| C114 | `render_hist_grid` | FALSE; exact result |
