{
"C01": ["proved", "Any history of root/find/union/trees calls; termination and in-bounds access included."],
"C02": ["proved", "Number of trees = number of classes for every history, with per-step change."],
"C03": ["proved", "Listing is a partition of 0..n into the classes."],
"C04": ["proved", "Both connectivities, any pixel type, whenever a result is returned."],
"C05": ["proved", ""],
"C06": ["partial", "False of the code: panics when every pixel is its own region (C06_negation); exact failure condition proved (C06_fails_iff)."],
"C07": ["proved", "Membership characterisation and exactness of the intersection, any signed position."],
"C08": ["proved", "Any rectangle/canvas; canvas with a zero side reported separately (C08_empty_canvas_panics)."],
"C09": ["proved", "Any commutative-monoid accumulator, so any number of channels and the squared variant."],
"C10": ["proved", "Checked 32-bit additions: exact whenever twice the image total fits; with wrapping release arithmetic exact whenever the rectangle total fits; a fitting rectangle whose intermediate a+d overflows is exhibited. Variance over exact rationals."],
"C100": ["proved", "vertices with integer coordinates; f32 arithmetic exact"],
"C101": ["proved", "f32 arithmetic exact; the square root is a parameter with sqrt x >= 24 for x >= 800"],
"C102": ["proved", "f32 arithmetic exact"],
"C103": ["proved", "i32 arithmetic exact; for sharpen_gaussian f32 arithmetic exact and the Gaussian samples are arbitrary nonnegative numbers"],
"C104": ["partial", "false of the code for closed arcs of two points, whose closing edge is not counted (C104_negation); exact otherwise, over the real numbers"],
"C105": ["proved", "over the real numbers"],
"C106": ["proved", "over the real numbers; non-empty images"],
"C107": ["proved", "Scores and FAST-9 corners are characterised by C65/C66. The orientation value is given exactly by C108_sums_exact."],
"C108": ["partial", "True for corners at least 15 pixels from the left and upper border (C108_orientation_partial, over the reals with Complex.arg for atan2). C108_sums_exact gives the computed moments for every pixel: they are taken about (max x 15, max y 15). C108_negation shows a pixel next to the left border whose moment points the wrong way."],
"C109": ["partial", "Proved for at least one wanted corner and at least 1000 pixels (exact arithmetic for the f32 fraction). C109_automatic_exact says when the index is out of bounds; C109_negation: target 0 always panics; C109_negation_small: 20 x 20 images panic."],
"C11": ["proved", "Row and column, any padding, plus the rejecting conditions."],
"C110": ["partial", "C110_least_partial: before rounding the rectangle contains all points and is least over all rectangles in all directions, except when the least one lies along the edge from the last to the first hull vertex, which the code never tries. C110_labels: which corners are returned and how they are rounded. C110_collinear, C110_empty: degenerate inputs. C110_near: after rounding every point is less than one pixel per coordinate away from the returned quadrilateral. C110_unsigned_negation: with u32 coordinates the call panics when a corner is rounded to a negative number. C110_negation: a triangle where a vertex lies outside the result and a smaller rectangle exists."],
"C111": ["proved", "The font (ab_glyph) is an arbitrary parameter; f32 values are rationals and i32 shifts do not overflow. Also shows that kerning never moves the second glyph of a text (C111_kerning_negation): it is added after placing, with swapped arguments."],
"C112": ["proved", "The message text (describe_pixel_diffs) is not modelled."],
"C113": ["partial", "Coverage fails for the lines that C92 shows are cut down to a corner (C113_negation); everything else holds for all inputs."],
"C114": ["partial", "Only the size holds: every star is drawn over the whole image (SubImage::inner_mut is the underlying image), so only the last cell is visible; C114_exact characterises the result and C114_last_cell_only refutes the claim."],
"C115": ["proved", "Over the real numbers: atan2, exp, sqrt and hypot are exact; f32 rounding is not modelled."],
"C116": ["proved", "single-precision rounding modelled (Verif.Float); C116_scharr_negation: with the Scharr kernels an 8-bit image gives a magnitude one too large, so exactness does not extend to them"],
"C117": ["partial", "single-precision rounding modelled. C117_equal_negation: interpolate(255,255,0.008) is 254, so equal inputs may be darkened by one; proved: never above the larger input, at most one below the smaller, within 1+2^-14 of the exact mean and exactly its whole part unless it is within 2^-14 of an integer, weights 0 and 1 exact, monotone"],
"C118": ["proved", "single-precision rounding modelled; C118_rounding_matters shows that fractional end points can give pixels different from exact arithmetic"],
"C119": ["partial", "single-precision rounding modelled, exp a parameter. C119_negation: sigma 0.5 turns every constant image of value 178 into 176, so 'never darker' and 'constant unchanged' are false; proved: accuracy of each pass, never brighter than the maximum, at most two levels below the minimum (attained), monotone"],
"C12": ["proved", "Any number of channels."],
"C120": ["proved", "Single-precision model of the whole function. C120_negation shows that exactness fails beyond 65536 pixels: in an image of 132854 pixels the level 253 becomes 254."],
"C121": ["proved", "Single-precision model of the whole function, including the rounded distances of the lookup table."],
"C122": ["partial", "Accuracy, exactness, zero iff match, perfect match scores exactly 1, pointwise monotonicity and bit-equality of the parallel versions are proved for all inputs. Two parts of the statement are false for templates of more than 258 pixels: C122_negation (264 pixels: an imperfect patch scores 1 + 2^-22, above the perfect match) and C122_negation_order (278 pixels: a farther patch gets a smaller squared-difference score). C122_best_partial proves the bound up to 258 pixels. powi(2) is modelled as one rounded multiplication."],
"C123": ["proved", "binary64 rounding of every operation in the 1-d transform and of the square root; the model of C32 is parametrised by the rounding function. Infinities and NaN of the envelope are represented as in C32."],
"C124": ["partial", "accuracy and range proved for all inputs; exact preservation of constants is false (negation with a whole family of witnesses), the range theorem is one-sided by one level"],
"C125": ["proved", "all images; NaN for empty images is outside the model"],
"C126": ["partial", "sign and accuracy proved for all inputs; non-negativity fails for large constant regions (negation)"],
"C127": ["partial", "exact when len*2*B^2 <= 2^53, error bound in general; a triangle with coordinates near 2^31 and area 1/2 gets area 0"],
"C128": ["partial", "Nearest: always safe. Bilinear: safe for non-empty images. Bicubic: safe at non-NaN positions up to 16777221 rows and with two columns also at NaN; false otherwise: out-of-bounds read for one-column images with a NaN coordinate (C128_negation_nan), for empty images (C128_negation_empty), panic for 16777222 rows (C128_negation_tall)."],
"C129": ["partial", "Proved up to 8388608 columns and rows (nearest) and 16777216 (bilinear, bicubic); false for wider images (C129_negation)."],
"C13": ["proved", "Least intensity, monotone in p; rejection for p>100 and for the empty image."],
"C130": ["partial", "Accuracy proved; bilinear values can fall up to two levels below the surrounding pixels (C130_negation) and never further, never above."],
"C131": ["partial", "votes are close and none is lost; horizontal lines right of the diagonal are reported one pixel too high (the unit test expects this)"],
"C132": ["partial", "Equality with exact arithmetic is false for half-way crossings (C132_negation); proved without them for 5*W*H < 2^24 (C132_exact_partial). Rule, bounding box, closeness and locality are proved for all polygons with bounded coordinates."],
"C133": ["partial", "The smallest level of maximal variance is not always returned (C133_negation); proved with a gap of 2^-41 (C133_exact_partial). Near-optimality, separation, constant and two-level images are proved for all images."],
"C134": ["proved", "atan2 is a parameter with an accuracy assumption; overflow to infinity is not modelled (entries are below 2^14 for cells up to 724 pixels). C134_hog, C134_histogram, C134_position, C134_at_most_one, C134_unit."],
"C135": ["partial", "FALSE for few corners in a large image: with 2^25 or more pixels per corner asked for, 1 - fraction rounds to 1 and the read of sample 1000 panics (C135_negation; e.g. one corner of an 8192 x 4096 image). With at most 2^25 - 16 pixels per corner and at least 1000 pixels the full claim holds (C135_automatic_partial). Samples are arbitrary parameters."],
"C136": ["proved", "atan2 and hypot are parameters assumed correctly rounded on whole numbers up to 1020; C136_sharp shows that an atan2 within one unit in the last place is not enough. The result is relative to the blurred image of C119. C136_sector, C136_canny, C136_whole, C136_flat."],
"C137": ["partial", "positions accurate for every angle, full turns exact; agreement with rotate180/rotate90/rotate270 is false: the result is shifted by one pixel (negation, exact description of half and quarter turns)"],
"C138": ["partial", "position within k(M+3)/2^24 of the exact line after k steps, weights correct for positions that are not negative, dyadic slopes exact; false in general: long shallow lines far from the origin never leave their row (end point missed by ten rows), and rounding below zero gives negative weights (negations)"],
"C139": ["partial", "Accuracy, amount 0 and the panic are proved; constant regions are not kept: sigma 0.5 and amount 1 turn value 5 into 4 (C139_negation); for amounts between -1 and 1 a constant region keeps its value or loses exactly one level (C139_flat_partial)."],
"C14": ["proved", "Under twice the image total < 2^32 (checked u32); block specified as Chebyshev ball clipped to the image."],
"C140": ["partial", "The rounded end point is reached when its coordinates are integers, not in general: N * (1/N) can be below one in f32, so that the curve from (0,0) to (327.5,0) with both control points at (0,0) stops at pixel 327 although 327.5 rounds to 328 (C140_negation). Everything else is proved (C140_bezier_partial). The square root is any function with relative error 2^-20 on the square."],
"C141": ["partial", "Placement and size hold for all sizes up to 2^22 (C141_fits). Positive size is false: an image more than about twice as many times wider than high as the window has columns is scaled to height zero (C141_negation, C141_height)."],
"C142": ["proved", "The message is modelled as the information it shows. An empty list panics (C142_empty); the comparison macros never pass one."],
"C143": ["proved", "Error accounting of px, py and p; the invariants of C97 hold with a tolerance that does not accumulate."],
"C144": ["partial", "False as stated: a second close event for the same window is counted again and ends the display while other windows are open (C144_negation). Proved: the exact condition for returning (C144_returns), the claim if no window is closed twice (C144_ends_partial), never too late (C144_not_late), visibility and painted sizes (C144_windows). Events and window identifiers are arbitrary parameters; SDL itself is not modelled."],
"C145": ["partial", "False as stated: with coordinates around 10^8 (valid i32) and tolerance 1/2 the recursion never ends (C145_negation; C145_diverges for every two-point curve with that rounding error). Proved for integer coordinates up to 2^25: termination, order, end points and the tolerance up to a relative error of 2^-50 (C145_integer_partial), and which points are kept (C145_kept). powf(2.0) is taken to be the correctly rounded square."],
"C146": ["proved", "powf(2.0) is taken to be the correctly rounded square, sqrt is correctly rounded. Whether the closing edge belongs to the length is C104."],
"C147": ["partial", "nearest neighbour: proved for enlarging and reducing; bilinear: false for some factors (factor 41 turns 255 into 254, C147_negation); exact integer formula proved for factors that are powers of two up to 256"],
"C148": ["proved", "position accuracy, nearest-neighbour pixels, points at infinity, agreement with the affine path"],
"C149": ["partial", "false in general: a singular matrix of three-digit whole numbers is accepted (C149_negation); proved for whole entries up to 128 with corner entry 1, and that every singular affine matrix is rejected"],
"C15": ["proved", "Exact arithmetic; images with 255*pixels < 2^32. The u32 overflow beyond is exhibited (C15_large_image_overflows)."],
"C150": ["partial", "false as stated: if all coefficients equal 0.1 every bit is set although none exceeds the mean (C150_negation); proved for every coefficient further than M/2^16 + 2^-140 from the exact mean, M the largest coefficient in absolute value, and exactly for whole coefficients (C150_whole)"],
"C151": ["proved", ""],
"C152": ["partial", "The end points are always on the boundary and within the bound of the line (C152_points). The existence of the segment and its accuracy hold when no corner is within (w + h) / 2^21 of the line (C152_clear_partial). For lines through a corner the claim is false of the code: a line that crosses 930 columns and 604 rows of a 3776 x 604 image gives None, and the main diagonal of a 102 x 102 image at 135 degrees collapses to the point (0, 0) (C152_negation)."],
"C153": ["proved", "C153_near: containment up to rounding. C153_least: area. C153_axis: axis-parallel rectangles are exact. atan2, sin and cos are parameters with assumed accuracy (GoodTrig), satisfiable by goodTrig_exists."],
"C154": ["partial", "False in general: cross products overflow i32. Proved exact in both build profiles when points are at most 46340 apart in each coordinate (C154_hull); at 46341 debug builds panic and release builds return the vertices in the wrong direction (C154_negation)."],
"C155": ["partial", "False for rectangles reaching the end of the i32 range (C155_negation). Proved: exactly which rectangles have correct right and bottom coordinates in debug and release builds (C155_corner); for these membership, intersection and filling are exact; outlines are exact up to 2^22; f32 membership is exact up to 2^24 and off by at most 2^-24 relative beyond."],
"C156": ["partial", "False in general (C156_negation). Proved: outlines are exact in both build profiles when the four extreme points are in the i32 range and the radius is at most 2^30 - 4 (C156_hollow); debug builds panic when an extreme point leaves the range (C156_panics); discs are exact up to 2^22 (C156_filled)."],
"C157": ["partial", "false of the code: adaptive_threshold panics in debug builds on a white 3000x3000 image and release builds misclassify with radius 2052 (C157_negation). Proved: with overflow checks the table is built iff the total fits the accumulator, and is then exact; without, it is exact modulo the accumulator range; release builds threshold exactly for radii up to 2051, debug builds while twice the image sum fits 32 bits; exact condition for the panic at the last block"],
"C158": ["partial", "false of the code: radius u32::MAX makes release builds keep the top left pixel only (or return dominated points) and debug builds panic (C158_negation, C158_max_radius). Proved: release builds are exact for every other radius, debug builds while size plus radius fits 32 bits, with the exact condition for a panic beyond that; local_maxima is the C30 algorithm while coordinates plus radius fit"],
"C159": ["partial", "False for very large radii: witnesses C159_negation, C159_box_single, C159_median_single. Exact ranges C159_box and C159_median; panics C159_box_panics and C159_box_debug_panics. Median kernels of 2^32 pixels and more are outside the release model."],
"C16": ["partial", "False of the code: ToZero and ToZeroInverted are swapped with respect to the enum documentation (C16_negation, C16_swapped); proved for the other three modes."],
"C160": ["partial", "False as stated (C160_negation). C160_cast is the exact characterisation; C160_total and C160_fits give the sizes without failure, C160_panics the failing ones."],
"C161": ["partial", "False as stated (C161_negation, C161_panics, C161_vertical, C161_flat). C161_hollow and C161_filled: no overflow for radii adding up to at most 23000, where C143 applies (radii up to 512)."],
"C162": ["partial", "False of the code in debug builds: y + sy and x + sx are checked i32 additions, so centres with y = i32::MIN or i32::MAX panic, and x at either end panics when one of the three rows meets the image (C162_panics gives the exact condition, C162_negation two witnesses). Release builds are right for every i32 centre (C162_release); away from the panics debug and release agree (C162_debug)."],
"C163": ["partial", "False of the code: y as i32 - ty overflows for ty < height - 2^31. Debug builds panic exactly then (C163_panics), release builds fill the overflowing rows from the top row instead of the bottom row (C163_release gives the exact result for every shift, C163_negation a witness). For ty >= height - 2^31 and every tx both builds are right (C163_partial)."],
"C164": ["partial", "False of the code: the position is an i32 compared with x > end_x, so if the larger end on the major axis is 2^31 - 1 or more (after the saturating cast end_x = i32::MAX) release builds never end and debug builds panic on overflow. C164_terminates: release builds end exactly below that bound; C164_panics; C164_negation: i32::MAX as f32 is such an end point. C164_partial: up to 2^29 both builds yield exactly the points described by C118."],
"C165": ["partial", "False of the code in debug builds: x + bb.min.x.round() as i32 and gx as i32 + x_shift are checked additions, so a text whose glyphs reach past the end of the i32 range panics although it is off the image (C165_panics, C165_negation); if no coordinate leaves the range the result is that of C111 (C165_debug). Release builds are right for every position (C165_release)."],
"C166": ["partial", "proved for all images whose first column holds no foreground; false otherwise: a single pixel in the first column is reported as a Hole and there is no Outer contour (C166_negation)"],
"C167": ["partial", "proved for all images whose first column holds no foreground; false otherwise: an object to the right of one that touches the left edge is reported as lying in a hole of it, and the hole of a ring at the left edge has no parent (C167_negation, C167_negation_hole)"],
"C168": ["partial", "proved for all images whose first column holds no foreground; false otherwise: a single pixel in the first column is one component and no Outer contour (C168_negation)"],
"C169": ["proved", "for every increasing map of grey values; median for all radii"],
"C17": ["proved", "All u8 bounds; no u16 overflow."],
"C170": ["proved", "grayscale for all images and masks, binary for all images, norms and radii up to 255"],
"C171": ["partial", "proved for radii up to 254 that for L1 and LInf are also below width + height; false otherwise: an empty image dilated by radius 255 or by a radius of at least width + height turns white in the binary version and stays black in the grayscale one (C171_negation)"],
"C172": ["proved", "adaptive_threshold under the condition of C14 that the pixel sum fits; flood fill with a colour other than the seed's"],
"C173": ["proved", "fill colour and background colour differ from the seed's colour"],
"C174": ["proved", "points that are all equal give one or two copies of the point, see C54_degenerate"],
"C175": ["proved", "levels in exact and in double-precision arithmetic, equalisation in exact and in single-precision arithmetic"],
"C176": ["proved", "equalisation in exact and in single-precision arithmetic; matching in exact arithmetic"],
"C177": ["proved", "in exact arithmetic, images below 2^32 / 255 pixels"],
"C178": ["partial", "true of filter (exact arithmetic) and median_filter; false of box_filter under quarter turns (it rounds down after the horizontal pass): C178_box_negation; flips are proved"],
"C179": ["partial", "false for gradients with the 2 by 2 Roberts kernels (C179_roberts_negation); proved for Sobel, Scharr, Prewitt and the Laplacian"],
"C18": ["proved", "Exact arithmetic instead of f32."],
"C180": ["proved", "flips change the least rotation of some patterns (C180_flip_differs)"],
"C181": ["partial", "false for L2 (only containment, C181_dilate_l2) and on images without foreground (background for erosion): C181_negation; proved for L1 and LInf otherwise"],
"C182": ["partial", "false for FAST-12 under quarter turns (C182_negation); proved for FAST-9, and for FAST-12 under flips and half turns; brightness parts proved for both"],
"C183": ["proved", "gradients and HOG in single precision; the Gaussian blur and with it Canny in exact arithmetic"],
"C184": ["partial", "false in single precision for the orientation of filled polygons whose edges cross a row half-way between two columns (C184_negation); proved in exact arithmetic, for other starting vertices in single precision, and for small polygons without such rows (C184_orientation32_partial)"],
"C185": ["partial", "false for filled polygons with vertices left of column 0: crossings half-way between two columns are rounded away from zero (C185_negation); proved for all other shapes, and for polygons with non-negative columns in exact arithmetic"],
"C186": ["proved", "canny also in single precision; suppression twice equals once; 8-connected labels never exceed 4-connected ones"],
"C187": ["proved", "drawing functions in their overwriting form; shifts of opposite directions lose what left the image (example)"],
"C188": ["proved", "Gaussian blur and gradients in single precision; adaptive threshold for images whose integral image fits u32 (C157), binary morphology for the radii of C33"],
"C189": ["proved", "the bilateral filter and gradient images mix channels by design and are not claimed"],
"C19": ["proved", "Exact arithmetic instead of f32; optimal over all 256 levels."],
"C190": ["partial", "false of the code for images whose counts exceed u32; proved exactly when the counts fit, with the exact effect otherwise"],
"C191": ["partial", "idempotence proved without restriction; levels of the target and fixing an image by its own histogram are false in general, with negations, the exact range of levels, and a proof for at most 2^24 pixels"],
"C192": ["partial", "proved for open curves (exact, and f64 for integer coordinates up to 2^25), label images, unsigned suppression and four threshold types; false for closed curves, signed images, the inverted binary threshold and flood fill, with negations"],
"C193": ["partial", "false for images whose products do not fit in u32: exact condition for the panic of debug builds and a wrong level of a release build proved; proved for all images that fit"],
"C194": ["partial", "coverage is false near the corners: a lost line proved; proved for lines clear of the corners; pixels, totality and nearness hold for all lines"],
"C195": ["partial", "false from 2^32 pixels on: exact panics of debug builds, a wrong release level and a release panic proved; proved for images that fit, and for Canny in release builds for all images"],
"C196": ["partial", "false for images of more than 2^31 columns: unfilled seed and debug panic proved; exact region proved for images that fit"],
"C197": ["partial", "false for images of millions of rows: exact condition of the debug panic and a wrong release seam proved; proved for all images whose energies fit; release seams connected for all images"],
"C198": ["partial", "false for frames with a side of 255: debug panic and the exact release list proved, and that it is shorter than the count; proved for all sides below 255"],
"C199": ["partial", "false for frames of common image sizes: exact debug condition and release value (number modulo 2^32) proved for all sizes; proved for all counts that fit"],
"C20": ["proved", "Any pixel type."],
"C200": ["partial", "false for integral images of squares: release value (signed sum wrapped into i32) proved for all images and features, debug equals the checked evaluation of C63, witnesses for both profiles; proved for values and for features of at most 33025 pixels"],
"C201": ["partial", "exact truncation is false by f64 rounding (witness proved); proved: sample order, value up to rounding with the exact condition, special values, exactness for fixed point samples"],
"C202": ["partial", "false in release builds for empty rectangles with a wrapping edge and for offsets plus sizes of 2^32 or more (witnesses proved); proved: non-empty rectangles in both profiles, exact acceptance of empty ones, exact effect of overflowing pastes"],
"C203": ["partial", "false for most images without pixels and, in debug builds, for 2^32 or more pixels (witnesses proved); proved: exact behaviour on all empty images and equality with the C115 detector on all others"],
"C204": ["partial", "false for widths around and beyond 2^31 (negation, out-of-bounds read and exact result proved); proved: equality with the filter on unbounded coordinates whenever the columns asked for fit, exact release result beyond 2^31 columns, panics"],
"C205": ["partial", "false for heights around and beyond 2^31 (negation, out-of-bounds read and exact result proved); proved: equality with the filter on unbounded coordinates whenever the rows asked for fit, exact release result beyond 2^31 rows, panics"],
"C21": ["proved", "Any pixel type and size, including empty and odd sizes."],
"C22": ["partial", "False of the code: the last row and column of the bottom image are never written (C22_negation); exact behaviour proved (C22_replace_exact)."],
"C23": ["partial", "False of the code: the source pixel is read from the bottom image (C23_negation, C23_ignores_top); exact behaviour proved (C23_overlay_exact)."],
"C24": ["proved", "Any translation, any non-zero width."],
"C25": ["partial", "Composition and inversion proved for all classes and mixtures for every projection whose class is exact (translate/rotate/scale, products, inverses, and from_matrix when no entry lies within the 1e-10 classification tolerance of 0 or 1 without being equal). For entries inside the tolerance the statement is false in exact arithmetic (C25_negation_tolerance)."],
"C26": ["partial", "False of the code: small-determinant invertible matrices are rejected and matrices with zero corner entry or zero leading minor give non-finite entries (C26_negation). Exact conditions for acceptance and rejection proved."],
"C27": ["partial", "Proved for nearest neighbour. False for bilinear (last row/column default) and bicubic; exact regions proved."],
"C28": ["proved", ""],
"C29": ["proved", "Values in any linear order; the u32 additions x + radius + 1 are modelled without overflow."],
"C30": ["partial", "False of the code: the last occupied row is never examined (C30_negation). Exact result proved for all inputs (C30_local_maxima_exact)."],
"C31": ["proved", "Both norms, totality included; the no-foreground value is characterised as well."],
"C32": ["proved", "Exact arithmetic (rationals with infinities); any stale envelope state."],
"C33": ["partial", "False as stated: an image without foreground (background) becomes white (black) once k >= min(w+h,255) for L1/LInf, and k = 255 always whitens (blackens) everything. Exact characterisation for all inputs proved; claim proved for k < 255 and, for L1/LInf, k < w + h."],
"C34": ["proved", "Zero-width images with a non-empty mask panic (C34_zero_width)."],
"C35": ["partial", "False for masks that are not symmetric (C35_negation). Monotonicity proved for all masks; idempotence and one-sidedness proved for symmetric masks, which include every square, diamond and disk mask."],
"C36": ["proved", "All radii up to 255, including the assertions of Mask::new."],
"C37": ["proved", "Also holds for rounding arithmetic: the spec is the left-to-right sum; the semiring version is a double sum."],
"C38": ["proved", "Dimensions below 2^31. Any type with 0, + and *."],
"C39": ["proved", "Windows below 2^31 entries; C39_overflow shows the u32 kernel size overflows from 2^32 entries on."],
"C40": ["proved", "u32 overflow of the running sums is not modelled (needs more than 2^32/255 columns)."],
"C41": ["partial", "False for radius >= 91: the i16 table index overflows and the call panics (C41_large_radius). Proved for radius <= 90."],
"C42": ["proved", "bresenham over unbounded integers; C42_bresenham for integer end points, C42_real for arbitrary rational ones"],
"C43": ["proved", "draw_line_segment_mut writes exactly the in-image points; the pixel iterators' clamping is characterised separately"],
"C44": ["partial", "proved for every fill colour different from the seed's colour, with an explicit bound on the number of rounds; with an equal colour the loop need not terminate (C44_negation)"],
"C45": ["proved", "criterion stated with real-number midpoints"],
"C46": ["proved", ""],
"C47": ["partial", "filled polygon = even-odd scanline interior plus its edges; a polygon with a single vertex draws nothing (C47_negation)"],
"C48": ["partial", "weights lie in [0,1] and sum to one when the ideal minor coordinate is not in (-2,-1) or (-1,0); otherwise C48_negation"],
"C49": ["proved", "Any centre, on or off the canvas."],
"C50": ["partial", "every kept pixel is 8-connected to a strong one and the exact kept set is characterised; pixels joined only by a step up or up-right are dropped (C50_negation)"],
"C51": ["proved", "Totality of the scan including every trace (the tracing step is an injective map of a finite set, so each trace returns to its first two points); at most one contour per pixel."],
"C52": ["proved", "Closed chains of touching foreground pixels, parents earlier and of the opposite type, start pixel of the right kind."],
"C53": ["partial", "As stated it is false (1x1 image; more generally regions consisting of complete rows). Proved: exactly the regions with a background pixel of the image directly left or right of one of their pixels have a contour through them, in particular every region containing a pixel of a row with some background; no foreground gives no contours."],
"C54": ["proved", "Exact integer arithmetic; the standard library sort is modelled by insertion sort with the same comparator."],
"C55": ["proved", "Exact arithmetic over any ordered field."],
"C56": ["partial", "Exact ordered-field arithmetic. Proved in full for curves without repeated points; in general the error bound fails when two retained neighbours coincide (C56_negation)."],
"C57": ["proved", "Over any ordered field; the sine/cosine hypotheses are shown to hold of the real functions for 0..179 degrees."],
"C58": ["proved", "Any sine/cosine table and cast; for tables of points in the unit disc and non-expanding casts no vote is lost. Bucket 0 is shown to be twice as wide as the others."],
"C59": ["partial", "Connectedness, energy table and end point of the seam are proved; minimality of the seam is false (C59_negation, a 2x2 image) and characterised exactly by C59_minimal_iff."],
"C60": ["proved", "Shrinking needs at least one row and target width at least 1; other targets panic (C60_shrink_reject)."],
"C61": ["partial", "False when an earlier removed column lies between a seam position and its original column (C61_negation); exact condition in C61_exact."],
"C62": ["partial", "Tables, transitions and rotations are proved for every byte; the pattern's bit order is the opposite of the documented one (C62_negation), C62_pattern_partial states the actual order."],
"C63": ["proved", "8-bit source images; includes absence of i32/u8 overflow and of out-of-bounds reads, and agreement with the drawn colours."],
"C64": ["proved", "Defined for sides up to 254; sides of 255 overflow in the enumeration (C64_defined), while the closed form is still representable."],
"C65": ["partial", "FAST-9 decides exactly the documented condition; FAST-12 is sound but its quick rejection test misses arcs not containing both the top and bottom pixel (C65_negation); exact characterisation proved."],
"C66": ["proved", ""],
"C67": ["proved", "Exact arithmetic (the code sums in f32). Includes the masked and parallel variants, and the equality case of the Cauchy-Schwarz bound."],
"C68": ["partial", "The reported location is first in raster order, not lexicographically smallest as documented: C68_negation gives a 2x2 witness; C68_extremes_partial proves everything else, C68_single the documented order for one-row/column images. NaN excluded (linear order)."],
"C69": ["proved", "BitVec 64 model of all bit operations."],
"C70": ["proved", "Index-level model of the in-place loop on the row-major buffer."],
"C71": ["partial", "False as stated: the shift after each comparison drops the first test of every group of 128 (C71_negation: two images with different outcomes and equal descriptors). C71_bits_partial / C71_differences_partial prove it for all other tests; averages, errors, distance and bit subsets are exact."],
"C72": ["partial", "Pairs and threshold proved for all random choices (C72_pairs, C72_brief). At-most-once is false when the first list is longer because the roles are exchanged (C72_negation); C72_once_partial proves it otherwise and for the second list. Also: best among colliding candidates, exact duplicates always matched."],
"C73": ["proved", "Flat-buffer model; rayon schedules are arbitrary orders of the per-pixel work."],
"C74": ["partial", "False of the code: images of different sizes are combined without panicking whenever w1 <= w2 and h2 <= h1 (C74_panics_iff, C74_negation). The equal-size half is proved."],
"C75": ["proved", "Floats over exact rationals; NaN not modelled."],
"C76": ["proved", "Exact integer arithmetic; the f32 rounding of the magnitude is outside the model. For the 2x2 Roberts kernels the mirroring is rotation by 180 degrees."],
"C77": ["partial", "Accepted options are characterised exactly (C77_accept_iff); blocks lie inside the grid, end at the last cell, descriptor has the announced length and layout, blocks are unit vectors. The last clause is false: blocks larger than the grid, zero stride and zero cell side panic (C77_negation; exact set in C77_panic), and zero orientations are accepted but panic later (C77_zero_orientations)."],
"C78": ["partial", "Unchanged/black/white and size proved for all streams and rates; 'rate 0 changes nothing' is false if the stream yields the sample 0 (C78_negation_rate_zero), proved otherwise."],
"C79": ["proved", ""],
"C80": ["proved", ""],
"C81": ["proved", "Exact arithmetic instead of f64."],
"C82": ["proved", "The SVD solver is not modelled: its answer is a parameter assumed to satisfy the equations."],
"C83": ["proved", ""],
"C84": ["proved", "Single channel; channels are processed in storage order, so n channels behave as an image of n times the width."],
"C85": ["proved", ""],
"C86": ["proved", ""],
"C87": ["partial", "False for narrow pixel types because the intermediate image is clamped (C87_negation); proved when the pixel type is exact."],
"C88": ["proved", "Exact arithmetic; C88_gaussian_weights gives the weights for the real exponential, the other theorems hold for any non-negative weight function positive at 0."],
"C89": ["proved", "gradient images, hypot and angle sectors are parameters; C115 instantiates them"],
"C90": ["proved", "Exact arithmetic; resize and the 1-D transform are parameters, and the invariance is also instantiated with the real type-2 cosine transform."],
"C91": ["proved", "Exact arithmetic over an ordered field; gradient magnitudes and directions are parameters (real instance in C77_hog_real)."],
"C92": ["partial", "Holds when the two points differ, and they coincide only at a corner; fails for lines entering through the top edge and leaving through a bottom corner (C92_negation)."],
"C93": ["proved", ""],
"C94": ["partial", "False when foreground touches both the first and the last column (witness). Proved for every image without foreground in the last column and for every image without foreground in the first column."],
"C95": ["partial", "Points = pixels of one border and no border twice are proved for all images; that every border is returned is proved for images without foreground in the first or without foreground in the last column (false otherwise, see C94_negation)."],
"C96": ["proved", "Exact reals with Real.log instead of f64; rounding of the cumulative probabilities is outside the model."],
"C97": ["partial", "Everything proved except that the tip is reached exactly when a < 8 b^2 (Quadrant.tip); for flatter ellipses the tips are missing (C97_negation). Exact arithmetic."],
"C98": ["partial", "Exact set and coverage proved; pixels near the tips of the central row are missed when a >= 8 b^2 (C98_negation)."],
"C99": ["proved", "i32 overflow of the rectangle corners not modelled"]
}
