{
 "claims": [
  {
   "property": "C01",
   "status": "proved",
   "theorems": [
    "Verif.UnionFind.C01_find_iff_equivalent",
    "Verif.UnionFind.C01_root_representative",
    "Verif.UnionFind.C01_rejects_invalid"
   ],
   "note": "Any history of root/find/union/trees calls; termination and in-bounds access included."
  },
  {
   "property": "C02",
   "status": "proved",
   "theorems": [
    "Verif.UnionFind.C02_numTrees_eq_classes",
    "Verif.UnionFind.C02_numTrees_new",
    "Verif.UnionFind.C02_numTrees_step"
   ],
   "note": "Number of trees = number of classes for every history, with per-step change."
  },
  {
   "property": "C03",
   "status": "proved",
   "theorems": [
    "Verif.UnionFind.C03_trees_partition"
   ],
   "note": "Listing is a partition of 0..n into the classes."
  },
  {
   "property": "C04",
   "status": "proved",
   "theorems": [
    "Verif.Regions.C04_labels_iff_connected"
   ],
   "note": "Both connectivities, any pixel type, whenever a result is returned."
  },
  {
   "property": "C05",
   "status": "proved",
   "theorems": [
    "Verif.Regions.C05_labels_raster_order"
   ],
   "note": ""
  },
  {
   "property": "C06",
   "status": "partial",
   "theorems": [
    "Verif.Regions.C06_fails_iff",
    "Verif.Regions.C06_total_partial",
    "Verif.Regions.C06_negation"
   ],
   "note": "False of the code: panics when every pixel is its own region (C06_negation); exact failure condition proved (C06_fails_iff)."
  },
  {
   "property": "C07",
   "status": "proved",
   "theorems": [
    "Verif.Drawing.C07_contains_iff",
    "Verif.Drawing.C07_intersect"
   ],
   "note": "Membership characterisation and exactness of the intersection, any signed position."
  },
  {
   "property": "C08",
   "status": "proved",
   "theorems": [
    "Verif.Drawing.C08_filled_rect",
    "Verif.Drawing.C08_empty_canvas_panics"
   ],
   "note": "Any rectangle/canvas; canvas with a zero side reported separately (C08_empty_canvas_panics)."
  },
  {
   "property": "C09",
   "status": "proved",
   "theorems": [
    "Verif.Integral.C09_integral_image"
   ],
   "note": "Any commutative-monoid accumulator, so any number of channels and the squared variant."
  },
  {
   "property": "C10",
   "status": "proved",
   "theorems": [
    "Verif.Integral.C10_sum_image_pixels",
    "Verif.Integral.C10_sum_image_pixels_wrapping",
    "Verif.Integral.C10_checked_add_can_overflow",
    "Verif.Integral.C10_variance"
   ],
   "note": "Checked 32-bit additions: exact whenever twice the image total fits; with wrapping release arithmetic exact whenever the rectangle total fits; a fitting rectangle whose intermediate a+d overflows is exhibited. Variance over exact rationals."
  },
  {
   "property": "C11",
   "status": "proved",
   "theorems": [
    "Verif.Integral.C11_row_running_sum",
    "Verif.Integral.C11_column_running_sum",
    "Verif.Integral.C11_rejects"
   ],
   "note": "Row and column, any padding, plus the rejecting conditions."
  },
  {
   "property": "C12",
   "status": "proved",
   "theorems": [
    "Verif.Stats.C12_histogram",
    "Verif.Stats.C12_histogram_total",
    "Verif.Stats.C12_cumulative_histogram"
   ],
   "note": "Any number of channels."
  },
  {
   "property": "C13",
   "status": "proved",
   "theorems": [
    "Verif.Stats.C13_percentile",
    "Verif.Stats.C13_monotone",
    "Verif.Stats.C13_rejects"
   ],
   "note": "Least intensity, monotone in p; rejection for p>100 and for the empty image."
  },
  {
   "property": "C14",
   "status": "proved",
   "theorems": [
    "Verif.Contrast.C14_adaptive_threshold",
    "Verif.Contrast.C14_rejects"
   ],
   "note": "Under twice the image total < 2^32 (checked u32); block specified as Chebyshev ball clipped to the image."
  },
  {
   "property": "C15",
   "status": "proved",
   "theorems": [
    "Verif.Contrast.C15_otsu",
    "Verif.Contrast.C15_otsu_zero",
    "Verif.Contrast.C15_large_image_overflows"
   ],
   "note": "Exact arithmetic; images with 255*pixels < 2^32. The u32 overflow beyond is exhibited (C15_large_image_overflows)."
  },
  {
   "property": "C16",
   "status": "partial",
   "theorems": [
    "Verif.Contrast.C16_documented_partial",
    "Verif.Contrast.C16_negation",
    "Verif.Contrast.C16_swapped"
   ],
   "note": "False of the code: ToZero and ToZeroInverted are swapped with respect to the enum documentation (C16_negation, C16_swapped); proved for the other three modes."
  },
  {
   "property": "C17",
   "status": "proved",
   "theorems": [
    "Verif.Contrast.C17_sample",
    "Verif.Contrast.C17_monotone",
    "Verif.Contrast.C17_stretch_contrast",
    "Verif.Contrast.C17_rejects"
   ],
   "note": "All u8 bounds; no u16 overflow."
  },
  {
   "property": "C18",
   "status": "proved",
   "theorems": [
    "Verif.Contrast.C18_equalize",
    "Verif.Contrast.C18_monotone_and_full"
   ],
   "note": "Exact arithmetic instead of f32."
  },
  {
   "property": "C19",
   "status": "proved",
   "theorems": [
    "Verif.Contrast.C19_match_histogram"
   ],
   "note": "Exact arithmetic instead of f32; optimal over all 256 levels."
  },
  {
   "property": "C20",
   "status": "proved",
   "theorems": [
    "Verif.Compose.C20_crop",
    "Verif.Compose.C20_rejects",
    "Verif.Compose.C20_crop_crop"
   ],
   "note": "Any pixel type."
  },
  {
   "property": "C21",
   "status": "proved",
   "theorems": [
    "Verif.Compose.C21_flip_horizontal",
    "Verif.Compose.C21_flip_vertical",
    "Verif.Compose.C21_rotate180",
    "Verif.Compose.C21_rotate90",
    "Verif.Compose.C21_rotate270",
    "Verif.Compose.C21_flips_involutive",
    "Verif.Compose.C21_rotate180_eq_flips",
    "Verif.Compose.C21_rotate270_inverts",
    "Verif.Compose.C21_quarter_turns"
   ],
   "note": "Any pixel type and size, including empty and odd sizes."
  },
  {
   "property": "C22",
   "status": "partial",
   "theorems": [
    "Verif.Compose.C22_replace_exact",
    "Verif.Compose.C22_replace_partial",
    "Verif.Compose.C22_negation",
    "Verif.Compose.C22_rejects"
   ],
   "note": "False of the code: the last row and column of the bottom image are never written (C22_negation); exact behaviour proved (C22_replace_exact)."
  },
  {
   "property": "C23",
   "status": "partial",
   "theorems": [
    "Verif.Compose.C23_overlay_exact",
    "Verif.Compose.C23_uncovered_partial",
    "Verif.Compose.C23_ignores_top",
    "Verif.Compose.C23_negation"
   ],
   "note": "False of the code: the source pixel is read from the bottom image (C23_negation, C23_ignores_top); exact behaviour proved (C23_overlay_exact)."
  },
  {
   "property": "C24",
   "status": "proved",
   "theorems": [
    "Verif.Compose.C24_translate"
   ],
   "note": "Any translation, any non-zero width."
  },
  {
   "property": "C25",
   "status": "partial",
   "theorems": [
    "Verif.Geom.C25_compose_partial",
    "Verif.Geom.C25_and_then_partial",
    "Verif.Geom.C25_invert_partial",
    "Verif.Geom.C25_good_mul",
    "Verif.Geom.C25_good_invert",
    "Verif.Geom.C25_good_constructors",
    "Verif.Geom.C25_good_from_matrix",
    "Verif.Geom.C25_negation_tolerance"
   ],
   "note": "Composition and inversion proved for all classes and mixtures for every projection whose class is exact (translate/rotate/scale, products, inverses, and from_matrix when no entry lies within the 1e-10 classification tolerance of 0 or 1 without being equal). For entries inside the tolerance the statement is false in exact arithmetic (C25_negation_tolerance)."
  },
  {
   "property": "C26",
   "status": "partial",
   "theorems": [
    "Verif.Geom.C26_from_matrix_partial",
    "Verif.Geom.C26_accepted_iff",
    "Verif.Geom.C26_rejected_iff",
    "Verif.Geom.C26_singular",
    "Verif.Geom.C26_negation"
   ],
   "note": "False of the code: small-determinant invertible matrices are rejected and matrices with zero corner entry or zero leading minor give non-finite entries (C26_negation). Exact conditions for acceptance and rejection proved."
  },
  {
   "property": "C27",
   "status": "partial",
   "theorems": [
    "Verif.Geom.C27_nearest",
    "Verif.Geom.C27_nearest_inside",
    "Verif.Geom.C27_nearest_translate",
    "Verif.Geom.C27_bilinear",
    "Verif.Geom.C27_bicubic",
    "Verif.Geom.C27_negation_bilinear",
    "Verif.Geom.C27_bilinear_identity_partial",
    "Verif.Geom.C27_negation_bicubic",
    "Verif.Geom.C27_zero_width_panics",
    "Verif.Geom.C27_warp_preimage"
   ],
   "note": "Proved for nearest neighbour. False for bilinear (last row/column default) and bicubic; exact regions proved."
  },
  {
   "property": "C28",
   "status": "proved",
   "theorems": [
    "Verif.Geom.C28_blend_range",
    "Verif.Geom.C28_blend_corners",
    "Verif.Geom.C28_bilinear_range",
    "Verif.Geom.C28_bilinear_integer",
    "Verif.Geom.C28_bicubic_integer"
   ],
   "note": ""
  },
  {
   "property": "C29",
   "status": "proved",
   "theorems": [
    "Verif.Suppress.C29_suppress_non_maximum"
   ],
   "note": "Values in any linear order; the u32 additions x + radius + 1 are modelled without overflow."
  },
  {
   "property": "C30",
   "status": "partial",
   "theorems": [
    "Verif.Suppress.C30_local_maxima_exact",
    "Verif.Suppress.C30_local_maxima_partial",
    "Verif.Suppress.C30_undominated_returned",
    "Verif.Suppress.C30_negation"
   ],
   "note": "False of the code: the last occupied row is never examined (C30_negation). Exact result proved for all inputs (C30_local_maxima_exact)."
  },
  {
   "property": "C31",
   "status": "proved",
   "theorems": [
    "Verif.Distance.C31_exact",
    "Verif.Distance.C31_zero_iff",
    "Verif.Distance.C31_no_foreground"
   ],
   "note": "Both norms, totality included; the no-foreground value is characterised as well."
  },
  {
   "property": "C32",
   "status": "proved",
   "theorems": [
    "Verif.Distance.C32_exact"
   ],
   "note": "Exact arithmetic (rationals with infinities); any stale envelope state."
  },
  {
   "property": "C33",
   "status": "partial",
   "theorems": [
    "Verif.Morphology.C33_dilate_characterised",
    "Verif.Morphology.C33_erode_characterised",
    "Verif.Morphology.C33_dilate_partial",
    "Verif.Morphology.C33_erode_partial",
    "Verif.Morphology.C33_negation",
    "Verif.Morphology.C33_radius_255"
   ],
   "note": "False as stated: an image without foreground (background) becomes white (black) once k >= min(w+h,255) for L1/LInf, and k = 255 always whitens (blackens) everything. Exact characterisation for all inputs proved; claim proved for k < 255 and, for L1/LInf, k < w + h."
  },
  {
   "property": "C34",
   "status": "proved",
   "theorems": [
    "Verif.Morphology.C34_dilate",
    "Verif.Morphology.C34_erode",
    "Verif.Morphology.C34_zero_width"
   ],
   "note": "Zero-width images with a non-empty mask panic (C34_zero_width)."
  },
  {
   "property": "C35",
   "status": "partial",
   "theorems": [
    "Verif.Morphology.C35_monotone",
    "Verif.Morphology.C35_open_partial",
    "Verif.Morphology.C35_close_partial",
    "Verif.Morphology.C35_open_exact",
    "Verif.Morphology.C35_close_exact",
    "Verif.Morphology.C35_library_masks",
    "Verif.Morphology.C35_negation"
   ],
   "note": "False for masks that are not symmetric (C35_negation). Monotonicity proved for all masks; idempotence and one-sidedness proved for symmetric masks, which include every square, diamond and disk mask."
  },
  {
   "property": "C36",
   "status": "proved",
   "theorems": [
    "Verif.Morphology.C36_square",
    "Verif.Morphology.C36_diamond",
    "Verif.Morphology.C36_disk",
    "Verif.Morphology.C36_from_image",
    "Verif.Morphology.C36_from_image_panics"
   ],
   "note": "All radii up to 255, including the assertions of Mask::new."
  },
  {
   "property": "C37",
   "status": "proved",
   "theorems": [
    "Verif.Filter.C37_filter",
    "Verif.Filter.C37_filter_sum",
    "Verif.Filter.C37_filter_parallel",
    "Verif.Filter.C37_kernel_new"
   ],
   "note": "Also holds for rounding arithmetic: the spec is the left-to-right sum; the semiring version is a double sum."
  },
  {
   "property": "C38",
   "status": "proved",
   "theorems": [
    "Verif.Filter.C38_horizontal",
    "Verif.Filter.C38_vertical",
    "Verif.Filter.C38_horizontal_eq_filter",
    "Verif.Filter.C38_vertical_eq_filter"
   ],
   "note": "Dimensions below 2^31. Any type with 0, + and *."
  },
  {
   "property": "C39",
   "status": "proved",
   "theorems": [
    "Verif.Filter.Median.C39_median_filter",
    "Verif.Filter.Median.C39_overflow",
    "Verif.Filter.Median.C39_constant"
   ],
   "note": "Windows below 2^31 entries; C39_overflow shows the u32 kernel size overflows from 2^32 entries on."
  },
  {
   "property": "C40",
   "status": "proved",
   "theorems": [
    "Verif.Filter.Box.C40_box_filter",
    "Verif.Filter.Box.C40_range",
    "Verif.Filter.Box.C40_rounding"
   ],
   "note": "u32 overflow of the running sums is not modelled (needs more than 2^32/255 columns)."
  },
  {
   "property": "C41",
   "status": "partial",
   "theorems": [
    "Verif.Filter.Bilateral.C41_formula",
    "Verif.Filter.Bilateral.C41_range_partial",
    "Verif.Filter.Bilateral.C41_uniform_partial",
    "Verif.Filter.Bilateral.C41_large_radius",
    "Verif.Filter.Bilateral.C41_rejects"
   ],
   "note": "False for radius >= 91: the i16 table index overflows and the call panics (C41_large_radius). Proved for radius <= 90."
  },
  {
   "property": "C42",
   "status": "proved",
   "theorems": [
    "Verif.Drawing.C42_bresenham",
    "Verif.Drawing.C42_real"
   ],
   "note": "bresenham over unbounded integers; C42_bresenham for integer end points, C42_real for arbitrary rational ones"
  },
  {
   "property": "C43",
   "status": "proved",
   "theorems": [
    "Verif.Drawing.C43_draw",
    "Verif.Drawing.C43_iter",
    "Verif.Drawing.C43_iter_inside"
   ],
   "note": "draw_line_segment_mut writes exactly the in-image points; the pixel iterators' clamping is characterised separately"
  },
  {
   "property": "C44",
   "status": "partial",
   "theorems": [
    "Verif.Drawing.C44_fill_partial",
    "Verif.Drawing.C44_outside",
    "Verif.Drawing.C44_negation"
   ],
   "note": "proved for every fill colour different from the seed's colour, with an explicit bound on the number of rounds; with an equal colour the loop need not terminate (C44_negation)"
  },
  {
   "property": "C45",
   "status": "proved",
   "theorems": [
    "Verif.Drawing.C45_hollow",
    "Verif.Drawing.C45_hollow_blend",
    "Verif.Drawing.C45_symmetric"
   ],
   "note": "criterion stated with real-number midpoints"
  },
  {
   "property": "C46",
   "status": "proved",
   "theorems": [
    "Verif.Drawing.C46_filled",
    "Verif.Drawing.C46_filled_blend",
    "Verif.Drawing.C46_outer",
    "Verif.Drawing.C46_inner_sq",
    "Verif.Drawing.C46_inner"
   ],
   "note": ""
  },
  {
   "property": "C47",
   "status": "partial",
   "theorems": [
    "Verif.Drawing.C47_fill",
    "Verif.Drawing.C47_fill_overwrite",
    "Verif.Drawing.C47_bbox",
    "Verif.Drawing.C47_edges",
    "Verif.Drawing.C47_vertices_partial",
    "Verif.Drawing.C47_negation",
    "Verif.Drawing.C47_antialiased_total"
   ],
   "note": "filled polygon = even-odd scanline interior plus its edges; a polygon with a single vertex draws nothing (C47_negation)"
  },
  {
   "property": "C48",
   "status": "partial",
   "theorems": [
    "Verif.Drawing.C48_exact",
    "Verif.Drawing.C48_weights",
    "Verif.Drawing.C48_antialiased_partial",
    "Verif.Drawing.C48_negation"
   ],
   "note": "weights lie in [0,1] and sum to one when the ideal minor coordinate is not in (-2,-1) or (-1,0); otherwise C48_negation"
  },
  {
   "property": "C49",
   "status": "proved",
   "theorems": [
    "Verif.Drawing.C49_cross"
   ],
   "note": "Any centre, on or off the canvas."
  },
  {
   "property": "C50",
   "status": "partial",
   "theorems": [
    "Verif.Edges.C50_exact",
    "Verif.Edges.C50_sound_partial",
    "Verif.Edges.C50_negation"
   ],
   "note": "every kept pixel is 8-connected to a strong one and the exact kept set is characterised; pixels joined only by a step up or up-right are dropped (C50_negation)"
  },
  {
   "property": "C51",
   "status": "proved",
   "theorems": [
    "Verif.Contours.C51_total",
    "Verif.Contours.C51_count"
   ],
   "note": "Totality of the scan including every trace (the tracing step is an injective map of a finite set, so each trace returns to its first two points); at most one contour per pixel."
  },
  {
   "property": "C52",
   "status": "proved",
   "theorems": [
    "Verif.Contours.C52_chain",
    "Verif.Contours.C52_parent",
    "Verif.Contours.C52_type"
   ],
   "note": "Closed chains of touching foreground pixels, parents earlier and of the opposite type, start pixel of the right kind."
  },
  {
   "property": "C53",
   "status": "partial",
   "theorems": [
    "Verif.Contours.C53_side",
    "Verif.Contours.C53_partial",
    "Verif.Contours.C53_row",
    "Verif.Contours.C53_none",
    "Verif.Contours.C53_negation"
   ],
   "note": "As stated it is false (1x1 image; more generally regions consisting of complete rows). Proved: exactly the regions with a background pixel of the image directly left or right of one of their pixels have a contour through them, in particular every region containing a pixel of a row with some background; no foreground gives no contours."
  },
  {
   "property": "C54",
   "status": "proved",
   "theorems": [
    "Verif.Geometry.C54_hull",
    "Verif.Geometry.C54_once",
    "Verif.Geometry.C54_segment",
    "Verif.Geometry.C54_degenerate"
   ],
   "note": "Exact integer arithmetic; the standard library sort is modelled by insertion sort with the same comparator."
  },
  {
   "property": "C55",
   "status": "proved",
   "theorems": [
    "Verif.Geometry.C55_shoelace",
    "Verif.Geometry.C55_area",
    "Verif.Geometry.C55_translate",
    "Verif.Geometry.C55_rotate",
    "Verif.Geometry.C55_reverse",
    "Verif.Geometry.C55_rectangle"
   ],
   "note": "Exact arithmetic over any ordered field."
  },
  {
   "property": "C56",
   "status": "partial",
   "theorems": [
    "Verif.Geometry.C56_open_partial",
    "Verif.Geometry.C56_distinct",
    "Verif.Geometry.C56_closed",
    "Verif.Geometry.C56_distance",
    "Verif.Geometry.C56_kept",
    "Verif.Geometry.C56_panic",
    "Verif.Geometry.C56_negation",
    "Verif.Geometry.C56_single"
   ],
   "note": "Exact ordered-field arithmetic. Proved in full for curves without repeated points; in general the error bound fails when two retained neighbours coincide (C56_negation)."
  },
  {
   "property": "C57",
   "status": "proved",
   "theorems": [
    "Verif.Hough.C57_points",
    "Verif.Hough.C57_complete",
    "Verif.Hough.C57_none_iff",
    "Verif.Hough.C57_consistent_real"
   ],
   "note": "Over any ordered field; the sine/cosine hypotheses are shown to hold of the real functions for 0..179 degrees."
  },
  {
   "property": "C58",
   "status": "proved",
   "theorems": [
    "Verif.Hough.C58_votes",
    "Verif.Hough.C58_votes_bounded",
    "Verif.Hough.C58_lines",
    "Verif.Hough.C58_oversized",
    "Verif.Hough.C58_all_votes",
    "Verif.Hough.C58_bucket_width"
   ],
   "note": "Any sine/cosine table and cast; for tables of points in the unit disc and non-expanding casts no vote is lost. Bucket 0 is shown to be twice as wide as the others."
  },
  {
   "property": "C59",
   "status": "partial",
   "theorems": [
    "Verif.Seam.C59_seam_partial",
    "Verif.Seam.C59_table",
    "Verif.Seam.C59_minimal_iff",
    "Verif.Seam.C59_retrace",
    "Verif.Seam.C59_find",
    "Verif.Seam.C59_narrow",
    "Verif.Seam.C59_negation"
   ],
   "note": "Connectedness, energy table and end point of the seam are proved; minimality of the seam is false (C59_negation, a 2x2 image) and characterised exactly by C59_minimal_iff."
  },
  {
   "property": "C60",
   "status": "proved",
   "theorems": [
    "Verif.Seam.C60_remove",
    "Verif.Seam.C60_reject",
    "Verif.Seam.C60_shrink",
    "Verif.Seam.C60_shrink_step",
    "Verif.Seam.C60_shrink_reject"
   ],
   "note": "Shrinking needs at least one row and target width at least 1; other targets panic (C60_shrink_reject)."
  },
  {
   "property": "C61",
   "status": "partial",
   "theorems": [
    "Verif.Seam.C61_draw_partial",
    "Verif.Seam.C61_exact",
    "Verif.Seam.C61_single",
    "Verif.Seam.C61_negation"
   ],
   "note": "False when an earlier removed column lies between a seam position and its original column (C61_negation); exact condition in C61_exact."
  },
  {
   "property": "C62",
   "status": "partial",
   "theorems": [
    "Verif.Lbp.C62_min_shift",
    "Verif.Lbp.C62_rotation_invariant",
    "Verif.Lbp.C62_min_table",
    "Verif.Lbp.C62_transitions",
    "Verif.Lbp.C62_uniform_table",
    "Verif.Lbp.C62_pattern_partial",
    "Verif.Lbp.C62_border",
    "Verif.Lbp.C62_negation"
   ],
   "note": "Tables, transitions and rotations are proved for every byte; the pattern's bit order is the opposite of the documented one (C62_negation), C62_pattern_partial states the actual order."
  },
  {
   "property": "C63",
   "status": "proved",
   "theorems": [
    "Verif.Haar.C63_evaluate",
    "Verif.Haar.C63_reject",
    "Verif.Haar.C63_draw"
   ],
   "note": "8-bit source images; includes absence of i32/u8 overflow and of out-of-bounds reads, and agreement with the drawn colours."
  },
  {
   "property": "C64",
   "status": "proved",
   "theorems": [
    "Verif.Haar.C64_enumerate",
    "Verif.Haar.C64_defined",
    "Verif.Haar.C64_evaluable"
   ],
   "note": "Defined for sides up to 254; sides of 255 overflow in the enumeration (C64_defined), while the closed form is still representable."
  },
  {
   "property": "C65",
   "status": "partial",
   "theorems": [
    "Verif.Corners.C65_ring",
    "Verif.Corners.C65_fast9",
    "Verif.Corners.C65_fast12_exact",
    "Verif.Corners.C65_fast12_partial",
    "Verif.Corners.C65_negation",
    "Verif.Corners.C65_list"
   ],
   "note": "FAST-9 decides exactly the documented condition; FAST-12 is sound but its quick rejection test misses arcs not containing both the top and bottom pixel (C65_negation); exact characterisation proved."
  },
  {
   "property": "C66",
   "status": "proved",
   "theorems": [
    "Verif.Corners.C66_monotone",
    "Verif.Corners.C66_score"
   ],
   "note": ""
  },
  {
   "property": "C67",
   "status": "proved",
   "theorems": [
    "Verif.Template.C67_plain",
    "Verif.Template.C67_masked",
    "Verif.Template.C67_unmasked",
    "Verif.Template.C67_parallel",
    "Verif.Template.C67_parallel_masked",
    "Verif.Template.C67_zero_masked",
    "Verif.Template.C67_zero",
    "Verif.Template.C67_nonneg",
    "Verif.Template.C67_bound",
    "Verif.Template.C67_one",
    "Verif.Template.C67_reject",
    "Verif.Template.C67_empty"
   ],
   "note": "Exact arithmetic (the code sums in f32). Includes the masked and parallel variants, and the equality case of the Cauchy-Schwarz bound."
  },
  {
   "property": "C68",
   "status": "partial",
   "theorems": [
    "Verif.Template.C68_extremes_partial",
    "Verif.Template.C68_reject",
    "Verif.Template.C68_negation",
    "Verif.Template.C68_single"
   ],
   "note": "The reported location is first in raster order, not lexicographically smallest as documented: C68_negation gives a 2x2 witness; C68_extremes_partial proves everything else, C68_single the documented order for one-row/column images. NaN excluded (linear order)."
  },
  {
   "property": "C69",
   "status": "proved",
   "theorems": [
    "Verif.ImageHash.C69_new",
    "Verif.ImageHash.C69_new_reject",
    "Verif.ImageHash.C69_unpack",
    "Verif.ImageHash.C69_roundtrip",
    "Verif.ImageHash.C69_roundtrip'",
    "Verif.ImageHash.C69_distance",
    "Verif.ImageHash.C69_metric"
   ],
   "note": "BitVec 64 model of all bit operations."
  },
  {
   "property": "C70",
   "status": "proved",
   "theorems": [
    "Verif.ImageHash.C70_buffer",
    "Verif.ImageHash.C70_buffer_involution",
    "Verif.ImageHash.C70_inplace",
    "Verif.ImageHash.C70_transpose",
    "Verif.ImageHash.C70_any",
    "Verif.ImageHash.C70_agree",
    "Verif.ImageHash.C70_involution",
    "Verif.ImageHash.C70_rect_involution",
    "Verif.ImageHash.C70_inplace_reject"
   ],
   "note": "Index-level model of the in-place loop on the row-major buffer."
  },
  {
   "property": "C71",
   "status": "partial",
   "theorems": [
    "Verif.Brief.C71_average",
    "Verif.Brief.C71_bits_partial",
    "Verif.Brief.C71_errors",
    "Verif.Brief.C71_distance",
    "Verif.Brief.C71_differences_partial",
    "Verif.Brief.C71_symm",
    "Verif.Brief.C71_subset",
    "Verif.Brief.C71_negation",
    "Verif.Brief.C71_zero_length"
   ],
   "note": "False as stated: the shift after each comparison drops the first test of every group of 128 (C71_negation: two images with different outcomes and equal descriptors). C71_bits_partial / C71_differences_partial prove it for all other tests; averages, errors, distance and bit subsets are exact."
  },
  {
   "property": "C72",
   "status": "partial",
   "theorems": [
    "Verif.Brief.C72_pairs",
    "Verif.Brief.C72_once_partial",
    "Verif.Brief.C72_best",
    "Verif.Brief.C72_exact",
    "Verif.Brief.C72_nearest",
    "Verif.Brief.C72_negation",
    "Verif.Brief.C72_brief",
    "Verif.Brief.C72_brief_exact"
   ],
   "note": "Pairs and threshold proved for all random choices (C72_pairs, C72_brief). At-most-once is false when the first list is longer because the roles are exchanged (C72_negation); C72_once_partial proves it otherwise and for the second list. Also: best among colliding candidates, exact duplicates always matched."
  },
  {
   "property": "C73",
   "status": "proved",
   "theorems": [
    "Verif.Map.C73_map_pixels",
    "Verif.Map.C73_map_enumerated_pixels",
    "Verif.Map.C73_map_subpixels",
    "Verif.Map.C73_map_pixels_mut_schedule",
    "Verif.Map.C73_collect_schedule",
    "Verif.Map.C73_channel_round_trip"
   ],
   "note": "Flat-buffer model; rayon schedules are arbitrary orders of the per-pixel work."
  },
  {
   "property": "C74",
   "status": "partial",
   "theorems": [
    "Verif.Map.C74_panics_iff",
    "Verif.Map.C74_negation",
    "Verif.Map.C74_negation_misaligned",
    "Verif.Map.C74_map_pixels2_partial"
   ],
   "note": "False of the code: images of different sizes are combined without panicking whenever w1 <= w2 and h2 <= h1 (C74_panics_iff, C74_negation). The equal-size half is proved."
  },
  {
   "property": "C75",
   "status": "proved",
   "theorems": [
    "Verif.Definitions.C75_int",
    "Verif.Definitions.C75_int_mono",
    "Verif.Definitions.C75_float",
    "Verif.Definitions.C75_trunc",
    "Verif.Definitions.C75_float_mono",
    "Verif.Definitions.C75_pairs",
    "Verif.Definitions.C75_float_targets"
   ],
   "note": "Floats over exact rationals; NaN not modelled."
  },
  {
   "property": "C76",
   "status": "proved",
   "theorems": [
    "Verif.Gradients.C76_sobel_map",
    "Verif.Gradients.C76_values",
    "Verif.Gradients.C76_roberts",
    "Verif.Gradients.C76_laplacian",
    "Verif.Gradients.C76_constant",
    "Verif.Gradients.C76_mirror",
    "Verif.Gradients.C76_roberts_mirror",
    "Verif.Gradients.C76_gradients"
   ],
   "note": "Exact integer arithmetic; the f32 rounding of the magnitude is outside the model. For the 2x2 Roberts kernels the mirroring is rotation by 180 degrees."
  },
  {
   "property": "C77",
   "status": "partial",
   "theorems": [
    "Verif.Hog.C77_layout",
    "Verif.Hog.C77_entry",
    "Verif.Hog.C77_unit",
    "Verif.Hog.C77_accept",
    "Verif.Hog.C77_panic",
    "Verif.Hog.C77_error",
    "Verif.Hog.C77_accept_iff",
    "Verif.Hog.C77_cover",
    "Verif.Hog.C77_inside",
    "Verif.Hog.C77_all_cells",
    "Verif.Hog.C77_negation",
    "Verif.Hog.C77_hog_partial",
    "Verif.Hog.C77_zero_orientations",
    "Verif.Hog.C77_hog_real"
   ],
   "note": "Accepted options are characterised exactly (C77_accept_iff); blocks lie inside the grid, end at the last cell, descriptor has the announced length and layout, blocks are unit vectors. The last clause is false: blocks larger than the grid, zero stride and zero cell side panic (C77_negation; exact set in C77_panic), and zero orientations are accepted but panic later (C77_zero_orientations)."
  },
  {
   "property": "C78",
   "status": "partial",
   "theorems": [
    "Verif.Noise.C78_salt_and_pepper",
    "Verif.Noise.C78_exact",
    "Verif.Noise.C78_rate_zero_partial",
    "Verif.Noise.C78_rate_one",
    "Verif.Noise.C78_negation_rate_zero"
   ],
   "note": "Unchanged/black/white and size proved for all streams and rates; 'rate 0 changes nothing' is false if the stream yields the sample 0 (C78_negation_rate_zero), proved otherwise."
  },
  {
   "property": "C79",
   "status": "proved",
   "theorems": [
    "Verif.Utils.C79_pixel_diffs",
    "Verif.Utils.C79_empty_iff"
   ],
   "note": ""
  },
  {
   "property": "C80",
   "status": "proved",
   "theorems": [
    "Verif.Stats.C80_min_max",
    "Verif.Stats.C80_empty"
   ],
   "note": ""
  },
  {
   "property": "C81",
   "status": "proved",
   "theorems": [
    "Verif.Stats.C81_mean_squared_error",
    "Verif.Stats.C81_symmetric",
    "Verif.Stats.C81_zero_iff_equal"
   ],
   "note": "Exact arithmetic instead of f64."
  },
  {
   "property": "C82",
   "status": "proved",
   "theorems": [
    "Verif.Geom.C82_control_points",
    "Verif.Geom.C82_four_control_points"
   ],
   "note": "The SVD solver is not modelled: its answer is a parameter assumed to satisfy the equations."
  },
  {
   "property": "C83",
   "status": "proved",
   "theorems": [
    "Verif.Geom.C83_rotate_about"
   ],
   "note": ""
  },
  {
   "property": "C84",
   "status": "proved",
   "theorems": [
    "Verif.Noise.C84_gaussian_noise",
    "Verif.Noise.C84_zero_noise"
   ],
   "note": "Single channel; channels are processed in storage order, so n channels behave as an image of n times the width."
  },
  {
   "property": "C85",
   "status": "proved",
   "theorems": [
    "Verif.Morphology.C85_l2_threshold"
   ],
   "note": ""
  },
  {
   "property": "C86",
   "status": "proved",
   "theorems": [
    "Verif.Morphology.C86_open_subset",
    "Verif.Morphology.C86_close_superset",
    "Verif.Morphology.C86_open_exact",
    "Verif.Morphology.C86_close_exact",
    "Verif.Morphology.C86_open_idempotent",
    "Verif.Morphology.C86_close_idempotent"
   ],
   "note": ""
  },
  {
   "property": "C87",
   "status": "partial",
   "theorems": [
    "Verif.Filter.C87_rejects",
    "Verif.Filter.C87_outer_product_partial",
    "Verif.Filter.C87_negation"
   ],
   "note": "False for narrow pixel types because the intermediate image is clamped (C87_negation); proved when the pixel type is exact."
  },
  {
   "property": "C88",
   "status": "proved",
   "theorems": [
    "Verif.Edges.C88_gaussian",
    "Verif.Edges.C88_gaussian_weights",
    "Verif.Filter.C88_kernel",
    "Verif.Filter.C88_kernel_normalised",
    "Verif.Filter.C88_blur_range",
    "Verif.Filter.C88_blur_constant"
   ],
   "note": "Exact arithmetic; C88_gaussian_weights gives the weights for the real exponential, the other theorems hold for any non-negative weight function positive at 0."
  },
  {
   "property": "C89",
   "status": "proved",
   "theorems": [
    "Verif.Edges.C89_exact",
    "Verif.Edges.C89_suppression",
    "Verif.Edges.C89_canny"
   ],
   "note": "gradient images, hypot and angle sectors are parameters; C115 instantiates them"
  },
  {
   "property": "C90",
   "status": "proved",
   "theorems": [
    "Verif.ImageHash.C90_dct2d",
    "Verif.ImageHash.C90_bits",
    "Verif.ImageHash.C90_invariant",
    "Verif.ImageHash.C90_dct_affine",
    "Verif.ImageHash.C90_cosine"
   ],
   "note": "Exact arithmetic; resize and the 1-D transform are parameters, and the invariance is also instantiated with the real type-2 cosine transform."
  },
  {
   "property": "C91",
   "status": "proved",
   "theorems": [
    "Verif.Hog.C91_histogram",
    "Verif.Hog.C91_nonneg",
    "Verif.Hog.C91_bins",
    "Verif.Hog.C91_total",
    "Verif.Hog.C91_direction"
   ],
   "note": "Exact arithmetic over an ordered field; gradient magnitudes and directions are parameters (real instance in C77_hog_real)."
  },
  {
   "property": "C92",
   "status": "partial",
   "theorems": [
    "Verif.Hough.C92_chord_partial",
    "Verif.Hough.C92_degenerate_only_at_corner",
    "Verif.Hough.C92_negation"
   ],
   "note": "Holds when the two points differ, and they coincide only at a corner; fails for lines entering through the top edge and leaving through a bottom corner (C92_negation)."
  },
  {
   "property": "C93",
   "status": "proved",
   "theorems": [
    "Verif.Contours.C93_edge"
   ],
   "note": ""
  },
  {
   "property": "C94",
   "status": "partial",
   "theorems": [
    "Verif.Contours.C94_left_partial",
    "Verif.Contours.C94_partial",
    "Verif.Contours.C94_negation"
   ],
   "note": "False when foreground touches both the first and the last column (witness). Proved for every image without foreground in the last column and for every image without foreground in the first column."
  },
  {
   "property": "C95",
   "status": "partial",
   "theorems": [
    "Verif.Contours.C95_left_partial",
    "Verif.Contours.C95_border",
    "Verif.Contours.C95_once",
    "Verif.Contours.C95_all_partial"
   ],
   "note": "Points = pixels of one border and no border twice are proved for all images; that every border is returned is proved for images without foreground in the first or without foreground in the last column (false otherwise, see C94_negation)."
  },
  {
   "property": "C96",
   "status": "proved",
   "theorems": [
    "Verif.Contrast.C96_kapur"
   ],
   "note": "Exact reals with Real.log instead of f64; rounding of the cumulative probabilities is outside the model."
  },
  {
   "property": "C97",
   "status": "partial",
   "theorems": [
    "Verif.Drawing.C97_hollow_partial",
    "Verif.Drawing.C97_circle",
    "Verif.Drawing.C97_negation"
   ],
   "note": "Everything proved except that the tip is reached exactly when a < 8 b^2 (Quadrant.tip); for flatter ellipses the tips are missing (C97_negation). Exact arithmetic."
  },
  {
   "property": "C98",
   "status": "partial",
   "theorems": [
    "Verif.Drawing.C98_filled_partial",
    "Verif.Drawing.C98_circle",
    "Verif.Drawing.C98_negation"
   ],
   "note": "Exact set and coverage proved; pixels near the tips of the central row are missed when a >= 8 b^2 (C98_negation)."
  },
  {
   "property": "C99",
   "status": "proved",
   "theorems": [
    "Verif.Drawing.C99_hollow_rect"
   ],
   "note": "i32 overflow of the rectangle corners not modelled"
  },
  {
   "property": "C100",
   "status": "proved",
   "theorems": [
    "Verif.Drawing.C100_hollow_polygon",
    "Verif.Drawing.C100_degenerate"
   ],
   "note": "vertices with integer coordinates; f32 arithmetic exact"
  },
  {
   "property": "C101",
   "status": "proved",
   "theorems": [
    "Verif.Drawing.C101_bezier",
    "Verif.Drawing.C101_spacing"
   ],
   "note": "f32 arithmetic exact; the square root is a parameter with sqrt x >= 24 for x >= 800"
  },
  {
   "property": "C102",
   "status": "proved",
   "theorems": [
    "Verif.PixelOps.C102_weighted_sum",
    "Verif.PixelOps.C102_interpolate",
    "Verif.PixelOps.C102_monotone"
   ],
   "note": "f32 arithmetic exact"
  },
  {
   "property": "C103",
   "status": "proved",
   "theorems": [
    "Verif.Filter.C103_sharpen3x3",
    "Verif.Filter.C103_parallel",
    "Verif.Filter.C103_flat",
    "Verif.Filter.C103_sharpen_gaussian",
    "Verif.Filter.C103_identity"
   ],
   "note": "i32 arithmetic exact; for sharpen_gaussian f32 arithmetic exact and the Gaussian samples are arbitrary nonnegative numbers"
  },
  {
   "property": "C104",
   "status": "partial",
   "theorems": [
    "Verif.Geometry.C104_arc_length_partial",
    "Verif.Geometry.C104_negation",
    "Verif.Geometry.C104_triangle_partial",
    "Verif.Geometry.C104_symmetry_partial"
   ],
   "note": "false of the code for closed arcs of two points, whose closing edge is not counted (C104_negation); exact otherwise, over the real numbers"
  },
  {
   "property": "C105",
   "status": "proved",
   "theorems": [
    "Verif.Math.C105_value",
    "Verif.Math.C105_definite",
    "Verif.Math.C105_scale",
    "Verif.Math.C105_triangle",
    "Verif.Math.C105_compare"
   ],
   "note": "over the real numbers"
  },
  {
   "property": "C106",
   "status": "proved",
   "theorems": [
    "Verif.Stats.C106_rmse_metric",
    "Verif.Stats.C106_value",
    "Verif.Stats.C106_sizes",
    "Verif.Stats.C106_psnr",
    "Verif.Stats.C106_psnr_antitone"
   ],
   "note": "over the real numbers; non-empty images"
  },
  {
   "property": "C107",
   "status": "proved",
   "theorems": [
    "Verif.Corners.C107_ranked"
   ],
   "note": "Scores and FAST-9 corners are characterised by C65/C66. The orientation value is given exactly by C108_sums_exact."
  },
  {
   "property": "C108",
   "status": "partial",
   "theorems": [
    "Verif.Corners.C108_sums_exact",
    "Verif.Corners.C108_orientation_partial",
    "Verif.Corners.C108_negation"
   ],
   "note": "True for corners at least 15 pixels from the left and upper border (C108_orientation_partial, over the reals with Complex.arg for atan2). C108_sums_exact gives the computed moments for every pixel: they are taken about (max x 15, max y 15). C108_negation shows a pixel next to the left border whose moment points the wrong way."
  },
  {
   "property": "C109",
   "status": "partial",
   "theorems": [
    "Verif.Corners.C109_automatic_exact",
    "Verif.Corners.C109_automatic_partial",
    "Verif.Corners.C109_negation",
    "Verif.Corners.C109_negation_small"
   ],
   "note": "Proved for at least one wanted corner and at least 1000 pixels (exact arithmetic for the f32 fraction). C109_automatic_exact says when the index is out of bounds; C109_negation: target 0 always panics; C109_negation_small: 20 x 20 images panic."
  },
  {
   "property": "C110",
   "status": "partial",
   "theorems": [
    "Verif.Geometry.C110_least_partial",
    "Verif.Geometry.C110_empty",
    "Verif.Geometry.C110_collinear",
    "Verif.Geometry.C110_labels",
    "Verif.Geometry.C110_near",
    "Verif.Geometry.C110_negation",
    "Verif.Geometry.C110_unsigned_negation"
   ],
   "note": "C110_least_partial: before rounding the rectangle contains all points and is least over all rectangles in all directions, except when the least one lies along the edge from the last to the first hull vertex, which the code never tries. C110_labels: which corners are returned and how they are rounded. C110_collinear, C110_empty: degenerate inputs. C110_near: after rounding every point is less than one pixel per coordinate away from the returned quadrilateral. C110_unsigned_negation: with u32 coordinates the call panics when a corner is rounded to a negative number. C110_negation: a triangle where a vertex lies outside the result and a smaller rectangle exists."
  },
  {
   "property": "C111",
   "status": "proved",
   "theorems": [
    "Verif.Drawing.C111_size",
    "Verif.Drawing.C111_advance",
    "Verif.Drawing.C111_pixels",
    "Verif.Drawing.C111_coats",
    "Verif.Drawing.C111_translate",
    "Verif.Drawing.C111_kerning_negation"
   ],
   "note": "The font (ab_glyph) is an arbitrary parameter; f32 values are rationals and i32 shifts do not overflow. Also shows that kerning never moves the second glyph of a text (C111_kerning_negation): it is added after placing, with swapped arguments."
  },
  {
   "property": "C112",
   "status": "proved",
   "theorems": [
    "Verif.Utils.C112_significant",
    "Verif.Utils.C112_equal",
    "Verif.Utils.C112_assert",
    "Verif.Utils.C112_within"
   ],
   "note": "The message text (describe_pixel_diffs) is not modelled."
  },
  {
   "property": "C113",
   "status": "partial",
   "theorems": [
    "Verif.Hough.C113_pixels",
    "Verif.Hough.C113_near",
    "Verif.Hough.C113_cover_partial",
    "Verif.Hough.C113_negation"
   ],
   "note": "Coverage fails for the lines that C92 shows are cut down to a corner (C113_negation); everything else holds for all inputs."
  },
  {
   "property": "C114",
   "status": "partial",
   "theorems": [
    "Verif.Hog.C114_exact",
    "Verif.Hog.C114_size_partial",
    "Verif.Hog.C114_last_cell_only"
   ],
   "note": "Only the size holds: every star is drawn over the whole image (SubImage::inner_mut is the underlying image), so only the last cell is visible; C114_exact characterises the result and C114_last_cell_only refutes the claim."
  },
  {
   "property": "C115",
   "status": "proved",
   "theorems": [
    "Verif.Edges.C115_direction",
    "Verif.Edges.C115_canny",
    "Verif.Edges.C115_strength",
    "Verif.Edges.C115_none"
   ],
   "note": "Over the real numbers: atan2, exp, sqrt and hypot are exact; f32 rounding is not modelled."
  },
  {
   "property": "C116",
   "status": "proved",
   "theorems": [
    "Verif.Float.C116_sobel_prewitt",
    "Verif.Float.C116_within_one",
    "Verif.Float.C116_scharr_negation"
   ],
   "note": "single-precision rounding modelled (Verif.Float); C116_scharr_negation: with the Scharr kernels an 8-bit image gives a magnitude one too large, so exactness does not extend to them"
  },
  {
   "property": "C117",
   "status": "partial",
   "theorems": [
    "Verif.Float.C117_interpolate",
    "Verif.Float.C117_ends",
    "Verif.Float.C117_monotone",
    "Verif.Float.C117_equal_negation"
   ],
   "note": "single-precision rounding modelled. C117_equal_negation: interpolate(255,255,0.008) is 254, so equal inputs may be darkened by one; proved: never above the larger input, at most one below the smaller, within 1+2^-14 of the exact mean and exactly its whole part unless it is within 2^-14 of an integer, weights 0 and 1 exact, monotone"
  },
  {
   "property": "C118",
   "status": "proved",
   "theorems": [
    "Verif.Float.C118_exact",
    "Verif.Float.C118_draw",
    "Verif.Float.C118_near",
    "Verif.Float.C118_once",
    "Verif.Float.C118_rounding_matters"
   ],
   "note": "single-precision rounding modelled; C118_rounding_matters shows that fractional end points can give pixels different from exact arithmetic"
  },
  {
   "property": "C119",
   "status": "partial",
   "theorems": [
    "Verif.Float.C119_accuracy",
    "Verif.Float.C119_range_partial",
    "Verif.Float.C119_monotone",
    "Verif.Float.C119_negation"
   ],
   "note": "single-precision rounding modelled, exp a parameter. C119_negation: sigma 0.5 turns every constant image of value 178 into 176, so 'never darker' and 'constant unchanged' are false; proved: accuracy of each pass, never brighter than the maximum, at most two levels below the minimum (attained), monotone"
  },
  {
   "property": "C120",
   "status": "proved",
   "theorems": [
    "Verif.Float.C120_exact",
    "Verif.Float.C120_general",
    "Verif.Float.C120_negation",
    "Verif.Float.C120_never_below"
   ],
   "note": "Single-precision model of the whole function. C120_negation shows that exactness fails beyond 65536 pixels: in an image of 132854 pixels the level 253 becomes 254."
  },
  {
   "property": "C121",
   "status": "proved",
   "theorems": [
    "Verif.Float.C121_match_histogram",
    "Verif.Float.C121_optimal"
   ],
   "note": "Single-precision model of the whole function, including the rounded distances of the lookup table."
  },
  {
   "property": "C122",
   "status": "partial",
   "theorems": [
    "Verif.Float.C122_masked_accuracy",
    "Verif.Float.C122_accuracy",
    "Verif.Float.C122_parallel",
    "Verif.Float.C122_exact",
    "Verif.Float.C122_zero",
    "Verif.Float.C122_monotone",
    "Verif.Float.C122_perfect",
    "Verif.Float.C122_bound_partial",
    "Verif.Float.C122_best_partial",
    "Verif.Float.C122_negation",
    "Verif.Float.C122_negation_order"
   ],
   "note": "Accuracy, exactness, zero iff match, perfect match scores exactly 1, pointwise monotonicity and bit-equality of the parallel versions are proved for all inputs. Two parts of the statement are false for templates of more than 258 pixels: C122_negation (264 pixels: an imperfect patch scores 1 + 2^-22, above the perfect match) and C122_negation_order (278 pixels: a farther patch gets a smaller squared-difference score). C122_best_partial proves the bound up to 258 pixels. powi(2) is modelled as one rounded multiplication."
  },
  {
   "property": "C123",
   "status": "proved",
   "theorems": [
    "Verif.Float.C123_exact",
    "Verif.Float.C123_morphology"
   ],
   "note": "binary64 rounding of every operation in the 1-d transform and of the square root; the model of C32 is parametrised by the rounding function. Infinities and NaN of the envelope are represented as in C32."
  },
  {
   "property": "C124",
   "status": "partial",
   "theorems": [
    "Verif.Float.C124_accuracy",
    "Verif.Float.C124_range_partial",
    "Verif.Float.C124_negation"
   ],
   "note": "accuracy and range proved for all inputs; exact preservation of constants is false (negation with a whole family of witnesses), the range theorem is one-sided by one level"
  },
  {
   "property": "C125",
   "status": "proved",
   "theorems": [
    "Verif.Float.C125_mse",
    "Verif.Float.C125_rmse",
    "Verif.Float.C125_uniform_difference",
    "Verif.Float.C125_rejects"
   ],
   "note": "all images; NaN for empty images is outside the model"
  },
  {
   "property": "C126",
   "status": "partial",
   "theorems": [
    "Verif.Float.C126_variance_partial",
    "Verif.Float.C126_negation"
   ],
   "note": "sign and accuracy proved for all inputs; non-negativity fails for large constant regions (negation)"
  },
  {
   "property": "C127",
   "status": "partial",
   "theorems": [
    "Verif.Float.C127_exact_partial",
    "Verif.Float.C127_negation",
    "Verif.Float.C127_error"
   ],
   "note": "exact when len*2*B^2 <= 2^53, error bound in general; a triangle with coordinates near 2^31 and area 1/2 gets area 0"
  },
  {
   "property": "C128",
   "status": "partial",
   "theorems": [
    "Verif.Float.C128_nearest_safe",
    "Verif.Float.C128_bilinear_safe",
    "Verif.Float.C128_bicubic_reads",
    "Verif.Float.C128_bicubic_safe_partial",
    "Verif.Float.C128_negation_nan",
    "Verif.Float.C128_negation_empty",
    "Verif.Float.C128_negation_tall",
    "Verif.Float.C128_nan_white"
   ],
   "note": "Nearest: always safe. Bilinear: safe for non-empty images. Bicubic: safe at non-NaN positions up to 16777221 rows and with two columns also at NaN; false otherwise: out-of-bounds read for one-column images with a NaN coordinate (C128_negation_nan), for empty images (C128_negation_empty), panic for 16777222 rows (C128_negation_tall)."
  },
  {
   "property": "C129",
   "status": "partial",
   "theorems": [
    "Verif.Float.C129_nearest_partial",
    "Verif.Float.C129_bilinear_partial",
    "Verif.Float.C129_bicubic_partial",
    "Verif.Float.C129_negation"
   ],
   "note": "Proved up to 8388608 columns and rows (nearest) and 16777216 (bilinear, bicubic); false for wider images (C129_negation)."
  },
  {
   "property": "C130",
   "status": "partial",
   "theorems": [
    "Verif.Float.C130_bilinear",
    "Verif.Float.C130_bilinear_range_partial",
    "Verif.Float.C130_negation",
    "Verif.Float.C130_bicubic"
   ],
   "note": "Accuracy proved; bilinear values can fall up to two levels below the surrounding pixels (C130_negation) and never further, never above."
  },
  {
   "property": "C131",
   "status": "partial",
   "theorems": [
    "Verif.Float.C131_vertical_vote",
    "Verif.Float.C131_horizontal_vote",
    "Verif.Float.C131_negation",
    "Verif.Float.C131_negation_reported",
    "Verif.Float.C131_vote_close",
    "Verif.Float.C131_all_votes",
    "Verif.Float.C131_diagonal"
   ],
   "note": "votes are close and none is lost; horizontal lines right of the diagonal are reported one pixel too high (the unit test expects this)"
  },
  {
   "property": "C132",
   "status": "partial",
   "theorems": [
    "Verif.Float.C132_fill",
    "Verif.Float.C132_crossing",
    "Verif.Float.C132_close",
    "Verif.Float.C132_crossing_exact",
    "Verif.Float.C132_bbox",
    "Verif.Float.C132_away",
    "Verif.Float.C132_exact_partial",
    "Verif.Float.C132_negation"
   ],
   "note": "Equality with exact arithmetic is false for half-way crossings (C132_negation); proved without them for 5*W*H < 2^24 (C132_exact_partial). Rule, bounding box, closeness and locality are proved for all polygons with bounded coordinates."
  },
  {
   "property": "C133",
   "status": "partial",
   "theorems": [
    "Verif.Float.C133_near_optimal",
    "Verif.Float.C133_separates",
    "Verif.Float.C133_constant",
    "Verif.Float.C133_two_levels",
    "Verif.Float.C133_exact_partial",
    "Verif.Float.C133_negation"
   ],
   "note": "The smallest level of maximal variance is not always returned (C133_negation); proved with a gap of 2^-41 (C133_exact_partial). Near-optimality, separation, constant and two-level images are proved for all images."
  },
  {
   "property": "C134",
   "status": "proved",
   "theorems": [
    "Verif.Float.C134_histogram",
    "Verif.Float.C134_position",
    "Verif.Float.C134_hog",
    "Verif.Float.C134_at_most_one",
    "Verif.Float.C134_unit"
   ],
   "note": "atan2 is a parameter with an accuracy assumption; overflow to infinity is not modelled (entries are below 2^14 for cells up to 724 pixels). C134_hog, C134_histogram, C134_position, C134_at_most_one, C134_unit."
  },
  {
   "property": "C135",
   "status": "partial",
   "theorems": [
    "Verif.Float.C135_negation",
    "Verif.Float.C135_automatic_partial",
    "Verif.Float.C135_given"
   ],
   "note": "FALSE for few corners in a large image: with 2^25 or more pixels per corner asked for, 1 - fraction rounds to 1 and the read of sample 1000 panics (C135_negation; e.g. one corner of an 8192 x 4096 image). With at most 2^25 - 16 pixels per corner and at least 1000 pixels the full claim holds (C135_automatic_partial). Samples are arbitrary parameters."
  },
  {
   "property": "C136",
   "status": "proved",
   "theorems": [
    "Verif.Float.C136_sector",
    "Verif.Float.C136_canny",
    "Verif.Float.C136_whole",
    "Verif.Float.C136_flat",
    "Verif.Float.C136_sharp"
   ],
   "note": "atan2 and hypot are parameters assumed correctly rounded on whole numbers up to 1020; C136_sharp shows that an atan2 within one unit in the last place is not enough. The result is relative to the blurred image of C119. C136_sector, C136_canny, C136_whole, C136_flat."
  },
  {
   "property": "C137",
   "status": "partial",
   "theorems": [
    "Verif.Float.C137_position",
    "Verif.Float.C137_nearest",
    "Verif.Float.C137_half_turn_partial",
    "Verif.Float.C137_quarter_turn_partial",
    "Verif.Float.C137_quarter_turn_back_partial",
    "Verif.Float.C137_full_turn",
    "Verif.Float.C137_negation"
   ],
   "note": "positions accurate for every angle, full turns exact; agreement with rotate180/rotate90/rotate270 is false: the result is shifted by one pixel (negation, exact description of half and quarter turns)"
  },
  {
   "property": "C138",
   "status": "partial",
   "theorems": [
    "Verif.Float.C138_line_partial",
    "Verif.Float.C138_weights",
    "Verif.Float.C138_stuck",
    "Verif.Float.C138_negation",
    "Verif.Float.C138_negation_weight",
    "Verif.Float.C138_exact"
   ],
   "note": "position within k(M+3)/2^24 of the exact line after k steps, weights correct for positions that are not negative, dyadic slopes exact; false in general: long shallow lines far from the origin never leave their row (end point missed by ten rows), and rounding below zero gives negative weights (negations)"
  },
  {
   "property": "C139",
   "status": "partial",
   "theorems": [
    "Verif.Float.C139_accuracy",
    "Verif.Float.C139_zero",
    "Verif.Float.C139_panics",
    "Verif.Float.C139_flat_partial",
    "Verif.Float.C139_negation"
   ],
   "note": "Accuracy, amount 0 and the panic are proved; constant regions are not kept: sigma 0.5 and amount 1 turn value 5 into 4 (C139_negation); for amounts between -1 and 1 a constant region keeps its value or loses exactly one level (C139_flat_partial)."
  },
  {
   "property": "C140",
   "status": "partial",
   "theorems": [
    "Verif.Float.C140_bezier_partial",
    "Verif.Float.C140_negation"
   ],
   "note": "The rounded end point is reached when its coordinates are integers, not in general: N * (1/N) can be below one in f32, so that the curve from (0,0) to (327.5,0) with both control points at (0,0) stops at pixel 327 although 327.5 rounds to 328 (C140_negation). Everything else is proved (C140_bezier_partial). The square root is any function with relative error 2^-20 on the square."
  },
  {
   "property": "C141",
   "status": "partial",
   "theorems": [
    "Verif.Float.C141_fits",
    "Verif.Float.C141_negation",
    "Verif.Float.C141_height",
    "Verif.Float.C141_empty"
   ],
   "note": "Placement and size hold for all sizes up to 2^22 (C141_fits). Positive size is false: an image more than about twice as many times wider than high as the window has columns is scaled to height zero (C141_negation, C141_height)."
  },
  {
   "property": "C142",
   "status": "proved",
   "theorems": [
    "Verif.Utils.C142_describe",
    "Verif.Utils.C142_empty",
    "Verif.Utils.C142_summary"
   ],
   "note": "The message is modelled as the information it shows. An empty list panics (C142_empty); the comparison macros never pass one."
  },
  {
   "property": "C143",
   "status": "proved",
   "theorems": [
    "Verif.Float.C143_hollow",
    "Verif.Float.C143_filled",
    "Verif.Float.C143_tolerance"
   ],
   "note": "Error accounting of px, py and p; the invariants of C97 hold with a tolerance that does not accumulate."
  },
  {
   "property": "C144",
   "status": "partial",
   "theorems": [
    "Verif.Utils.C144_returns",
    "Verif.Utils.C144_empty",
    "Verif.Utils.C144_windows",
    "Verif.Utils.C144_negation",
    "Verif.Utils.C144_ends_partial",
    "Verif.Utils.C144_not_late"
   ],
   "note": "False as stated: a second close event for the same window is counted again and ends the display while other windows are open (C144_negation). Proved: the exact condition for returning (C144_returns), the claim if no window is closed twice (C144_ends_partial), never too late (C144_not_late), visibility and painted sizes (C144_windows). Events and window identifiers are arbitrary parameters; SDL itself is not modelled."
  },
  {
   "property": "C145",
   "status": "partial",
   "theorems": [
    "Verif.Float.C145_integer_partial",
    "Verif.Float.C145_kept",
    "Verif.Float.C145_negation",
    "Verif.Float.C145_diverges"
   ],
   "note": "False as stated: with coordinates around 10^8 (valid i32) and tolerance 1/2 the recursion never ends (C145_negation; C145_diverges for every two-point curve with that rounding error). Proved for integer coordinates up to 2^25: termination, order, end points and the tolerance up to a relative error of 2^-50 (C145_integer_partial), and which points are kept (C145_kept). powf(2.0) is taken to be the correctly rounded square."
  },
  {
   "property": "C146",
   "status": "proved",
   "theorems": [
    "Verif.Float.C146_accuracy",
    "Verif.Float.C146_rectilinear"
   ],
   "note": "powf(2.0) is taken to be the correctly rounded square, sqrt is correctly rounded. Whether the closing edge belongs to the length is C104."
  },
  {
   "property": "C147",
   "status": "partial",
   "theorems": [
    "Verif.Float.C147_magnify",
    "Verif.Float.C147_grid",
    "Verif.Float.C147_shrink",
    "Verif.Float.C147_bilinear_partial",
    "Verif.Float.C147_negation"
   ],
   "note": "nearest neighbour: proved for enlarging and reducing; bilinear: false for some factors (factor 41 turns 255 into 254, C147_negation); exact integer formula proved for factors that are powers of two up to 256"
  },
  {
   "property": "C148",
   "status": "proved",
   "theorems": [
    "Verif.Float.C148_translation",
    "Verif.Float.C148_translation_class",
    "Verif.Float.C148_affine",
    "Verif.Float.C148_horizon",
    "Verif.Float.C148_undefined",
    "Verif.Float.C148_position",
    "Verif.Float.C148_nearest"
   ],
   "note": "position accuracy, nearest-neighbour pixels, points at infinity, agreement with the affine path"
  },
  {
   "property": "C149",
   "status": "partial",
   "theorems": [
    "Verif.Float.C149_negation",
    "Verif.Float.C149_affine_singular",
    "Verif.Float.C149_class",
    "Verif.Float.C149_integer_partial"
   ],
   "note": "false in general: a singular matrix of three-digit whole numbers is accepted (C149_negation); proved for whole entries up to 128 with corner entry 1, and that every singular affine matrix is rejected"
  },
  {
   "property": "C150",
   "status": "partial",
   "theorems": [
    "Verif.Float.C150_margin_partial",
    "Verif.Float.C150_whole",
    "Verif.Float.C150_negation"
   ],
   "note": "false as stated: if all coefficients equal 0.1 every bit is set although none exceeds the mean (C150_negation); proved for every coefficient further than M/2^16 + 2^-140 from the exact mean, M the largest coefficient in absolute value, and exactly for whole coefficients (C150_whole)"
  },
  {
   "property": "C151",
   "status": "proved",
   "theorems": [
    "Verif.Float.C151_kapur"
   ],
   "note": ""
  },
  {
   "property": "C152",
   "status": "partial",
   "theorems": [
    "Verif.Float.C152_clear_partial",
    "Verif.Float.C152_points",
    "Verif.Float.C152_negation"
   ],
   "note": "The end points are always on the boundary and within the bound of the line (C152_points). The existence of the segment and its accuracy hold when no corner is within (w + h) / 2^21 of the line (C152_clear_partial). For lines through a corner the claim is false of the code: a line that crosses 930 columns and 604 rows of a 3776 x 604 image gives None, and the main diagonal of a 102 x 102 image at 135 degrees collapses to the point (0, 0) (C152_negation)."
  },
  {
   "property": "C153",
   "status": "proved",
   "theorems": [
    "Verif.Float.C153_least",
    "Verif.Float.C153_near",
    "Verif.Float.C153_axis",
    "Verif.Float.C153_empty",
    "Verif.Float.C153_collinear"
   ],
   "note": "C153_near: containment up to rounding. C153_least: area. C153_axis: axis-parallel rectangles are exact. atan2, sin and cos are parameters with assumed accuracy (GoodTrig), satisfiable by goodTrig_exists."
  },
  {
   "property": "C154",
   "status": "partial",
   "theorems": [
    "Verif.Float.C154_hull",
    "Verif.Float.C154_negation"
   ],
   "note": "False in general: cross products overflow i32. Proved exact in both build profiles when points are at most 46340 apart in each coordinate (C154_hull); at 46341 debug builds panic and release builds return the vertices in the wrong direction (C154_negation)."
  },
  {
   "property": "C155",
   "status": "partial",
   "theorems": [
    "Verif.Float.C155_corner",
    "Verif.Float.C155_contains",
    "Verif.Float.C155_intersect",
    "Verif.Float.C155_filled",
    "Verif.Float.C155_hollow",
    "Verif.Float.C155_containsF",
    "Verif.Float.C155_containsF_points",
    "Verif.Float.C155_negation"
   ],
   "note": "False for rectangles reaching the end of the i32 range (C155_negation). Proved: exactly which rectangles have correct right and bottom coordinates in debug and release builds (C155_corner); for these membership, intersection and filling are exact; outlines are exact up to 2^22; f32 membership is exact up to 2^24 and off by at most 2^-24 relative beyond."
  },
  {
   "property": "C156",
   "status": "partial",
   "theorems": [
    "Verif.Float.C156_hollow",
    "Verif.Float.C156_panics",
    "Verif.Float.C156_filled",
    "Verif.Float.C156_negation"
   ],
   "note": "False in general (C156_negation). Proved: outlines are exact in both build profiles when the four extreme points are in the i32 range and the radius is at most 2^30 - 4 (C156_hollow); debug builds panic when an extreme point leaves the range (C156_panics); discs are exact up to 2^22 (C156_filled)."
  },
  {
   "property": "C157",
   "status": "partial",
   "theorems": [
    "Verif.Machine.C157_build",
    "Verif.Machine.C157_build_wrapping",
    "Verif.Machine.C157_release",
    "Verif.Machine.C157_release_exact",
    "Verif.Machine.C157_debug",
    "Verif.Machine.C157_panics",
    "Verif.Machine.C157_negation"
   ],
   "note": "false of the code: adaptive_threshold panics in debug builds on a white 3000x3000 image and release builds misclassify with radius 2052 (C157_negation). Proved: with overflow checks the table is built iff the total fits the accumulator, and is then exact; without, it is exact modulo the accumulator range; release builds threshold exactly for radii up to 2051, debug builds while twice the image sum fits 32 bits; exact condition for the panic at the last block"
  },
  {
   "property": "C158",
   "status": "partial",
   "theorems": [
    "Verif.Suppress.C158_release",
    "Verif.Suppress.C158_debug",
    "Verif.Suppress.C158_panics",
    "Verif.Suppress.C158_max_radius",
    "Verif.Suppress.C158_local_maxima",
    "Verif.Suppress.C158_negation"
   ],
   "note": "false of the code: radius u32::MAX makes release builds keep the top left pixel only (or return dominated points) and debug builds panic (C158_negation, C158_max_radius). Proved: release builds are exact for every other radius, debug builds while size plus radius fits 32 bits, with the exact condition for a panic beyond that; local_maxima is the C30 algorithm while coordinates plus radius fit"
  },
  {
   "property": "C159",
   "status": "partial",
   "theorems": [
    "Verif.Filter.Machine.C159_box",
    "Verif.Filter.Machine.C159_box_panics",
    "Verif.Filter.Machine.C159_box_debug_panics",
    "Verif.Filter.Machine.C159_median",
    "Verif.Filter.Machine.C159_median_single",
    "Verif.Filter.Machine.C159_box_single",
    "Verif.Filter.Machine.C159_negation"
   ],
   "note": "False for very large radii: witnesses C159_negation, C159_box_single, C159_median_single. Exact ranges C159_box and C159_median; panics C159_box_panics and C159_box_debug_panics. Median kernels of 2^32 pixels and more are outside the release model."
  },
  {
   "property": "C160",
   "status": "partial",
   "theorems": [
    "Verif.Contours.C160_cast",
    "Verif.Contours.C160_total",
    "Verif.Contours.C160_fits",
    "Verif.Contours.C160_panics",
    "Verif.Contours.C160_negation"
   ],
   "note": "False as stated (C160_negation). C160_cast is the exact characterisation; C160_total and C160_fits give the sizes without failure, C160_panics the failing ones."
  },
  {
   "property": "C161",
   "status": "partial",
   "theorems": [
    "Verif.Float.C161_hollow",
    "Verif.Float.C161_filled",
    "Verif.Float.C161_circle",
    "Verif.Float.C161_panics",
    "Verif.Float.C161_flat",
    "Verif.Float.C161_vertical",
    "Verif.Float.C161_negation"
   ],
   "note": "False as stated (C161_negation, C161_panics, C161_vertical, C161_flat). C161_hollow and C161_filled: no overflow for radii adding up to at most 23000, where C143 applies (radii up to 512)."
  },
  {
   "property": "C162",
   "status": "partial",
   "theorems": [
    "Verif.Float.C162_release",
    "Verif.Float.C162_panics",
    "Verif.Float.C162_debug",
    "Verif.Float.C162_negation"
   ],
   "note": "False of the code in debug builds: y + sy and x + sx are checked i32 additions, so centres with y = i32::MIN or i32::MAX panic, and x at either end panics when one of the three rows meets the image (C162_panics gives the exact condition, C162_negation two witnesses). Release builds are right for every i32 centre (C162_release); away from the panics debug and release agree (C162_debug)."
  },
  {
   "property": "C163",
   "status": "partial",
   "theorems": [
    "Verif.Float.C163_release",
    "Verif.Float.C163_panics",
    "Verif.Float.C163_partial",
    "Verif.Float.C163_negation"
   ],
   "note": "False of the code: y as i32 - ty overflows for ty < height - 2^31. Debug builds panic exactly then (C163_panics), release builds fill the overflowing rows from the top row instead of the bottom row (C163_release gives the exact result for every shift, C163_negation a witness). For ty >= height - 2^31 and every tx both builds are right (C163_partial)."
  },
  {
   "property": "C164",
   "status": "partial",
   "theorems": [
    "Verif.Float.C164_terminates",
    "Verif.Float.C164_panics",
    "Verif.Float.C164_partial",
    "Verif.Float.C164_negation"
   ],
   "note": "False of the code: the position is an i32 compared with x > end_x, so if the larger end on the major axis is 2^31 - 1 or more (after the saturating cast end_x = i32::MAX) release builds never end and debug builds panic on overflow. C164_terminates: release builds end exactly below that bound; C164_panics; C164_negation: i32::MAX as f32 is such an end point. C164_partial: up to 2^29 both builds yield exactly the points described by C118."
  },
  {
   "property": "C165",
   "status": "partial",
   "theorems": [
    "Verif.Float.C165_release",
    "Verif.Float.C165_debug",
    "Verif.Float.C165_panics",
    "Verif.Float.C165_negation"
   ],
   "note": "False of the code in debug builds: x + bb.min.x.round() as i32 and gx as i32 + x_shift are checked additions, so a text whose glyphs reach past the end of the i32 range panics although it is off the image (C165_panics, C165_negation); if no coordinate leaves the range the result is that of C111 (C165_debug). Release builds are right for every position (C165_release)."
  },
  {
   "property": "C166",
   "status": "partial",
   "theorems": [
    "Verif.Contours.C166_outer_partial",
    "Verif.Contours.C166_first_partial",
    "Verif.Contours.C166_hole_partial",
    "Verif.Contours.C166_enclosed_partial",
    "Verif.Contours.C166_points_partial",
    "Verif.Contours.C166_negation"
   ],
   "note": "proved for all images whose first column holds no foreground; false otherwise: a single pixel in the first column is reported as a Hole and there is no Outer contour (C166_negation)"
  },
  {
   "property": "C167",
   "status": "partial",
   "theorems": [
    "Verif.Contours.C167_hole_partial",
    "Verif.Contours.C167_outer_partial",
    "Verif.Contours.C167_negation",
    "Verif.Contours.C167_negation_hole"
   ],
   "note": "proved for all images whose first column holds no foreground; false otherwise: an object to the right of one that touches the left edge is reported as lying in a hole of it, and the hole of a ring at the left edge has no parent (C167_negation, C167_negation_hole)"
  },
  {
   "property": "C168",
   "status": "partial",
   "theorems": [
    "Verif.Contours.C168_count_partial",
    "Verif.Contours.C168_negation"
   ],
   "note": "proved for all images whose first column holds no foreground; false otherwise: a single pixel in the first column is one component and no Outer contour (C168_negation)"
  },
  {
   "property": "C169",
   "status": "proved",
   "theorems": [
    "Verif.Morphology.C169_dilate",
    "Verif.Morphology.C169_erode",
    "Verif.Morphology.C169_open_close",
    "Verif.Morphology.C169_median"
   ],
   "note": "for every increasing map of grey values; median for all radii"
  },
  {
   "property": "C170",
   "status": "proved",
   "theorems": [
    "Verif.Morphology.C170_gray",
    "Verif.Morphology.C170_open_close",
    "Verif.Morphology.C170_binary",
    "Verif.Morphology.C170_binary_open_close"
   ],
   "note": "grayscale for all images and masks, binary for all images, norms and radii up to 255"
  },
  {
   "property": "C171",
   "status": "partial",
   "theorems": [
    "Verif.Morphology.C171_dilate_partial",
    "Verif.Morphology.C171_erode_partial",
    "Verif.Morphology.C171_negation"
   ],
   "note": "proved for radii up to 254 that for L1 and LInf are also below width + height; false otherwise: an empty image dilated by radius 255 or by a radius of at least width + height turns white in the binary version and stays black in the grayscale one (C171_negation)"
  },
  {
   "property": "C172",
   "status": "proved",
   "theorems": [
    "Verif.Relations.C172_distance",
    "Verif.Relations.C172_euclidean",
    "Verif.Relations.C172_morphology",
    "Verif.Relations.C172_components",
    "Verif.Relations.C172_fill",
    "Verif.Relations.C172_adaptive_threshold",
    "Verif.Relations.C172_rotate90_dilate"
   ],
   "note": "adaptive_threshold under the condition of C14 that the pixel sum fits; flood fill with a colour other than the seed's"
  },
  {
   "property": "C173",
   "status": "proved",
   "theorems": [
    "Verif.Relations.C173_fill_component"
   ],
   "note": "fill colour and background colour differ from the seed's colour"
  },
  {
   "property": "C174",
   "status": "proved",
   "theorems": [
    "Verif.Geometry.C174_set",
    "Verif.Geometry.C174_rect",
    "Verif.Geometry.C174_idempotent",
    "Verif.Geometry.C174_inside",
    "Verif.Geometry.C174_translate"
   ],
   "note": "points that are all equal give one or two copies of the point, see C54_degenerate"
  },
  {
   "property": "C175",
   "status": "proved",
   "theorems": [
    "Verif.Relations.C175_levels",
    "Verif.Relations.C175_maps"
   ],
   "note": "levels in exact and in double-precision arithmetic, equalisation in exact and in single-precision arithmetic"
  },
  {
   "property": "C176",
   "status": "proved",
   "theorems": [
    "Verif.Relations.C176_idempotent",
    "Verif.Relations.C176_idempotent_single",
    "Verif.Relations.C176_curve",
    "Verif.Relations.C176_match_self"
   ],
   "note": "equalisation in exact and in single-precision arithmetic; matching in exact arithmetic"
  },
  {
   "property": "C177",
   "status": "proved",
   "theorems": [
    "Verif.Relations.C177_otsu",
    "Verif.Relations.C177_kapur"
   ],
   "note": "in exact arithmetic, images below 2^32 / 255 pixels"
  },
  {
   "property": "C178",
   "status": "partial",
   "theorems": [
    "Verif.Relations.C178_filter_turned",
    "Verif.Relations.C178_linear",
    "Verif.Relations.C178_offset",
    "Verif.Relations.C178_median_turned",
    "Verif.Relations.C178_box_flipped",
    "Verif.Relations.C178_box_negation"
   ],
   "note": "true of filter (exact arithmetic) and median_filter; false of box_filter under quarter turns (it rounds down after the horizontal pass): C178_box_negation; flips are proved"
  },
  {
   "property": "C179",
   "status": "partial",
   "theorems": [
    "Verif.Relations.C179_operators",
    "Verif.Relations.C179_gradients",
    "Verif.Relations.C179_laplacian",
    "Verif.Relations.C179_roberts_negation"
   ],
   "note": "false for gradients with the 2 by 2 Roberts kernels (C179_roberts_negation); proved for Sobel, Scharr, Prewitt and the Laplacian"
  },
  {
   "property": "C180",
   "status": "proved",
   "theorems": [
    "Verif.Relations.C180_brightness",
    "Verif.Relations.C180_turned",
    "Verif.Relations.C180_flipped",
    "Verif.Relations.C180_flip_differs"
   ],
   "note": "flips change the least rotation of some patterns (C180_flip_differs)"
  },
  {
   "property": "C181",
   "status": "partial",
   "theorems": [
    "Verif.Morphology.C181_dilate_partial",
    "Verif.Morphology.C181_erode_partial",
    "Verif.Morphology.C181_dilate_l2",
    "Verif.Morphology.C181_negation",
    "Verif.Morphology.C181_norms",
    "Verif.Morphology.C181_lipschitz"
   ],
   "note": "false for L2 (only containment, C181_dilate_l2) and on images without foreground (background for erosion): C181_negation; proved for L1 and LInf otherwise"
  },
  {
   "property": "C182",
   "status": "partial",
   "theorems": [
    "Verif.Relations.C182_turned_partial",
    "Verif.Relations.C182_negation",
    "Verif.Relations.C182_offset",
    "Verif.Relations.C182_invert"
   ],
   "note": "false for FAST-12 under quarter turns (C182_negation); proved for FAST-9, and for FAST-12 under flips and half turns; brightness parts proved for both"
  },
  {
   "property": "C183",
   "status": "proved",
   "theorems": [
    "Verif.Relations.C183_filter",
    "Verif.Relations.C183_gradients",
    "Verif.Relations.C183_seam",
    "Verif.Relations.C183_shrink",
    "Verif.Relations.C183_hog",
    "Verif.Relations.C183_gaussian",
    "Verif.Relations.C183_canny"
   ],
   "note": "gradients and HOG in single precision; the Gaussian blur and with it Canny in exact arithmetic"
  },
  {
   "property": "C184",
   "status": "partial",
   "theorems": [
    "Verif.Relations.C184_line",
    "Verif.Relations.C184_line32",
    "Verif.Relations.C184_draw_line",
    "Verif.Relations.C184_polygon",
    "Verif.Relations.C184_polygon32_partial",
    "Verif.Relations.C184_negation",
    "Verif.Relations.C184_orientation32_partial",
    "Verif.Relations.C184_hollow"
   ],
   "note": "false in single precision for the orientation of filled polygons whose edges cross a row half-way between two columns (C184_negation); proved in exact arithmetic, for other starting vertices in single precision, and for small polygons without such rows (C184_orientation32_partial)"
  },
  {
   "property": "C185",
   "status": "partial",
   "theorems": [
    "Verif.Relations.C185_line",
    "Verif.Relations.C185_round",
    "Verif.Relations.C185_rect",
    "Verif.Relations.C185_polygon_partial",
    "Verif.Relations.C185_negation"
   ],
   "note": "false for filled polygons with vertices left of column 0: crossings half-way between two columns are rounded away from zero (C185_negation); proved for all other shapes, and for polygons with non-negative columns in exact arithmetic"
  },
  {
   "property": "C186",
   "status": "proved",
   "theorems": [
    "Verif.Relations.C186_canny",
    "Verif.Relations.C186_lines",
    "Verif.Relations.C186_suppress",
    "Verif.Relations.C186_local_maxima",
    "Verif.Relations.C186_corners",
    "Verif.Relations.C186_matches",
    "Verif.Relations.C186_components"
   ],
   "note": "canny also in single precision; suppression twice equals once; 8-connected labels never exceed 4-connected ones"
  },
  {
   "property": "C187",
   "status": "proved",
   "theorems": [
    "Verif.Relations.C187_drawing",
    "Verif.Relations.C187_intersect",
    "Verif.Relations.C187_translate",
    "Verif.Relations.C187_shrink"
   ],
   "note": "drawing functions in their overwriting form; shifts of opposite directions lose what left the image (example)"
  },
  {
   "property": "C188",
   "status": "proved",
   "theorems": [
    "Verif.Relations.C188_filter",
    "Verif.Relations.C188_separable",
    "Verif.Relations.C188_gaussian",
    "Verif.Relations.C188_box",
    "Verif.Relations.C188_median",
    "Verif.Relations.C188_bilateral",
    "Verif.Relations.C188_gradients",
    "Verif.Relations.C188_suppress",
    "Verif.Relations.C188_adaptive",
    "Verif.Relations.C188_grayscale",
    "Verif.Relations.C188_binary",
    "Verif.Relations.C188_lbp",
    "Verif.Relations.C188_fast",
    "Verif.Relations.C188_template"
   ],
   "note": "Gaussian blur and gradients in single precision; adaptive threshold for images whose integral image fits u32 (C157), binary morphology for the radii of C33"
  },
  {
   "property": "C189",
   "status": "proved",
   "theorems": [
    "Verif.Relations.C189_turns",
    "Verif.Relations.C189_moves",
    "Verif.Relations.C189_drawing",
    "Verif.Relations.C189_filter",
    "Verif.Relations.C189_separable",
    "Verif.Relations.C189_gaussian",
    "Verif.Relations.C189_median",
    "Verif.Relations.C189_warp",
    "Verif.Relations.C189_statistics"
   ],
   "note": "the bilateral filter and gradient images mix channels by design and are not claimed"
  },
  {
   "property": "C190",
   "status": "partial",
   "theorems": [
    "Verif.Stats.C190_histogram_fits",
    "Verif.Stats.C190_histogram_panics",
    "Verif.Stats.C190_histogram_wraps",
    "Verif.Stats.C190_cumulative_fits",
    "Verif.Stats.C190_cumulative_panics",
    "Verif.Stats.C190_cumulative_wraps",
    "Verif.Stats.C190_percentile_fits",
    "Verif.Stats.C190_percentile_panics",
    "Verif.Stats.C190_mse_fits",
    "Verif.Stats.C190_mse_panics",
    "Verif.Stats.C190_mse_wraps",
    "Verif.Stats.C190_negation",
    "Verif.Hough.C190_lines_fit",
    "Verif.Hough.C190_lines_wrap",
    "Verif.Hough.C190_lines_negation"
   ],
   "note": "false of the code for images whose counts exceed u32; proved exactly when the counts fit, with the exact effect otherwise"
  },
  {
   "property": "C191",
   "status": "partial",
   "theorems": [
    "Verif.Float.C191_idempotent",
    "Verif.Float.C191_own_histogram_partial",
    "Verif.Float.C191_negation_self",
    "Verif.Float.C191_levels",
    "Verif.Float.C191_negation_levels"
   ],
   "note": "idempotence proved without restriction; levels of the target and fixing an image by its own histogram are false in general, with negations, the exact range of levels, and a proof for at most 2^24 pixels"
  },
  {
   "property": "C192",
   "status": "partial",
   "theorems": [
    "Verif.Relations.C192_simplify",
    "Verif.Relations.C192_simplify64_partial",
    "Verif.Relations.C192_negation_closed",
    "Verif.Relations.C192_components",
    "Verif.Relations.C192_suppress_partial",
    "Verif.Relations.C192_negation_suppress",
    "Verif.Relations.C192_threshold",
    "Verif.Relations.C192_threshold_inverted",
    "Verif.Relations.C192_negation_fill"
   ],
   "note": "proved for open curves (exact, and f64 for integer coordinates up to 2^25), label images, unsigned suppression and four threshold types; false for closed curves, signed images, the inverted binary threshold and flood fill, with negations"
  },
  {
   "property": "C193",
   "status": "partial",
   "theorems": [
    "Verif.Contrast.C193_fits",
    "Verif.Contrast.C193_otsu",
    "Verif.Contrast.C193_panics",
    "Verif.Contrast.C193_negation",
    "Verif.Float.C193_negation64"
   ],
   "note": "false for images whose products do not fit in u32: exact condition for the panic of debug builds and a wrong level of a release build proved; proved for all images that fit"
  },
  {
   "property": "C194",
   "status": "partial",
   "theorems": [
    "Verif.Float.C194_pixels",
    "Verif.Float.C194_near_partial",
    "Verif.Float.C194_cover_partial",
    "Verif.Float.C194_negation"
   ],
   "note": "coverage is false near the corners: a lost line proved; proved for lines clear of the corners; pixels, totality and nearness hold for all lines"
  },
  {
   "property": "C195",
   "status": "partial",
   "theorems": [
    "Verif.Float.C195_kapur_fits",
    "Verif.Float.C195_kapur_panics",
    "Verif.Float.C195_kapur_negation",
    "Verif.Float.C195_fast_given_fits",
    "Verif.Float.C195_fast_auto_fits",
    "Verif.Float.C195_fast_debug",
    "Verif.Float.C195_fast_release",
    "Verif.Float.C195_fast_negation",
    "Verif.Float.C195_canny"
   ],
   "note": "false from 2^32 pixels on: exact panics of debug builds, a wrong release level and a release panic proved; proved for images that fit, and for Canny in release builds for all images"
  },
  {
   "property": "C196",
   "status": "partial",
   "theorems": [
    "Verif.Drawing.C196_fits",
    "Verif.Drawing.C196_fill_partial",
    "Verif.Drawing.C196_negation",
    "Verif.Drawing.C196_rows",
    "Verif.Drawing.C196_panics"
   ],
   "note": "false for images of more than 2^31 columns: unfilled seed and debug panic proved; exact region proved for images that fit"
  },
  {
   "property": "C197",
   "status": "partial",
   "theorems": [
    "Verif.Seam.C197_fits",
    "Verif.Seam.C197_debug_iff",
    "Verif.Seam.C197_find_fits",
    "Verif.Seam.C197_release",
    "Verif.Seam.C197_shrink_fits",
    "Verif.Seam.C197_shrink_release",
    "Verif.Seam.C197_negation"
   ],
   "note": "false for images of millions of rows: exact condition of the debug panic and a wrong release seam proved; proved for all images whose energies fit; release seams connected for all images"
  },
  {
   "property": "C198",
   "status": "partial",
   "theorems": [
    "Verif.Haar.C198_debug",
    "Verif.Haar.C198_profile_partial",
    "Verif.Haar.C198_release",
    "Verif.Haar.C198_number",
    "Verif.Haar.C198_negation"
   ],
   "note": "false for frames with a side of 255: debug panic and the exact release list proved, and that it is shorter than the count; proved for all sides below 255"
  },
  {
   "property": "C199",
   "status": "partial",
   "theorems": [
    "Verif.Haar.C199_release",
    "Verif.Haar.C199_debug",
    "Verif.Haar.C199_negation",
    "Verif.Haar.C199_fits_partial",
    "Verif.Haar.C199_square"
   ],
   "note": "false for frames of common image sizes: exact debug condition and release value (number modulo 2^32) proved for all sizes; proved for all counts that fit"
  },
  {
   "property": "C200",
   "status": "partial",
   "theorems": [
    "Verif.Haar.C200_release",
    "Verif.Haar.C200_debug",
    "Verif.Haar.C200_values",
    "Verif.Haar.C200_squares_partial",
    "Verif.Haar.C200_negation_debug",
    "Verif.Haar.C200_negation_release"
   ],
   "note": "false for integral images of squares: release value (signed sum wrapped into i32) proved for all images and features, debug equals the checked evaluation of C63, witnesses for both profiles; proved for values and for features of at most 33025 pixels"
  },
  {
   "property": "C201",
   "status": "partial",
   "theorems": [
    "Verif.Noise.C201_noise",
    "Verif.Noise.C201_near",
    "Verif.Noise.C201_exact_partial",
    "Verif.Noise.C201_special",
    "Verif.Noise.C201_negation"
   ],
   "note": "exact truncation is false by f64 rounding (witness proved); proved: sample order, value up to rounding with the exact condition, special values, exactness for fixed point samples"
  },
  {
   "property": "C202",
   "status": "partial",
   "theorems": [
    "Verif.Compose.C202_crop",
    "Verif.Compose.C202_crop_empty",
    "Verif.Compose.C202_negation",
    "Verif.Compose.C202_paste_partial",
    "Verif.Compose.C202_paste_overflow",
    "Verif.Compose.C202_negation_replace"
   ],
   "note": "false in release builds for empty rectangles with a wrapping edge and for offsets plus sizes of 2^32 or more (witnesses proved); proved: non-empty rectangles in both profiles, exact acceptance of empty ones, exact effect of overflowing pastes"
  },
  {
   "property": "C203",
   "status": "partial",
   "theorems": [
    "Verif.Edges.C203_empty",
    "Verif.Edges.C203_nonempty_partial",
    "Verif.Edges.C203_large",
    "Verif.Edges.C203_negation"
   ],
   "note": "false for most images without pixels and, in debug builds, for 2^32 or more pixels (witnesses proved); proved: exact behaviour on all empty images and equality with the C115 detector on all others"
  },
  {
   "property": "C204",
   "status": "partial",
   "theorems": [
    "Verif.Filter.C204_fits_partial",
    "Verif.Filter.C204_edge",
    "Verif.Filter.C204_wide",
    "Verif.Filter.C204_debug",
    "Verif.Filter.C204_unsafe",
    "Verif.Filter.C204_negation"
   ],
   "note": "false for widths around and beyond 2^31 (negation, out-of-bounds read and exact result proved); proved: equality with the filter on unbounded coordinates whenever the columns asked for fit, exact release result beyond 2^31 columns, panics"
  },
  {
   "property": "C205",
   "status": "partial",
   "theorems": [
    "Verif.Filter.C205_fits_partial",
    "Verif.Filter.C205_tall",
    "Verif.Filter.C205_edge",
    "Verif.Filter.C205_debug",
    "Verif.Filter.C205_unsafe",
    "Verif.Filter.C205_negation"
   ],
   "note": "false for heights around and beyond 2^31 (negation, out-of-bounds read and exact result proved); proved: equality with the filter on unbounded coordinates whenever the rows asked for fit, exact release result beyond 2^31 rows, panics"
  }
 ]
}