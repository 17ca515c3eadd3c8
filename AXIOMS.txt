Verif.Brief.C71_average: propext, Classical.choice, Quot.sound
Verif.Brief.C71_bits_partial: propext, Classical.choice, Quot.sound
Verif.Brief.C71_differences_partial: propext, Classical.choice, Quot.sound
Verif.Brief.C71_distance: propext, Classical.choice, Quot.sound
Verif.Brief.C71_errors: propext, Quot.sound
Verif.Brief.C71_negation: propext, Classical.choice, Quot.sound
Verif.Brief.C71_subset: propext, Classical.choice, Quot.sound
Verif.Brief.C71_symm: propext, Classical.choice, Quot.sound
Verif.Brief.C71_zero_length: propext, Quot.sound
Verif.Brief.C72_best: propext, Classical.choice, Quot.sound
Verif.Brief.C72_brief: propext, Classical.choice, Quot.sound
Verif.Brief.C72_brief_exact: propext, Classical.choice, Quot.sound
Verif.Brief.C72_exact: propext, Classical.choice, Quot.sound
Verif.Brief.C72_nearest: propext, Classical.choice, Quot.sound
Verif.Brief.C72_negation: propext
Verif.Brief.C72_once_partial: propext, Classical.choice, Quot.sound
Verif.Brief.C72_pairs: propext, Classical.choice, Quot.sound
Verif.Compose.C202_crop: propext, Quot.sound
Verif.Compose.C202_crop_empty: propext, Quot.sound
Verif.Compose.C202_negation: propext, Classical.choice, Quot.sound
Verif.Compose.C202_negation_replace: propext, Classical.choice, Quot.sound
Verif.Compose.C202_paste_overflow: propext, Quot.sound
Verif.Compose.C202_paste_partial: propext
Verif.Compose.C20_crop: propext, Quot.sound
Verif.Compose.C20_crop_crop: propext, Quot.sound
Verif.Compose.C20_rejects: propext, Quot.sound
Verif.Compose.C21_flip_horizontal: propext, Classical.choice, Quot.sound
Verif.Compose.C21_flip_vertical: propext, Classical.choice, Quot.sound
Verif.Compose.C21_flips_involutive: propext, Classical.choice, Quot.sound
Verif.Compose.C21_quarter_turns: propext, Classical.choice, Quot.sound
Verif.Compose.C21_rotate180: propext, Classical.choice, Quot.sound
Verif.Compose.C21_rotate180_eq_flips: propext, Classical.choice, Quot.sound
Verif.Compose.C21_rotate270: propext, Classical.choice, Quot.sound
Verif.Compose.C21_rotate270_inverts: propext, Classical.choice, Quot.sound
Verif.Compose.C21_rotate90: propext, Classical.choice, Quot.sound
Verif.Compose.C22_negation: propext
Verif.Compose.C22_rejects: propext, Quot.sound
Verif.Compose.C22_replace_exact: propext, Classical.choice, Quot.sound
Verif.Compose.C22_replace_partial: propext, Classical.choice, Quot.sound
Verif.Compose.C23_ignores_top: none
Verif.Compose.C23_negation: propext
Verif.Compose.C23_overlay_exact: propext, Classical.choice, Quot.sound
Verif.Compose.C23_uncovered_partial: propext, Classical.choice, Quot.sound
Verif.Compose.C24_translate: propext, Classical.choice, Quot.sound
Verif.Contours.C160_cast: propext, Classical.choice, Quot.sound
Verif.Contours.C160_fits: propext, Classical.choice, Quot.sound
Verif.Contours.C160_negation: propext, Classical.choice, Quot.sound
Verif.Contours.C160_panics: propext, Classical.choice, Quot.sound
Verif.Contours.C160_total: propext, Classical.choice, Quot.sound
Verif.Contours.C166_enclosed_partial: propext, Classical.choice, Quot.sound
Verif.Contours.C166_first_partial: propext, Classical.choice, Quot.sound
Verif.Contours.C166_hole_partial: propext, Classical.choice, Quot.sound
Verif.Contours.C166_negation: propext, Quot.sound
Verif.Contours.C166_outer_partial: propext, Classical.choice, Quot.sound
Verif.Contours.C166_points_partial: propext, Classical.choice, Quot.sound
Verif.Contours.C167_hole_partial: propext, Classical.choice, Quot.sound
Verif.Contours.C167_negation: propext, Classical.choice, Quot.sound
Verif.Contours.C167_negation_hole: propext, Classical.choice, Quot.sound
Verif.Contours.C167_outer_partial: propext, Classical.choice, Quot.sound
Verif.Contours.C168_count_partial: propext, Classical.choice, Quot.sound
Verif.Contours.C168_negation: propext, Quot.sound
Verif.Contours.C51_count: propext, Classical.choice, Quot.sound
Verif.Contours.C51_total: propext, Classical.choice, Quot.sound
Verif.Contours.C52_chain: propext, Classical.choice, Quot.sound
Verif.Contours.C52_parent: propext, Classical.choice, Quot.sound
Verif.Contours.C52_type: propext, Classical.choice, Quot.sound
Verif.Contours.C53_negation: propext, Quot.sound
Verif.Contours.C53_none: propext, Classical.choice, Quot.sound
Verif.Contours.C53_partial: propext, Classical.choice, Quot.sound
Verif.Contours.C53_row: propext, Classical.choice, Quot.sound
Verif.Contours.C53_side: propext, Classical.choice, Quot.sound
Verif.Contours.C93_edge: propext, Classical.choice, Quot.sound
Verif.Contours.C94_left_partial: propext, Classical.choice, Quot.sound
Verif.Contours.C94_negation: propext, Quot.sound
Verif.Contours.C94_partial: propext, Classical.choice, Quot.sound
Verif.Contours.C95_all_partial: propext, Classical.choice, Quot.sound
Verif.Contours.C95_border: propext, Classical.choice, Quot.sound
Verif.Contours.C95_left_partial: propext, Classical.choice, Quot.sound
Verif.Contours.C95_once: propext, Classical.choice, Quot.sound
Verif.Contrast.C14_adaptive_threshold: propext, Classical.choice, Quot.sound
Verif.Contrast.C14_rejects: propext
Verif.Contrast.C15_large_image_overflows: propext, Classical.choice, Quot.sound
Verif.Contrast.C15_otsu: propext, Classical.choice, Quot.sound
Verif.Contrast.C15_otsu_zero: propext, Classical.choice, Quot.sound
Verif.Contrast.C16_documented_partial: none
Verif.Contrast.C16_negation: propext
Verif.Contrast.C16_swapped: none
Verif.Contrast.C17_monotone: propext, Classical.choice, Quot.sound
Verif.Contrast.C17_rejects: propext, Quot.sound
Verif.Contrast.C17_sample: propext, Classical.choice, Quot.sound
Verif.Contrast.C17_stretch_contrast: propext, Classical.choice, Quot.sound
Verif.Contrast.C18_equalize: propext, Classical.choice, Quot.sound
Verif.Contrast.C18_monotone_and_full: propext, Classical.choice, Quot.sound
Verif.Contrast.C193_fits: propext, Classical.choice, Quot.sound
Verif.Contrast.C193_negation: propext, Classical.choice, Quot.sound
Verif.Contrast.C193_otsu: propext, Classical.choice, Quot.sound
Verif.Contrast.C193_panics: propext, Classical.choice, Quot.sound
Verif.Contrast.C19_match_histogram: propext, Classical.choice, Quot.sound
Verif.Contrast.C96_kapur: propext, Classical.choice, Quot.sound
Verif.Corners.C107_ranked: propext, Classical.choice, Quot.sound
Verif.Corners.C108_negation: propext, Classical.choice, Quot.sound
Verif.Corners.C108_orientation_partial: propext, Classical.choice, Quot.sound
Verif.Corners.C108_sums_exact: propext, Classical.choice, Quot.sound
Verif.Corners.C109_automatic_exact: propext, Classical.choice, Quot.sound
Verif.Corners.C109_automatic_partial: propext, Classical.choice, Quot.sound
Verif.Corners.C109_negation: propext, Classical.choice, Quot.sound
Verif.Corners.C109_negation_small: propext, Classical.choice, Quot.sound
Verif.Corners.C65_fast12_exact: propext, Classical.choice, Quot.sound
Verif.Corners.C65_fast12_partial: propext, Classical.choice, Quot.sound
Verif.Corners.C65_fast9: propext, Classical.choice, Quot.sound
Verif.Corners.C65_list: propext, Classical.choice, Quot.sound
Verif.Corners.C65_negation: propext
Verif.Corners.C65_ring: propext
Verif.Corners.C66_monotone: propext, Quot.sound
Verif.Corners.C66_score: propext, Classical.choice, Quot.sound
Verif.Definitions.C75_float: propext, Classical.choice, Quot.sound
Verif.Definitions.C75_float_mono: propext, Classical.choice, Quot.sound
Verif.Definitions.C75_float_targets: propext, Classical.choice, Quot.sound
Verif.Definitions.C75_int: propext, Quot.sound
Verif.Definitions.C75_int_mono: propext, Quot.sound
Verif.Definitions.C75_pairs: propext, Classical.choice, Quot.sound
Verif.Definitions.C75_trunc: propext, Classical.choice, Quot.sound
Verif.Distance.C31_exact: propext, Classical.choice, Quot.sound
Verif.Distance.C31_no_foreground: propext, Classical.choice, Quot.sound
Verif.Distance.C31_zero_iff: propext, Classical.choice, Quot.sound
Verif.Distance.C32_exact: propext, Classical.choice, Quot.sound
Verif.Drawing.C07_contains_iff: propext, Classical.choice, Quot.sound
Verif.Drawing.C07_intersect: propext, Classical.choice, Quot.sound
Verif.Drawing.C08_empty_canvas_panics: propext, Quot.sound
Verif.Drawing.C08_filled_rect: propext, Classical.choice, Quot.sound
Verif.Drawing.C100_degenerate: propext, Classical.choice, Quot.sound
Verif.Drawing.C100_hollow_polygon: propext, Classical.choice, Quot.sound
Verif.Drawing.C101_bezier: propext, Classical.choice, Quot.sound
Verif.Drawing.C101_spacing: propext, Classical.choice, Quot.sound
Verif.Drawing.C111_advance: propext, Classical.choice, Quot.sound
Verif.Drawing.C111_coats: propext, Classical.choice, Quot.sound
Verif.Drawing.C111_kerning_negation: propext, Classical.choice, Quot.sound
Verif.Drawing.C111_pixels: propext, Classical.choice, Quot.sound
Verif.Drawing.C111_size: propext, Classical.choice, Quot.sound
Verif.Drawing.C111_translate: propext, Classical.choice, Quot.sound
Verif.Drawing.C196_fill_partial: propext, Classical.choice, Quot.sound
Verif.Drawing.C196_fits: propext, Classical.choice, Quot.sound
Verif.Drawing.C196_negation: propext, Quot.sound
Verif.Drawing.C196_panics: propext, Quot.sound
Verif.Drawing.C196_rows: propext, Quot.sound
Verif.Drawing.C42_bresenham: propext, Classical.choice, Quot.sound
Verif.Drawing.C42_real: propext, Classical.choice, Quot.sound
Verif.Drawing.C43_draw: propext, Classical.choice, Quot.sound
Verif.Drawing.C43_iter: propext, Classical.choice, Quot.sound
Verif.Drawing.C43_iter_inside: propext, Classical.choice, Quot.sound
Verif.Drawing.C44_fill_partial: propext, Classical.choice, Quot.sound
Verif.Drawing.C44_negation: propext, Classical.choice, Quot.sound
Verif.Drawing.C44_outside: none
Verif.Drawing.C45_hollow: propext, Classical.choice, Quot.sound
Verif.Drawing.C45_hollow_blend: propext, Classical.choice, Quot.sound
Verif.Drawing.C45_symmetric: propext, Classical.choice, Quot.sound
Verif.Drawing.C46_filled: propext, Classical.choice, Quot.sound
Verif.Drawing.C46_filled_blend: propext, Classical.choice, Quot.sound
Verif.Drawing.C46_inner: propext, Classical.choice, Quot.sound
Verif.Drawing.C46_inner_sq: propext, Classical.choice, Quot.sound
Verif.Drawing.C46_outer: propext, Classical.choice, Quot.sound
Verif.Drawing.C47_antialiased_total: propext, Classical.choice, Quot.sound
Verif.Drawing.C47_bbox: propext, Classical.choice, Quot.sound
Verif.Drawing.C47_edges: propext, Classical.choice, Quot.sound
Verif.Drawing.C47_fill: propext, Classical.choice, Quot.sound
Verif.Drawing.C47_fill_overwrite: propext, Classical.choice, Quot.sound
Verif.Drawing.C47_negation: propext, Classical.choice, Quot.sound
Verif.Drawing.C47_vertices_partial: propext, Classical.choice, Quot.sound
Verif.Drawing.C48_antialiased_partial: propext, Classical.choice, Quot.sound
Verif.Drawing.C48_exact: propext, Classical.choice, Quot.sound
Verif.Drawing.C48_negation: propext, Classical.choice, Quot.sound
Verif.Drawing.C48_weights: propext, Classical.choice, Quot.sound
Verif.Drawing.C49_cross: propext, Classical.choice, Quot.sound
Verif.Drawing.C97_circle: propext, Classical.choice, Quot.sound
Verif.Drawing.C97_hollow_partial: propext, Classical.choice, Quot.sound
Verif.Drawing.C97_negation: propext, Classical.choice, Quot.sound
Verif.Drawing.C98_circle: propext, Classical.choice, Quot.sound
Verif.Drawing.C98_filled_partial: propext, Classical.choice, Quot.sound
Verif.Drawing.C98_negation: propext, Classical.choice, Quot.sound
Verif.Drawing.C99_hollow_rect: propext, Classical.choice, Quot.sound
Verif.Edges.C115_canny: propext, Classical.choice, Quot.sound
Verif.Edges.C115_direction: propext, Classical.choice, Quot.sound
Verif.Edges.C115_none: propext, Classical.choice, Quot.sound
Verif.Edges.C115_strength: propext, Classical.choice, Quot.sound
Verif.Edges.C203_empty: propext, Classical.choice, Quot.sound
Verif.Edges.C203_large: propext, Classical.choice, Quot.sound
Verif.Edges.C203_negation: propext, Classical.choice, Quot.sound
Verif.Edges.C203_nonempty_partial: propext, Classical.choice, Quot.sound
Verif.Edges.C50_exact: propext, Classical.choice, Quot.sound
Verif.Edges.C50_negation: propext
Verif.Edges.C50_sound_partial: propext, Classical.choice, Quot.sound
Verif.Edges.C88_gaussian: propext, Classical.choice, Quot.sound
Verif.Edges.C88_gaussian_weights: propext, Classical.choice, Quot.sound
Verif.Edges.C89_canny: propext, Classical.choice, Quot.sound
Verif.Edges.C89_exact: propext, Classical.choice, Quot.sound
Verif.Edges.C89_suppression: propext, Classical.choice, Quot.sound
Verif.Filter.Bilateral.C41_formula: propext, Classical.choice, Quot.sound
Verif.Filter.Bilateral.C41_large_radius: propext, Classical.choice, Quot.sound
Verif.Filter.Bilateral.C41_range_partial: propext, Classical.choice, Quot.sound
Verif.Filter.Bilateral.C41_rejects: propext, Quot.sound
Verif.Filter.Bilateral.C41_uniform_partial: propext, Classical.choice, Quot.sound
Verif.Filter.Box.C40_box_filter: propext, Classical.choice, Quot.sound
Verif.Filter.Box.C40_range: propext, Classical.choice, Quot.sound
Verif.Filter.Box.C40_rounding: propext, Classical.choice, Quot.sound
Verif.Filter.C103_flat: propext, Classical.choice, Quot.sound
Verif.Filter.C103_identity: propext, Classical.choice, Quot.sound
Verif.Filter.C103_parallel: propext, Classical.choice, Quot.sound
Verif.Filter.C103_sharpen3x3: propext, Classical.choice, Quot.sound
Verif.Filter.C103_sharpen_gaussian: propext, Classical.choice, Quot.sound
Verif.Filter.C204_debug: propext, Classical.choice, Quot.sound
Verif.Filter.C204_edge: propext, Classical.choice, Quot.sound
Verif.Filter.C204_fits_partial: propext, Quot.sound
Verif.Filter.C204_negation: propext, Classical.choice, Quot.sound
Verif.Filter.C204_unsafe: propext, Quot.sound
Verif.Filter.C204_wide: propext, Classical.choice, Quot.sound
Verif.Filter.C205_debug: propext, Classical.choice, Quot.sound
Verif.Filter.C205_edge: propext, Classical.choice, Quot.sound
Verif.Filter.C205_fits_partial: propext, Quot.sound
Verif.Filter.C205_negation: propext, Classical.choice, Quot.sound
Verif.Filter.C205_tall: propext, Classical.choice, Quot.sound
Verif.Filter.C205_unsafe: propext, Quot.sound
Verif.Filter.C37_filter: propext, Classical.choice, Quot.sound
Verif.Filter.C37_filter_parallel: propext, Classical.choice, Quot.sound
Verif.Filter.C37_filter_sum: propext, Classical.choice, Quot.sound
Verif.Filter.C37_kernel_new: propext
Verif.Filter.C38_horizontal: propext, Classical.choice, Quot.sound
Verif.Filter.C38_horizontal_eq_filter: propext, Classical.choice, Quot.sound
Verif.Filter.C38_vertical: propext, Classical.choice, Quot.sound
Verif.Filter.C38_vertical_eq_filter: propext, Classical.choice, Quot.sound
Verif.Filter.C87_negation: propext
Verif.Filter.C87_outer_product_partial: propext, Classical.choice, Quot.sound
Verif.Filter.C87_rejects: propext
Verif.Filter.C88_blur_constant: propext, Classical.choice, Quot.sound
Verif.Filter.C88_blur_range: propext, Classical.choice, Quot.sound
Verif.Filter.C88_kernel: propext, Classical.choice, Quot.sound
Verif.Filter.C88_kernel_normalised: propext, Classical.choice, Quot.sound
Verif.Filter.Machine.C159_box: propext, Classical.choice, Quot.sound
Verif.Filter.Machine.C159_box_debug_panics: propext, Classical.choice, Quot.sound
Verif.Filter.Machine.C159_box_panics: propext, Classical.choice, Quot.sound
Verif.Filter.Machine.C159_box_single: propext, Classical.choice, Quot.sound
Verif.Filter.Machine.C159_median: propext, Classical.choice, Quot.sound
Verif.Filter.Machine.C159_median_single: propext, Classical.choice, Quot.sound
Verif.Filter.Machine.C159_negation: propext, Classical.choice, Quot.sound
Verif.Filter.Median.C39_constant: propext, Classical.choice, Quot.sound
Verif.Filter.Median.C39_median_filter: propext, Classical.choice, Quot.sound
Verif.Filter.Median.C39_overflow: propext, Quot.sound
Verif.Float.C116_scharr_negation: propext, Classical.choice, Quot.sound
Verif.Float.C116_sobel_prewitt: propext, Classical.choice, Quot.sound
Verif.Float.C116_within_one: propext, Classical.choice, Quot.sound
Verif.Float.C117_ends: propext, Classical.choice, Quot.sound
Verif.Float.C117_equal_negation: propext, Classical.choice, Quot.sound
Verif.Float.C117_interpolate: propext, Classical.choice, Quot.sound
Verif.Float.C117_monotone: propext, Classical.choice, Quot.sound
Verif.Float.C118_draw: propext, Classical.choice, Quot.sound
Verif.Float.C118_exact: propext, Classical.choice, Quot.sound
Verif.Float.C118_near: propext, Classical.choice, Quot.sound
Verif.Float.C118_once: propext, Classical.choice, Quot.sound
Verif.Float.C118_rounding_matters: propext, Classical.choice, Quot.sound
Verif.Float.C119_accuracy: propext, Classical.choice, Quot.sound
Verif.Float.C119_monotone: propext, Classical.choice, Quot.sound
Verif.Float.C119_negation: propext, Classical.choice, Quot.sound
Verif.Float.C119_range_partial: propext, Classical.choice, Quot.sound
Verif.Float.C120_exact: propext, Classical.choice, Quot.sound
Verif.Float.C120_general: propext, Classical.choice, Quot.sound
Verif.Float.C120_negation: propext, Classical.choice, Quot.sound
Verif.Float.C120_never_below: propext, Classical.choice, Quot.sound
Verif.Float.C121_match_histogram: propext, Classical.choice, Quot.sound
Verif.Float.C121_optimal: propext, Classical.choice, Quot.sound
Verif.Float.C122_accuracy: propext, Classical.choice, Quot.sound
Verif.Float.C122_best_partial: propext, Classical.choice, Quot.sound
Verif.Float.C122_bound_partial: propext, Classical.choice, Quot.sound
Verif.Float.C122_exact: propext, Classical.choice, Quot.sound
Verif.Float.C122_masked_accuracy: propext, Classical.choice, Quot.sound
Verif.Float.C122_monotone: propext, Classical.choice, Quot.sound
Verif.Float.C122_negation: propext, Classical.choice, Quot.sound
Verif.Float.C122_negation_order: propext, Classical.choice, Quot.sound
Verif.Float.C122_parallel: propext, Classical.choice, Quot.sound
Verif.Float.C122_perfect: propext, Classical.choice, Quot.sound
Verif.Float.C122_zero: propext, Classical.choice, Quot.sound
Verif.Float.C123_exact: propext, Classical.choice, Quot.sound
Verif.Float.C123_morphology: propext, Classical.choice, Quot.sound
Verif.Float.C124_accuracy: propext, Classical.choice, Quot.sound
Verif.Float.C124_negation: propext, Classical.choice, Quot.sound
Verif.Float.C124_range_partial: propext, Classical.choice, Quot.sound
Verif.Float.C125_mse: propext, Classical.choice, Quot.sound
Verif.Float.C125_rejects: propext, Classical.choice, Quot.sound
Verif.Float.C125_rmse: propext, Classical.choice, Quot.sound
Verif.Float.C125_uniform_difference: propext, Classical.choice, Quot.sound
Verif.Float.C126_negation: propext, Classical.choice, Quot.sound
Verif.Float.C126_variance_partial: propext, Classical.choice, Quot.sound
Verif.Float.C127_error: propext, Classical.choice, Quot.sound
Verif.Float.C127_exact_partial: propext, Classical.choice, Quot.sound
Verif.Float.C127_negation: propext, Classical.choice, Quot.sound
Verif.Float.C128_bicubic_reads: propext, Classical.choice, Quot.sound
Verif.Float.C128_bicubic_safe_partial: propext, Classical.choice, Quot.sound
Verif.Float.C128_bilinear_safe: propext, Classical.choice, Quot.sound
Verif.Float.C128_nan_white: propext, Classical.choice, Quot.sound
Verif.Float.C128_nearest_safe: propext, Classical.choice, Quot.sound
Verif.Float.C128_negation_empty: propext, Classical.choice, Quot.sound
Verif.Float.C128_negation_nan: propext, Classical.choice, Quot.sound
Verif.Float.C128_negation_tall: propext, Classical.choice, Quot.sound
Verif.Float.C129_bicubic_partial: propext, Classical.choice, Quot.sound
Verif.Float.C129_bilinear_partial: propext, Classical.choice, Quot.sound
Verif.Float.C129_nearest_partial: propext, Classical.choice, Quot.sound
Verif.Float.C129_negation: propext, Classical.choice, Quot.sound
Verif.Float.C130_bicubic: propext, Classical.choice, Quot.sound
Verif.Float.C130_bilinear: propext, Classical.choice, Quot.sound
Verif.Float.C130_bilinear_range_partial: propext, Classical.choice, Quot.sound
Verif.Float.C130_negation: propext, Classical.choice, Quot.sound
Verif.Float.C131_all_votes: propext, Classical.choice, Quot.sound
Verif.Float.C131_diagonal: propext, Classical.choice, Quot.sound
Verif.Float.C131_horizontal_vote: propext, Classical.choice, Quot.sound
Verif.Float.C131_negation: propext, Classical.choice, Quot.sound
Verif.Float.C131_negation_reported: propext, Classical.choice, Quot.sound
Verif.Float.C131_vertical_vote: propext, Classical.choice, Quot.sound
Verif.Float.C131_vote_close: propext, Classical.choice, Quot.sound
Verif.Float.C132_away: propext, Classical.choice, Quot.sound
Verif.Float.C132_bbox: propext, Classical.choice, Quot.sound
Verif.Float.C132_close: propext, Classical.choice, Quot.sound
Verif.Float.C132_crossing: propext, Classical.choice, Quot.sound
Verif.Float.C132_crossing_exact: propext, Classical.choice, Quot.sound
Verif.Float.C132_exact_partial: propext, Classical.choice, Quot.sound
Verif.Float.C132_fill: propext, Classical.choice, Quot.sound
Verif.Float.C132_negation: propext, Classical.choice, Quot.sound
Verif.Float.C133_constant: propext, Classical.choice, Quot.sound
Verif.Float.C133_exact_partial: propext, Classical.choice, Quot.sound
Verif.Float.C133_near_optimal: propext, Classical.choice, Quot.sound
Verif.Float.C133_negation: propext, Classical.choice, Quot.sound
Verif.Float.C133_separates: propext, Classical.choice, Quot.sound
Verif.Float.C133_two_levels: propext, Classical.choice, Quot.sound
Verif.Float.C134_at_most_one: propext, Classical.choice, Quot.sound
Verif.Float.C134_histogram: propext, Classical.choice, Quot.sound
Verif.Float.C134_hog: propext, Classical.choice, Quot.sound
Verif.Float.C134_position: propext, Classical.choice, Quot.sound
Verif.Float.C134_unit: propext, Classical.choice, Quot.sound
Verif.Float.C135_automatic_partial: propext, Classical.choice, Quot.sound
Verif.Float.C135_given: propext, Classical.choice, Quot.sound
Verif.Float.C135_negation: propext, Classical.choice, Quot.sound
Verif.Float.C136_canny: propext, Classical.choice, Quot.sound
Verif.Float.C136_flat: propext, Classical.choice, Quot.sound
Verif.Float.C136_sector: propext, Classical.choice, Quot.sound
Verif.Float.C136_sharp: propext, Classical.choice, Quot.sound
Verif.Float.C136_whole: propext, Classical.choice, Quot.sound
Verif.Float.C137_full_turn: propext, Classical.choice, Quot.sound
Verif.Float.C137_half_turn_partial: propext, Classical.choice, Quot.sound
Verif.Float.C137_nearest: propext, Classical.choice, Quot.sound
Verif.Float.C137_negation: propext, Classical.choice, Quot.sound
Verif.Float.C137_position: propext, Classical.choice, Quot.sound
Verif.Float.C137_quarter_turn_back_partial: propext, Classical.choice, Quot.sound
Verif.Float.C137_quarter_turn_partial: propext, Classical.choice, Quot.sound
Verif.Float.C138_exact: propext, Classical.choice, Quot.sound
Verif.Float.C138_line_partial: propext, Classical.choice, Quot.sound
Verif.Float.C138_negation: propext, Classical.choice, Quot.sound
Verif.Float.C138_negation_weight: propext, Classical.choice, Quot.sound
Verif.Float.C138_stuck: propext, Classical.choice, Quot.sound
Verif.Float.C138_weights: propext, Classical.choice, Quot.sound
Verif.Float.C139_accuracy: propext, Classical.choice, Quot.sound
Verif.Float.C139_flat_partial: propext, Classical.choice, Quot.sound
Verif.Float.C139_negation: propext, Classical.choice, Quot.sound
Verif.Float.C139_panics: propext, Classical.choice, Quot.sound
Verif.Float.C139_zero: propext, Classical.choice, Quot.sound
Verif.Float.C140_bezier_partial: propext, Classical.choice, Quot.sound
Verif.Float.C140_negation: propext, Classical.choice, Quot.sound
Verif.Float.C141_empty: propext, Classical.choice, Quot.sound
Verif.Float.C141_fits: propext, Classical.choice, Quot.sound
Verif.Float.C141_height: propext, Classical.choice, Quot.sound
Verif.Float.C141_negation: propext, Classical.choice, Quot.sound
Verif.Float.C143_filled: propext, Classical.choice, Quot.sound
Verif.Float.C143_hollow: propext, Classical.choice, Quot.sound
Verif.Float.C143_tolerance: propext, Classical.choice, Quot.sound
Verif.Float.C145_diverges: propext, Classical.choice, Quot.sound
Verif.Float.C145_integer_partial: propext, Classical.choice, Quot.sound
Verif.Float.C145_kept: propext, Classical.choice, Quot.sound
Verif.Float.C145_negation: propext, Classical.choice, Quot.sound
Verif.Float.C146_accuracy: propext, Classical.choice, Quot.sound
Verif.Float.C146_rectilinear: propext, Classical.choice, Quot.sound
Verif.Float.C147_bilinear_partial: propext, Classical.choice, Quot.sound
Verif.Float.C147_grid: propext, Classical.choice, Quot.sound
Verif.Float.C147_magnify: propext, Classical.choice, Quot.sound
Verif.Float.C147_negation: propext, Classical.choice, Quot.sound
Verif.Float.C147_shrink: propext, Classical.choice, Quot.sound
Verif.Float.C148_affine: propext, Classical.choice, Quot.sound
Verif.Float.C148_horizon: propext, Classical.choice, Quot.sound
Verif.Float.C148_nearest: propext, Classical.choice, Quot.sound
Verif.Float.C148_position: propext, Classical.choice, Quot.sound
Verif.Float.C148_translation: propext, Classical.choice, Quot.sound
Verif.Float.C148_translation_class: propext, Classical.choice, Quot.sound
Verif.Float.C148_undefined: propext, Classical.choice, Quot.sound
Verif.Float.C149_affine_singular: propext, Classical.choice, Quot.sound
Verif.Float.C149_class: propext, Classical.choice, Quot.sound
Verif.Float.C149_integer_partial: propext, Classical.choice, Quot.sound
Verif.Float.C149_negation: propext, Classical.choice, Quot.sound
Verif.Float.C150_margin_partial: propext, Classical.choice, Quot.sound
Verif.Float.C150_negation: propext, Classical.choice, Quot.sound
Verif.Float.C150_whole: propext, Classical.choice, Quot.sound
Verif.Float.C151_kapur: propext, Classical.choice, Quot.sound
Verif.Float.C152_clear_partial: propext, Classical.choice, Quot.sound
Verif.Float.C152_negation: propext, Classical.choice, Quot.sound
Verif.Float.C152_points: propext, Classical.choice, Quot.sound
Verif.Float.C153_axis: propext, Classical.choice, Quot.sound
Verif.Float.C153_collinear: propext, Classical.choice, Quot.sound
Verif.Float.C153_empty: propext, Classical.choice, Quot.sound
Verif.Float.C153_least: propext, Classical.choice, Quot.sound
Verif.Float.C153_near: propext, Classical.choice, Quot.sound
Verif.Float.C154_hull: propext, Classical.choice, Quot.sound
Verif.Float.C154_negation: propext, Classical.choice, Quot.sound
Verif.Float.C155_contains: propext, Classical.choice, Quot.sound
Verif.Float.C155_containsF: propext, Classical.choice, Quot.sound
Verif.Float.C155_containsF_points: propext, Classical.choice, Quot.sound
Verif.Float.C155_corner: propext, Classical.choice, Quot.sound
Verif.Float.C155_filled: propext, Classical.choice, Quot.sound
Verif.Float.C155_hollow: propext, Classical.choice, Quot.sound
Verif.Float.C155_intersect: propext, Classical.choice, Quot.sound
Verif.Float.C155_negation: propext, Classical.choice, Quot.sound
Verif.Float.C156_filled: propext, Classical.choice, Quot.sound
Verif.Float.C156_hollow: propext, Classical.choice, Quot.sound
Verif.Float.C156_negation: propext, Classical.choice, Quot.sound
Verif.Float.C156_panics: propext, Classical.choice, Quot.sound
Verif.Float.C161_circle: propext, Classical.choice, Quot.sound
Verif.Float.C161_filled: propext, Classical.choice, Quot.sound
Verif.Float.C161_flat: propext, Classical.choice, Quot.sound
Verif.Float.C161_hollow: propext, Classical.choice, Quot.sound
Verif.Float.C161_negation: propext, Classical.choice, Quot.sound
Verif.Float.C161_panics: propext, Classical.choice, Quot.sound
Verif.Float.C161_vertical: propext, Classical.choice, Quot.sound
Verif.Float.C162_debug: propext, Classical.choice, Quot.sound
Verif.Float.C162_negation: propext
Verif.Float.C162_panics: propext, Classical.choice, Quot.sound
Verif.Float.C162_release: propext, Classical.choice, Quot.sound
Verif.Float.C163_negation: propext
Verif.Float.C163_panics: propext, Classical.choice, Quot.sound
Verif.Float.C163_partial: propext, Classical.choice, Quot.sound
Verif.Float.C163_release: propext, Classical.choice, Quot.sound
Verif.Float.C164_negation: propext, Classical.choice, Quot.sound
Verif.Float.C164_panics: propext, Classical.choice, Quot.sound
Verif.Float.C164_partial: propext, Classical.choice, Quot.sound
Verif.Float.C164_terminates: propext, Classical.choice, Quot.sound
Verif.Float.C165_debug: propext, Classical.choice, Quot.sound
Verif.Float.C165_negation: propext, Classical.choice, Quot.sound
Verif.Float.C165_panics: propext, Classical.choice, Quot.sound
Verif.Float.C165_release: propext, Classical.choice, Quot.sound
Verif.Float.C191_idempotent: propext, Classical.choice, Quot.sound
Verif.Float.C191_levels: propext, Classical.choice, Quot.sound
Verif.Float.C191_negation_levels: propext, Classical.choice, Quot.sound
Verif.Float.C191_negation_self: propext, Classical.choice, Quot.sound
Verif.Float.C191_own_histogram_partial: propext, Classical.choice, Quot.sound
Verif.Float.C193_negation64: propext, Classical.choice, Quot.sound
Verif.Float.C194_cover_partial: propext, Classical.choice, Quot.sound
Verif.Float.C194_near_partial: propext, Classical.choice, Quot.sound
Verif.Float.C194_negation: propext, Classical.choice, Quot.sound
Verif.Float.C194_pixels: propext, Classical.choice, Quot.sound
Verif.Float.C195_canny: propext, Classical.choice, Quot.sound
Verif.Float.C195_fast_auto_fits: propext, Classical.choice, Quot.sound
Verif.Float.C195_fast_debug: propext, Classical.choice, Quot.sound
Verif.Float.C195_fast_given_fits: propext, Classical.choice, Quot.sound
Verif.Float.C195_fast_negation: propext, Classical.choice, Quot.sound
Verif.Float.C195_fast_release: propext, Classical.choice, Quot.sound
Verif.Float.C195_kapur_fits: propext, Classical.choice, Quot.sound
Verif.Float.C195_kapur_negation: propext, Classical.choice, Quot.sound
Verif.Float.C195_kapur_panics: propext, Classical.choice, Quot.sound
Verif.Geom.C25_and_then_partial: propext, Classical.choice, Quot.sound
Verif.Geom.C25_compose_partial: propext, Classical.choice, Quot.sound
Verif.Geom.C25_good_constructors: propext, Quot.sound
Verif.Geom.C25_good_from_matrix: propext, Classical.choice, Quot.sound
Verif.Geom.C25_good_invert: propext, Quot.sound
Verif.Geom.C25_good_mul: propext, Classical.choice, Quot.sound
Verif.Geom.C25_invert_partial: propext, Classical.choice, Quot.sound
Verif.Geom.C25_negation_tolerance: propext, Classical.choice, Quot.sound
Verif.Geom.C26_accepted_iff: propext, Classical.choice, Quot.sound
Verif.Geom.C26_from_matrix_partial: propext, Classical.choice, Quot.sound
Verif.Geom.C26_negation: propext, Classical.choice, Quot.sound
Verif.Geom.C26_rejected_iff: propext, Classical.choice, Quot.sound
Verif.Geom.C26_singular: propext, Classical.choice, Quot.sound
Verif.Geom.C27_bicubic: propext, Classical.choice, Quot.sound
Verif.Geom.C27_bilinear: propext, Classical.choice, Quot.sound
Verif.Geom.C27_bilinear_identity_partial: propext, Classical.choice, Quot.sound
Verif.Geom.C27_nearest: propext, Classical.choice, Quot.sound
Verif.Geom.C27_nearest_inside: propext, Classical.choice, Quot.sound
Verif.Geom.C27_nearest_translate: propext, Classical.choice, Quot.sound
Verif.Geom.C27_negation_bicubic: propext, Classical.choice, Quot.sound
Verif.Geom.C27_negation_bilinear: propext, Classical.choice, Quot.sound
Verif.Geom.C27_warp_preimage: propext, Classical.choice, Quot.sound
Verif.Geom.C27_zero_width_panics: propext, Classical.choice, Quot.sound
Verif.Geom.C28_bicubic_integer: propext, Classical.choice, Quot.sound
Verif.Geom.C28_bilinear_integer: propext, Classical.choice, Quot.sound
Verif.Geom.C28_bilinear_range: propext, Classical.choice, Quot.sound
Verif.Geom.C28_blend_corners: propext, Classical.choice, Quot.sound
Verif.Geom.C28_blend_range: propext, Classical.choice, Quot.sound
Verif.Geom.C82_control_points: propext, Classical.choice, Quot.sound
Verif.Geom.C82_four_control_points: propext, Classical.choice, Quot.sound
Verif.Geom.C83_rotate_about: propext, Classical.choice, Quot.sound
Verif.Geometry.C104_arc_length_partial: propext, Classical.choice, Quot.sound
Verif.Geometry.C104_negation: propext, Classical.choice, Quot.sound
Verif.Geometry.C104_symmetry_partial: propext, Classical.choice, Quot.sound
Verif.Geometry.C104_triangle_partial: propext, Classical.choice, Quot.sound
Verif.Geometry.C110_collinear: propext, Classical.choice, Quot.sound
Verif.Geometry.C110_empty: propext, Classical.choice, Quot.sound
Verif.Geometry.C110_labels: propext, Classical.choice, Quot.sound
Verif.Geometry.C110_least_partial: propext, Classical.choice, Quot.sound
Verif.Geometry.C110_near: propext, Classical.choice, Quot.sound
Verif.Geometry.C110_negation: propext, Classical.choice, Quot.sound
Verif.Geometry.C110_unsigned_negation: propext, Classical.choice, Quot.sound
Verif.Geometry.C174_idempotent: propext, Classical.choice, Quot.sound
Verif.Geometry.C174_inside: propext, Classical.choice, Quot.sound
Verif.Geometry.C174_rect: propext, Classical.choice, Quot.sound
Verif.Geometry.C174_set: propext, Classical.choice, Quot.sound
Verif.Geometry.C174_translate: propext, Classical.choice, Quot.sound
Verif.Geometry.C54_degenerate: propext, Classical.choice, Quot.sound
Verif.Geometry.C54_hull: propext, Classical.choice, Quot.sound
Verif.Geometry.C54_once: propext, Classical.choice, Quot.sound
Verif.Geometry.C54_segment: propext, Classical.choice, Quot.sound
Verif.Geometry.C55_area: propext, Classical.choice, Quot.sound
Verif.Geometry.C55_rectangle: propext, Classical.choice, Quot.sound
Verif.Geometry.C55_reverse: propext, Classical.choice, Quot.sound
Verif.Geometry.C55_rotate: propext, Classical.choice, Quot.sound
Verif.Geometry.C55_shoelace: propext, Classical.choice, Quot.sound
Verif.Geometry.C55_translate: propext, Classical.choice, Quot.sound
Verif.Geometry.C56_closed: propext, Classical.choice, Quot.sound
Verif.Geometry.C56_distance: propext, Classical.choice, Quot.sound
Verif.Geometry.C56_distinct: propext, Classical.choice, Quot.sound
Verif.Geometry.C56_kept: propext, Classical.choice, Quot.sound
Verif.Geometry.C56_negation: propext, Classical.choice, Quot.sound
Verif.Geometry.C56_open_partial: propext, Classical.choice, Quot.sound
Verif.Geometry.C56_panic: propext, Quot.sound
Verif.Geometry.C56_single: propext, Classical.choice, Quot.sound
Verif.Gradients.C76_constant: propext
Verif.Gradients.C76_gradients: propext, Classical.choice, Quot.sound
Verif.Gradients.C76_laplacian: propext, Classical.choice, Quot.sound
Verif.Gradients.C76_mirror: propext, Quot.sound
Verif.Gradients.C76_roberts: propext, Classical.choice, Quot.sound
Verif.Gradients.C76_roberts_mirror: propext, Classical.choice, Quot.sound
Verif.Gradients.C76_sobel_map: propext, Classical.choice, Quot.sound
Verif.Gradients.C76_values: propext, Classical.choice, Quot.sound
Verif.Haar.C198_debug: propext, Classical.choice, Quot.sound
Verif.Haar.C198_negation: propext, Classical.choice, Quot.sound
Verif.Haar.C198_number: propext, Classical.choice, Quot.sound
Verif.Haar.C198_profile_partial: propext, Classical.choice, Quot.sound
Verif.Haar.C198_release: propext, Classical.choice, Quot.sound
Verif.Haar.C199_debug: propext, Classical.choice, Quot.sound
Verif.Haar.C199_fits_partial: propext, Classical.choice, Quot.sound
Verif.Haar.C199_negation: propext, Classical.choice, Quot.sound
Verif.Haar.C199_release: propext, Classical.choice, Quot.sound
Verif.Haar.C199_square: propext, Classical.choice, Quot.sound
Verif.Haar.C200_debug: propext, Quot.sound
Verif.Haar.C200_negation_debug: propext, Classical.choice, Quot.sound
Verif.Haar.C200_negation_release: propext, Classical.choice, Quot.sound
Verif.Haar.C200_release: propext, Classical.choice, Quot.sound
Verif.Haar.C200_squares_partial: propext, Classical.choice, Quot.sound
Verif.Haar.C200_values: propext, Classical.choice, Quot.sound
Verif.Haar.C63_draw: propext, Classical.choice, Quot.sound
Verif.Haar.C63_evaluate: propext, Classical.choice, Quot.sound
Verif.Haar.C63_reject: propext, Quot.sound
Verif.Haar.C64_defined: propext, Classical.choice, Quot.sound
Verif.Haar.C64_enumerate: propext, Classical.choice, Quot.sound
Verif.Haar.C64_evaluable: propext, Classical.choice, Quot.sound
Verif.Hog.C114_exact: propext, Classical.choice, Quot.sound
Verif.Hog.C114_last_cell_only: propext, Classical.choice, Quot.sound
Verif.Hog.C114_size_partial: propext, Classical.choice, Quot.sound
Verif.Hog.C77_accept: propext, Quot.sound
Verif.Hog.C77_accept_iff: propext, Classical.choice, Quot.sound
Verif.Hog.C77_all_cells: propext, Quot.sound
Verif.Hog.C77_cover: propext, Classical.choice, Quot.sound
Verif.Hog.C77_entry: propext, Classical.choice, Quot.sound
Verif.Hog.C77_error: propext, Quot.sound
Verif.Hog.C77_hog_partial: propext, Classical.choice, Quot.sound
Verif.Hog.C77_hog_real: propext, Classical.choice, Quot.sound
Verif.Hog.C77_inside: propext, Quot.sound
Verif.Hog.C77_layout: propext, Classical.choice, Quot.sound
Verif.Hog.C77_negation: none
Verif.Hog.C77_panic: propext, Quot.sound
Verif.Hog.C77_unit: propext, Classical.choice, Quot.sound
Verif.Hog.C77_zero_orientations: propext, Classical.choice, Quot.sound
Verif.Hog.C91_bins: propext, Classical.choice, Quot.sound
Verif.Hog.C91_direction: propext, Classical.choice, Quot.sound
Verif.Hog.C91_histogram: propext, Classical.choice, Quot.sound
Verif.Hog.C91_nonneg: propext, Classical.choice, Quot.sound
Verif.Hog.C91_total: propext, Classical.choice, Quot.sound
Verif.Hough.C113_cover_partial: propext, Classical.choice, Quot.sound
Verif.Hough.C113_near: propext, Classical.choice, Quot.sound
Verif.Hough.C113_negation: propext, Classical.choice, Quot.sound
Verif.Hough.C113_pixels: propext, Classical.choice, Quot.sound
Verif.Hough.C190_lines_fit: propext, Quot.sound
Verif.Hough.C190_lines_negation: propext, Classical.choice, Quot.sound
Verif.Hough.C190_lines_wrap: propext, Classical.choice, Quot.sound
Verif.Hough.C57_complete: propext, Classical.choice, Quot.sound
Verif.Hough.C57_consistent_real: propext, Classical.choice, Quot.sound
Verif.Hough.C57_none_iff: propext, Classical.choice, Quot.sound
Verif.Hough.C57_points: propext, Classical.choice, Quot.sound
Verif.Hough.C58_all_votes: propext, Classical.choice, Quot.sound
Verif.Hough.C58_bucket_width: propext, Classical.choice, Quot.sound
Verif.Hough.C58_lines: propext, Classical.choice, Quot.sound
Verif.Hough.C58_oversized: propext, Quot.sound
Verif.Hough.C58_votes: propext, Classical.choice, Quot.sound
Verif.Hough.C58_votes_bounded: propext, Classical.choice, Quot.sound
Verif.Hough.C92_chord_partial: propext, Classical.choice, Quot.sound
Verif.Hough.C92_degenerate_only_at_corner: propext, Quot.sound
Verif.Hough.C92_negation: propext, Classical.choice, Quot.sound
Verif.ImageHash.C69_distance: propext, Classical.choice, Quot.sound
Verif.ImageHash.C69_metric: propext, Classical.choice, Quot.sound
Verif.ImageHash.C69_new: propext, Classical.choice, Quot.sound
Verif.ImageHash.C69_new_reject: propext, Quot.sound
Verif.ImageHash.C69_roundtrip: propext, Classical.choice, Quot.sound
Verif.ImageHash.C69_roundtrip': propext, Classical.choice, Quot.sound
Verif.ImageHash.C69_unpack: propext, Quot.sound
Verif.ImageHash.C70_agree: propext, Classical.choice, Quot.sound
Verif.ImageHash.C70_any: propext, Classical.choice, Quot.sound
Verif.ImageHash.C70_buffer: propext, Classical.choice, Quot.sound
Verif.ImageHash.C70_buffer_involution: propext, Classical.choice, Quot.sound
Verif.ImageHash.C70_inplace: propext, Classical.choice, Quot.sound
Verif.ImageHash.C70_inplace_reject: propext
Verif.ImageHash.C70_involution: propext, Classical.choice, Quot.sound
Verif.ImageHash.C70_rect_involution: propext, Quot.sound
Verif.ImageHash.C70_transpose: propext, Quot.sound
Verif.ImageHash.C90_bits: propext, Classical.choice, Quot.sound
Verif.ImageHash.C90_cosine: propext, Classical.choice, Quot.sound
Verif.ImageHash.C90_dct2d: propext, Classical.choice, Quot.sound
Verif.ImageHash.C90_dct_affine: propext, Classical.choice, Quot.sound
Verif.ImageHash.C90_invariant: propext, Classical.choice, Quot.sound
Verif.Integral.C09_integral_image: propext, Classical.choice, Quot.sound
Verif.Integral.C10_checked_add_can_overflow: propext, Classical.choice, Quot.sound
Verif.Integral.C10_sum_image_pixels: propext, Classical.choice, Quot.sound
Verif.Integral.C10_sum_image_pixels_wrapping: propext, Classical.choice, Quot.sound
Verif.Integral.C10_variance: propext, Classical.choice, Quot.sound
Verif.Integral.C11_column_running_sum: propext, Classical.choice, Quot.sound
Verif.Integral.C11_rejects: none
Verif.Integral.C11_row_running_sum: propext, Classical.choice, Quot.sound
Verif.Lbp.C62_border: propext, Quot.sound
Verif.Lbp.C62_min_shift: propext, Quot.sound
Verif.Lbp.C62_min_table: propext, Quot.sound
Verif.Lbp.C62_negation: propext, Quot.sound
Verif.Lbp.C62_pattern_partial: propext, Classical.choice, Quot.sound
Verif.Lbp.C62_rotation_invariant: propext, Quot.sound
Verif.Lbp.C62_transitions: propext, Quot.sound
Verif.Lbp.C62_uniform_table: propext, Quot.sound
Verif.Machine.C157_build: propext, Classical.choice, Quot.sound
Verif.Machine.C157_build_wrapping: propext, Classical.choice, Quot.sound
Verif.Machine.C157_debug: propext, Classical.choice, Quot.sound
Verif.Machine.C157_negation: propext, Classical.choice, Quot.sound
Verif.Machine.C157_panics: propext, Classical.choice, Quot.sound
Verif.Machine.C157_release: propext, Classical.choice, Quot.sound
Verif.Machine.C157_release_exact: propext, Classical.choice, Quot.sound
Verif.Map.C73_channel_round_trip: propext, Classical.choice, Quot.sound
Verif.Map.C73_collect_schedule: propext, Quot.sound
Verif.Map.C73_map_enumerated_pixels: propext, Classical.choice, Quot.sound
Verif.Map.C73_map_pixels: propext, Classical.choice, Quot.sound
Verif.Map.C73_map_pixels_mut_schedule: propext, Classical.choice, Quot.sound
Verif.Map.C73_map_subpixels: propext
Verif.Map.C74_map_pixels2_partial: propext, Classical.choice, Quot.sound
Verif.Map.C74_negation: propext
Verif.Map.C74_negation_misaligned: propext
Verif.Map.C74_panics_iff: propext, Classical.choice, Quot.sound
Verif.Math.C105_compare: propext, Classical.choice, Quot.sound
Verif.Math.C105_definite: propext, Classical.choice, Quot.sound
Verif.Math.C105_scale: propext, Classical.choice, Quot.sound
Verif.Math.C105_triangle: propext, Classical.choice, Quot.sound
Verif.Math.C105_value: propext, Classical.choice, Quot.sound
Verif.Morphology.C169_dilate: propext, Classical.choice, Quot.sound
Verif.Morphology.C169_erode: propext, Classical.choice, Quot.sound
Verif.Morphology.C169_median: propext, Classical.choice, Quot.sound
Verif.Morphology.C169_open_close: propext, Classical.choice, Quot.sound
Verif.Morphology.C170_binary: propext, Classical.choice, Quot.sound
Verif.Morphology.C170_binary_open_close: propext, Classical.choice, Quot.sound
Verif.Morphology.C170_gray: propext, Classical.choice, Quot.sound
Verif.Morphology.C170_open_close: propext, Classical.choice, Quot.sound
Verif.Morphology.C171_dilate_partial: propext, Classical.choice, Quot.sound
Verif.Morphology.C171_erode_partial: propext, Classical.choice, Quot.sound
Verif.Morphology.C171_negation: propext, Classical.choice, Quot.sound
Verif.Morphology.C181_dilate_l2: propext, Classical.choice, Quot.sound
Verif.Morphology.C181_dilate_partial: propext, Classical.choice, Quot.sound
Verif.Morphology.C181_erode_partial: propext, Classical.choice, Quot.sound
Verif.Morphology.C181_lipschitz: propext, Classical.choice, Quot.sound
Verif.Morphology.C181_negation: propext, Classical.choice, Quot.sound
Verif.Morphology.C181_norms: propext, Classical.choice, Quot.sound
Verif.Morphology.C33_dilate_characterised: propext, Classical.choice, Quot.sound
Verif.Morphology.C33_dilate_partial: propext, Classical.choice, Quot.sound
Verif.Morphology.C33_erode_characterised: propext, Classical.choice, Quot.sound
Verif.Morphology.C33_erode_partial: propext, Classical.choice, Quot.sound
Verif.Morphology.C33_negation: propext, Classical.choice, Quot.sound
Verif.Morphology.C33_radius_255: propext, Classical.choice, Quot.sound
Verif.Morphology.C34_dilate: propext, Classical.choice, Quot.sound
Verif.Morphology.C34_erode: propext, Classical.choice, Quot.sound
Verif.Morphology.C34_zero_width: propext, Quot.sound
Verif.Morphology.C35_close_exact: propext, Classical.choice, Quot.sound
Verif.Morphology.C35_close_partial: propext, Classical.choice, Quot.sound
Verif.Morphology.C35_library_masks: propext, Classical.choice, Quot.sound
Verif.Morphology.C35_monotone: propext, Classical.choice, Quot.sound
Verif.Morphology.C35_negation: propext
Verif.Morphology.C35_open_exact: propext, Classical.choice, Quot.sound
Verif.Morphology.C35_open_partial: propext, Classical.choice, Quot.sound
Verif.Morphology.C36_diamond: propext, Classical.choice, Quot.sound
Verif.Morphology.C36_disk: propext, Classical.choice, Quot.sound
Verif.Morphology.C36_from_image: propext, Classical.choice, Quot.sound
Verif.Morphology.C36_from_image_panics: propext, Quot.sound
Verif.Morphology.C36_square: propext, Classical.choice, Quot.sound
Verif.Morphology.C85_l2_threshold: propext, Classical.choice, Quot.sound
Verif.Morphology.C86_close_exact: propext, Classical.choice, Quot.sound
Verif.Morphology.C86_close_idempotent: propext, Classical.choice, Quot.sound
Verif.Morphology.C86_close_superset: propext, Classical.choice, Quot.sound
Verif.Morphology.C86_open_exact: propext, Classical.choice, Quot.sound
Verif.Morphology.C86_open_idempotent: propext, Classical.choice, Quot.sound
Verif.Morphology.C86_open_subset: propext, Classical.choice, Quot.sound
Verif.Noise.C201_exact_partial: propext, Classical.choice, Quot.sound
Verif.Noise.C201_near: propext, Classical.choice, Quot.sound
Verif.Noise.C201_negation: propext, Classical.choice, Quot.sound
Verif.Noise.C201_noise: propext, Classical.choice, Quot.sound
Verif.Noise.C201_special: propext, Classical.choice, Quot.sound
Verif.Noise.C78_exact: propext, Classical.choice, Quot.sound
Verif.Noise.C78_negation_rate_zero: propext, Classical.choice, Quot.sound
Verif.Noise.C78_rate_one: propext, Classical.choice, Quot.sound
Verif.Noise.C78_rate_zero_partial: propext, Classical.choice, Quot.sound
Verif.Noise.C78_salt_and_pepper: propext, Classical.choice, Quot.sound
Verif.Noise.C84_gaussian_noise: propext, Classical.choice, Quot.sound
Verif.Noise.C84_zero_noise: propext, Classical.choice, Quot.sound
Verif.PixelOps.C102_interpolate: propext, Classical.choice, Quot.sound
Verif.PixelOps.C102_monotone: propext, Classical.choice, Quot.sound
Verif.PixelOps.C102_weighted_sum: propext, Classical.choice, Quot.sound
Verif.Regions.C04_labels_iff_connected: propext, Classical.choice, Quot.sound
Verif.Regions.C05_labels_raster_order: propext, Classical.choice, Quot.sound
Verif.Regions.C06_fails_iff: propext, Classical.choice, Quot.sound
Verif.Regions.C06_negation: propext, Classical.choice, Quot.sound
Verif.Regions.C06_total_partial: propext, Classical.choice, Quot.sound
Verif.Relations.C172_adaptive_threshold: propext, Classical.choice, Quot.sound
Verif.Relations.C172_components: propext, Classical.choice, Quot.sound
Verif.Relations.C172_distance: propext, Classical.choice, Quot.sound
Verif.Relations.C172_euclidean: propext, Classical.choice, Quot.sound
Verif.Relations.C172_fill: propext, Classical.choice, Quot.sound
Verif.Relations.C172_morphology: propext, Classical.choice, Quot.sound
Verif.Relations.C172_rotate90_dilate: propext, Classical.choice, Quot.sound
Verif.Relations.C173_fill_component: propext, Classical.choice, Quot.sound
Verif.Relations.C175_levels: propext, Classical.choice, Quot.sound
Verif.Relations.C175_maps: propext, Classical.choice, Quot.sound
Verif.Relations.C176_curve: propext, Classical.choice, Quot.sound
Verif.Relations.C176_idempotent: propext, Classical.choice, Quot.sound
Verif.Relations.C176_idempotent_single: propext, Classical.choice, Quot.sound
Verif.Relations.C176_match_self: propext, Classical.choice, Quot.sound
Verif.Relations.C177_kapur: propext, Classical.choice, Quot.sound
Verif.Relations.C177_otsu: propext, Classical.choice, Quot.sound
Verif.Relations.C178_box_flipped: propext, Classical.choice, Quot.sound
Verif.Relations.C178_box_negation: propext, Quot.sound
Verif.Relations.C178_filter_turned: propext, Classical.choice, Quot.sound
Verif.Relations.C178_linear: propext, Classical.choice, Quot.sound
Verif.Relations.C178_median_turned: propext, Classical.choice, Quot.sound
Verif.Relations.C178_offset: propext, Classical.choice, Quot.sound
Verif.Relations.C179_gradients: propext, Classical.choice, Quot.sound
Verif.Relations.C179_laplacian: propext, Classical.choice, Quot.sound
Verif.Relations.C179_operators: propext, Classical.choice, Quot.sound
Verif.Relations.C179_roberts_negation: propext, Quot.sound
Verif.Relations.C180_brightness: propext, Classical.choice, Quot.sound
Verif.Relations.C180_flip_differs: propext, Quot.sound
Verif.Relations.C180_flipped: propext, Classical.choice, Quot.sound
Verif.Relations.C180_turned: propext, Classical.choice, Quot.sound
Verif.Relations.C182_invert: propext, Classical.choice, Quot.sound
Verif.Relations.C182_negation: propext, Quot.sound
Verif.Relations.C182_offset: propext, Classical.choice, Quot.sound
Verif.Relations.C182_turned_partial: propext, Classical.choice, Quot.sound
Verif.Relations.C183_canny: propext, Classical.choice, Quot.sound
Verif.Relations.C183_filter: propext, Classical.choice, Quot.sound
Verif.Relations.C183_gaussian: propext, Classical.choice, Quot.sound
Verif.Relations.C183_gradients: propext, Classical.choice, Quot.sound
Verif.Relations.C183_hog: propext, Classical.choice, Quot.sound
Verif.Relations.C183_seam: propext, Classical.choice, Quot.sound
Verif.Relations.C183_shrink: propext, Classical.choice, Quot.sound
Verif.Relations.C184_draw_line: propext, Classical.choice, Quot.sound
Verif.Relations.C184_hollow: propext, Classical.choice, Quot.sound
Verif.Relations.C184_line: propext, Classical.choice, Quot.sound
Verif.Relations.C184_line32: propext, Classical.choice, Quot.sound
Verif.Relations.C184_negation: propext, Classical.choice, Quot.sound
Verif.Relations.C184_orientation32_partial: propext, Classical.choice, Quot.sound
Verif.Relations.C184_polygon: propext, Classical.choice, Quot.sound
Verif.Relations.C184_polygon32_partial: propext, Classical.choice, Quot.sound
Verif.Relations.C185_line: propext, Classical.choice, Quot.sound
Verif.Relations.C185_negation: propext, Classical.choice, Quot.sound
Verif.Relations.C185_polygon_partial: propext, Classical.choice, Quot.sound
Verif.Relations.C185_rect: propext, Classical.choice, Quot.sound
Verif.Relations.C185_round: propext, Classical.choice, Quot.sound
Verif.Relations.C186_canny: propext, Classical.choice, Quot.sound
Verif.Relations.C186_components: propext, Classical.choice, Quot.sound
Verif.Relations.C186_corners: propext, Classical.choice, Quot.sound
Verif.Relations.C186_lines: propext, Classical.choice, Quot.sound
Verif.Relations.C186_local_maxima: propext, Classical.choice, Quot.sound
Verif.Relations.C186_matches: propext, Quot.sound
Verif.Relations.C186_suppress: propext, Classical.choice, Quot.sound
Verif.Relations.C187_drawing: propext, Classical.choice, Quot.sound
Verif.Relations.C187_intersect: propext, Classical.choice, Quot.sound
Verif.Relations.C187_shrink: propext, Classical.choice, Quot.sound
Verif.Relations.C187_translate: propext, Classical.choice, Quot.sound
Verif.Relations.C188_adaptive: propext, Classical.choice, Quot.sound
Verif.Relations.C188_bilateral: propext, Classical.choice, Quot.sound
Verif.Relations.C188_binary: propext, Classical.choice, Quot.sound
Verif.Relations.C188_box: propext, Classical.choice, Quot.sound
Verif.Relations.C188_fast: propext, Classical.choice, Quot.sound
Verif.Relations.C188_filter: propext, Classical.choice, Quot.sound
Verif.Relations.C188_gaussian: propext, Classical.choice, Quot.sound
Verif.Relations.C188_gradients: propext, Classical.choice, Quot.sound
Verif.Relations.C188_grayscale: propext, Classical.choice, Quot.sound
Verif.Relations.C188_lbp: propext, Classical.choice, Quot.sound
Verif.Relations.C188_median: propext, Classical.choice, Quot.sound
Verif.Relations.C188_separable: propext, Classical.choice, Quot.sound
Verif.Relations.C188_suppress: propext, Classical.choice, Quot.sound
Verif.Relations.C188_template: propext, Classical.choice, Quot.sound
Verif.Relations.C189_drawing: propext, Classical.choice, Quot.sound
Verif.Relations.C189_filter: propext, Classical.choice, Quot.sound
Verif.Relations.C189_gaussian: propext, Classical.choice, Quot.sound
Verif.Relations.C189_median: propext, Classical.choice, Quot.sound
Verif.Relations.C189_moves: propext, Classical.choice, Quot.sound
Verif.Relations.C189_separable: propext, Classical.choice, Quot.sound
Verif.Relations.C189_statistics: propext, Classical.choice, Quot.sound
Verif.Relations.C189_turns: propext, Classical.choice, Quot.sound
Verif.Relations.C189_warp: propext, Classical.choice, Quot.sound
Verif.Relations.C192_components: propext, Classical.choice, Quot.sound
Verif.Relations.C192_negation_closed: propext, Classical.choice, Quot.sound
Verif.Relations.C192_negation_fill: propext, Classical.choice, Quot.sound
Verif.Relations.C192_negation_suppress: propext
Verif.Relations.C192_simplify: propext, Classical.choice, Quot.sound
Verif.Relations.C192_simplify64_partial: propext, Classical.choice, Quot.sound
Verif.Relations.C192_suppress_partial: propext, Classical.choice, Quot.sound
Verif.Relations.C192_threshold: propext, Quot.sound
Verif.Relations.C192_threshold_inverted: propext, Quot.sound
Verif.Seam.C197_debug_iff: propext, Classical.choice, Quot.sound
Verif.Seam.C197_find_fits: propext, Classical.choice, Quot.sound
Verif.Seam.C197_fits: propext, Classical.choice, Quot.sound
Verif.Seam.C197_negation: propext, Classical.choice, Quot.sound
Verif.Seam.C197_release: propext, Classical.choice, Quot.sound
Verif.Seam.C197_shrink_fits: propext, Classical.choice, Quot.sound
Verif.Seam.C197_shrink_release: propext, Classical.choice, Quot.sound
Verif.Seam.C59_find: propext, Classical.choice, Quot.sound
Verif.Seam.C59_minimal_iff: propext, Classical.choice, Quot.sound
Verif.Seam.C59_narrow: propext, Quot.sound
Verif.Seam.C59_negation: propext, Classical.choice, Quot.sound
Verif.Seam.C59_retrace: propext, Classical.choice, Quot.sound
Verif.Seam.C59_seam_partial: propext, Classical.choice, Quot.sound
Verif.Seam.C59_table: propext, Classical.choice, Quot.sound
Verif.Seam.C60_reject: propext
Verif.Seam.C60_remove: propext, Classical.choice, Quot.sound
Verif.Seam.C60_shrink: propext, Classical.choice, Quot.sound
Verif.Seam.C60_shrink_reject: propext, Classical.choice, Quot.sound
Verif.Seam.C60_shrink_step: propext, Classical.choice, Quot.sound
Verif.Seam.C61_draw_partial: propext, Classical.choice, Quot.sound
Verif.Seam.C61_exact: propext, Classical.choice, Quot.sound
Verif.Seam.C61_negation: propext
Verif.Seam.C61_single: propext, Classical.choice, Quot.sound
Verif.Stats.C106_psnr: propext, Classical.choice, Quot.sound
Verif.Stats.C106_psnr_antitone: propext, Classical.choice, Quot.sound
Verif.Stats.C106_rmse_metric: propext, Classical.choice, Quot.sound
Verif.Stats.C106_sizes: propext, Classical.choice, Quot.sound
Verif.Stats.C106_value: propext, Classical.choice, Quot.sound
Verif.Stats.C12_cumulative_histogram: propext, Classical.choice, Quot.sound
Verif.Stats.C12_histogram: propext, Classical.choice, Quot.sound
Verif.Stats.C12_histogram_total: propext, Classical.choice, Quot.sound
Verif.Stats.C13_monotone: propext, Classical.choice, Quot.sound
Verif.Stats.C13_percentile: propext, Classical.choice, Quot.sound
Verif.Stats.C13_rejects: propext, Classical.choice, Quot.sound
Verif.Stats.C190_cumulative_fits: propext, Classical.choice, Quot.sound
Verif.Stats.C190_cumulative_panics: propext, Classical.choice, Quot.sound
Verif.Stats.C190_cumulative_wraps: propext, Classical.choice, Quot.sound
Verif.Stats.C190_histogram_fits: propext, Classical.choice, Quot.sound
Verif.Stats.C190_histogram_panics: propext, Classical.choice, Quot.sound
Verif.Stats.C190_histogram_wraps: propext, Classical.choice, Quot.sound
Verif.Stats.C190_mse_fits: propext, Classical.choice, Quot.sound
Verif.Stats.C190_mse_panics: propext, Classical.choice, Quot.sound
Verif.Stats.C190_mse_wraps: propext, Classical.choice, Quot.sound
Verif.Stats.C190_negation: propext, Classical.choice, Quot.sound
Verif.Stats.C190_percentile_fits: propext, Classical.choice, Quot.sound
Verif.Stats.C190_percentile_panics: propext, Classical.choice, Quot.sound
Verif.Stats.C80_empty: propext
Verif.Stats.C80_min_max: propext, Classical.choice, Quot.sound
Verif.Stats.C81_mean_squared_error: propext, Classical.choice, Quot.sound
Verif.Stats.C81_symmetric: propext, Classical.choice, Quot.sound
Verif.Stats.C81_zero_iff_equal: propext, Classical.choice, Quot.sound
Verif.Suppress.C158_debug: propext, Classical.choice, Quot.sound
Verif.Suppress.C158_local_maxima: propext, Classical.choice, Quot.sound
Verif.Suppress.C158_max_radius: propext, Classical.choice, Quot.sound
Verif.Suppress.C158_negation: propext, Quot.sound
Verif.Suppress.C158_panics: propext, Classical.choice, Quot.sound
Verif.Suppress.C158_release: propext, Classical.choice, Quot.sound
Verif.Suppress.C29_suppress_non_maximum: propext, Classical.choice, Quot.sound
Verif.Suppress.C30_local_maxima_exact: propext, Classical.choice, Quot.sound
Verif.Suppress.C30_local_maxima_partial: propext, Classical.choice, Quot.sound
Verif.Suppress.C30_negation: propext, Classical.choice, Quot.sound
Verif.Suppress.C30_undominated_returned: propext, Classical.choice, Quot.sound
Verif.Template.C67_bound: propext, Classical.choice, Quot.sound
Verif.Template.C67_empty: propext
Verif.Template.C67_masked: propext, Classical.choice, Quot.sound
Verif.Template.C67_nonneg: propext, Classical.choice, Quot.sound
Verif.Template.C67_one: propext, Classical.choice, Quot.sound
Verif.Template.C67_parallel: propext, Classical.choice, Quot.sound
Verif.Template.C67_parallel_masked: propext, Classical.choice, Quot.sound
Verif.Template.C67_plain: propext, Classical.choice, Quot.sound
Verif.Template.C67_reject: propext, Classical.choice, Quot.sound
Verif.Template.C67_unmasked: propext, Classical.choice, Quot.sound
Verif.Template.C67_zero: propext, Classical.choice, Quot.sound
Verif.Template.C67_zero_masked: propext, Classical.choice, Quot.sound
Verif.Template.C68_extremes_partial: propext, Classical.choice, Quot.sound
Verif.Template.C68_negation: propext
Verif.Template.C68_reject: propext, Quot.sound
Verif.Template.C68_single: propext, Classical.choice, Quot.sound
Verif.UnionFind.C01_find_iff_equivalent: propext, Classical.choice, Quot.sound
Verif.UnionFind.C01_rejects_invalid: propext, Classical.choice, Quot.sound
Verif.UnionFind.C01_root_representative: propext, Classical.choice, Quot.sound
Verif.UnionFind.C02_numTrees_eq_classes: propext, Classical.choice, Quot.sound
Verif.UnionFind.C02_numTrees_new: propext, Classical.choice, Quot.sound
Verif.UnionFind.C02_numTrees_step: propext, Classical.choice, Quot.sound
Verif.UnionFind.C03_trees_partition: propext, Classical.choice, Quot.sound
Verif.Utils.C112_assert: propext, Classical.choice, Quot.sound
Verif.Utils.C112_equal: propext, Classical.choice, Quot.sound
Verif.Utils.C112_significant: propext, Classical.choice, Quot.sound
Verif.Utils.C112_within: propext, Classical.choice, Quot.sound
Verif.Utils.C142_describe: propext, Classical.choice, Quot.sound
Verif.Utils.C142_empty: none
Verif.Utils.C142_summary: propext, Classical.choice, Quot.sound
Verif.Utils.C144_empty: propext
Verif.Utils.C144_ends_partial: propext, Classical.choice, Quot.sound
Verif.Utils.C144_negation: propext, Quot.sound
Verif.Utils.C144_not_late: propext, Classical.choice, Quot.sound
Verif.Utils.C144_returns: propext, Classical.choice, Quot.sound
Verif.Utils.C144_windows: propext, Classical.choice, Quot.sound
Verif.Utils.C79_empty_iff: propext, Classical.choice, Quot.sound
Verif.Utils.C79_pixel_diffs: propext, Classical.choice, Quot.sound
