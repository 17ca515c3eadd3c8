{"id": "C01", "title": "Disjoint-set queries answer exactly the equivalence closure of the unions made", "statement": "Start from a forest of n singleton trees and perform any sequence of union, find and root calls with indices below n. No call panics or loops forever, and afterwards find(i, j) returns true exactly when i and j are related by the smallest equivalence relation containing every pair that was passed to union.", "quantifier": "every n, every finite history of union/find/root calls, every pair of indices", "why_tests_cant": "Path compression and union-by-size rewrite the parent array on reads as well as writes, so an error only shows after particular interleavings; tests exercise a handful of histories.", "anchors": ["src/union_find.rs:DisjointSetForest::new", "src/union_find.rs:DisjointSetForest::root", "src/union_find.rs:DisjointSetForest::find", "src/union_find.rs:DisjointSetForest::union"]}
{"id": "C02", "title": "Tree count equals the number of equivalence classes", "statement": "After any history of union/find/root calls the reported number of trees equals the number of equivalence classes of the relation generated by the unions; it starts at n, drops by exactly one on a union of two different classes and is unchanged by every other call.", "quantifier": "every n and every finite history of calls", "why_tests_cant": "A count that is right after the tested histories can drift on an untested one; the claim is an invariant over all histories.", "anchors": ["src/union_find.rs:DisjointSetForest::num_trees", "src/union_find.rs:DisjointSetForest::union"]}
{"id": "C03", "title": "The tree listing is the partition into classes", "statement": "After any history, the listing of trees contains every element 0..n exactly once in total, no empty tree, and two elements are listed in the same tree exactly when find reports them equivalent.", "quantifier": "every n and every finite history of calls", "why_tests_cant": "Needs every forest shape, including arbitrarily deep trees, not just shallow examples.", "anchors": ["src/union_find.rs:DisjointSetForest::trees"]}
{"id": "C04", "title": "Connected component labels agree exactly on connected pixels", "statement": "Whenever labelling an image returns a result, two non-background pixels get the same label exactly when they have the same colour and are joined by a path of same-coloured pixels whose consecutive members are neighbours under the chosen connectivity (4 or 8).", "quantifier": "every image size, every image content, every background value, both connectivities", "why_tests_cant": "Component shapes are unbounded (spirals, combs) and the two-pass algorithm only fails on specific merge orders; path existence is not a finite check.", "anchors": ["src/region_labelling.rs:connected_components", "src/union_find.rs:DisjointSetForest"]}
{"id": "C05", "title": "Labels are 0 for background and 1..n in raster order of first appearance", "statement": "In any returned labelling, a pixel has label 0 exactly when it has the background colour; the labels of the other pixels are exactly 1..n for some n, and label k first appears (in raster order) before label k+1.", "quantifier": "every image, every background value, both connectivities", "why_tests_cant": "Quantifies over all component layouts; sampled tests cannot exclude gaps or reorderings of labels.", "anchors": ["src/region_labelling.rs:connected_components"]}
{"id": "C06", "title": "Component labelling never fails on an image of admissible size", "statement": "Labelling succeeds (does not panic) for every image whose number of pixels is below 2^32, whatever its contents.", "quantifier": "every image and background value", "why_tests_cant": "Failure needs the particular images in which every pixel opens its own provisional region; random tests almost never produce them.", "anchors": ["src/region_labelling.rs:connected_components", "src/union_find.rs:DisjointSetForest::root"]}
{"id": "C07", "title": "Rectangle intersection is set intersection", "statement": "For two rectangles (non-empty by construction) the intersection contains a point exactly when both rectangles contain it, and it is reported absent exactly when no point lies in both.", "quantifier": "all pairs of rectangles and all integer points (coordinates far from i32 overflow)", "why_tests_cant": "Inclusive right/bottom edges invite off-by-one errors visible only for particular alignments.", "anchors": ["src/rect.rs:Rect::intersect", "src/rect.rs:Region::contains", "src/rect.rs:Rect::right", "src/rect.rs:Rect::bottom"]}
{"id": "C08", "title": "Filling a rectangle colours exactly the canvas pixels inside it", "statement": "Drawing a filled rectangle on a non-empty image sets exactly the image pixels contained in the rectangle to the colour, leaves every other pixel as it was, and never touches a location outside the image, wherever the rectangle lies.", "quantifier": "every image, every rectangle position and size, every colour", "why_tests_cant": "The rectangle can straddle any edge or corner or miss the image altogether; all alignments must work.", "anchors": ["src/drawing/rect.rs:draw_filled_rect_mut", "src/rect.rs:Rect::intersect"]}
{"id": "C09", "title": "Integral image entries are prefix-rectangle sums", "statement": "The integral image of a w by h image has size (w+1) by (h+1) and its entry (x, y) equals the sum of the (optionally squared) intensities of all pixels strictly left of x and strictly above y.", "quantifier": "every image size and content (sums within the accumulator range)", "why_tests_cant": "A recurrence over unbounded sizes; checked on small literals only by tests.", "anchors": ["src/integral_image.rs:integral_image", "src/integral_image.rs:integral_squared_image", "src/integral_image.rs:integral_image_impl"]}
{"id": "C10", "title": "Four lookups give any rectangle sum without unsigned underflow", "statement": "For any image and any in-bounds inclusive rectangle, the four-corner lookup on the integral image returns exactly the sum of the pixels of the rectangle, and no intermediate subtraction in the evaluation order used goes below zero.", "quantifier": "every image and every rectangle left<=right<w, top<=bottom<h", "why_tests_cant": "Underflow depends on the order of the additions and subtractions and on pixel content.", "anchors": ["src/integral_image.rs:sum_image_pixels"]}
{"id": "C11", "title": "Running sums are prefix sums of the edge-extended row or column", "statement": "The row (column) running sum with a given padding writes into each buffer slot the sum of all earlier-or-equal samples of the row (column) extended on both sides by repeating its boundary pixels padding times.", "quantifier": "every image, row or column index, padding and sufficiently large buffer", "why_tests_cant": "Three loops with different step sizes have to line up for all widths and paddings.", "anchors": ["src/integral_image.rs:row_running_sum", "src/integral_image.rs:column_running_sum"]}
{"id": "C12", "title": "Histogram bins count pixels and cumulative bins are their partial sums", "statement": "Bin v of the histogram equals the number of pixels with value v, bins add up to the number of pixels, and bin v of the cumulative histogram equals the number of pixels with value at most v.", "quantifier": "every 8-bit image", "why_tests_cant": "All contents and sizes; tests check literals.", "anchors": ["src/stats.rs:histogram", "src/stats.rs:cumulative_histogram"]}
{"id": "C13", "title": "Percentile returns the least intensity reaching the requested fraction", "statement": "For a non-empty image and p<=100 the p-th percentile is the least intensity v such that at least p percent of the pixels are <= v; it is monotone in p, and the call is rejected for p>100.", "quantifier": "every non-empty 8-bit image and every p", "why_tests_cant": "Involves integer division rounding that must not shift the answer for any total.", "anchors": ["src/stats.rs:percentile", "src/stats.rs:cumulative_histogram"]}
{"id": "C14", "title": "Adaptive threshold compares every pixel with its clipped block mean", "statement": "With a positive block radius the output pixel is white exactly when the input pixel plus delta is at least the floor of the mean of the input over the block of that radius around it clipped to the image, and black otherwise.", "quantifier": "every image, radius>0, delta, and pixel (integral sums below 2^32)", "why_tests_cant": "Clipping cases at each border and the integral image shortcut must agree with the direct mean for all sizes.", "anchors": ["src/contrast.rs:adaptive_threshold", "src/integral_image.rs:sum_image_pixels"]}
{"id": "C15", "title": "Otsu level is the smallest maximiser of the between-class variance", "statement": "The returned level attains the maximum over all 256 levels of (weight below)*(weight above)*(difference of class means)^2, and no smaller level attains it (0 when the maximum is 0).", "quantifier": "every 8-bit image, over exact arithmetic", "why_tests_cant": "An incremental scan with early exits; correctness is about all histograms.", "anchors": ["src/contrast.rs:otsu_level"]}
{"id": "C16", "title": "Threshold modes do what their documentation tables say", "statement": "For each of the five threshold types the output pixel is the documented function of the input pixel and the threshold.", "quantifier": "every image, every threshold, every mode", "why_tests_cant": "Documented per-mode tables; each mode has to be right for all 256x256 combinations.", "anchors": ["src/contrast.rs:threshold_mut", "src/contrast.rs:ThresholdType"]}
{"id": "C17", "title": "Contrast stretching is a monotone clamped linear map computed without overflow", "statement": "For valid bounds the stretch maps values <= input lower bound to the output lower bound and >= upper to upper, is monotone, stays within the output bounds, equals the floor of the exact linear interpolation in between, and its 16-bit intermediate product never overflows.", "quantifier": "all valid bound quadruples and all pixel values", "why_tests_cant": "2^40 parameter combinations; overflow only for extreme ones.", "anchors": ["src/contrast.rs:stretch_contrast_mut"]}
{"id": "C18", "title": "Histogram equalisation is an order-preserving remap hitting full brightness", "statement": "Equalising maps each intensity v to floor(255 * (fraction of pixels <= v)); the map is monotone, stays within 0..255 and the brightest occurring intensity becomes 255.", "quantifier": "every non-empty 8-bit image, over exact arithmetic", "why_tests_cant": "A statement about all histograms.", "anchors": ["src/contrast.rs:equalize_histogram_mut", "src/stats.rs:cumulative_histogram"]}
{"id": "C19", "title": "Histogram matching picks the closest target fraction and preserves order", "statement": "For non-empty images the remap sends each occurring intensity to a level whose cumulative fraction in the target image is as close as possible to the intensity's cumulative fraction in the source, and is monotone.", "quantifier": "every pair of non-empty images, every intensity, over exact arithmetic", "why_tests_cant": "A single forward scan with a remembered previous value; optimality must hold for all histogram pairs.", "anchors": ["src/contrast.rs:match_histogram_mut", "src/contrast.rs:histogram_lut"]}
{"id": "C20", "title": "Cropping copies exactly the requested rectangle", "statement": "Cropping to an in-bounds rectangle returns an image of the rectangle's size whose pixel (i, j) is the input pixel (x+i, y+j); an out-of-bounds rectangle is rejected; cropping a crop is the same as cropping once.", "quantifier": "every image and rectangle", "why_tests_cant": "All offsets and sizes.", "anchors": ["src/compose.rs:crop", "src/compose.rs:crop_parallel"]}
{"id": "C21", "title": "Flips and quarter turns permute pixels as documented", "statement": "Horizontal/vertical flips and 90/180/270 degree rotations move the pixel at (x, y) to the documented location for every size (odd or even), flips are involutions, four quarter turns are the identity, rotate180 equals both flips and rotate270 inverts rotate90.", "quantifier": "every image (including empty and odd sizes)", "why_tests_cant": "In-place swapping is sensitive to the parity of width and height and to the middle row; a law over all images.", "anchors": ["src/compose.rs:flip_horizontal_mut", "src/compose.rs:flip_vertical_mut", "src/geometric_transformations.rs:rotate90", "src/geometric_transformations.rs:rotate180_mut", "src/geometric_transformations.rs:rotate270"]}
{"id": "C22", "title": "Replacing pastes the whole top image clipped to the bottom image", "statement": "Replacing at (x, y) inside the bottom image sets every bottom pixel covered by the top image placed with its origin at (x, y) to the corresponding top pixel, and leaves all others unchanged.", "quantifier": "all images and in-bounds positions", "why_tests_cant": "The clipping matters only when the top image reaches the last row or column of the bottom image.", "anchors": ["src/compose.rs:replace_mut"]}
{"id": "C23", "title": "Overlaying blends the top image into the covered region", "statement": "Overlaying at (x, y) inside the bottom image replaces every bottom pixel covered by the top image by the blend of the corresponding top pixel over it, and leaves all others unchanged.", "quantifier": "all images, blend functions and in-bounds positions", "why_tests_cant": "With identical or uniform images a wrong source image goes unnoticed.", "anchors": ["src/compose.rs:overlay_mut"]}
{"id": "C24", "title": "Integer translation shifts with edge replication", "statement": "Translating by (tx, ty) gives an image of equal size whose pixel (x, y) is the input pixel at (x-tx, y-ty) with each coordinate clamped into the image.", "quantifier": "every non-empty image and every translation, including ones larger than the image", "why_tests_cant": "Block copies per sign of tx with separate edge fills; all magnitudes of tx relative to the width must work.", "anchors": ["src/geometric_transformations.rs:translate"]}
{"id": "C25", "title": "Projections compose and invert as transformations", "statement": "Applying P*Q to a point equals applying Q then P, and applying a projection followed by its inverse returns the point, for every class of transformation (translation, affine, projective) and every mixture of them, whenever the denominators involved are non-zero.", "quantifier": "all projections built by the constructors and products, all points, over exact arithmetic", "why_tests_cant": "Continuous parameters; the fast paths for translations and affine maps must agree with the general one.", "anchors": ["src/geometric_transformations.rs:Projection", "src/geometric_transformations.rs:mul3x3", "src/geometric_transformations.rs:Projection::invert"]}
{"id": "C26", "title": "A projection is built from every invertible matrix and inverts it", "statement": "Building a projection from a 3x3 matrix yields None exactly when the matrix is not invertible, and otherwise the stored inverse is the matrix inverse up to scale.", "quantifier": "all 3x3 matrices, over exact arithmetic", "why_tests_cant": "Depends on a determinant tolerance and on normalisation by the corner entry; special matrices break it.", "anchors": ["src/geometric_transformations.rs:Projection::from_matrix", "src/geometric_transformations.rs:try_inverse", "src/geometric_transformations.rs:normalize"]}
{"id": "C27", "title": "Warping only uses the default colour outside the image", "statement": "Every output pixel of a warp whose pre-image lies in the closed rectangle spanned by the input pixel centres is computed from input pixels, and the default colour is used only for pre-images outside; in particular warping by the identity returns the input.", "quantifier": "every image, interpolation mode and mapping, over exact arithmetic", "why_tests_cant": "Border behaviour at exactly representable positions; a for-all claim about mappings.", "anchors": ["src/geometric_transformations.rs:interpolate_nearest", "src/geometric_transformations.rs:interpolate_bilinear", "src/geometric_transformations.rs:interpolate_bicubic", "src/geometric_transformations.rs:warp_inner"]}
{"id": "C28", "title": "Bilinear interpolation stays within the range of the four surrounding pixels", "statement": "The bilinearly interpolated value at any interior position lies between the least and greatest of the four surrounding pixel values, and equals the pixel value at integer positions.", "quantifier": "all pixel quadruples and fractional weights, over exact arithmetic with truncation", "why_tests_cant": "Continuous weights and truncation at every stage.", "anchors": ["src/geometric_transformations.rs:blend_bilinear", "src/geometric_transformations.rs:interpolate_bilinear"]}
{"id": "C29", "title": "Non-maximum suppression keeps exactly the window maxima", "statement": "With radius r, the output pixel equals the input pixel where that pixel is greater than every other pixel of the (2r+1) by (2r+1) window around it clipped to the image (ties resolved in favour of the lexicographically smallest (x, y)), and zero elsewhere.", "quantifier": "every image size, content and radius", "why_tests_cant": "The block-based shortcut visits each pixel a varying number of times; equivalence with the direct definition must hold for all alignments of blocks with borders.", "anchors": ["src/suppress.rs:suppress_non_maximum"]}
{"id": "C30", "title": "Local maxima of a scored point list are exactly the undominated points", "statement": "A point of the list is returned exactly when no other point within the given radius in both coordinates has a greater score, or an equal score and a lexicographically smaller (row, column) position.", "quantifier": "every list of scored points and every radius", "why_tests_cant": "Depends on all relative positions of points, including ties and the outermost rows; an unbounded space.", "anchors": ["src/suppress.rs:local_maxima"]}
{"id": "C31", "title": "The L1 and LInf distance transforms give exact saturated distances", "statement": "If the image has a foreground pixel, each output value is the minimum of 255 and the least L1 (respectively LInf) distance to a foreground pixel; foreground pixels get 0.", "quantifier": "every image with a foreground pixel, every pixel, both norms", "why_tests_cant": "Two raster sweeps have to propagate distances along arbitrary directions for unbounded sizes.", "anchors": ["src/distance_transform.rs:distance_transform", "src/distance_transform.rs:distance_transform_mut", "src/distance_transform.rs:distance_transform_impl"]}
{"id": "C32", "title": "The squared Euclidean distance transform is exact", "statement": "Each output value is the least squared Euclidean distance from the pixel to a foreground pixel, infinite if there is none.", "quantifier": "every image and pixel, over exact arithmetic", "why_tests_cant": "The lower-envelope-of-parabolas sweep keeps an implicit stack of intersections; correctness is about all configurations.", "anchors": ["src/distance_transform.rs:euclidean_squared_distance_transform", "src/distance_transform.rs:distance_transform_1d_mut"]}
{"id": "C33", "title": "Dilation whitens exactly the pixels within distance k of the foreground", "statement": "After dilation with norm L and radius k a pixel is white exactly when some foreground pixel lies within L-distance k of it, and black otherwise; erosion blackens exactly the pixels within distance k of a background pixel.", "quantifier": "every image, both norms, every radius", "why_tests_cant": "Saturation of distances and images without foreground are corner cases no test samples exhaustively.", "anchors": ["src/morphology.rs:dilate_mut", "src/morphology.rs:erode_mut", "src/morphology.rs:open_mut", "src/morphology.rs:close_mut"]}
{"id": "C34", "title": "Grayscale dilation and erosion are the max and min over the translated mask", "statement": "Each output pixel of grayscale dilation (erosion) is the maximum (minimum) of the input pixels at the in-bounds positions obtained by adding mask offsets to the pixel position, or the neutral value 0 (255) if there are none.", "quantifier": "every image with positive width, every mask, every pixel", "why_tests_cant": "Row/column slicing with signed offsets has to line up for offsets larger than the image as well.", "anchors": ["src/morphology.rs:mask_reduce", "src/morphology.rs:grayscale_dilate", "src/morphology.rs:grayscale_erode"]}
{"id": "C35", "title": "Grayscale opening and closing are idempotent and order-respecting", "statement": "Opening twice equals opening once and never brightens a pixel; closing twice equals closing once and never darkens a pixel; both are monotone in the image.", "quantifier": "every image and every mask", "why_tests_cant": "An algebraic law over all masks; library masks are symmetric, which hides the role of reflection.", "anchors": ["src/morphology.rs:grayscale_open", "src/morphology.rs:grayscale_close"]}
{"id": "C36", "title": "Structuring masks contain exactly the documented offsets", "statement": "The square, diamond and disk masks of radius r contain exactly the offsets with LInf norm, L1 norm, and Euclidean norm at most r; a mask built from an image contains exactly the offsets of its foreground pixels relative to the centre.", "quantifier": "every radius 0..255, every mask image and centre", "why_tests_cant": "The disk is generated from half-width recurrences that must be right for every radius.", "anchors": ["src/morphology.rs:Mask::square", "src/morphology.rs:Mask::diamond", "src/morphology.rs:Mask::disk", "src/morphology.rs:Mask::from_image"]}
{"id": "C37", "title": "2d filtering is clamped-border correlation", "statement": "Filtering with a kernel returns an image of equal size whose pixel (x, y) is the per-channel sum over kernel entries of weight times the input pixel at the offset position with coordinates clamped into the image, passed through the output conversion; the parallel version returns the same image.", "quantifier": "every image, kernel and pixel", "why_tests_cant": "All sizes including kernels larger than the image; parallel schedules.", "anchors": ["src/filter/mod.rs:filter", "src/filter/mod.rs:filter_parallel", "src/filter/mod.rs:filter_clamped"]}
{"id": "C38", "title": "The fast 1d filters agree with the naive clamped definition", "statement": "Horizontal (vertical) filtering equals 2d filtering with the corresponding one-row (one-column) kernel for every kernel length, odd or even, shorter or longer than the image; no out-of-range pixel is read.", "quantifier": "every image, kernel length and weights", "why_tests_cant": "A three-zone loop with unchecked reads; errors show only at particular size relations.", "anchors": ["src/filter/mod.rs:horizontal_filter", "src/filter/mod.rs:vertical_filter"]}
{"id": "C39", "title": "Median filter returns the true window median", "statement": "Each output channel is the lower median of the multiset of that channel over the (2rx+1) by (2ry+1) window with clamped coordinates, for all radii including ones larger than the image.", "quantifier": "every image, radii and pixel", "why_tests_cant": "Histograms are updated incrementally in a snake order across the whole image, so an error at one step propagates only on some later pixel.", "anchors": ["src/filter/median.rs:median_filter"]}
{"id": "C40", "title": "Box filter averages over the clamped window in two floor-divided passes", "statement": "Each output pixel is the floor of the mean over the clamped horizontal window, followed by the floor of the mean over the clamped vertical window of the first result; it stays within the min and max of the input, and no running-sum subtraction underflows.", "quantifier": "every image and radii", "why_tests_cant": "Running sums with padding over all sizes.", "anchors": ["src/filter/box_filter.rs:box_filter", "src/integral_image.rs:row_running_sum", "src/integral_image.rs:column_running_sum"]}
{"id": "C41", "title": "Bilateral filtering averages within the window and stays in its range", "statement": "Every output value of the bilateral filter lies between the least and greatest input value over the clamped window of the pixel, and uniform images are fixed points, for any positive weight functions.", "quantifier": "every image, radius and positive weight functions, over exact arithmetic", "why_tests_cant": "All contents and continuous parameters.", "anchors": ["src/filter/bilateral.rs:bilateral_filter"]}
{"id": "C42", "title": "Bresenham lines visit one pixel per major-axis step closest to the ideal line", "statement": "For integer end points the line iterator yields exactly max(|dx|, |dy|)+1 points, starts and ends at the two end points (in some order), moves to an 8-neighbour at each step, and each point is within half a pixel of the ideal segment along the minor axis.", "quantifier": "all pairs of integer end points", "why_tests_cant": "An error accumulator over arbitrarily long lines in all octants.", "anchors": ["src/drawing/line.rs:BresenhamLineIter"]}
{"id": "C43", "title": "Line drawing touches only line pixels inside the image", "statement": "Drawing a line segment sets exactly the image pixels that lie on the iterated line to the colour, never touches anything out of bounds, leaves all other pixels unchanged, and the pixel iterators never leave the image.", "quantifier": "every image and all end points", "why_tests_cant": "End points may be anywhere relative to the image.", "anchors": ["src/drawing/line.rs:draw_line_segment_mut", "src/drawing/line.rs:BresenhamLinePixelIter"]}
{"id": "C44", "title": "Flood fill recolours exactly the 4-connected region of the seed", "statement": "Filling from an in-bounds seed terminates and recolours exactly the pixels joined to the seed by a 4-connected path of pixels of the seed's original colour; all other pixels are unchanged.", "quantifier": "every image, seed and fill colour", "why_tests_cant": "Region shapes are unbounded and the span algorithm keeps an explicit stack; missing a span happens only for particular shapes.", "anchors": ["src/drawing/fill.rs:flood_fill_mut"]}
{"id": "C45", "title": "Circle outlines approximate the ideal circle within half a pixel and are 8-fold symmetric", "statement": "Every pixel drawn by the hollow circle satisfies the midpoint criterion (the ideal circle passes within half a pixel vertically or horizontally of it), the drawn set is symmetric under the 8 symmetries of the square about the centre, and drawing terminates for all radii.", "quantifier": "every radius, centre and image", "why_tests_cant": "Error accumulator over all radii.", "anchors": ["src/drawing/conics.rs:draw_hollow_circle_mut"]}
{"id": "C46", "title": "Filled circles are unions of full spans of the outline", "statement": "The filled circle of radius r about a centre colours exactly the in-image pixels lying between (inclusive) the two outline pixels of their row, in particular everything with distance at most r - 1 and nothing beyond r + 1.", "quantifier": "every radius, centre and image", "why_tests_cant": "All radii; holes could appear only for specific ones.", "anchors": ["src/drawing/conics.rs:draw_filled_circle_mut"]}
{"id": "C47", "title": "Polygon filling never fails and stays inside the polygon's bounding box", "statement": "Drawing a filled polygon given by any non-empty list of vertices on a non-empty image does not panic, colours only pixels inside the bounding box of the vertices, and colours every vertex and edge pixel inside the image.", "quantifier": "every vertex list, image and colour", "why_tests_cant": "Scanline parity must be even for every closed path; degenerate edges are rare in tests.", "anchors": ["src/drawing/polygon.rs:draw_polygon_with_mut"]}
{"id": "C48", "title": "Antialiased lines blend two vertically adjacent pixels with complementary weights in [0, 1]", "statement": "At each major-axis step the antialiased line blends the two pixels adjacent to the ideal line with weights that are in [0, 1] and sum to one, one pixel getting the distance of the line to the other.", "quantifier": "all integer end points and images, over exact arithmetic", "why_tests_cant": "Negative coordinates change the meaning of truncation; needs lines outside the image.", "anchors": ["src/drawing/line.rs:plot_wu_line", "src/drawing/line.rs:draw_antialiased_line_segment_mut"]}
{"id": "C49", "title": "Crosses mark the centre and its four neighbours inside the image", "statement": "Drawing a cross at any integer position sets exactly the in-image pixels at L1-distance at most one from it and nothing else.", "quantifier": "every image and position", "why_tests_cant": "Positions outside or on the border.", "anchors": ["src/drawing/cross.rs:draw_cross_mut"]}
{"id": "C50", "title": "Hysteresis keeps exactly the weak edges connected to strong edges", "statement": "In the final Canny stage a pixel is an edge exactly when it is joined to a pixel of at least the high threshold by an 8-connected path of pixels of at least the low threshold.", "quantifier": "every gradient image with zero border and thresholds 0 < low <= high", "why_tests_cant": "Connectivity over unbounded paths in all eight directions.", "anchors": ["src/edges.rs:hysteresis", "src/edges.rs:canny"]}
{"id": "C51", "title": "Contour tracing terminates", "statement": "Finding contours terminates without panicking on every image: every started border trace returns to its start.", "quantifier": "every image and threshold", "why_tests_cant": "A trace that never closes is only excluded by an argument over all images.", "anchors": ["src/contours.rs:find_contours_with_threshold"]}
{"id": "C52", "title": "Contours are closed 8-connected chains of foreground pixels with valid parents", "statement": "Every returned contour is a non-empty list of foreground pixels, cyclically consecutive ones being equal or 8-neighbours, and its parent, if any, is the index of an earlier contour of the opposite border type.", "quantifier": "every image and threshold", "why_tests_cant": "All image topologies.", "anchors": ["src/contours.rs:find_contours_with_threshold", "src/contours.rs:Contour"]}
{"id": "C53", "title": "Every foreground region has an outer contour", "statement": "Each 8-connected foreground region of the image has at least one contour passing through it, and an image without foreground has none.", "quantifier": "every image and threshold", "why_tests_cant": "Regions touching the image border are special cases.", "anchors": ["src/contours.rs:find_contours_with_threshold"]}
{"id": "C54", "title": "Convex hull encloses all points with strictly convex input vertices", "statement": "The hull's vertices are input points, every consecutive triple turns strictly counter-clockwise, and every input point lies on or to the left of every hull edge.", "quantifier": "every finite set of integer points not all equal (coordinates far from overflow)", "why_tests_cant": "Angular sorting with collinear and duplicate points; all configurations.", "anchors": ["src/geometry.rs:convex_hull", "src/geometry.rs:orientation"]}
{"id": "C55", "title": "Contour area is the shoelace area: translation invariant and reversal antisymmetric", "statement": "The oriented area is unchanged by translating all points and by cyclic rotation of the list, changes sign under reversal, and equals (x2-x1)*(y2-y1) for axis-parallel rectangles up to orientation.", "quantifier": "every list of points, over exact arithmetic", "why_tests_cant": "Algebraic laws over all lists.", "anchors": ["src/geometry.rs:oriented_contour_area", "src/geometry.rs:contour_area"]}
{"id": "C56", "title": "Polygon simplification keeps end points, order and the error bound", "statement": "The simplified open polyline is a subsequence of the input containing its first and last point, every dropped point is within epsilon of the line through the retained points around it, and the call terminates.", "quantifier": "every point list with at least one point and every epsilon>0, over exact arithmetic", "why_tests_cant": "Recursive splitting; degenerate baselines (equal end points) are special.", "anchors": ["src/geometry.rs:approximate_polygon_dp", "src/point.rs:Line::distance_from_point"]}
{"id": "C57", "title": "Clipping a polar line to the image returns two points of the line on the image boundary", "statement": "Whenever intersection points are returned they satisfy the line equation and lie on the boundary of the image rectangle, and they are returned exactly when the line meets the rectangle.", "quantifier": "all lines with angle 0..179 and all image sizes, over exact arithmetic with any sin/cos values with sin^2+cos^2=1", "why_tests_cant": "Continuous parameters; corner cases.", "anchors": ["src/hough.rs:intersection_points"]}
{"id": "C58", "title": "Hough voting counts foreground pixels per line and reports exactly the suppressed maxima above threshold", "statement": "Each accumulator bucket ends up with the number of foreground pixels whose rounded signed distance at that angle falls into it, and the reported lines are exactly the buckets surviving suppression with at least the threshold number of votes.", "quantifier": "every image, trigonometric table and options", "why_tests_cant": "Votes interact over all pixels.", "anchors": ["src/hough.rs:detect_lines", "src/suppress.rs:suppress_non_maximum"]}
{"id": "C59", "title": "The vertical seam is a connected path of least total energy", "statement": "The seam found in an image of width at least 2 has one pixel per row, consecutive pixels differ by at most one column, and no other such path has a smaller sum of energies.", "quantifier": "every energy image", "why_tests_cant": "Optimality over exponentially many paths.", "anchors": ["src/seam_carving.rs:find_vertical_seam", "src/seam_carving.rs:set_path_energy"]}
{"id": "C60", "title": "Removing a seam deletes exactly the seam pixels and closes the gaps", "statement": "Removing a seam yields an image one column narrower whose rows are the input rows with the seam pixel deleted; shrinking to a target width of at least one yields exactly that width and the same height.", "quantifier": "every image and valid seam, every target width", "why_tests_cant": "All seams and sizes.", "anchors": ["src/seam_carving.rs:remove_vertical_seam", "src/seam_carving.rs:shrink_width"]}
{"id": "C61", "title": "Drawing removed seams marks their original positions", "statement": "Drawing a list of successively removed seams on the original image paints, for each seam and row, exactly the original column of the pixel that was removed.", "quantifier": "every image and every sequence of seams removed in order", "why_tests_cant": "Needs several overlapping seams with particular relative positions.", "anchors": ["src/seam_carving.rs:draw_vertical_seams"]}
{"id": "C62", "title": "Local binary pattern lookup tables and bit order are right for every byte", "statement": "The minimum-rotation table equals the least value over all rotations of the byte for each of the 256 bytes, the uniform table equals it for bytes with at most two transitions and the fixed representative otherwise; minimum rotation is rotation invariant; and bit n of the pattern, counted as documented, tells whether the centre is strictly brighter than neighbour n.", "quantifier": "all 256 bytes; every image and interior pixel", "why_tests_cant": "Tables of 512 literals and documentation of bit order.", "anchors": ["src/local_binary_patterns.rs:min_shift", "src/local_binary_patterns.rs:MIN_SHIFT", "src/local_binary_patterns.rs:UNIFORM_REPRESENTATIVE_2", "src/local_binary_patterns.rs:local_binary_pattern", "src/local_binary_patterns.rs:count_transitions"]}
{"id": "C63", "title": "A Haar feature evaluates to its signed sum of region intensities", "statement": "Evaluating a feature on the integral image of an image gives the sum of the pixels in its positive blocks minus the sum of the pixels in its negative blocks, with blocks and signs as drawn by the drawing function.", "quantifier": "every image, every feature fitting in it", "why_tests_cant": "Five hand-expanded corner formulas over all positions and sizes.", "anchors": ["src/haar.rs:HaarFeature::evaluate", "src/haar.rs:draw_haar_feature_mut", "src/integral_image.rs:integral_image"]}
{"id": "C64", "title": "Haar feature enumeration is complete, duplicate free and matches the closed-form count", "statement": "For frame sizes where it is defined the enumeration lists exactly once every feature whose blocks fit in the frame, and its length equals the closed-form number of features.", "quantifier": "every frame width and height", "why_tests_cant": "A counting identity for all sizes; overflow of 8-bit sizes only at the extreme.", "anchors": ["src/haar.rs:enumerate_haar_features", "src/haar.rs:number_of_haar_features", "src/haar.rs:num_features"]}
{"id": "C65", "title": "FAST corner tests detect exactly the circles with a long enough arc", "statement": "A pixel at least three away from the border is a FAST-9 (FAST-12) corner at a threshold exactly when at least 9 (12) cyclically contiguous pixels of the 16-pixel circle are all brighter than centre plus threshold or all darker than centre minus threshold; pixels closer to the border are never corners.", "quantifier": "every image, position and threshold", "why_tests_cant": "2^32 circle classifications per pixel; the quick rejection tests must never reject a true corner.", "anchors": ["src/corners.rs:is_corner_fast9", "src/corners.rs:is_corner_fast12", "src/corners.rs:search_span"]}
{"id": "C66", "title": "The FAST score is the greatest threshold at which the pixel is a corner", "statement": "For a pixel that is a corner at threshold t the score is the greatest threshold s>=t at which it is still a corner, and the search terminates.", "quantifier": "every image, position, threshold and variant", "why_tests_cant": "Binary search needs monotonicity of the corner test over all thresholds.", "anchors": ["src/corners.rs:fast_corner_score"]}
{"id": "C67", "title": "Template scores are the documented sums and detect exact matches", "statement": "The squared-error score at (x, y) is the sum over the template of squared differences, is zero exactly when the template equals the image patch, and the normalised cross-correlation lies in [0, 1]; output dimensions are image minus template plus one.", "quantifier": "all images and templates fitting in them, over exact arithmetic", "why_tests_cant": "All sizes and contents; the bound is an inequality (Cauchy-Schwarz).", "anchors": ["src/template_matching.rs:match_template", "src/template_matching.rs:ImageTemplate"]}
{"id": "C68", "title": "Extremes are true extremes at the documented location", "statement": "The reported maximum and minimum values bound every pixel, are attained at the reported locations, and among equal values the documented (lexicographically smallest) location is reported.", "quantifier": "every non-empty image", "why_tests_cant": "Tie-breaking over all layouts.", "anchors": ["src/template_matching.rs:find_extremes"]}
{"id": "C69", "title": "64-bit hash packing round-trips and Hamming distance is a metric", "statement": "Packing 64 booleans and unpacking gives them back; the Hamming distance counts differing positions, is symmetric, zero exactly on equal hashes and satisfies the triangle inequality.", "quantifier": "all bit arrays and hashes", "why_tests_cant": "2^64 values.", "anchors": ["src/image_hash/bits.rs:Bits64"]}
{"id": "C70", "title": "Transposition helpers are exact involutions", "statement": "The in-place square transpose exchanges entry (i, j) with (j, i) for all positions and is an involution; the rectangular transpose followed by its counterpart is the identity.", "quantifier": "every matrix size and content", "why_tests_cant": "In-place permutation over all sizes.", "anchors": ["src/image_hash/signals.rs:transpose_inplace", "src/image_hash/signals.rs:transpose"]}
{"id": "C71", "title": "BRIEF descriptors encode every requested test and compare by Hamming distance", "statement": "A descriptor computed from n test pairs determines the outcome of each of the n comparisons, and the distance between descriptors is the number of differing comparison outcomes.", "quantifier": "all images, keypoints and test pair lists", "why_tests_cant": "Bits can be lost for particular chunk positions without any visible failure.", "anchors": ["src/binary_descriptors/brief.rs:brief_impl", "src/binary_descriptors/brief.rs:BriefDescriptor::hamming_distance"]}
{"id": "C72", "title": "Descriptor matching returns only pairs below the threshold, at most one per query", "statement": "Every returned pair consists of one element of each input list with distance strictly below the threshold, and each descriptor of the first list occurs at most once as the query, whatever the random choices.", "quantifier": "all descriptor lists, thresholds and random seeds", "why_tests_cant": "Randomised hashing; the guarantee is for all seeds.", "anchors": ["src/binary_descriptors/mod.rs:match_binary_descriptors"]}
{"id": "C73", "title": "Pixel mapping applies the function to every pixel regardless of schedule", "statement": "Mapping returns an image of equal size whose pixel at each location is the function applied to the input pixel (and its location); in-place and parallel variants produce the same image under every schedule of the per-pixel work.", "quantifier": "every image, function and schedule", "why_tests_cant": "Schedules are unbounded.", "anchors": ["src/map.rs:map_pixels", "src/map.rs:map_pixels_parallel", "src/map.rs:map_pixels_mut", "src/map.rs:map_enumerated_pixels"]}
{"id": "C74", "title": "Mapping two images requires equal dimensions", "statement": "Mapping a function over two images panics when their dimensions differ, and otherwise yields the pixelwise combination.", "quantifier": "all pairs of images", "why_tests_cant": "Mismatches that happen to have enough data slip through.", "anchors": ["src/map.rs:map_pixels2"]}
{"id": "C75", "title": "Clamping conversions saturate", "statement": "Clamping a number to a narrower pixel type returns the number itself (truncated towards zero for fractions) when it is representable and the nearest bound otherwise; clamping is monotone and idempotent.", "quantifier": "all input values of all implemented type pairs", "why_tests_cant": "All values of the source types.", "anchors": ["src/definitions.rs:Clamp"]}
{"id": "C76", "title": "Gradient kernels annihilate constant images and are antisymmetric", "statement": "Every built-in first-derivative kernel gives zero on constant regions, changes sign under mirroring along its axis, and filtering 8-bit input with it stays inside the 16-bit output range so that no clamping ever occurs.", "quantifier": "all images and pixels, all built-in gradient kernels", "why_tests_cant": "All neighbourhood contents.", "anchors": ["src/kernel.rs", "src/gradients.rs:horizontal_sobel", "src/filter/mod.rs:filter_clamped"]}
{"id": "C77", "title": "HoG layout: blocks stay inside the cell grid and the descriptor has the announced length", "statement": "When options are accepted every block lies inside the cell grid, blocks cover the last cell, and the produced descriptor has exactly the announced length; incompatible options are reported as an error rather than a panic.", "quantifier": "all image sizes and options", "why_tests_cant": "All size/stride combinations.", "anchors": ["src/hog.rs:HogSpec::from_options", "src/hog.rs:num_blocks", "src/hog.rs:View3d::offset", "src/hog.rs:hog_descriptor_from_hist_grid"]}
{"id": "C78", "title": "Salt and pepper noise changes pixels only to black or white", "statement": "For every random stream each pixel of the noisy image is unchanged, black or white, the size is kept, and at rate 0 the image is unchanged.", "quantifier": "every image, rate and random stream", "why_tests_cant": "All random streams.", "anchors": ["src/noise.rs:salt_and_pepper_noise_mut"]}
{"id": "C79", "title": "Pixel difference listing is empty exactly for equal images", "statement": "Comparing two images of equal size lists exactly the positions at which they differ under the given predicate, with both values.", "quantifier": "all pairs of images of equal size", "why_tests_cant": "All contents.", "anchors": ["src/utils.rs:pixel_diffs", "src/utils.rs:significant_pixel_diff_summary"]}
{"id": "C80", "title": "Minimum and maximum are attained bounds per channel", "statement": "For a non-empty image min_max returns for every channel a lower and an upper bound of all samples, both attained; an empty image is rejected.", "quantifier": "every image, any channel count, any ordered sample values", "why_tests_cant": "All contents and sizes.", "anchors": ["src/stats.rs:min_max"]}
{"id": "C81", "title": "Mean squared error is a symmetric discrepancy vanishing only on equal images", "statement": "For equal-sized images it is the average squared sample difference, symmetric, non-negative and zero exactly when all samples agree; different sizes are rejected.", "quantifier": "every pair of images, exact arithmetic", "why_tests_cant": "All contents; the zero-iff-equal direction cannot be sampled.", "anchors": ["src/stats.rs:mean_squared_error", "src/stats.rs:root_mean_squared_error"]}
{"id": "C82", "title": "Projections from control points map the control points", "statement": "If the linear solver returns a solution of the equations set up for the four point pairs and a projection is returned, that projection maps every source point to its destination.", "quantifier": "all control points and solver results satisfying the equations, over exact arithmetic", "why_tests_cant": "The coefficients of the system must encode the projective equations for every pair of points, a continuous family.", "anchors": ["src/geometric_transformations.rs:Projection::from_control_points"]}
{"id": "C83", "title": "Rotation about a point is a rigid motion fixing that point", "statement": "The projection used to rotate an image about a centre fixes the centre, preserves all distances and sends the x direction to (cos, sin), i.e. clockwise on screen.", "quantifier": "all centres, all sine/cosine pairs on the unit circle, all points, over exact arithmetic", "why_tests_cant": "Holds for a continuum of angles and points; order of the three factors matters.", "anchors": ["src/geometric_transformations.rs:rotate", "src/geometric_transformations.rs:Projection::rotate"]}
{"id": "C84", "title": "Gaussian noise adds one sample per pixel and saturates", "statement": "Every pixel of the noisy image is the input pixel plus its own sample of the stream, truncated and clamped into the pixel range; zero noise leaves the image unchanged.", "quantifier": "every image and sample stream, over exact arithmetic", "why_tests_cant": "Quantifies over all random streams.", "anchors": ["src/noise.rs:gaussian_noise_mut"]}
{"id": "C85", "title": "The L2 distance transform is threshold-exact", "statement": "distance_transform with norm L2 gives each pixel a byte which is at most k (k below 255) exactly when a foreground pixel lies within Euclidean distance k.", "quantifier": "every image, pixel and threshold", "why_tests_cant": "Combines the parabola envelope, square root, clamp and ceiling.", "anchors": ["src/distance_transform.rs:distance_transform_impl"]}
{"id": "C86", "title": "Binary opening and closing are idempotent and one-sided", "statement": "Opening never turns a background pixel white, closing never turns a foreground pixel black, and applying either twice equals applying it once, for every norm and every radius below 255 (and, for L1 and LInf, below width + height).", "quantifier": "every image, every norm, every such radius", "why_tests_cant": "Algebraic laws over all images.", "anchors": ["src/morphology.rs:open_mut", "src/morphology.rs:close_mut"]}
{"id": "C87", "title": "Separable filtering is correlation with the outer product", "statement": "Separable filtering with two kernels of equal length equals 2d filtering with the outer product kernel.", "quantifier": "every image and pair of 1d kernels", "why_tests_cant": "All kernels and contents; the intermediate image is rounded and clamped, which only some inputs reveal.", "anchors": ["src/filter/mod.rs:separable_filter"]}
{"id": "C88", "title": "Gaussian blur keeps constants and stays in range", "statement": "The Gaussian kernel has odd length, is symmetric, non-negative and sums to one; blurring keeps constant channels and never leaves the range of the input, in exact arithmetic.", "quantifier": "every image, radius and positive sample function", "why_tests_cant": "All contents and a continuous parameter.", "anchors": ["src/filter/mod.rs:gaussian_kernel_f32", "src/filter/mod.rs:gaussian_blur_f32"]}
{"id": "C89", "title": "Canny edges are interior local gradient maxima connected to strong ones", "statement": "With thresholds 0 < low <= high edge detection never panics on a non-empty image and never reads outside it; the output is binary, every edge pixel is an interior pixel whose gradient magnitude is at least low and at least that of both neighbours along its gradient direction, connected through such pixels to one of at least high, and every local maximum of at least high is an edge.", "quantifier": "every image of at least one pixel and all thresholds 0 < low <= high; blur, Sobel filters, hypot and the angle classification arbitrary", "why_tests_cant": "Unchecked pixel reads and arbitrary gradient fields.", "anchors": ["src/edges.rs:canny", "src/edges.rs:non_maximum_suppression"]}
{"id": "C90", "title": "The perceptual hash compares 64 low-frequency coefficients with their mean and ignores brightness and contrast", "statement": "Bit k of the perceptual hash is set exactly when the two-dimensional transform coefficient in column 1 + k mod 8 and row 1 + k / 8 of the 32x32 resampled image exceeds the mean of those 64 coefficients; multiplying the resampled image by a positive number and adding a constant leaves the hash unchanged.", "quantifier": "all images, all positive factors and shifts, all resamplers to 32x32, all one-dimensional transforms (type-2 cosine for the invariance)", "why_tests_cant": "Invariance is over a continuum of contrast and brightness changes and all images.", "anchors": ["src/image_hash/phash.rs:phash", "src/image_hash/signals.rs:dct2d"]}
{"id": "C91", "title": "HoG cell histograms are trilinear interpolations of gradient magnitude", "statement": "Each cell histogram bin holds the sum over all pixels of gradient magnitude per cell area, weighted by hat functions of the distance to the cell in both axes and of the circular distance of the direction to the bin; no index is out of bounds, no mass is lost by binning directions, totals never exceed the total magnitude, and directions are folded by whole (half) turns into the range.", "quantifier": "all images, all accepted options with at least one orientation", "why_tests_cant": "Sums over all pixels with fractional weights and wrap-around; tests check a handful of grids.", "anchors": ["src/hog.rs:cell_histograms", "src/hog.rs:Interpolation::from_position", "src/hog.rs:Interpolation::from_position_wrapping"]}
{"id": "C92", "title": "A clipped polar line spans the whole visible part of the line", "statement": "The two points returned for a line that meets the image rectangle are the two ends of the visible chord: every point of the line inside the rectangle lies between them.", "quantifier": "all lines with angle 0..179 and all image sizes, over exact arithmetic", "why_tests_cant": "Continuous parameters; only lines through a corner misbehave.", "anchors": ["src/hough.rs:intersection_points", "src/hough.rs:draw_polar_line"]}
{"id": "C93", "title": "Contour points are edge pixels", "statement": "Every point of every returned contour is a foreground pixel one of whose four horizontal or vertical neighbours is background or outside the image.", "quantifier": "every image and threshold", "why_tests_cant": "A trace could run through the interior of a region on some topology no test contains.", "anchors": ["src/contours.rs:find_contours_with_threshold"]}
{"id": "C94", "title": "Every edge pixel is on a contour", "statement": "Every foreground pixel with a background (or missing) horizontal or vertical neighbour appears in some returned contour.", "quantifier": "every image and threshold", "why_tests_cant": "Interaction of several borders through one pixel, and of borders with the image frame, has unboundedly many shapes.", "anchors": ["src/contours.rs:find_contours_with_threshold"]}
{"id": "C95", "title": "Contours are the borders of the foreground, each exactly once", "statement": "Walking along the pixel sides between foreground and background decomposes them into closed borders; the points of each returned contour are exactly the pixels along one such border, no border is returned twice, and every border is returned.", "quantifier": "every image and threshold", "why_tests_cant": "Needs an argument about all closed curves of pixel sides.", "anchors": ["src/contours.rs:find_contours_with_threshold"]}
{"id": "C96", "title": "Kapur level is the smallest maximiser of the total class entropy", "statement": "The returned level splits the pixels into two non-empty classes whenever some level does; among such levels it maximises the sum of the Shannon entropies of the intensity distributions of the two classes, and no smaller level attains the maximum. If no level splits the image (all pixels equal, or no pixels) the result is 0.", "quantifier": "every 8-bit image with fewer than 2^32 pixels, over exact arithmetic", "why_tests_cant": "The code evaluates an algebraically rearranged running form of the criterion; agreement with the definition is a statement about all histograms.", "anchors": ["src/contrast.rs:kapur_level"]}
{"id": "C97", "title": "Hollow ellipse", "statement": "Drawing a hollow ellipse terminates, never fails and changes exactly the pixels that are reflections, in both axes through the centre, of an unbroken monotone path of pixels leading from the top of the ellipse to its horizontal axis. The path stays in the bounding box, every pixel of it is within a pixel of the ideal curve, and it ends at the tip of the ellipse.", "quantifier": "every image, centre and pair of different non-negative radii (equal radii are circles)", "why_tests_cant": "A decision-variable recurrence switching between two regions; the failing cases (flat ellipses) need a ratio of radii no unit test uses.", "anchors": ["src/drawing/conics.rs:draw_hollow_ellipse_mut", "src/drawing/conics.rs:draw_ellipse"]}
{"id": "C98", "title": "Filled ellipse", "statement": "Drawing a filled ellipse terminates, never fails and changes exactly the pixels lying between two mirror-image outline pixels of their row; in particular every pixel strictly inside the ideal ellipse is coloured.", "quantifier": "every image, centre and pair of different non-negative radii", "why_tests_cant": "Coverage of the interior depends on where the last outline pixel of each row falls.", "anchors": ["src/drawing/conics.rs:draw_filled_ellipse_mut"]}
{"id": "C99", "title": "Drawing a hollow rectangle colours exactly its boundary", "statement": "For every image, colour and rectangle with positive width and height (anywhere relative to the image), draw_hollow_rect(_mut) never fails, keeps the dimensions, sets to the colour exactly those image pixels that lie in the rectangle and are in its first or last column or row, and leaves every other pixel unchanged.", "quantifier": "all images, colours and rectangles", "why_tests_cant": "A test draws one rectangle; the four line calls, clipping on each side and degenerate one pixel wide rectangles interact in unboundedly many ways.", "anchors": ["src/drawing/rect.rs:draw_hollow_rect_mut", "src/drawing/line.rs:draw_line_segment_mut"]}
{"id": "C100", "title": "Drawing a hollow polygon colours exactly the closed outline", "statement": "For every list of at least two vertices with integer coordinates, draw_hollow_polygon(_mut) never fails and colours exactly the pixels of the image that are on a digital line between two cyclically consecutive vertices: each line is an unbroken chain of pixels joining its end points within half a pixel of the ideal segment, the closing edge is drawn whether or not the path is already closed, and all vertices inside the image are coloured. An empty list draws nothing, a single vertex panics.", "quantifier": "all vertex lists, images and colours", "why_tests_cant": "Tests draw one shape; the number of vertices and their positions (including outside the image) are unbounded.", "anchors": ["src/drawing/polygon.rs:draw_hollow_polygon_mut", "src/drawing/line.rs:draw_line_segment_mut"]}
{"id": "C101", "title": "Drawing a cubic Bezier curve draws a polyline through samples of the curve", "statement": "For all end and control points, draw_cubic_bezier_curve(_mut) never fails and colours exactly the image pixels on digital lines joining consecutive samples q_0..q_N, N >= 3, where q_i is the curve point at parameter i/N rounded to the nearest pixel; the polyline starts at the rounded start point, finishes at the rounded end point, and never leaves an integer box that contains the four given points. N is the integer part of sqrt(L^2 + 800) / 8, L being the length of the polygon through the four points, so consecutive samples never lie more than 34 pixels apart in a coordinate, however long the curve is.", "quantifier": "all end points, control points, images and colours", "why_tests_cant": "The number of samples depends on the control polygon; a test sees a single curve and cannot show that no pixel is drawn outside the control box or that the end points are always reached.", "anchors": ["src/drawing/bezier.rs:draw_cubic_bezier_curve_mut"]}
{"id": "C102", "title": "Weighted sums and interpolation of pixels", "statement": "weighted_sum returns in each channel the weighted sum of the two channels, rounded down and clamped to the range of the channel type. interpolate with a weight between 0 and 1 always stays between the two pixels channel by channel, gives the left pixel at weight 1 and the right pixel at weight 0, is monotone in the weight and in the pixels, and swapping the pixels is the same as complementing the weight.", "quantifier": "all pixels of integer channel types and all weights", "why_tests_cant": "Weights are continuous; tests check a handful of values and cannot show that rounding never escapes the interval between the two pixels.", "anchors": ["src/pixelops.rs:weighted_sum", "src/pixelops.rs:interpolate"]}
{"id": "C103", "title": "Sharpening filters", "statement": "sharpen3x3 returns at every pixel of every 8-bit image the clamp to 0..255 of five times the pixel minus its four neighbours, with the border continued; local maxima never get darker, local minima never brighter and flat areas are unchanged; the parallel version returns the same image for every schedule. sharpen_gaussian returns p + amount*(p - b) clamped to 0..255, b being the mean around p with a symmetric, normalised, separable kernel; with amount 0 or on a constant channel it is the identity.", "quantifier": "all images, amounts and Gaussian samples", "why_tests_cant": "Every neighbourhood and every border configuration is possible; schedules of the parallel version cannot be enumerated.", "anchors": ["src/filter/sharpen.rs:sharpen3x3", "src/filter/sharpen.rs:sharpen3x3_parallel", "src/filter/sharpen.rs:sharpen_gaussian", "src/filter/mod.rs:filter_clamped"]}
{"id": "C104", "title": "Arc length", "statement": "arc_length is the sum of the distances between consecutive points, plus the distance between last and first point when closed is set. It never is less than the distance between the end points, inserting a point never makes the arc shorter, reversing the arc does not change it, and a closed arc may be started at any of its points.", "quantifier": "all point lists", "why_tests_cant": "A statement about all polylines; tests measure one or two.", "anchors": ["src/geometry.rs:arc_length", "src/point.rs:distance"]}
{"id": "C105", "title": "Vector norms", "statement": "l1_norm and l2_norm are norms: nonnegative, zero exactly for zero vectors, homogeneous, and subadditive; they do not depend on the order of the entries and satisfy l2 <= l1 <= sqrt(n) * l2.", "quantifier": "all vectors of all lengths", "why_tests_cant": "Universal inequalities over real vectors of unbounded length.", "anchors": ["src/math.rs:l1_norm", "src/math.rs:l2_norm"]}
{"id": "C106", "title": "Root mean squared error and peak signal to noise ratio", "statement": "root_mean_squared_error is a metric on the images of one size (zero exactly for equal images, symmetric, triangle inequality). peak_signal_to_noise_ratio is 20*log10(max/rmse), symmetric, infinite exactly for equal images, and strictly decreasing in the error. Both reject images of different sizes.", "quantifier": "all pairs and triples of images", "why_tests_cant": "The triangle inequality and monotonicity relate unboundedly many images.", "anchors": ["src/stats.rs:root_mean_squared_error", "src/stats.rs:peak_signal_to_noise_ratio"]}
{"id": "C107", "title": "Oriented FAST keeps the best corners in order", "statement": "With a given threshold, oriented_fast returns FAST-9 corners lying at least edge_radius from every border, each with the greatest threshold at which it is a corner as its score, ordered by descending score with ties in raster order and no corner listed twice; there are at most target_num_corners of them, and a corner is left out only if the result is full and every returned corner ranks before it. The call panics exactly when edge_radius exceeds a side of the image.", "quantifier": "for every 8-bit image, threshold, target count and edge radius", "why_tests_cant": "the set of corners, the ranking and the truncation interact over all images; tests only look at a few hand-made images and cannot show that no better corner is dropped", "anchors": ["src/corners.rs:173-241 oriented_fast"]}
{"id": "C108", "title": "Orientation of an oriented FAST corner points at the intensity centroid", "statement": "The orientation of a corner returned by oriented_fast is the angle, in pixel coordinates, of the vector from the corner to the intensity centroid of the radius-15 window around it.", "quantifier": "for every image and every corner", "why_tests_cant": "the window is clipped at the image border, and the incremental offset counters are only right for some clipping patterns; tests use corners in the middle of a small image", "anchors": ["src/corners.rs:117-167 intensity_centroid", "src/corners.rs:231-240 oriented_fast"]}
{"id": "C109", "title": "Automatic threshold of oriented FAST", "statement": "Without a threshold, oriented_fast never panics on an image larger than twice the edge radius and behaves like the call whose threshold is the order statistic of the sampled FAST scores given by the wanted fraction of corners.", "quantifier": "for every image, target count, edge radius and every outcome of the random sampling", "why_tests_cant": "depends on random samples; a test sees one seed", "anchors": ["src/corners.rs:184-209 oriented_fast"]}
{"id": "C110", "title": "Smallest enclosing rectangle", "statement": "min_area_rect returns the corners (top left, top right, bottom right, bottom left) of the rectangle of least area, of any orientation, that contains all input points.", "quantifier": "for every non-empty list of points", "why_tests_cant": "minimality over all orientations is a statement about a continuum of rectangles, and containment must hold for every input", "anchors": ["src/geometry.rs:99-183 min_area_rect, rotating_calipers", "src/point.rs:81-115 Rotation"]}
{"id": "C111", "title": "Drawing text paints exactly the glyph coverage and nothing else", "statement": "draw_text keeps the image size and never fails because glyphs lie partly or fully outside the image. Every pixel is the old pixel with one coat of colour per time the outlines of the text cover it (coverage clamped to [0,1]); uncovered pixels are unchanged, no channel leaves the interval between its old value and the colour, and full coverage gives exactly the colour. text_size is (0,0) for the empty text, otherwise 1+ceil(pen position) by ceil(height), and does not depend on anything drawn; it (and drawing) panics exactly if one of these is negative.", "quantifier": "For every font (any metrics, kerning, outlines), text, position, colour and image", "why_tests_cant": "Tests render a handful of strings with one font; clipping, ordering of overlapping glyphs and arbitrary metrics range over an infinite space.", "anchors": ["src/drawing/text.rs:10-107"]}
{"id": "C112", "title": "Image comparison helpers accept exactly the equal (or close enough) images", "statement": "pixel_diff_summary returns None and assert_pixels_eq! passes exactly if the images have equal sizes and pixels; significant_pixel_diff_summary returns None exactly if sizes match and no pixel pair is significantly different; assert_pixels_eq_within! passes exactly if sizes match and no channel differs by more than the tolerance.", "quantifier": "For all images, predicates and tolerances", "why_tests_cant": "These helpers are what the other tests rely on; a wrong zip order, channel loop or sign of the difference would make other tests vacuous without failing.", "anchors": ["src/utils.rs:335-478"]}
{"id": "C113", "title": "Drawing polar lines paints the clipped lines and nothing far from them", "statement": "draw_polar_lines never panics, keeps the image size, and a pixel gets the colour exactly if it lies on the course between the clipped end points of one of the lines (so order and repetition do not matter). Every painted pixel is within 5/2 pixels of the ideal line, and for each point of the line inside the image rectangle the course has a pixel in its column or its row.", "quantifier": "For all images, line lists, distances and angles", "why_tests_cant": "Tests draw single lines; the claim quantifies over all real distances and angles and lists of lines.", "anchors": ["src/hough.rs:96-197", "src/drawing/line.rs:19-75"]}
{"id": "C114", "title": "Rendering a grid of orientation histograms shows each cell's star in its own window", "statement": "render_hist_grid returns an image of width cells_wide*star_side and height cells_high*star_side in which each cell's window shows the star of that cell's histogram.", "quantifier": "For all grids and star sizes", "why_tests_cant": "There is no test of the rendering; windows and draw order are easy to get wrong for more than one cell.", "anchors": ["src/hog.rs:367-433"]}
{"id": "C115", "title": "Canny, end to end, finds exactly the connected local gradient maxima, and none in a flat image or above the documented maximum strength", "statement": "For every non-empty 8-bit grayscale image and thresholds 0 < low <= high, canny returns a binary image of the same size. A pixel is white exactly when it is joined to a strong edge (strength at least high) through edges of strength at least low, where strength is the length of the Sobel gradient of the blurred image, an edge is an interior pixel at least as strong as its two neighbours in the one of the four grid directions closest to its gradient, and joining steps go right, left, down, down-left, down-right and up-left. No edge strength exceeds 2*sqrt(5)*255, so a higher high threshold, or an image of one colour, gives an all-black result.", "quantifier": "every 8-bit image of at least one pixel and fewer than 2^31 columns and rows, all real thresholds 0 < low <= high", "why_tests_cant": "Needs all images, all thresholds and all gradient directions, including the angle boundaries.", "anchors": ["src/edges.rs:canny", "src/edges.rs:non_maximum_suppression", "src/filter/mod.rs:gaussian_blur_f32", "src/gradients.rs:horizontal_sobel"]}
{"id": "C116", "title": "Gradient images hold the rounded-down gradient length, including floating-point rounding", "statement": "On every non-empty 8-bit image the gradient magnitude computed by sobel_gradients, prewitt_gradients and their mapped variants is, despite single-precision arithmetic, exactly the whole part of the length of the gradient vector. For any other kernels whose responses fit in 16 bits the result is off by at most one.", "quantifier": "all 8-bit images of any size and channel count; all kernel pairs with responses at most 32768 in absolute value", "why_tests_cant": "The result depends on how the sum of squares and the square root are rounded in single precision; only particular pairs of responses are affected (with the Scharr kernels such pairs exist), so random images rarely show it.", "anchors": ["src/gradients.rs:gradients", "src/gradients.rs:gradient_magnitude"]}
{"id": "C117", "title": "Interpolating two 8-bit pixels stays between them, including floating-point rounding", "statement": "For every weight between 0 and 1, interpolate returns in every channel a value between the two inputs, equal inputs give that same value, weights 0 and 1 return one input exactly, the result grows with the inputs, and it is the whole part of the exact weighted mean up to single-precision rounding.", "quantifier": "all pairs of 8-bit pixels and all weights in [0,1]", "why_tests_cant": "Which of the 2^16 value pairs and 2^30 single-precision weights round downwards cannot be enumerated by tests.", "anchors": ["src/pixelops.rs:interpolate", "src/pixelops.rs:weighted_sum", "src/pixelops.rs:weighted_channel_sum"]}
{"id": "C118", "title": "Bresenham lines keep their path under single-precision arithmetic", "statement": "For integer end points of absolute value at most 2^22 the line iterator and draw_line_segment produce exactly the pixels of the exact-arithmetic algorithm. For arbitrary single-precision end points of absolute value at most 2^19 the line has exactly one pixel for each integer position along its longer axis and every pixel is within 3 pixels of the true segment's line.", "quantifier": "all end points in the stated ranges", "why_tests_cant": "Rounding accumulates along the line; long lines and fractional slopes are the ones not covered by fixed test images.", "anchors": ["src/drawing/line.rs:BresenhamLineIter", "src/drawing/line.rs:draw_line_segment_mut"]}
{"id": "C119", "title": "Gaussian blur stays within the range of the input, floating-point rounding included", "statement": "gaussian_blur_f32 of an 8-bit image computes in each of its two passes the mean with Gaussian weights up to a quarter, rounded down; the result is never brighter than the brightest and never darker than the darkest input value, a constant image is unchanged, and brightening the input never darkens the output.", "quantifier": "all 8-bit images, all single-precision sigma from 2^-50 to 1000, every exponential function accurate to about two units in the last place", "why_tests_cant": "Whether the single-precision weights sum to slightly less than one depends on sigma; whether that costs a grey level depends on the value. The repository's tests use sigma 6 and white, where nothing is lost.", "anchors": ["src/filter/mod.rs:gaussian_blur_f32", "src/filter/mod.rs:gaussian_kernel_f32", "src/filter/mod.rs:gaussian_pdf", "src/filter/mod.rs:horizontal_filter"]}
{"id": "C120", "title": "Histogram equalisation, floating-point rounding included", "statement": "equalize_histogram of an 8-bit image with at most 65536 pixels sends a pixel to exactly the whole part of 255 times the fraction of pixels that are at most as bright. For images of any size the result is within one of that whole part, never exceeds 255, preserves the order of pixel values, and maps a brightest pixel to 255. Up to 2^24 pixels it is never below that whole part.", "quantifier": "all 8-bit images of any size", "why_tests_cant": "The conversion to single precision, the division and the multiplication each round, and the final conversion truncates, so a single unit in the last place can change the level. Whether it does depends on the exact pixel counts; the tests use images of a few pixels.", "anchors": ["src/contrast.rs:equalize_histogram", "src/contrast.rs:equalize_histogram_mut"]}
{"id": "C121", "title": "Histogram matching, floating-point rounding included", "statement": "match_histogram computed in single precision maps every pixel value to a level whose cumulative fraction in the target is within 2^-19 of the best possible distance to the pixel's cumulative fraction in the source, and it preserves the order of pixel values. For images of at most 2^24 pixels the distance is within 2^-22 of the best, and when the product of the two pixel counts is at most 2^22 the level is an exactly best one.", "quantifier": "all non-empty 8-bit images and targets of any size", "why_tests_cant": "The table is built by a single sweep that compares rounded fractions and rounded distances. A rounding error could make the sweep stop early or invert neighbouring levels, which depends on the counts.", "anchors": ["src/contrast.rs:match_histogram", "src/contrast.rs:match_histogram_mut"]}
{"id": "C122", "title": "Template matching ranks patches correctly, floating-point rounding included", "statement": "match_template and its masked and parallel variants compute, for 8-bit images, the documented scores up to a relative error of about (2n+5)/2^23 for an n-pixel template, and exactly for unnormalised scores up to 2^24. A zero squared-difference score means a perfect match; a perfect match scores exactly 1 in normalised cross-correlation; no patch scores above 1, so a perfect match is never beaten; a closer patch never scores a larger squared difference; parallel and sequential versions agree.", "quantifier": "all 8-bit images, templates and masks", "why_tests_cant": "The sums are accumulated in single precision and lose integers beyond 2^24, which needs templates of more than 258 pixels; the normalised scores pass through four roundings. The tests use templates of a few pixels with small values.", "anchors": ["src/template_matching.rs:match_template", "src/template_matching.rs:match_template_with_mask", "src/template_matching.rs:match_template_parallel", "src/template_matching.rs:match_template_with_mask_parallel"]}
{"id": "C123", "title": "The Euclidean distance transform and L2 morphology are exact, floating-point rounding included", "statement": "euclidean_squared_distance_transform returns, in double precision, exactly the least squared Euclidean distance from each pixel to a foreground pixel (infinite if there is none), although the intersections of the parabolas it compares are rounded. Binary dilation, erosion, opening and closing return exactly the pictures that exact arithmetic defines, for every norm and radius.", "quantifier": "all images whose squared diagonal is at most 2^53 (sides up to 67 million pixels), all norms, all radii", "why_tests_cant": "The lower envelope is decided by comparing rounded quotients; an intersection that rounds onto or across a pixel position could pick the wrong parabola. Whether that can happen depends on every pair of columns and distances, not on sampled images.", "anchors": ["src/distance_transform.rs:euclidean_squared_distance_transform", "src/distance_transform.rs:intersection", "src/morphology.rs:dilate_mut", "src/morphology.rs:erode_mut", "src/morphology.rs:open_mut", "src/morphology.rs:close_mut"]}
{"id": "C124", "title": "The bilateral filter in single precision stays within one level of the exact mean", "statement": "For 8-bit images of any accepted size and number of channels, every accepted radius up to 90 (greater radii panic), every spatial sigma and every colour distance giving non-negative single-precision weights that are positive for equal colours, bilateral_filter does not panic, keeps the dimensions, and each output sample is within one level of the whole part of the exact weighted mean of the clamped window (weights as computed). It never exceeds the greatest sample of the window and never falls more than one level below the least. The desired statement, that a constant image is left unchanged, is false: with radius 1 and spatial sigma 0.5 every constant image of value 3 becomes constant 2.", "quantifier": "for all images, sizes, channel counts, radii, sigmas, colour distances and all single-precision exponential functions with exp(0) = 1", "why_tests_cant": "the rounding errors of 2n sums depend on all weights and samples; testing one image and sigma says nothing about others", "anchors": ["src/filter/bilateral.rs:27-48", "src/filter/bilateral.rs:93-201"]}
{"id": "C125", "title": "The root mean squared error of 8-bit images is accurate to the last bits", "statement": "For two 8-bit images of the same non-empty size with fewer than 2^32 samples in total, the mean squared error is the correctly rounded exact value (no bit is lost in the double-precision sum), and root_mean_squared_error lies in [0, 255], is symmetric, is zero exactly for equal images, differs from the exact value by at most 2^-51 of it, and is exactly d for images that differ by d in every sample. Images of different sizes, and images with 2^32 or more samples (debug build), panic.", "quantifier": "for all pairs of 8-bit images, sizes and channel counts", "why_tests_cant": "a lost bit would show only for special sums among astronomically many images", "anchors": ["src/stats.rs:175-183", "src/stats.rs:201-221"]}
{"id": "C126", "title": "The variance from integral images: sign and accuracy in double precision", "statement": "For every image whose integral images fit (twice the sum of squares below 2^32) and every rectangle in it, variance in double precision is positive if the rectangle is not constant, zero if it is constant with sum at most 94906265, and within 2^-50 of the mean of squares from the population variance. The desired statement, that a variance is never negative (so that a standard deviation can be taken), is false: a 7329x7329 image of constant value 5 has negative variance.", "quantifier": "for all images and rectangles", "why_tests_cant": "cancellation errors depend on all samples of the region; small test images are exact", "anchors": ["src/integral_image.rs:303-316"]}
{"id": "C127", "title": "Contour area in double precision is exact for image-sized contours", "statement": "For points with integer coordinates of absolute value at most B, contour_area and oriented_contour_area (computed in f64) return exactly the shoelace area whenever len*2*B^2 <= 2^53; in general the error is at most len^2*B^2*2^-51. For arbitrary i32 coordinates exactness is false: a triangle of area 1/2 gets area 0.", "quantifier": "every list of integer points with coordinates up to 2^53, every length up to 2^48", "why_tests_cant": "Rounding depends on all points and their order; no finite set of contours settles it.", "anchors": ["src/geometry.rs:oriented_contour_area", "src/geometry.rs:contour_area"]}
{"id": "C128", "title": "Warping never reads outside the image, whatever the mapping returns", "statement": "Warping with any interpolation never reads a pixel outside the input buffer and never panics, for every mapping supplied by the user, including one that returns NaN or infinite coordinates.", "quantifier": "every image size, every single-precision coordinate pair including NaN and infinities, all three interpolations", "why_tests_cant": "The unchecked reads are guarded by single-precision comparisons which NaN passes and which round for large sizes; out-of-bounds reads are silent.", "anchors": ["src/geometric_transformations.rs:interpolate_nearest", "src/geometric_transformations.rs:interpolate_bilinear", "src/geometric_transformations.rs:interpolate_bicubic", "src/geometric_transformations.rs:warp_into_with"]}
{"id": "C129", "title": "Warping by a whole number of pixels is an exact shift in single precision", "statement": "Warping by a translation of whole pixels copies every pixel whose pre-image is inside unchanged and uses the default colour elsewhere, with every interpolation (up to the borders that bilinear and bicubic interpolation treat as outside).", "quantifier": "every image and every integer translation, in single precision", "why_tests_cant": "Fails only for very wide images and depends on rounding of pixel coordinates.", "anchors": ["src/geometric_transformations.rs:warp", "src/geometric_transformations.rs:Projection::translate", "src/geometric_transformations.rs:interpolate_nearest", "src/geometric_transformations.rs:interpolate_bilinear", "src/geometric_transformations.rs:interpolate_bicubic"]}
{"id": "C130", "title": "Interpolated values in single precision", "statement": "Bilinear interpolation in single precision stays within the range of the four surrounding pixels and close to the exact mixture; bicubic interpolation stays close to the exact-arithmetic computation; both treat exactly the same positions as outside as exact arithmetic does.", "quantifier": "every 8-bit image up to 16777216 columns and rows, every finite single-precision position", "why_tests_cant": "Rounding errors interact with truncation to integers; the bad positions are rare.", "anchors": ["src/geometric_transformations.rs:blend_bilinear", "src/geometric_transformations.rs:blend_cubic", "src/geometric_transformations.rs:interpolate_bilinear", "src/geometric_transformations.rs:interpolate_bicubic"]}
{"id": "C131", "title": "Line detection in single precision", "statement": "detect_lines, with its f32 distances: every pixel votes for a distance less than 1 + (x+y)/2^22 away from the exact distance of its line, no vote is lost, vertical lines get their exact distance, and the accumulator has the exact integer diagonal as its radius. Horizontal lines do not get their distance: since the f32 cosine of 90 degrees is -4.37e-8, a pixel (x, y) with x >= 1.4y votes for y-1 (for y only if x <= 2y/3), so a horizontal segment in row y right of the diagonal is never reported at distance y.", "quantifier": "every image of admissible size, every table of f32 sines and cosines with the stated values", "why_tests_cant": "The unit test has the wrong distance (1 for a line in row 2) as its expected value; the effect depends on position, not on a fixed input.", "anchors": ["src/hough.rs:detect_lines"]}
{"id": "C132", "title": "Polygon filling in single precision", "statement": "draw_polygon, with the f32 positions at which its edges meet the rows: it never fails, fills by the even-odd rule with one column per crossing, keeps every coloured pixel in the bounding box of the vertices, puts each crossing within 1/2 + (3|dx|+2X)/2^25 of the ideal position and at most one column from that of exact arithmetic, so pixels two columns away from every crossing are unaffected; on canvases with 5*W*H < 2^24 the image is that of exact arithmetic, except where an edge meets a row exactly half-way between two columns: there the crossing can be one column off (edge (0,0)-(11,22), row 13).", "quantifier": "every polygon with coordinates up to 2^22 (2^21 for the comparison), every image and canvas", "why_tests_cant": "Whether rounding matters depends on the quotient of two coordinate differences; only rare exact ties differ.", "anchors": ["src/drawing/polygon.rs:draw_polygon_mut", "src/drawing/polygon.rs:draw_polygon_with_mut"]}
{"id": "C133", "title": "Otsu level in double precision", "statement": "otsu_level, with its f64 class means and variances: the level always exists, its between-class variance is the maximum up to a factor 1 + 2^-41, for an image with at least two intensities it is the intensity of some pixel with a brighter pixel present, a constant image gives 0 and an image with two intensities the smaller one; it is the level of exact arithmetic when the best split wins by more than that factor. With equally good splits the smallest is not always returned: 0, 1, 1, 2 gives 1.", "quantifier": "every 8-bit image below 2^32/255 pixels", "why_tests_cant": "Rounding decides between nearly equal splits; no sample shows how far off the result can be.", "anchors": ["src/contrast.rs:otsu_level"]}
{"id": "C134", "title": "HoG descriptors in single precision", "statement": "hog of an 8-bit image, with its f32 arithmetic and any atan2 accurate to 2^-20 (exact on the horizontal axis): for options that fit the image there is no panic and the descriptor has the announced length. The direction of every gradient falls into the axis of bins, at a position accurate to n/2^17 for n bins, and the cell of every pixel is exact. Every histogram entry is the trilinear sum over the pixels up to a rounding factor, and differs from the histogram of real arithmetic by at most 5772((8c^2+9)/2^23 + n/2^16 + (cells wide + cells high)/2^23), c the side of a cell. After normalisation no entry is above one, and the squares of a block of L entries sum to one up to (L+6)/2^23, or the block is zero.", "quantifier": "every 8-bit image of up to 2^24 columns and rows, all fitting options with 1 to 2^64 - 1 orientations; error bound for cells of side up to 724; normalisation for entries that are zero or at least 2^-60", "why_tests_cant": "Positions next to the end of the orientation axis could round to an index one past the end; no finite sample of gradients, sizes and bin counts excludes that, or bounds the accumulated rounding.", "anchors": ["src/hog.rs:hog", "src/hog.rs:cell_histograms", "src/math.rs:l2_norm"]}
{"id": "C135", "title": "Automatic FAST threshold in single precision", "statement": "oriented_fast without a threshold, with its f32 arithmetic, does not panic and uses as threshold the k-th smallest FAST score of its 1000 samples, where k is 1000(1 - target/(w h)) rounded down, up to an error of 2^-12 before rounding.", "quantifier": "every grayscale image of at least 1000 and fewer than 2^32 pixels, every target and edge radius that leaves an area, every choice of the random samples", "why_tests_cant": "The failing case needs images of more than 33 million pixels with few corners asked for; no practical test image has that size.", "anchors": ["src/corners.rs:oriented_fast"]}
{"id": "C136", "title": "Canny in single precision", "statement": "With correctly rounded atan2 and hypot, canny computed in single precision compares every pixel with the neighbours in the exactly closest direction, decides every strength comparison as exact arithmetic would, and with whole-numbered thresholds finds exactly the edges of the blurred image; a flat image has no edges.", "quantifier": "every 8-bit image, every gradient it can have, all thresholds 0 < low <= high", "why_tests_cant": "the gradient directions come within 3e-7 radians of the sector boundaries; one wrong unit in the last place of atan2 changes the result for one gradient among four million", "anchors": ["src/edges.rs:30-110 canny, non_maximum_suppression"]}
{"id": "C137", "title": "Rotation in single precision", "statement": "rotate reads, for every output pixel, a position within N/2^18 of the exact pre-image under the rotation; with nearest-neighbour interpolation every pixel not within a sixteenth of a pixel border is exact; rotate_about_center by half or quarter turns agrees with rotate180, rotate90 and rotate270, and by a full turn returns the image.", "quantifier": "every image of at most 65536 columns and rows, every angle and centre, every sine and cosine within 2^-22", "why_tests_cant": "rounding accumulates through two matrix products and the mapping; the agreement with rotate180 fails for every image with content in its last row or column, and a test picture with a uniform background does not show it", "anchors": ["src/geometric_transformations.rs:270-318 rotate_about_center, rotate", "src/geometric_transformations.rs:222-244 Mul", "src/geometric_transformations.rs:722-736 mul3x3"]}
{"id": "C138", "title": "Antialiased lines in single precision", "statement": "An antialiased line drawn in single precision follows the exact line from end point to end point and blends two adjacent pixels per step with weights between 0 and 1 that sum to one; lines of dyadic slope are drawn exactly.", "quantifier": "every image, blending function and end points with coordinates up to 2^22", "why_tests_cant": "the rounding errors of the running coordinate accumulate over the length of the line; the failures need lines of thousands of pixels or particular slopes", "anchors": ["src/drawing/line.rs:229-326 draw_antialiased_line_segment_mut, plot_wu_line"]}
{"id": "C139", "title": "Sharpening in single precision", "statement": "For every 8-bit image, every f32 standard deviation from 2^-50 to 1000 and every amount (below 2^119 in magnitude), `sharpen_gaussian` returns an image of the same size whose value at each pixel is `p + amount * (p - b)`, with p the input value and b the exact Gaussian mean around the pixel (weights exp(-d^2 / (2 sigma^2)), normalized, radius ceil(2 sigma), border pixels repeated), up to an error of 0.53 * |amount| + 0.0002, rounded down and clamped to 0..255. In particular sharpening leaves constant regions unchanged, and amount 0 leaves the whole image unchanged. A non-positive sigma panics.", "quantifier": "all 8-bit images, all f32 sigma in [2^-50, 1000], all amounts, all sufficiently accurate exponentials", "why_tests_cant": "The error comes from thousands of roundings per pixel whose directions depend on sigma, on the exponential of the platform and on all pixels under the kernel; tests with tolerance on a few images cannot bound it, and tests of constant images use one value and one sigma.", "anchors": ["src/filter/sharpen.rs:31-38", "src/filter/mod.rs:126-166"]}
{"id": "C140", "title": "Bezier curves in single precision", "statement": "For end and control points with f32 coordinates of magnitude at most M, 1 <= M <= 65536, `draw_cubic_bezier_curve_mut` in f32 never fails and colours exactly the image pixels on digital line segments joining at least 3 samples; the samples have coordinates within 1/2 + 3*M/2^19 of the exact points of the cubic curve at equally spaced parameters; there are at least about an eighth of the horizontal (and of the vertical) extent of the control polygon's legs many; the first sample is the rounded start point, and no pixel leaves an integer box that contains the four points. The pixel of the rounded end point is coloured.", "quantifier": "all images, all f32 points up to 65536, all sufficiently accurate square roots", "why_tests_cant": "Whether the last parameter reaches one and how far roundings displace a sample depends on the number of segments and the coordinates; a test draws a few curves with integer end points, for which the defect is invisible.", "anchors": ["src/drawing/bezier.rs:27-80"]}
{"id": "C141", "title": "Displayed images fit the window and stay visible", "statement": "Every non-empty image with sides up to 2^22 shown by `display_image` in a window with sides up to 2^22 is placed inside the window, centred up to one pixel, never enlarged, unchanged if it is smaller than the window in both directions, otherwise reaching the window size in one direction up to one pixel; its aspect ratio is kept up to two pixels; and it is displayed with positive width and height.", "quantifier": "all image and window sizes up to 2^22, f32 scale factors", "why_tests_cant": "The scale factor and both products are rounded in f32 and then truncated; whether a scaled side can exceed the window (and make the unsigned subtraction of the placement underflow) depends on all four sizes, and displaying needs a window system that a test does not have.", "anchors": ["src/window.rs:183-244"]}
{"id": "C142", "title": "Description of image differences", "statement": "For two images of equal size and a non-empty list of differing positions inside them `describe_pixel_diffs` never fails. If all differences lie within 5 pixels of each other in both directions the message shows both images on one region: it contains all differences with a margin of two pixels clipped to the image, is no larger, shows every pixel of the region with the value of the respective image and highlights exactly the differing positions. Otherwise it lists the first five differences.", "quantifier": "all images of equal size with sides below 2^31 - 2, all non-empty lists of positions inside them", "why_tests_cant": "The region depends on the extreme coordinates of the list and on the image borders through casts between signed and unsigned integers; a test shows one picture.", "anchors": ["src/utils.rs:492-639"]}
{"id": "C143", "title": "Ellipses in single precision", "statement": "For every image, centre and pair of different radii from 1 to 512, `draw_hollow_ellipse_mut` and `draw_filled_ellipse_mut` with their f32 accumulators never fail and always terminate. The coloured outline is the reflection in both axes of an unbroken monotone path from the top to the horizontal axis inside the bounding box; every pixel of it is within half a pixel (one pixel backwards) of the ideal ellipse with radii changed by less than 1/16 pixel; it reaches the tip whenever a <= 4 b^2. The filled version colours exactly the spans between mirror-image outline pixels and covers everything inside the ideal ellipse up to that tolerance, except possibly the tips when a > 4 b^2.", "quantifier": "all images, centres and pairs of different radii in 1..512", "why_tests_cant": "The decision variables reach 10^8 and more and are no longer exact in f32 beyond radii of about 45; roundings accumulate over hundreds of steps and can turn single decisions (radii 46, 51 give a path different from exact arithmetic), so no finite set of radii shows that the path cannot drift away, leave the box or miss the axis.", "anchors": ["src/drawing/conics.rs:34-167"]}
{"id": "C144", "title": "Closing the displayed windows", "statement": "Displaying several images keeps each window visible until it is closed (key Q or its close button), repaints each image for its window's current size (initially the requested size, at least 150 by 150), and returns exactly when the user quits (escape or quit event) or has closed every window. With no images it returns at once.", "quantifier": "for every number of windows with distinct identifiers, every requested size and every finite sequence of events", "why_tests_cant": "Tests cannot open windows, and the claim is about all event sequences; the counter of hidden windows goes wrong only when the same window is closed twice (for instance by a held key) before it disappears.", "anchors": ["src/window.rs:33-180"]}
{"id": "C145", "title": "Polygon simplification in double precision", "statement": "Simplifying a curve with the Douglas-Peucker function returns, for every curve of at least two points and every positive tolerance; the result keeps the first and last point, selects points in order, and every dropped point is within the tolerance (up to rounding) of the line through the kept points around it.", "quantifier": "for every curve, every positive tolerance, with every operation of the distance computation rounded to f64", "why_tests_cant": "The claim quantifies over all curves; in floating point the last point of a curve may be computed to be off the line through itself, which makes the recursion call itself with the same curve. Unit tests use small coordinates for which this cannot happen.", "anchors": ["src/geometry.rs:26-66", "src/point.rs:112-138"]}
{"id": "C146", "title": "Arc length in double precision", "statement": "The computed length of an arc through integer points, open or closed, has a relative error of at most (n + 4) / 2^52 for n points; arcs that run along rows and columns of the pixel grid get their exact length.", "quantifier": "for every list of up to 2^50 points with integer coordinates up to 2^52 in absolute value, open or closed, with every operation rounded to f64", "why_tests_cant": "The bound is on the accumulated rounding over arbitrarily long arcs; tests compare a few short arcs with a tolerance.", "anchors": ["src/geometry.rs:10-21", "src/point.rs:69-79"]}
{"id": "C147", "title": "Scaling an image in single precision", "statement": "Enlarging an image by whole factors with nearest-neighbour interpolation fills every output pixel from an input pixel nearest to its exact pre-image and never uses the default; pixels at multiples of the factors are the input pixels. Scaling by the single precision value of 1/k, 1/l keeps exactly every k-th column and l-th row and fills the rest with the default. With bilinear interpolation the pixels at multiples of the factors are also the input pixels.", "quantifier": "for every image of at most 2^21 columns and rows and whole factors up to 2^21 (65536 for reductions), every operation rounded to f32; bilinear: for every factor", "why_tests_cant": "The reciprocal of a factor is rounded, multiplied by the column and compared with half-way points; for which factors and columns this goes wrong cannot be found from a few sample scalings.", "anchors": ["src/geometric_transformations.rs:99-119", "src/geometric_transformations.rs:208-211", "src/geometric_transformations.rs:517-568", "src/geometric_transformations.rs:820-866"]}
{"id": "C148", "title": "Projective warps in single precision", "statement": "Under a projective map the position read for an output pixel is the exact pre-image up to (A + |X| B) / |D| / 2^20, where D is the denominator, X the coordinate, and A, B the sums of the absolute values of the terms of numerator and denominator; so with nearest-neighbour interpolation every pixel whose pre-image is not within 1/16 plus that bound of a border between pixels is exactly the right input pixel, or the default. Where the computed denominator is zero but not both numerators are, the pixel is the default, for every interpolation. A map with last row 0, 0, 1 gives the same image, to the last bit, whether it is classified as projective or affine.", "quantifier": "for every 3x3 matrix, every pixel with |D| at least 2^-40 and B at most 2^20 |D|, every image of at most 65536 columns and rows, every interpolation where stated, with every operation rounded to f32", "why_tests_cant": "The error depends on the condition of each individual pixel and on division; tests look at a few warps of small images.", "anchors": ["src/geometric_transformations.rs:196-220", "src/geometric_transformations.rs:517-568", "src/geometric_transformations.rs:851-866"]}
{"id": "C149", "title": "Building a projection from a matrix in single precision", "statement": "from_matrix returns None exactly if the matrix is singular, and otherwise stores the matrix and an inverse whose entries have a relative error of at most 2^-22 as approximations of the exact inverse scaled to corner entry 1.", "quantifier": "for every matrix of f32 entries, with every operation rounded to f32 (proved: whole entries up to 128 with corner entry 1; singularity: every affine matrix)", "why_tests_cant": "Which singular matrices get a computed determinant different from zero depends on the rounding of every product; tests use matrices with small entries and many zeros.", "anchors": ["src/geometric_transformations.rs:46-54", "src/geometric_transformations.rs:661-720"]}
{"id": "C150", "title": "Perceptual hash in single precision", "statement": "Each of the 64 bits of the perceptual hash says whether its coefficient exceeds the mean of the 64 coefficients.", "quantifier": "for every image, resampler and transform, with the mean computed in f32 by adding the coefficients one after the other", "why_tests_cant": "The sum is rounded 63 times; for which coefficients a bit flips depends on all of them.", "anchors": ["src/image_hash/phash.rs:54-77"]}
{"id": "C151", "title": "Kapur level in double precision", "statement": "With a natural logarithm of relative error at most 2^-52, the Kapur level computed in double precision separates the image into two non-empty classes whenever some level does, the total entropy of its two classes is within N / 2^34 of the largest one, and it is 0 if no level separates the image. Rounding never makes it pick a level that leaves one class empty.", "quantifier": "for every 8-bit image of N < 2^32 pixels and every logarithm function of that accuracy", "why_tests_cant": "cumulative probabilities that miss 1 by rounding and near-ties between levels depend on the histogram", "anchors": ["src/contrast.rs:kapur_level"]}
{"id": "C152", "title": "Line and image intersection in single precision", "statement": "For a polar line whose computed sine and cosine are between 2^-20 and 1 in absolute value (or an angle of 0 or 90 degrees), intersection_points returns end points on the boundary of the image that are within max(w, h) / 2^22 of the line, returns a segment exactly when the line meets the image, and its end points are within max(w, h) / 2^22 of those of exact arithmetic.", "quantifier": "for all images up to 2^24 pixels a side, all angles and all distances", "why_tests_cant": "the four side tests flip by rounding only for lines that pass close to a corner, which depend on angle, distance and image size together", "anchors": ["src/hough.rs:intersection_points"]}
{"id": "C153", "title": "Smallest enclosing rectangle in double precision", "statement": "For points with coordinates of at most B in absolute value, the quadrilateral returned by min_area_rect is less than 1 + B / 2^42 pixels away, in each coordinate, from every input point; it is the rounded image of a rectangle whose area exceeds the least possible one by at most B^2 / 2^37, unless the least rectangle lies along the closing edge of the hull, which is never tried. Points that contain the four corners of their axis-parallel bounding box give exactly these corners.", "quantifier": "for all point sets with coordinates up to 2^30 and all trigonometric functions accurate to a few units in the last place", "why_tests_cant": "angles near multiples of 90 degrees wrap around by rounding, and the edge chosen among near-ties depends on the input", "anchors": ["src/geometry.rs:99-183 min_area_rect, rotating_calipers", "src/point.rs:81-115 Rotation"]}
{"id": "C154", "title": "Convex hull in machine arithmetic", "statement": "convex_hull returns the exact convex hull, in counterclockwise order, for points with i32 coordinates, without panicking and independently of the build profile.", "quantifier": "for all point sets", "why_tests_cant": "the cross products are computed in 32 bits and overflow only for far apart points; ties are broken by rounded distances", "anchors": ["src/geometry.rs:188-253 convex_hull", "src/geometry.rs:263-270 orientation", "src/point.rs:70-79 distance"]}
{"id": "C155", "title": "Rectangles in machine arithmetic", "statement": "Membership, intersection, filling and outlining of a Rect are exact for every rectangle that can be built, in every build profile, and a rectangle contains an f32 point exactly when the point lies between its corners.", "quantifier": "for all rectangles, points and images", "why_tests_cant": "only rectangles near the ends of the i32 range, or with corners above 2^24 in f32, show a difference", "anchors": ["src/rect.rs:64-138 Rect", "src/drawing/rect.rs:22-65 draw_hollow_rect_mut, draw_filled_rect_mut"]}
{"id": "C156", "title": "Circles in machine arithmetic", "statement": "Drawing a hollow or filled circle draws as much of it as lies inside the image bounds, for every centre and radius and in every build profile, without panicking.", "quantifier": "for all images, centres and radii", "why_tests_cant": "overflow occurs only for centres or radii near the ends of the i32 range, and rounding only beyond 2^22", "anchors": ["src/drawing/conics.rs:188-281 draw_hollow_circle_mut, draw_filled_circle_mut", "src/drawing/mod.rs:43-50 draw_if_in_bounds"]}
{"id": "C157", "title": "Integral images and adaptive threshold of large images", "statement": "An integral image is exact for every image, and adaptive thresholding marks a pixel white exactly when it is at least the mean of its block minus delta, in every build profile and without panicking.", "quantifier": "for all images, accumulator types, radii and deltas", "why_tests_cant": "sums only overflow 32 bits on images of several megapixels; no test uses such images", "anchors": ["src/integral_image.rs:98-152 integral_image_impl", "src/integral_image.rs:250-269 sum_image_pixels", "src/contrast.rs:19-47 adaptive_threshold"]}
{"id": "C158", "title": "Non-maximum suppression with any radius in machine arithmetic", "statement": "Suppressing non-maxima in an image, or selecting the local maxima of a list of scored points, gives the window maxima for every radius, including the greatest representable one, in every build profile and without panicking.", "quantifier": "for all images, point lists and radii", "why_tests_cant": "the interesting radii are at the end of the u32 range, where no test goes", "anchors": ["src/suppress.rs:10-75 suppress_non_maximum", "src/suppress.rs:111-172 local_maxima"]}
{"id": "C159", "title": "Box and median filters keep their meaning for large radii in 32-bit arithmetic", "statement": "box_filter and median_filter return the mean and the median over the clamped window for every radius, in debug and in release builds. (False: a release build of box_filter returns 0 for a single white pixel with x radius 8421505, and a release build of median_filter returns 255 for a single black pixel with radii 23170. True while 255*(2r+1) fits 32 bits (release) or 255*(side+2r) fits (debug) for the box filter, and while the kernel has fewer than 2^31 pixels for the median; both builds of the box filter panic when side+2r reaches 2^32, and debug builds panic as soon as the sum of an extended row does not fit 32 bits.)", "quantifier": "for all images, radii and both build profiles", "why_tests_cant": "The failing radii need sums past 2^32; tests use radii of a few pixels and only one build profile.", "anchors": ["src/filter/box_filter.rs:19-72", "src/integral_image.rs:348-380", "src/integral_image.rs:413-462", "src/filter/median.rs:109-139", "src/filter/median.rs:360-383"]}
{"id": "C160", "title": "Contours can be requested in any coordinate type", "statement": "find_contours::<T> and find_contours_with_threshold::<T> return the same contours for every coordinate type T. (False: an integer type panics as soon as one contour point does not fit, e.g. u8 and a dot in column 256. True: the result is exactly the usize result converted point by point, nothing panics and nothing changes when the image has at most max(T)+1 columns and rows.)", "quantifier": "for all images, thresholds and conversions into the coordinate type", "why_tests_cant": "The tests use images of a few pixels; the failure depends on the size of the image relative to a type parameter chosen by the caller.", "anchors": ["src/contours.rs:41-50", "src/contours.rs:55-199"]}
{"id": "C161", "title": "Ellipses in machine arithmetic", "statement": "draw_hollow_ellipse and draw_filled_ellipse draw the visible part of the ellipse for every centre and every pair of radii, in debug and in release builds. (False: debug builds panic when a radius is 46341 or more in absolute value, and release builds draw a vertical segment when the width radius is a multiple of 65536; with a height radius of zero or less only the topmost and lowest points are drawn, whatever the width radius. True: for radii whose absolute values add up to at most 23000 no i32 operation overflows in either build, so the results are those of the f32 algorithm of C143.)", "quantifier": "for all images, centres, radii and both build profiles", "why_tests_cant": "Squares of radii overflow only from 46341 on, and only one build profile panics; tests use one ellipse.", "anchors": ["src/drawing/conics.rs:34-59", "src/drawing/conics.rs:86-116", "src/drawing/conics.rs:122-167"]}
{"id": "C162", "title": "draw_cross accepts every i32 centre", "statement": "For every image with sides below 2^31 and every i32 centre, on the image or not, draw_cross returns normally and changes exactly the pixels at Manhattan distance at most one from the centre, in debug and in release builds.", "quantifier": "all images with sides below 2^31, all colours, all i32 centres, overflow checks on or off", "why_tests_cant": "The tests draw at coordinates next to the image; the failing centres are the two ends of the i32 range in either coordinate.", "anchors": ["src/drawing/cross.rs:20-47"]}
{"id": "C163", "title": "Translation accepts every i32 shift", "statement": "For every non-empty image with sides below 2^31 and every pair of i32 shifts, translate returns the image whose pixel (x, y) is the input pixel at (x - tx, y - ty) clamped into the image, in debug and in release builds.", "quantifier": "all non-empty images with sides below 2^31, all i32 shifts, overflow checks on or off", "why_tests_cant": "The tests and proptests shift by small amounts; the failing shifts are within the image height of i32::MIN.", "anchors": ["src/geometric_transformations.rs:465-507"]}
{"id": "C164", "title": "Line iteration and line drawing terminate", "statement": "For all finite f32 end points, however far outside the image, iterating over a Bresenham line yields finitely many points and then ends, in debug and in release builds; so draw_line_segment, draw_hollow_polygon, draw_hollow_rect and draw_filled_circle return.", "quantifier": "all pairs of finite f32 end points with coordinates below 2^127, overflow checks on or off", "why_tests_cant": "The tests draw lines near the image. The failing lines reach the end of the i32 range, take 2^31 steps before anything goes wrong, and then do not stop.", "anchors": ["src/drawing/line.rs:8-75", "src/drawing/line.rs:183-200"]}
{"id": "C165", "title": "draw_text accepts every i32 position", "statement": "For every font, text, image with sides up to 2^30 and every i32 position, draw_text paints exactly the coverage of the glyphs (C111) that lies on the image, in debug and in release builds, also for positions far outside the image.", "quantifier": "all fonts, texts, colours, all i32 positions, images with sides up to 2^30, glyph extents below 2^30, overflow checks on or off", "why_tests_cant": "The tests place text on or near the image; the failing positions are within the text extent of the ends of the i32 range.", "anchors": ["src/drawing/text.rs:73-107"]}
{"id": "C166", "title": "Contours correspond to objects and holes", "statement": "In the result of find_contours / find_contours_with_threshold every 8-connected foreground object has exactly one contour with border type Outer, starting at the object's first pixel in raster order, and every background region enclosed by foreground (4-connected, not reaching the outside of the image) has exactly one contour with border type Hole, which starts directly left of the region's first pixel. The points of each contour are exactly the pixels of its object that have a side facing the background region next to the start: the region around the object for Outer, the hole for Hole.", "quantifier": "all images, thresholds, objects, holes and pixels", "why_tests_cant": "unit tests compare a handful of drawings with listed contours; that the border type separates outer from inner borders for arbitrarily wound objects is a discrete Jordan curve statement, and it fails as soon as an object touches the left edge of the image", "anchors": ["src/contours.rs:60-186"]}
{"id": "C167", "title": "Contour nesting is right", "statement": "In the result of find_contours the parent of a Hole contour is the Outer contour of the object that surrounds the hole, and the parent of an Outer contour is the Hole contour of the enclosed background region its object lies in; an Outer contour has no parent exactly if the background around its object reaches the outside of the image.", "quantifier": "all images and thresholds, all contours of the result", "why_tests_cant": "the parent is computed from the last border met on the row and that border's own parent; that this always names the surrounding border depends on everything traced before, and it fails if some object touches the left edge of the image", "anchors": ["src/contours.rs:60-186"]}
{"id": "C168", "title": "Counting objects by contours and by components agrees", "statement": "The number of Outer contours reported by find_contours_with_threshold for an image equals the largest label that connected_components with eight neighbours assigns to the thresholded image, i.e. both ways of counting objects give the same number.", "quantifier": "all images and thresholds", "why_tests_cant": "relates two unrelated algorithms (border following and union-find labelling) on every image; tests never run both on the same input", "anchors": ["src/contours.rs:60-186", "src/region_labelling.rs:122-244"]}
{"id": "C169", "title": "Brightness maps commute with rank filters", "statement": "Applying an order-preserving map of grey values to every pixel (a gamma curve, a contrast stretch, a threshold) and then grayscale dilation, erosion, opening, closing or the median filter gives exactly the same image as filtering first and mapping afterwards.", "quantifier": "all images, all masks or radii, all order-preserving maps of grey values", "why_tests_cant": "tests filter single images and never compare two orders of processing; the claim quantifies over all increasing maps and masks", "anchors": ["src/morphology.rs:538-805", "src/filter/median.rs:109-330"]}
{"id": "C170", "title": "Inversion exchanges dilation and erosion", "statement": "Grayscale dilation of the inverted image is the inverted erosion of the image, and grayscale opening of the inverted image is the inverted closing (same mask); for black-and-white images the same holds between dilate and erode, open and close under every norm and radius.", "quantifier": "all images, all masks, all norms and radii", "why_tests_cant": "duality relates two separate implementations (one seeded with the least, one with the greatest value; one based on distances to the foreground, one on distances to the background) on every image, including empty and saturated ones", "anchors": ["src/morphology.rs:71-335", "src/morphology.rs:538-805"]}
{"id": "C171", "title": "Grayscale morphology of black-and-white images is binary morphology", "statement": "On images holding only 0 and 255 grayscale dilation and erosion with the mask of a norm's ball of radius k give the same image as dilate and erode with that norm and radius k.", "quantifier": "all black-and-white images, all norms, all radii 0..=255", "why_tests_cant": "the two families of functions share no code: one visits a mask around each pixel, the other thresholds a distance transform; tests never run both, and they do differ for radii no smaller than the largest representable distance", "anchors": ["src/morphology.rs:71-335", "src/morphology.rs:385-725", "src/distance_transform.rs:91-300"]}
{"id": "C172", "title": "Flips and quarter turns commute with analysis", "statement": "Flipping an image or turning it by 90, 180 or 270 degrees and then computing a distance transform (L1, LInf, squared Euclidean), dilate, erode, open, close, adaptive_threshold or a flood fill from the moved seed gives exactly the moved result of the unmoved image; connected_components separates the moved pixels exactly as it separates the original ones and keeps the background.", "quantifier": "all images, all flips and turns (all maps of the pixels onto each other that keep horizontal and vertical distances or exchange them), all norms, radii, seeds, colours, connectivities", "why_tests_cant": "the sweeps, integral images, stacks and union-find passes all run in raster order, so symmetry of the result is not visible in the code; tests use fixed drawings in one orientation", "anchors": ["src/distance_transform.rs:91-300", "src/morphology.rs:71-335", "src/contrast.rs:19-45", "src/region_labelling.rs:122-244", "src/drawing/fill.rs:6-71", "src/compose.rs:89-175", "src/geometric_transformations.rs"]}
{"id": "C173", "title": "Flood fill recolours one connected component", "statement": "Filling from a pixel recolours exactly the pixels to which connected_components with four neighbours gives the same label as to that pixel, and leaves all others unchanged.", "quantifier": "all images, seeds, fill colours other than the seed's colour, background colours other than the seed's colour", "why_tests_cant": "relates two unrelated algorithms (scanline stack and union-find labelling) on every image; tests never run both on the same input", "anchors": ["src/drawing/fill.rs:6-71", "src/region_labelling.rs:122-244"]}
{"id": "C174", "title": "Convex hull depends only on the set of points", "statement": "Reordering or repeating the input points does not change the result of convex_hull or min_area_rect; the hull of the hull is the hull, any selection of the points that keeps the hull's vertices has the same hull, adding a point inside the hull changes nothing, and moving all points moves the hull.", "quantifier": "all lists of integer points with at least two different ones (coordinates far from overflow)", "why_tests_cant": "invariance under all permutations, repetitions and additions relates different runs of the sort and the scan; tests run single lists", "anchors": ["src/geometry.rs:convex_hull", "src/geometry.rs:min_area_rect"]}
{"id": "C175", "title": "Intensity statistics ignore pixel positions", "statement": "Two 8-bit images (of whatever shape) in which every value occurs equally often have the same histogram, cumulative histogram, percentiles, Otsu level and Kapur level; equalize_histogram and match_histogram give pixels of equal value equal results in both, and the two are interchangeable as target of match_histogram.", "quantifier": "all pairs of 8-bit images with the same number of pixels of each value, all percentiles; rounded arithmetic included", "why_tests_cant": "relates runs on arbitrarily rearranged images", "anchors": ["src/stats.rs:83-169", "src/contrast.rs:52-171", "src/contrast.rs:286-463"]}
{"id": "C176", "title": "Histogram equalisation is idempotent and removes brightness curves", "statement": "Equalising an equalised image changes nothing; applying any strictly increasing map of grey values before equalisation does not change the equalised image; matching an image with itself, or with an image with the same values, changes nothing.", "quantifier": "all 8-bit images, all strictly increasing maps; equalisation also in single-precision arithmetic and for images of any size", "why_tests_cant": "chains two runs on arbitrary images; idempotence depends on how merged grey levels are counted again, and in floating point on the rounding being the same in both runs", "anchors": ["src/contrast.rs:286-311", "src/contrast.rs:413-463"]}
{"id": "C177", "title": "Automatic thresholds move with brightness", "statement": "Adding a constant to every pixel, without saturation, raises the Otsu level and the Kapur level by exactly that constant, unless all pixels are equal.", "quantifier": "all 8-bit images that are not of a single value, all constants", "why_tests_cant": "relates runs on two images through two optimisations with ties", "anchors": ["src/contrast.rs:52-171"]}
{"id": "C178", "title": "Filters follow flips and quarter turns and are linear", "statement": "Filtering a flipped or turned image with the kernel flipped or turned the same way gives the flipped or turned result; the median filter commutes with flips and (with the radii exchanged) quarter turns, and so does the box filter; 2-d filtering is linear in the image, and adding a constant to the image adds the constant times the kernel's total weight.", "quantifier": "all images, all kernels with odd sides (any kernel for linearity), all radii, all eight flips and turns, exact kernel arithmetic", "why_tests_cant": "relates runs on different images, borders included; tests compare single outputs", "anchors": ["src/filter/mod.rs:filter", "src/filter/mod.rs:box_filter", "src/filter/median.rs", "image crate flips as modelled for C21"]}
{"id": "C179", "title": "Gradients follow flips and quarter turns", "statement": "sobel_gradients and its Scharr and Prewitt variants of a flipped or turned image are the flipped or turned gradient images, bit for bit in single precision; the horizontal and vertical operators are exchanged by quarter turns and change sign when their direction is reversed; the Laplacian follows all flips and turns; gradients with any of the library's kernels do so.", "quantifier": "all 8-bit images of any size, all channel counts, all eight flips and turns, all per-pixel maps", "why_tests_cant": "relates runs on different images, borders and rounding included", "anchors": ["src/gradients.rs:99-294", "src/kernel.rs:61-95", "src/filter/mod.rs:442-444"]}
{"id": "C180", "title": "Rotation-invariant local binary patterns", "statement": "Turning the image by a multiple of 90 degrees rotates the bits of each pattern, so min_shift, the MIN_SHIFT table and UNIFORM_REPRESENTATIVE_2 give the same value; flips reverse the pattern and keep its number of transitions; strictly increasing brightness maps change no pattern.", "quantifier": "all images, all pixels, all eight flips and turns, all order-preserving changes of intensity", "why_tests_cant": "the purpose of the tables: relates runs on different images for every pattern", "anchors": ["src/local_binary_patterns.rs:38-126", "src/local_binary_patterns.rs:131-648"]}
{"id": "C181", "title": "Morphology radii add up", "statement": "Dilating (or eroding) by k and then by m is dilating (eroding) by k + m; the results for the norms are nested, L1 within L2 within LInf within L1 with twice the radius; distance transforms change by at most the distance of the two pixels, and LInf <= L1 <= 2 LInf.", "quantifier": "all images, all norms, all radii with k + m < 255", "why_tests_cant": "relates several runs with different radii and norms", "anchors": ["src/morphology.rs:77-82", "src/morphology.rs:168-173", "src/distance_transform.rs"]}
{"id": "C182", "title": "FAST corners follow flips, turns and brightness", "statement": "The corners of a flipped or turned image are the flipped or turned corners with the same scores; adding a constant to all pixels without saturation, or inverting the image, changes no corner and no score.", "quantifier": "all images, all thresholds, all eight flips and turns, both detectors", "why_tests_cant": "relates runs on different images; the detectors test the ring from a fixed starting point and in a fixed order", "anchors": ["src/corners.rs:70-102", "src/corners.rs:250-380"]}
{"id": "C183", "title": "A constant added to the image is ignored by everything based on gradients", "statement": "Adding a constant to every pixel (without saturation) changes no gradient image, no seam, no HOG descriptor and (in exact arithmetic) no Canny edge; shrinking the brighter image gives the brighter shrunk image, and a Gaussian blur adds the same constant.", "quantifier": "all images, all constants without saturation, all channel counts, all parameters; all integer kernels of total weight zero", "why_tests_cant": "relates runs on different images through whole pipelines", "anchors": ["src/gradients.rs:99-294", "src/kernel.rs:61-95", "src/seam_carving.rs:23-164", "src/hog.rs:192-312", "src/edges.rs:30-53", "src/filter/mod.rs:gaussian_blur_f32"]}
{"id": "C184", "title": "What is drawn does not depend on the order of its points", "statement": "Exchanging the end points of a line changes no pixel (plain, antialiased or iterated), and starting a polygon at another vertex or listing its vertices backwards changes no pixel, filled or hollow.", "quantifier": "all images, all end points, all vertex lists (repeated vertices and closed lists included), all rotations and the reversal of the list", "why_tests_cant": "relates several calls; covers ties and rounding", "anchors": ["src/drawing/line.rs:22-160", "src/drawing/line.rs:183-268", "src/drawing/polygon.rs:21-26", "src/drawing/polygon.rs:99-221"]}
{"id": "C185", "title": "Drawing a moved shape gives the moved picture", "statement": "If one image shows the same content as another moved by whole pixels, then drawing a shape on the first and the shape moved by the same amount on the second keeps it that way, wherever the shape leaves either image: lines between integer end points, circles, ellipses, rectangles, crosses and filled polygons.", "quantifier": "all images of any two sizes, all moves, all shapes, including those partly or wholly outside", "why_tests_cant": "relates two calls; covers clipping at every border and rounding on both sides of zero", "anchors": ["src/drawing/line.rs:22-110", "src/drawing/conics.rs:20-340", "src/drawing/rect.rs:12-130", "src/drawing/cross.rs:12-60", "src/drawing/polygon.rs:99-221"]}
{"id": "C186", "title": "Stricter parameters never add results", "statement": "Raising the edge detector's thresholds, the vote threshold or suppression radius of line detection, the radius of non-maximum suppression or of local maxima, the FAST threshold, lowering the distance threshold of descriptor matching, or allowing diagonal steps in component labelling only removes or merges results; what remains is unchanged (same scores, same pairs, same order).", "quantifier": "all images and point lists, all pairs of parameter values", "why_tests_cant": "relates two calls with different parameters; tests fix the parameters", "anchors": ["src/edges.rs:13-180", "src/hough.rs:20-130", "src/suppress.rs:10-175", "src/corners.rs:60-420", "src/binary_descriptors/mod.rs:48-134", "src/region_labelling.rs:20-160"]}
{"id": "C187", "title": "Work done in steps, again or in another order gives the same result", "statement": "A list of shapes drawn in one colour gives the same picture in any order and however often each shape is drawn; intersecting rectangles is commutative, associative and idempotent; translating by two shifts of the same direction is translating by their sum; shrinking the width by seam carving in two steps is shrinking it at once.", "quantifier": "all images, all lists of shapes with accepted parameters, all rectangles, all shifts, all target widths", "why_tests_cant": "relates sequences of calls of any length; tests compare one call with one picture", "anchors": ["src/drawing/line.rs:1-170", "src/drawing/conics.rs:1-330", "src/drawing/rect.rs:1-75", "src/drawing/polygon.rs:1-140", "src/drawing/cross.rs:1-60", "src/rect.rs:100-124", "src/geometric_transformations.rs:465-520", "src/seam_carving.rs:23-80"]}
{"id": "C188", "title": "An image may be processed piece by piece", "statement": "For every function that looks at a window around a pixel (filtering with a kernel, separable and Gaussian filtering, box, median and bilateral filter, gradients, non-maximum suppression, adaptive threshold, grayscale and binary dilation and erosion, local binary patterns, FAST corners and scores, template matching), the result for a piece cut out of an image is the piece of the result for the image, except within the window's reach of those sides of the piece that are not sides of the image.", "quantifier": "all images, all pieces, all window sizes and parameters, all pixels of the piece", "why_tests_cant": "relates the results for an image and for every piece of it; tests fix one image", "anchors": ["src/filter/mod.rs:40-330", "src/filter/median.rs:50-180", "src/filter/box_filter.rs:1-120", "src/gradients.rs:200-330", "src/suppress.rs:10-90", "src/contrast.rs:13-50", "src/morphology.rs:50-400", "src/local_binary_patterns.rs:30-80", "src/corners.rs:60-420", "src/template_matching.rs:60-330"]}
{"id": "C189", "title": "Moving pixels ignores their values and computing treats channels separately", "statement": "Flips, turns, cropping, replacing, translating and drawing keep every relation between the pixels of two images, so they commute with any change of pixel type or colour; filtering with kernels (square, row, column, separable, Gaussian), the median filter, warping with any interpolation, histograms and extremes compute each channel from that channel of the input alone, whatever the other channels hold and however many there are.", "quantifier": "all images of any pixel type and number of channels, all parameters", "why_tests_cant": "quantifies over pixel types and over everything the other channels can hold; tests use one pixel type at a time", "anchors": ["src/compose.rs:1-220", "src/geometric_transformations.rs:380-870", "src/drawing/mod.rs:1-50", "src/filter/mod.rs:40-330", "src/filter/median.rs:50-180", "src/stats.rs:1-180"]}
{"id": "C190", "title": "Statistics and line detection of large images in machine arithmetic", "statement": "histogram, cumulative_histogram, percentile, mean squared error (hence RMSE and PSNR) and detect_lines give the documented result for images of every size in every build profile. (False: counters, sample counts and the squared diagonal are u32. Once one does not fit, debug builds panic; release builds count modulo 2^32, so a black 65536 x 65536 image has an empty histogram and its percentiles panic, the error of two 32768 x 32768 RGBA images is divided by zero, and in an image 65536 pixels wide and one high only lines within one pixel of the origin are found. True: everything is exact and the same in both profiles as long as the counts fit.)", "quantifier": "all images of all sizes, all parameters, overflow checks on or off", "why_tests_cant": "the images concerned have gigabytes of pixels or a side of 65536", "anchors": ["src/stats.rs:83-120", "src/stats.rs:156-169", "src/stats.rs:201-220", "src/hough.rs:39-94"]}
{"id": "C191", "title": "Histogram matching is stable and uses the target's levels", "statement": "match_histogram gives an image made of intensities of the target only; matching again with the same target changes nothing; and matching an image with an image of the same histogram, in particular with itself, changes nothing. (The first is false: with a target that is half black and half white, the darker two thirds of an image become 254, a level the target does not have; every level is one of the target or one less. The last is false beyond 2^24 pixels: f32 counts collide and a white pixel next to 2^24 black ones turns black. True: matching is idempotent for all sizes, and images of at most 2^24 pixels are fixed by their own histogram.)", "quantifier": "all pairs of non-empty 8-bit images, single precision included", "why_tests_cant": "idempotence relates two runs on arbitrary data; the exceptions need particular fractions or more than 16 million pixels", "anchors": ["src/contrast.rs:413-427", "src/contrast.rs:429-463"]}
{"id": "C192", "title": "Applying an operation to its own result", "statement": "Repeating a clean-up operation with the same arguments changes nothing: simplifying a simplified curve, labelling a label image (background 0), suppressing non-maxima of a suppressed image, thresholding a thresholded image, flood filling again from the same seed. (True for open curves, label images, images without negative values, and all threshold types but the inverted binary one, which applied twice is the binary one. False for closed curves, which lose a corner on every application; for signed images, where suppressed pixels become 0 and then beat a negative maximum; and for flood fill, where the repeated call may never return.)", "quantifier": "all curves and tolerances, all images, connectivities, radii and thresholds", "why_tests_cant": "idempotence relates two runs on arbitrary data; a test fixes one input and the exceptions need signed data, closed outlines or a second fill", "anchors": ["src/geometry.rs:26-66", "src/region_labelling.rs:122-210", "src/suppress.rs:10-76", "src/contrast.rs:254-282", "src/drawing/fill.rs:17-56"]}
{"id": "C193", "title": "Otsu level of large images in machine arithmetic", "statement": "The Otsu level of an image of any size is the smallest level of largest between-class variance, in debug and in release builds. (False from about 17 million pixels on: a level times the number of its pixels is a u32 product. A debug build panics exactly when such a product or the number of pixels does not fit; a release build can return a wrong level, for instance 0 instead of 100 for a 4105 x 8315 picture of 4200 black rows, 10 grey rows and 4105 white rows. True in both builds as long as all products fit.)", "quantifier": "all 8-bit images, both build profiles, any rounding of the floating-point operations", "why_tests_cant": "the wrap-around needs tens of millions of pixels with particular counts; a test image of that size is never used", "anchors": ["src/contrast.rs:52-103", "src/stats.rs:83-96"]}
{"id": "C194", "title": "Drawing polar lines in single precision", "statement": "Drawing a list of polar lines never panics, keeps the size, and paints exactly the pixels on the courses between the clipped end points; every painted pixel is within 51/10 pixels (measured along the shorter side, plus a rounding allowance of max(width, height) / 2^20) of its line, and every point of a line inside the image has a painted row or column next to it. (The last part is false for lines that pass close to a corner: nothing is drawn of a line crossing 930 columns of a 3776 x 604 image. True for lines that keep (width + height) / 2^21 clear of the corners.)", "quantifier": "all images up to 2^19 pixels per side, all lists of lines, all f32 sines and cosines of size 2^-20 to 1", "why_tests_cant": "the losses need particular combinations of size, angle and distance where the f32 quotients fall on the wrong side of the border", "anchors": ["src/hough.rs:96-197", "src/drawing/line.rs:22-74", "src/drawing/line.rs:183-200"]}
{"id": "C195", "title": "Kapur level, oriented FAST and Canny of large images in machine arithmetic", "statement": "The Kapur level, the corners of oriented_fast and the Canny edges do not depend on the build profile and are right for images of any size. (True below 2^32 pixels and for edge radii that fit in the image. False beyond: the number of pixels is a u32 product. Debug builds panic in all three functions from 2^32 pixels on. Release builds find the same Canny edges, but return Kapur level 0 instead of 50 for a 65536 x 65537 image of two halves of levels 50 and 100, and panic in oriented_fast without a threshold for 65536 x 65536 pixels. When edge_radius exceeds a side, oriented_fast panics in debug builds and returns no corners in release builds.)", "quantifier": "all images, all thresholds, targets, edge radii and samples, both build profiles", "why_tests_cant": "needs images of more than four billion pixels", "anchors": ["src/contrast.rs:109-171", "src/corners.rs:173-241", "src/edges.rs:113-160"]}
{"id": "C196", "title": "Flood fill with machine coordinates", "statement": "Flood fill recolours the seed's region for images of every size, in debug and release builds. (True for images of at most 2^31 - 2 columns and 2^31 - 1 rows when the fill colour differs from the seed's. False for larger images: coordinates are kept as i32, so a seed in a column or row beyond 2^31 is taken for one outside the image and nothing is filled, in either build; a seed in column 2^31 makes a debug build panic.)", "quantifier": "all images, seeds and colours, both build profiles", "why_tests_cant": "needs images of more than two billion columns; the overflow checks hold along every path of the span loop", "anchors": ["src/drawing/fill.rs:16-72"]}
{"id": "C197", "title": "Seam carving of tall images in machine arithmetic", "statement": "Seams and shrunken images do not depend on the build profile and are those of exact path energies, for 8-bit images of every height. (True up to 2978479 rows, and as long as every least path energy is below 2^32. False beyond: energies are summed in u32. A debug build panics exactly when some least path energy does not fit; a release build still finds a connected seam and shrinks to the target width, but the seam can end in the wrong column: in a 2 x 4210753 image of a black and a white column with a black last row it ends in column 1, where no path of least energy ends.)", "quantifier": "all images, target widths, both build profiles", "why_tests_cant": "needs millions of rows; the energy bound holds for all paths", "anchors": ["src/seam_carving.rs:23-134"]}
{"id": "C198", "title": "Enumerating Haar features of frames with a side of 255 pixels", "statement": "enumerate_haar_features lists every feature in the frame exactly once, number_of_haar_features many, for every frame size and build profile. (True for sides below 255; the count is right for every frame of a u8 size. With a side of 255 a debug build panics, and a release build silently leaves out features: all that are one block wide if the width is 255, and all that are one block high if the height is 255; the others are listed exactly once.)", "quantifier": "all u8 frame sizes, both build profiles", "why_tests_cant": "every u8 frame size, up to four billion features, and both build profiles", "anchors": ["src/haar.rs:252-300", "src/haar.rs:329-380"]}
{"id": "C199", "title": "Counting Haar features of images of every size", "statement": "number_of_haar_features returns the number of features in a frame, for every u32 width and height and both build profiles. (True for sides up to 258, and whenever the number fits into 32 bits and no side exceeds 65535. False beyond: a 640 x 480 image has 90525593600 features; a debug build panics, a release build returns 331280384. A debug build panics exactly if a side exceeds 65535 or the number does not fit; a release build returns the number modulo 2^32 for every size.)", "quantifier": "all u32 frame sizes, both build profiles", "why_tests_cant": "a closed form over all sizes; the wrapped intermediate results cancel only modulo 2^32", "anchors": ["src/haar.rs:350-380"]}
{"id": "C200", "title": "Evaluating Haar features on integral images of large images and of squares", "statement": "Evaluating a feature on the integral image of the values or of the squares of an 8-bit image gives its signed sum, for images of every size and both build profiles. (True for values in release builds, for images of every size, even where the integral image has wrapped. For squares it is true in release builds for features of at most 33025 pixels. False otherwise: the result is the signed sum wrapped into an i32; a white image with a black middle band evaluates to -1476133546 instead of 2818833750. A debug build panics on squares of a white 130 x 130 image, for a feature of two pixels and value 0.)", "quantifier": "all images, all features in a 255 x 255 frame, values and squares, both build profiles", "why_tests_cant": "wrapped intermediate results must cancel for all images; the overflow depends on sums over the image", "anchors": ["src/haar.rs:96-250", "src/integral_image.rs:50-152"]}
{"id": "C201", "title": "Gaussian noise on colour images in double precision", "statement": "gaussian_noise adds one sample to every channel of every pixel, in raster and channel order, and truncates and clamps the exact sum. (The f64 sum is rounded first: the result is the exact one, or one more if the sum lies less than 2^-46 (8 bit) or 2^-38 (16 bit) below an integer; exact for samples that are multiples of 2^-37. A zero sample changes nothing, infinite samples give the ends of the range, and NaN the largest value.)", "quantifier": "all images, channel counts, f64 sample streams including infinities and NaN", "why_tests_cant": "all sample streams; the rounding shows only at sums just below an integer", "anchors": ["src/noise.rs:9-34", "src/definitions.rs:82-147"]}
{"id": "C202", "title": "Cropping, replacing and overlaying with u32 coordinate sums in both build profiles", "statement": "crop rejects every rectangle that leaves the image, and replace and overlay paint the covered part, for all u32 positions and sizes. (A rectangle with at least one pixel is handled correctly in both profiles: a wrapped sum never yields foreign pixels. Release builds accept an empty rectangle far outside if its edge wraps; and if the offset plus the size of the top image exceeds 2^32 - 1, replace and overlay panic in debug builds and change nothing in release builds.)", "quantifier": "all images, rectangles, offsets and both build profiles", "why_tests_cant": "the sums overflow only at coordinates near 2^32", "anchors": ["src/compose.rs:38-62", "src/compose.rs:211-226", "src/compose.rs:258-278"]}
{"id": "C203", "title": "Canny on empty and very large images in both build profiles", "statement": "canny returns an edge image of the same size for every 8-bit image, also one without pixels, in debug and release builds alike. (False for images without pixels: debug builds accept only heights 1 and 2, release builds a width or height of 1 or 2, all others panic; and debug builds panic from 2^32 pixels on because of a capacity hint. On all other images both profiles give the result of C115.)", "quantifier": "all images with sides below 2^31, thresholds and both build profiles", "why_tests_cant": "empty images are rarely tested and images of 2^32 pixels need gigabytes", "anchors": ["src/edges.rs:30-110", "src/edges.rs:114-153"]}
{"id": "C204", "title": "Horizontal filtering of images with around 2^31 columns in both build profiles", "statement": "horizontal_filter gives the correlation with continued borders and reads only inside the image, for every width a u32 allows. (True while the rightmost column asked for is below 2^31. If a kernel reaches further from an image of fewer than 2^31 columns, debug builds panic and release builds read outside the image. At exactly 2^31 columns release builds continue the first column on both sides. Beyond 2^31 columns release builds read the first column only, and debug builds panic for kernels of two or more weights.)", "quantifier": "all images with fewer than 2^32 columns, kernels and both build profiles", "why_tests_cant": "needs images of two gigabytes; the failing read is undefined behaviour", "anchors": ["src/filter/mod.rs:234-316"]}
{"id": "C205", "title": "Vertical filtering of images with around 2^31 rows in both build profiles", "statement": "vertical_filter gives the correlation with continued borders and reads only inside the image, for every height a u32 allows. (True while the lowest row asked for is below 2^31. If a kernel reaches further from an image of fewer than 2^31 rows, debug builds panic and release builds read outside the image. At exactly 2^31 rows release builds continue the first row on both sides. Beyond 2^31 rows release builds read the first row only, and debug builds panic for kernels of two or more weights.)", "quantifier": "all images with fewer than 2^32 rows, kernels and both build profiles", "why_tests_cant": "needs images of two gigabytes; the failing read is undefined behaviour", "anchors": ["src/filter/mod.rs:321-407"]}
