{
 "claims": [
  {
   "property": "C01",
   "status": "partial",
   "theorems": [
    "Verif.Props.c01_empty_circles_partial",
    "Verif.Props.c01_iter_partial",
    "Verif.Props.arith_ieee",
    "Verif.Props.arith_ieee_insert",
    "Verif.Props.arith_wide"
   ],
   "note": "Holds for every arithmetic meeting `Arith` (size <= 8191, grid box covered by every circle around the point, score order kept up to a small relative error); discharged for IEEE floats up to 4096 px (arith_ieee), without removals up to 5000 px for points off the nine inner rows of the grid (arith_ieee_insert; automatic if the height is coprime to 10), and for 28-bit grid floats with exact scores up to 8191 px. Missing: IEEE arithmetic on larger images."
  },
  {
   "property": "C02",
   "status": "partial",
   "theorems": [
    "Verif.Props.c02_no_overlap_partial",
    "Verif.Props.c02_c04_large_false"
   ],
   "note": "Holds for every arithmetic meeting `Arith` (size <= 8191, grid box covered by every circle around the point, score order kept up to a small relative error); discharged for IEEE floats up to 4096 px (arith_ieee), without removals up to 5000 px for points off the nine inner rows of the grid (arith_ieee_insert; automatic if the height is coprime to 10), and for 28-bit grid floats with exact scores up to 8191 px. False for IEEE at 7711 px (c02_c04_large_false)."
  },
  {
   "property": "C03",
   "status": "partial",
   "theorems": [
    "Verif.Props.c03_no_holes_partial",
    "Verif.Props.c03_image_partial",
    "Verif.Props.c03_c09_c10_large_false"
   ],
   "note": "Holds for every arithmetic meeting `Arith` (size <= 8191, grid box covered by every circle around the point, score order kept up to a small relative error); discharged for IEEE floats up to 4096 px (arith_ieee), without removals up to 5000 px for points off the nine inner rows of the grid (arith_ieee_insert; automatic if the height is coprime to 10), and for 28-bit grid floats with exact scores up to 8191 px. False with IEEE arithmetic on a 7711 x 7711 image (witness); open in between."
  },
  {
   "property": "C04",
   "status": "partial",
   "theorems": [
    "Verif.Props.c04_vertices_partial",
    "Verif.Props.c02_c04_large_false"
   ],
   "note": "Holds for every arithmetic meeting `Arith` (size <= 8191, grid box covered by every circle around the point, score order kept up to a small relative error); discharged for IEEE floats up to 4096 px (arith_ieee), without removals up to 5000 px for points off the nine inner rows of the grid (arith_ieee_insert; automatic if the height is coprime to 10), and for 28-bit grid floats with exact scores up to 8191 px. False for IEEE at 7711 px (c02_c04_large_false)."
  },
  {
   "property": "C05",
   "status": "partial",
   "theorems": [
    "Verif.Props.c05_hasPoint_partial"
   ],
   "note": "Holds for every arithmetic meeting `Arith` (size <= 8191, grid box covered by every circle around the point, score order kept up to a small relative error); discharged for IEEE floats up to 4096 px (arith_ieee), without removals up to 5000 px for points off the nine inner rows of the grid (arith_ieee_insert; automatic if the height is coprime to 10), and for 28-bit grid floats with exact scores up to 8191 px. Missing: IEEE arithmetic on larger images."
  },
  {
   "property": "C06",
   "status": "partial",
   "theorems": [
    "Verif.Props.c06_insert_ok_partial",
    "Verif.Props.c06_c07_run_ok_partial",
    "Verif.Props.c06_one_pixel"
   ],
   "note": "Holds for every arithmetic meeting `Arith` (size <= 8191, grid box covered by every circle around the point, score order kept up to a small relative error); discharged for IEEE floats up to 4096 px (arith_ieee), without removals up to 5000 px for points off the nine inner rows of the grid (arith_ieee_insert; automatic if the height is coprime to 10), and for 28-bit grid floats with exact scores up to 8191 px. False on 1 x 1 images (c06_one_pixel)."
  },
  {
   "property": "C07",
   "status": "partial",
   "theorems": [
    "Verif.Props.c07_remove_ok_partial",
    "Verif.Props.c06_c07_run_ok_partial"
   ],
   "note": "Holds for every arithmetic meeting `Arith` (size <= 8191, grid box covered by every circle around the point, score order kept up to a small relative error); discharged for IEEE floats up to 4096 px (arith_ieee), without removals up to 5000 px for points off the nine inner rows of the grid (arith_ieee_insert; automatic if the height is coprime to 10), and for 28-bit grid floats with exact scores up to 8191 px. Missing: IEEE arithmetic on larger images."
  },
  {
   "property": "C08",
   "status": "partial",
   "theorems": [
    "Verif.Props.c08_numPoints_partial",
    "Verif.Props.c08_remove_duplicate",
    "Verif.Props.c08_duplicate_partial"
   ],
   "note": "Holds for every arithmetic meeting `Arith` (size <= 8191, grid box covered by every circle around the point, score order kept up to a small relative error); discharged for IEEE floats up to 4096 px (arith_ieee), without removals up to 5000 px for points off the nine inner rows of the grid (arith_ieee_insert; automatic if the height is coprime to 10), and for 28-bit grid floats with exact scores up to 8191 px. The duplicate part (c08_remove_duplicate) needs no arithmetic."
  },
  {
   "property": "C09",
   "status": "partial",
   "theorems": [
    "Verif.Props.c09_history_independent_partial",
    "Verif.Props.c09_square",
    "Verif.Props.c03_c09_c10_large_false"
   ],
   "note": "Holds for every arithmetic meeting `Arith` (size <= 8191, grid box covered by every circle around the point, score order kept up to a small relative error); discharged for IEEE floats up to 4096 px (arith_ieee), without removals up to 5000 px for points off the nine inner rows of the grid (arith_ieee_insert; automatic if the height is coprime to 10), and for 28-bit grid floats with exact scores up to 8191 px. c09_square shows that general position is needed. False with IEEE arithmetic on a 7711 x 7711 image (witness)."
  },
  {
   "property": "C10",
   "status": "partial",
   "theorems": [
    "Verif.Props.c10_insert_remove_partial",
    "Verif.Props.c03_c09_c10_large_false"
   ],
   "note": "Holds for every arithmetic meeting `Arith` (size <= 8191, grid box covered by every circle around the point, score order kept up to a small relative error); discharged for IEEE floats up to 4096 px (arith_ieee), without removals up to 5000 px for points off the nine inner rows of the grid (arith_ieee_insert; automatic if the height is coprime to 10), and for 28-bit grid floats with exact scores up to 8191 px. False with IEEE arithmetic on a 7711 x 7711 image (witness); open in between."
  },
  {
   "property": "C11",
   "status": "proved",
   "theorems": [
    "Verif.Props.c11_slots",
    "Verif.Props.c11_slots_partial",
    "Verif.Props.c11_count_partial"
   ],
   "note": "Any arithmetic; slot numbers must fit in 16 bits. The _partial theorems add the exact count 2*distinct+1 under Arith."
  },
  {
   "property": "C12",
   "status": "proved",
   "theorems": [
    "Verif.Props.c12_set",
    "Verif.Props.c12_reachable"
   ],
   "note": "All states whose point maps have the same number of buckets, which holds for all reachable ones; also after any further calls."
  },
  {
   "property": "C13",
   "status": "partial",
   "theorems": [
    "Verif.Props.c13_set_numPoints_false",
    "Verif.Props.c13_set_numPoints_partial"
   ],
   "note": "The claim is false: Set does not copy the count (witness). Proved: the receiver keeps its own count."
  },
  {
   "property": "C14",
   "status": "partial",
   "theorems": [
    "Verif.Props.c14_closest_partial",
    "Verif.Props.c14_closest_tiny_false",
    "Verif.Props.c14_large_false"
   ],
   "note": "Holds for every arithmetic meeting `Arith` (size <= 8191, grid box covered by every circle around the point, score order kept up to a small relative error); discharged for IEEE floats up to 4096 px (arith_ieee), without removals up to 5000 px for points off the nine inner rows of the grid (arith_ieee_insert; automatic if the height is coprime to 10), and for 28-bit grid floats with exact scores up to 8191 px. Needs longer side >= 4; false on a 3 x 3 image and on a 7711 x 7711 image (witnesses)."
  },
  {
   "property": "C15",
   "status": "partial",
   "theorems": [
    "Verif.Props.c15_super_contains_partial",
    "Verif.Props.c15_one_pixel_false",
    "Verif.Props.c15_wrap_false"
   ],
   "note": "Sizes up to 13106 except 1 x 1; false for 1 x 1 and for 13107 x 13107 (witnesses)."
  },
  {
   "property": "C16",
   "status": "proved",
   "theorems": [
    "Verif.Props.c16_no_overflow"
   ],
   "note": "Sizes up to 8191 as stated; all image points and bounding vertices."
  },
  {
   "property": "C17",
   "status": "proved",
   "theorems": [
    "Verif.Props.c17_inCircle"
   ],
   "note": "All int16 quadruples with a,b,c not collinear."
  },
  {
   "property": "C18",
   "status": "partial",
   "theorems": [
    "Verif.Props.c18_grid_complete_partial",
    "Verif.Props.c18_large_false"
   ],
   "note": "Holds for every arithmetic meeting `Arith` (size <= 8191, grid box covered by every circle around the point, score order kept up to a small relative error); discharged for IEEE floats up to 4096 px (arith_ieee), without removals up to 5000 px for points off the nine inner rows of the grid (arith_ieee_insert; automatic if the height is coprime to 10), and for 28-bit grid floats with exact scores up to 8191 px. False for IEEE at 7711 px (witness)."
  },
  {
   "property": "C19",
   "status": "proved",
   "theorems": [
    "Verif.Props.c19_cells",
    "Verif.Props.c19_remove_while_iterating"
   ],
   "note": "Any arithmetic; slot numbers must fit in 16 bits."
  },
  {
   "property": "C20",
   "status": "partial",
   "theorems": [
    "Verif.Props.c20_pointmap_partial",
    "Verif.Props.c20_nonneg",
    "Verif.Props.c20_negative_false"
   ],
   "note": "Points with nonnegative hash, any table size. False for negative hashes: AddPoint panics (witness)."
  },
  {
   "property": "C21",
   "status": "proved",
   "theorems": [
    "Verif.Props.c21_direction_sort",
    "Verif.Props.c21_same_direction_panics",
    "Verif.Props.c21_range_false"
   ],
   "note": "Points of images up to 8191 px and their bounding vertices; outside that range differences wrap (witness)."
  },
  {
   "property": "C27",
   "status": "proved",
   "theorems": [
    "Verif.Props.c27_pixels",
    "Verif.Props.c27_pixels_right"
   ],
   "note": "All triangles, also of zero area."
  },
  {
   "property": "C28",
   "status": "proved",
   "theorems": [
    "Verif.Props.c28_blocks"
   ],
   "note": "Any monotone rounding, any block size, vertices of any sign."
  },
  {
   "property": "C29",
   "status": "proved",
   "theorems": [
    "Verif.Props.c29_bounds",
    "Verif.Props.c29_slopes",
    "Verif.Props.c29_forward",
    "Verif.Props.c29_degenerate_backwards"
   ],
   "note": "Any 53-bit rounding, images up to 32768 pixels. Triangles of zero area stay in bounds but may report a line backwards (witness)."
  },
  {
   "property": "C30",
   "status": "partial",
   "theorems": [
    "Verif.Props.c30_pair_disjoint",
    "Verif.Props.c30_pair_no_gap",
    "Verif.Props.c30_mesh",
    "Verif.Props.c30_triangulation_partial",
    "Verif.Props.c30_iter_partial"
   ],
   "note": "Pairs and every list of triangles bounded by one triangle: proved for any 53-bit rounding. For the states of the incremental triangulation the theorem is under Arith (IEEE: images up to 4096 px)."
  },
  {
   "property": "C31",
   "status": "proved",
   "theorems": [
    "Verif.Props.c31_vertex_order",
    "Verif.Props.c31_vertex_order_blocks"
   ],
   "note": "Any monotone rounding."
  },
  {
   "property": "C32",
   "status": "partial",
   "theorems": [
    "Verif.Props.c32_mean_least",
    "Verif.Props.c32_value",
    "Verif.Props.c32_triangle",
    "Verif.Props.c32_ieee_partial",
    "Verif.Props.c32_overflow_false"
   ],
   "note": "The formula and its minimality for every list of pixels in exact arithmetic while sR^2+sG^2+sB^2 fits in int64 (triangles up to 6876000 pixels); IEEE doubles with an error bound. False for larger triangles: the int64 sum of squares wraps (witness, 4096 x 4096 white image)."
  },
  {
   "property": "C33",
   "status": "proved",
   "theorems": [
    "Verif.Props.c33_blocks",
    "Verif.Props.c33_sharp"
   ],
   "note": ""
  },
  {
   "property": "C34",
   "status": "proved",
   "theorems": [
    "Verif.Props.c34_block_size"
   ],
   "note": "Images up to 32768 px a side, any 53-bit rounding."
  },
  {
   "property": "C37",
   "status": "partial",
   "theorems": [
    "Verif.Props.c37_exact_partial",
    "Verif.Props.c37_exact_squares_partial",
    "Verif.Props.c37_ieee_partial",
    "Verif.Props.c37_ieee_false"
   ],
   "note": "False for IEEE doubles: a 4 x 4 grey image has fitness above 1 (witness), as stored squares are truncated. Proved: at most 1 in exact arithmetic; at most 1 with any 53-bit rounding when stored squares are exact (up to 214000 pixels); at most 1 + 1/180000 for IEEE doubles. The triangles must be a Mesh, which the triangulation gives under Arith (mesh_of)."
  },
  {
   "property": "C38",
   "status": "proved",
   "theorems": [
    "Verif.Props.c38_channel",
    "Verif.Props.c38_square",
    "Verif.Props.c38_square_differs"
   ],
   "note": "IEEE doubles, all 2^24 colours."
  },
  {
   "property": "C39",
   "status": "partial",
   "theorems": [
    "Verif.Props.c39_in_image",
    "Verif.Props.c39_monotone",
    "Verif.Props.c39_near_partial",
    "Verif.Props.c39_near_exact",
    "Verif.Props.c39_half_pixel_false"
   ],
   "note": "In the image and monotone: proved for any 53-bit rounding. The half-pixel bound holds in exact arithmetic and up to 2^-36 with rounding; exactly half a pixel is false for IEEE doubles (witness)."
  },
  {
   "property": "C63",
   "status": "partial",
   "theorems": [
    "Verif.Props.c63_area_partial"
   ],
   "note": "Holds for every arithmetic meeting `Arith` (size <= 8191, grid box covered by every circle around the point, score order kept up to a small relative error); discharged for IEEE floats up to 4096 px (arith_ieee), without removals up to 5000 px for points off the nine inner rows of the grid (arith_ieee_insert; automatic if the height is coprime to 10), and for 28-bit grid floats with exact scores up to 8191 px. Missing: IEEE arithmetic on larger images."
  },
  {
   "property": "C60",
   "status": "proved",
   "theorems": [
    "Verif.Props.c60_ieee_insert"
   ],
   "note": "No assumption on arithmetic."
  },
  {
   "property": "C61",
   "status": "proved",
   "theorems": [
    "Verif.Props.c61_ieee_remove"
   ],
   "note": "No assumption on arithmetic."
  },
  {
   "property": "C62",
   "status": "proved",
   "theorems": [
    "Verif.Props.c62_rounded",
    "Verif.Props.c62_edge_differs"
   ],
   "note": "c62_edge_differs: on an edge the rounded rasterizer may differ from the exact one."
  },
  {
   "property": "C35",
   "status": "proved",
   "theorems": [
    "Verif.Props.c35_triangles",
    "Verif.Props.c35_polygons"
   ],
   "note": "Polygons: vertices rounding to the int16 range."
  },
  {
   "property": "C36",
   "status": "partial",
   "theorems": [
    "Verif.Props.c36_in_range_partial",
    "Verif.Props.c36_twice_false",
    "Verif.Props.c36_exponent_zero"
   ],
   "note": "Proved for orderly use (Calculate then Update once per member and generation) with exponent at least 1. False otherwise: two Calculate calls before an Update can index out of range, exponent 0 panics (witnesses)."
  },
  {
   "property": "C40",
   "status": "partial",
   "theorems": [
    "Verif.Props.c40_own_points_partial",
    "Verif.Props.c40_full_evaluation_partial",
    "Verif.Props.c40_ieee_partial",
    "Verif.Props.c40_cocircular_false"
   ],
   "note": "Under Arith; the value is that of a triangulation of the own points; when no four points are cocircular it equals a fresh evaluation in exact arithmetic, and with IEEE arithmetic differs from it by at most 1/100000000 (8-bit images of at most 6800000 pixels). False for cocircular points (witness: 1 against 23/30)."
  },
  {
   "property": "C41",
   "status": "partial",
   "theorems": [
    "Verif.Props.c41_first_call",
    "Verif.Props.c41_points_ignored",
    "Verif.Props.c41_second_call_false"
   ],
   "note": "True of the first call; later calls ignore the points (witness), so the claim as stated is false for them."
  },
  {
   "property": "C42",
   "status": "partial",
   "theorems": [
    "Verif.Props.c42_simple",
    "Verif.Props.c42_triangles_partial",
    "Verif.Props.c42_modified_partial",
    "Verif.Props.c42_modified_triangles_partial",
    "Verif.Props.c42_polygons_partial",
    "Verif.Props.c42_modified_polygons_partial"
   ],
   "note": "Simple algorithm. Generic theorems (_simple) hold for every fitness function obeying Laws; triangle instances under Arith (IEEE: images up to 4096 px). Modified algorithm (_modified_partial): for 1 <= cutoff, 2*cutoff <= size and members (all but the last cutoff) with positive fitness; generic over Laws, with triangle instances under Arith. Polygons (c.._polygons_partial): executions in which sorting did not panic, under VArith; exact: no panic."
  },
  {
   "property": "C43",
   "status": "partial",
   "theorems": [
    "Verif.Props.c43_simple",
    "Verif.Props.c43_triangles_partial",
    "Verif.Props.c43_modified_partial",
    "Verif.Props.c43_modified_triangles_partial",
    "Verif.Props.c43_modified_false",
    "Verif.Props.c43_polygons_partial",
    "Verif.Props.c43_modified_polygons_partial"
   ],
   "note": "Simple algorithm. Generic theorems (_simple) hold for every fitness function obeying Laws; triangle instances under Arith (IEEE: images up to 4096 px). Modified algorithm (_modified_partial): for 1 <= cutoff, 2*cutoff <= size and members (all but the last cutoff) with positive fitness; generic over Laws, with triangle instances under Arith. c43_modified_false: with negative fitnesses the best member may be an unevaluated one. Polygons (c.._polygons_partial): executions in which sorting did not panic, under VArith; exact: no panic."
  },
  {
   "property": "C44",
   "status": "partial",
   "theorems": [
    "Verif.Props.c44_simple",
    "Verif.Props.c44_triangles_partial",
    "Verif.Props.c44_modified_partial",
    "Verif.Props.c44_modified_triangles_partial",
    "Verif.Props.c44_polygons_partial",
    "Verif.Props.c44_modified_polygons_partial"
   ],
   "note": "Simple algorithm. Generic theorems (_simple) hold for every fitness function obeying Laws; triangle instances under Arith (IEEE: images up to 4096 px). Modified algorithm (_modified_partial): for 1 <= cutoff, 2*cutoff <= size and members (all but the last cutoff) with positive fitness; generic over Laws, with triangle instances under Arith. Polygons (c.._polygons_partial): executions in which sorting did not panic, under VArith; exact: no panic."
  },
  {
   "property": "C45",
   "status": "partial",
   "theorems": [
    "Verif.Props.c45_simple",
    "Verif.Props.c45_triangles_partial",
    "Verif.Props.c45_modified_partial",
    "Verif.Props.c45_polygons_partial"
   ],
   "note": "Simple algorithm. Generic theorems (_simple) hold for every fitness function obeying Laws; triangle instances under Arith (IEEE: images up to 4096 px). Modified algorithm (_modified_partial): for 1 <= cutoff, 2*cutoff <= size and members (all but the last cutoff) with positive fitness; generic over Laws, with triangle instances under Arith. For the modified algorithm the result of a step is independent of the schedule when mutants of one base have distinct fitnesses; else up to the choice among equally fit mutants. Polygons (c.._polygons_partial): executions in which sorting did not panic, under VArith; exact: no panic."
  },
  {
   "property": "C46",
   "status": "partial",
   "theorems": [
    "Verif.Props.c46_modified_partial"
   ],
   "note": " Modified algorithm (_modified_partial): for 1 <= cutoff, 2*cutoff <= size and members (all but the last cutoff) with positive fitness; generic over Laws, with triangle instances under Arith."
  },
  {
   "property": "C47",
   "status": "partial",
   "theorems": [
    "Verif.Props.c47_simple",
    "Verif.Props.c47_triangles_partial",
    "Verif.Props.c47_step_completes",
    "Verif.Props.c47_no_task_deadlock",
    "Verif.Props.c47_modified_partial",
    "Verif.Props.c47_modified_triangles_partial",
    "Verif.Props.c47_modified_step_completes",
    "Verif.Props.c47_modified_no_task",
    "Verif.Props.c47_modified_no_cutoff",
    "Verif.Props.c47_polygons_partial",
    "Verif.Props.c47_polygons_exact",
    "Verif.Props.c47_modified_polygons_partial"
   ],
   "note": "Simple algorithm. Generic theorems (_simple) hold for every fitness function obeying Laws; triangle instances under Arith (IEEE: images up to 4096 px). Modified algorithm (_modified_partial): for 1 <= cutoff, 2*cutoff <= size and members (all but the last cutoff) with positive fitness; generic over Laws, with triangle instances under Arith. Polygons (c.._polygons_partial): executions in which sorting did not panic, under VArith; exact: no panic."
  },
  {
   "property": "C48",
   "status": "partial",
   "theorems": [
    "Verif.Props.c48_simple",
    "Verif.Props.c48_triangles_partial",
    "Verif.Props.c48_writes",
    "Verif.Props.c48_reads",
    "Verif.Props.c48_modified_partial",
    "Verif.Props.c48_modified_triangles_partial",
    "Verif.Props.c48_modified_false",
    "Verif.Props.c48_polygons_partial",
    "Verif.Props.c48_modified_polygons_partial"
   ],
   "note": "Simple algorithm. Generic theorems (_simple) hold for every fitness function obeying Laws; triangle instances under Arith (IEEE: images up to 4096 px). Modified algorithm (_modified_partial): for 1 <= cutoff, 2*cutoff <= size and members (all but the last cutoff) with positive fitness; generic over Laws, with triangle instances under Arith. c48_modified_false: a race with negative fitnesses. Polygons (c.._polygons_partial): executions in which sorting did not panic, under VArith; exact: no panic."
  },
  {
   "property": "C49",
   "status": "partial",
   "theorems": [
    "Verif.Props.c49_simple",
    "Verif.Props.c49_triangles_partial",
    "Verif.Props.c49_polygons_partial",
    "Verif.Props.c49_polygons_exact"
   ],
   "note": " Generic theorems (_simple) hold for every fitness function obeying Laws; triangle instances under Arith (IEEE: images up to 4096 px). Polygons (c.._polygons_partial): executions in which sorting did not panic, under VArith; exact: no panic."
  },
  {
   "property": "C64",
   "status": "partial",
   "theorems": [
    "Verif.Props.c64_modified_partial",
    "Verif.Props.c64_modified_triangles_partial",
    "Verif.Props.c64_modified_polygons_partial"
   ],
   "note": " Modified algorithm (_modified_partial): for 1 <= cutoff, 2*cutoff <= size and members (all but the last cutoff) with positive fitness; generic over Laws, with triangle instances under Arith. Polygons (c.._polygons_partial): executions in which sorting did not panic, under VArith; exact: no panic."
  },
  {
   "property": "C50",
   "status": "proved",
   "theorems": [
    "Verif.Props.c50_gaussian",
    "Verif.Props.c50_random",
    "Verif.Props.c50_gaussian_draws",
    "Verif.Props.c50_random_draws",
    "Verif.Props.c50_gaussian_mutator",
    "Verif.Props.c50_random_mutator"
   ],
   "note": "Every random source (a state machine), rate, amount and rounding; NaN and infinities are not modelled. Every reported index is one that was drawn; a drawn point may get its old value again."
  },
  {
   "property": "C51",
   "status": "proved",
   "theorems": [
    "Verif.Props.c51_random",
    "Verif.Props.c51_spaced",
    "Verif.Props.c51_spaced_empty",
    "Verif.Props.c51_spaced_zero"
   ],
   "note": "c51_spaced_empty: panics for n <= 0 with iterations, as the quantifier excludes."
  },
  {
   "property": "C52",
   "status": "proved",
   "theorems": [
    "Verif.Props.c52_set_panics",
    "Verif.Props.c52_set",
    "Verif.Props.c52_copy",
    "Verif.Props.c52_builtin_copy",
    "Verif.Props.c52_write"
   ],
   "note": "Slices are windows of arrays and may overlap."
  },
  {
   "property": "C53",
   "status": "partial",
   "theorems": [
    "Verif.Props.c53_triangles",
    "Verif.Props.c53_colour",
    "Verif.Props.c53_rounded_partial",
    "Verif.Props.c53_range_false"
   ],
   "note": "Entries, order, vertices, covered pixels and no 0/0: any 53-bit rounding. Mean and range: exact arithmetic; with rounding the mean up to 2^-22 relative. The range claim is false for IEEE doubles (witness: one-colour image)."
  },
  {
   "property": "C54",
   "status": "partial",
   "theorems": [
    "Verif.Props.c54_polygons",
    "Verif.Props.c54_colour",
    "Verif.Props.c54_rounded_partial",
    "Verif.Props.c54_empty_false"
   ],
   "note": "Polygons with at least one vertex; a polygon without vertices gives 0/0 (witness)."
  },
  {
   "property": "C55",
   "status": "partial",
   "theorems": [
    "Verif.Props.c55_exact",
    "Verif.Props.c55_order",
    "Verif.Props.c55_range",
    "Verif.Props.c55_rounded_partial",
    "Verif.Props.c55_range_false"
   ],
   "note": "Range is false for IEEE doubles (witness); true in exact arithmetic, and up to (1 +- 2^-53)^(n+1) with rounding."
  },
  {
   "property": "C56",
   "status": "partial",
   "theorems": [
    "Verif.Props.c56_toData",
    "Verif.Props.c56_negative"
   ],
   "note": "Images whose bounds have a non-negative maximum; for a negative one ToData panics (c56_negative)."
  },
  {
   "property": "C57",
   "status": "partial",
   "theorems": [
    "Verif.Props.c57_fan",
    "Verif.Props.c57_direction_false"
   ],
   "note": "The triangles run against the direction of the polygon: the signed areas add up to minus that of the polygon. c57_direction_false: so the literal claim is false by the sign."
  },
  {
   "property": "C58",
   "status": "proved",
   "theorems": [
    "Verif.Props.c58_shoelace",
    "Verif.Props.c58_invariant",
    "Verif.Props.c58_rounded"
   ],
   "note": "Area rounds to an integer. c58_rounded: doubles with integer coordinates compute the same value."
  },
  {
   "property": "C59",
   "status": "proved",
   "theorems": [
    "Verif.Props.c59_polygonate",
    "Verif.Props.c59_fitness",
    "Verif.Props.c59_ends"
   ],
   "note": "c59_ends: the first and the last point may be equal."
  },
  {
   "property": "C66",
   "status": "proved",
   "theorems": [
    "Verif.Props.c66_spaced_step",
    "Verif.Props.c66_dist",
    "Verif.Props.c66_distance",
    "Verif.Props.c66_spaced_coincide"
   ],
   "note": "c66_spaced_step: any rounding and any nonnegative square root; c66_distance: distances up to 2^-47, for roundings to 53 bits."
  },
  {
   "property": "C22",
   "status": "partial",
   "theorems": [
    "Verif.Props.c22_lookups_partial",
    "Verif.Props.c22_no_clash_partial",
    "Verif.Props.c22_one_each_partial",
    "Verif.Props.c22_exact",
    "Verif.Props.c22_panics_false"
   ],
   "note": "False for IEEE doubles: four insertions panic in the comparison of the sort (witness). Proved: all lookups of polygons succeed in every history if sorting does not panic; no panic unless two corners of a cell clash; exact arithmetic never panics. Under VArith (assumptions of C01, and 53-bit float64)."
  },
  {
   "property": "C23",
   "status": "partial",
   "theorems": [
    "Verif.Props.c23_recompute_partial",
    "Verif.Props.c23_same_centres_partial",
    "Verif.Props.c23_exact"
   ],
   "note": "Exact arithmetic: proved, every size. Any rounding: same circumcentres always; same polygon unless two corners clash. Under VArith (assumptions of C01, and 53-bit float64)."
  },
  {
   "property": "C24",
   "status": "proved",
   "theorems": [
    "Verif.Props.c24_nearest",
    "Verif.Props.c24_nearest_tri",
    "Verif.Props.c24_stored_partial"
   ],
   "note": "Exact arithmetic (all images up to 8191 px), as stated; c24_stored_partial: with rounding, for the location of which the circumcentre is the rounded value."
  },
  {
   "property": "C25",
   "status": "proved",
   "theorems": [
    "Verif.Props.c25_intersect",
    "Verif.Props.c25_reports",
    "Verif.Props.c25_parallel"
   ],
   "note": ""
  },
  {
   "property": "C26",
   "status": "partial",
   "theorems": [
    "Verif.Props.c26_accepts_partial",
    "Verif.Props.c26_accepted_partial",
    "Verif.Props.c26_not_vertex",
    "Verif.Props.c26_convex_sides",
    "Verif.Props.c26_convex",
    "Verif.Props.c26_vertex_false"
   ],
   "note": "Convex polygons: proved as stated (convex hull of the vertices). General polygons: proved for points that are not vertices; false for some vertices of a polygon that is not convex (witness)."
  },
  {
   "property": "C67",
   "status": "partial",
   "theorems": [
    "Verif.Props.c67_history_independent_partial",
    "Verif.Props.c67_exact"
   ],
   "note": "Exact arithmetic: proved. Any rounding: unless corners clash. Under VArith (assumptions of C01, and 53-bit float64)."
  },
  {
   "property": "C68",
   "status": "partial",
   "theorems": [
    "Verif.Props.c68_batch_partial",
    "Verif.Props.c68_exact"
   ],
   "note": "Exact arithmetic: proved. Any rounding: unless corners clash. Under VArith (assumptions of C01, and 53-bit float64)."
  },
  {
   "property": "C69",
   "status": "partial",
   "theorems": [
    "Verif.Props.c69_single_false",
    "Verif.Props.c69_two_false",
    "Verif.Props.c69_cover_false",
    "Verif.Props.c69_count_partial",
    "Verif.Props.c69_cell_partial",
    "Verif.Props.c69_tiling_partial",
    "Verif.Props.c69_side_false",
    "Verif.Props.c69_border_false"
   ],
   "note": "False: one point gives no polygon, two points give lines, three polygons may leave corners of the image uncovered (witnesses). c69_side_false: in exact arithmetic the ends of a side of the image that lies strictly in one cell are in no polygon. Proved: at most one reported polygon per stored point (under VArith); in exact arithmetic, sides of at least 4 px, the claim itself if no corner of a cell is within the tolerance 0.0001 of the border and no cell contains a side of the image (c69_tiling_partial). The condition on corners is needed: c69_border_false. Missing: rounding. Under VArith (assumptions of C01, and 53-bit float64)."
  },
  {
   "property": "C70",
   "status": "partial",
   "theorems": [
    "Verif.Props.c70_inside_partial",
    "Verif.Props.c70_ieee_partial"
   ],
   "note": "Any sort that permutes. Under VArith (assumptions of C01, and 53-bit float64)."
  },
  {
   "property": "C71",
   "status": "proved",
   "theorems": [
    "Verif.Props.c71_inside_cell",
    "Verif.Props.c71_disjoint"
   ],
   "note": "Exact arithmetic, every image up to 8191 px, every sort meeting SorterOK."
  },
  {
   "property": "C72",
   "status": "proved",
   "theorems": [
    "Verif.Props.c72_cell",
    "Verif.Props.c72_whole"
   ],
   "note": "Exact arithmetic, every image up to 8191 px, every sort meeting SorterOK."
  },
  {
   "property": "C65",
   "status": "proved",
   "theorems": [
    "Verif.Props.c65_pixels"
   ],
   "note": "Any rounding to 53 bits, every non-degenerate triangle with non-negative 16-bit coordinates."
  },
  {
   "property": "C73",
   "status": "partial",
   "theorems": [
    "Verif.Props.c73_lower_partial",
    "Verif.Props.c73_positive_partial",
    "Verif.Props.c73_triangulation_partial",
    "Verif.Props.c73_modified_partial"
   ],
   "note": "IEEE arithmetic, 8-bit images of at most 6800000 pixels (above that the 64-bit sums overflow); from a history under Arith."
  },
  {
   "property": "C74",
   "status": "partial",
   "theorems": [
    "Verif.Props.c74_complete_partial",
    "Verif.Props.c74_iff_partial"
   ],
   "note": "Under Arith (IEEE: images up to 4096 px; exact: all sizes)."
  },
  {
   "property": "C75",
   "status": "proved",
   "theorems": [
    "Verif.Props.c75_set"
   ],
   "note": "Any arithmetic, any sorting routine, both diagrams of the same image size, any spare capacities."
  },
  {
   "property": "C76",
   "status": "proved",
   "theorems": [
    "Verif.Props.c76_order",
    "Verif.Props.c76_turn"
   ],
   "note": "Exact arithmetic, every image up to 8191 px, every sort meeting SorterOK; the vertices lie in different directions from their mean (hypothesis of the property)."
  },
  {
   "property": "C77",
   "status": "partial",
   "theorems": [
    "Verif.Props.c77_evaluation_partial",
    "Verif.Props.c77_exact",
    "Verif.Props.c77_ieee_partial",
    "Verif.Props.c49_polygons_exact"
   ],
   "note": "Exact arithmetic: proved, every image up to 8191 px. With rounding: if no call panics; the polygons are those of a fresh diagram (in some order) unless corners clash, and the value is the uncached fitness of these polygons, within 1/100000000 of that of the fresh diagram if the rounded polygons do not overlap or degenerate (c77_ieee_partial). Under VArith (assumptions of C01, and 53-bit float64)."
  },
  {
   "property": "C78",
   "status": "partial",
   "theorems": [
    "Verif.Props.c78_new_partial",
    "Verif.Props.c78_default_partial",
    "Verif.Props.c78_schedules_partial",
    "Verif.Props.c78_small_false",
    "Verif.Props.c78_population",
    "Verif.Props.c78_mutants"
   ],
   "note": "c78_population and c78_mutants: which draws the points of the members and the mutants use. IEEE arithmetic, images up to 4096 px a side; random numbers in their documented ranges, finite normal deviates. c78_new_partial: returns exactly for heights of at least 4 and widths of at least 4 (or height exactly 4). c78_small_false: panics on smaller images."
  },
  {
   "property": "C79",
   "status": "partial",
   "theorems": [
    "Verif.Props.c79_evaluated_partial",
    "Verif.Props.c79_exact",
    "Verif.Props.c79_inside_partial",
    "Verif.Props.c79_round",
    "Verif.Props.c79_round_false",
    "Verif.Props.c79_evaluated_false"
   ],
   "note": "Exact arithmetic: proved. With rounding: unless corners clash and unless a coordinate is the float64 just below one half, where the two functions do differ (c79_evaluated_false: other polygons are exported than evaluated). Under VArith (assumptions of C01, and 53-bit float64)."
  },
  {
   "property": "C80",
   "status": "partial",
   "theorems": [
    "Verif.Props.c80_triangulate",
    "Verif.Props.c80_triangles",
    "Verif.Props.c80_polygons_partial",
    "Verif.Props.c80_evaluated_partial",
    "Verif.Props.c80_evaluated_false"
   ],
   "note": "Triangles: proved for any rounding to 53 bits and any library returning valid indices. Polygons: whenever Polygonate returns. Under VArith (assumptions of C01, and 53-bit float64). Comparison with the evaluated triangles under Arith, for a library meeting LibDelaunay; c80_evaluated_false: they differ where a bounding vertex is in the circle."
  },
  {
   "property": "C81",
   "status": "partial",
   "theorems": [
    "Verif.Props.c81_safe",
    "Verif.Props.c81_signed",
    "Verif.Props.c81_tables",
    "Verif.Props.c81_decides",
    "Verif.Props.c81_tail",
    "Verif.Props.c81_finite",
    "Verif.Props.c81_finite_false",
    "Verif.Props.c81_range",
    "Verif.Props.c81_law_partial",
    "Verif.Props.c81_gap"
   ],
   "note": "The law is proved for the decisions in exact arithmetic and independent uniform real draws, and as a lower bound only for sets that avoid the gap of width 2e-7 between base strip and tail, which has normal probability below 3e-7 (c81_gap). c81_decides and c81_tail: the rounded code takes the same decisions off the curve. Log and Exp accurate to 2^-50 (assumed)."
  },
  {
   "property": "C82",
   "status": "partial",
   "theorems": [
    "Verif.Props.c82_many",
    "Verif.Props.c82_many_constant",
    "Verif.Props.c82_one",
    "Verif.Props.c82_one_race",
    "Verif.Props.c82_many_triangles_partial",
    "Verif.Props.c82_many_false",
    "Verif.Props.c82_stateless"
   ],
   "note": "General theorems for any function meeting Laws; for the triangle function under the conditions of C43 (IEEE: images up to 4096 px). c82_many_false: a step after which Best has fitness 0 and BestFitness is above 3/4."
  },
  {
   "property": "C83",
   "status": "proved",
   "theorems": [
    "Verif.Props.c83_exact",
    "Verif.Props.c83_rounded",
    "Verif.Props.c83_blocks",
    "Verif.Props.c83_bounds",
    "Verif.Props.c83_collinear_twice"
   ],
   "note": "With rounding: coordinates in int16. c83_collinear_twice: with vertices on a line a pixel is visited twice."
  },
  {
   "property": "C84",
   "status": "partial",
   "theorems": [
    "Verif.Props.c84_exact",
    "Verif.Props.c84_ieee_partial",
    "Verif.Props.c84_block_size",
    "Verif.Props.c84_fitness",
    "Verif.Props.c84_empty",
    "Verif.Props.c84_collinear_false"
   ],
   "note": "Exact arithmetic: proved, polygons of at most 6876000 pixels (above that the 64-bit sums can overflow). IEEE: value of a single polygon without vertices on a line. c84_collinear_false: fitness above 1."
  },
  {
   "property": "C85",
   "status": "partial",
   "theorems": [
    "Verif.Props.c85_lines",
    "Verif.Props.c85_output",
    "Verif.Props.c85_profile",
    "Verif.Props.c85_trace",
    "Verif.Props.c85_simple",
    "Verif.Props.c85_simple_goes_on",
    "Verif.Props.c85_modified_partial",
    "Verif.Props.c85_default_partial"
   ],
   "note": "Proved for every algorithm meeting Counts and for the simple algorithm. Modified algorithm: while the members in front have positive fitness. DefaultAlgorithm: the conditions of C78. File operations are assumed to succeed; the JSON encoding is not modelled."
  },
  {
   "property": "C86",
   "status": "partial",
   "theorems": [
    "Verif.Props.c86_stats",
    "Verif.Props.c86_trace_partial",
    "Verif.Props.c86_trace_false"
   ],
   "note": "File of statistics: proved. Trace: false of the code (c86_trace_false); what holds is c86_trace_partial. bufio.Writer is modelled from its documentation."
  },
  {
   "property": "C87",
   "status": "partial",
   "theorems": [
    "Verif.Props.c87_exact",
    "Verif.Props.c87_ieee",
    "Verif.Props.c87_triangulation_partial"
   ],
   "note": "c87_exact and c87_ieee hold for every list of triangles that is a Mesh (in the image, not degenerate, not overlapping); triangulations give one under Arith (IEEE: images up to 4096 px; 28-bit grid floats: 8191 px). In the IEEE statement a triangle covers the pixels that DDATriangle visits; in the exact one those whose lattice point it owns. Above 6876000 pixels the 64-bit sums can overflow (C32)."
  },
  {
   "property": "C88",
   "status": "proved",
   "theorems": [
    "Verif.Props.c88_gaussian",
    "Verif.Props.c88_random",
    "Verif.Props.c88_binomial",
    "Verif.Props.c88_mean",
    "Verif.Props.c88_hits",
    "Verif.Props.c88_default"
   ],
   "note": "Probabilities are numbers of vectors of draws. In the gaussian method Float32 and NormFloat64 give values from two separate sequences: that the values of go-pcgr are uniform and independent is an assumption of the statement, not proved."
  },
  {
   "property": "C89",
   "status": "proved",
   "theorems": [
    "Verif.Props.c89_separation",
    "Verif.Props.c89_jump",
    "Verif.Props.c89_stuck"
   ],
   "note": "Any correctly rounded arithmetic symmetric in sign, and a square root rounded correctly (SqrtOK). c89_jump and c89_stuck need two different points."
  },
  {
   "property": "C90",
   "status": "partial",
   "theorems": [
    "Verif.Props.c90_cover_partial",
    "Verif.Props.c90_corners_partial",
    "Verif.Props.c90_pixels_partial",
    "Verif.Props.c90_full_false"
   ],
   "note": "Holds for every arithmetic meeting `Arith` (size <= 8191, grid box covered by every circle around the point, score order kept up to a small relative error); discharged for IEEE floats up to 4096 px (arith_ieee), without removals up to 5000 px for points off the nine inner rows of the grid (arith_ieee_insert; automatic if the height is coprime to 10), and for 28-bit grid floats with exact scores up to 8191 px. That the whole image is covered is false of the code (witness: up to 16 of 100 pixels from the border uncovered); what holds is coverage beyond the stated depth."
  },
  {
   "property": "C91",
   "status": "proved",
   "theorems": [
    "Verif.Props.c91_triangle",
    "Verif.Props.c91_slots",
    "Verif.Props.c91_polygon",
    "Verif.Props.c91_polygon_collide"
   ],
   "note": "Images of at most 32767 px a side (coordinates are int16)."
  },
  {
   "property": "C92",
   "status": "partial",
   "theorems": [
    "Verif.Props.c92_exact",
    "Verif.Props.c92_ieee_partial",
    "Verif.Props.c92_overlap_false",
    "Verif.Props.pair_ok"
   ],
   "note": "Proved for exact arithmetic. With IEEE doubles for polygons without three vertices of a fan triangle on a line (c84_collinear_false shows that the condition is needed). The condition that no two polygons share a pixel is needed (c92_overlap_false)."
  },
  {
   "property": "C93",
   "status": "partial",
   "theorems": [
    "Verif.Props.c93_compare_false",
    "Verif.Props.c93_body_partial"
   ],
   "note": "False of the code: the loop is `for false` (c93_compare_false). c93_body_partial is about the body of the loop, for any pair of algorithms meeting Counts (the simple, modified and default algorithms do, C85); totals below 2^53."
  },
  {
   "property": "C94",
   "status": "partial",
   "theorems": [
    "Verif.Props.c94_triangles_exact",
    "Verif.Props.c94_polygons_exact",
    "Verif.Props.c94_swap",
    "Verif.Props.c94_triangles_ieee_partial",
    "Verif.Props.c94_polygons_ieee_partial",
    "Verif.Props.c94_ieee_false"
   ],
   "note": "False of the code with IEEE doubles: stored squares depend on the order of the channels (witness). Proved: exact arithmetic (images of at most 6876000 pixels; triangles in the image that do not overlap, polygons that share no pixel); exchanging red and green for any arithmetic, image and shapes; with IEEE doubles the fitness changes by at most 1/40000."
  },
  {
   "property": "C95",
   "status": "partial",
   "theorems": [
    "Verif.Props.c95_exact_partial",
    "Verif.Props.c95_ieee_partial",
    "Verif.Props.c95_polygons_exact",
    "Verif.Props.c95_polygons_ieee_partial",
    "Verif.Props.c95_cocircular_false",
    "Verif.Props.c95_ieee_false"
   ],
   "note": "False of triangles when four points lie on one circle (witness: 23/30 against 1) and, in the last bits, with IEEE arithmetic (witness). Proved: for triangles in general position under Arith, equality in exact arithmetic and a difference of at most 1/100000000 with IEEE arithmetic (8-bit images of at most 6800000 pixels); for polygons without rounding, equality with no condition on the position of the points, and with IEEE arithmetic a difference of at most 1/100000000 if no panic occurs, no two corners of a cell are indistinguishable and the rounded polygons do not overlap or degenerate."
  },
  {
   "property": "C96",
   "status": "partial",
   "theorems": [
    "Verif.Props.c96_triangles_partial",
    "Verif.Props.c96_same_triangles_partial",
    "Verif.Props.c96_lower_partial",
    "Verif.Props.c96_picture_partial",
    "Verif.Props.c96_calculate_partial",
    "Verif.Props.c96_default_partial",
    "Verif.Props.c96_progress_partial",
    "Verif.Props.c96_border_false"
   ],
   "note": "False when a vertex of the bounding triangle is in the circle of a Delaunay triangle: it is exported but not evaluated (witness: fitness 0, quality above 1/100 for every library). Proved for points with no four of them and of the vertices of the bounding triangle on a circle, no such vertex in the circle of a Delaunay triangle, and no coordinate equal to the largest double below 1/2. Without the condition on circles the bound from below holds (C98)."
  },
  {
   "property": "C97",
   "status": "partial",
   "theorems": [
    "Verif.Props.c97_picture_partial",
    "Verif.Props.c97_calculate_partial",
    "Verif.Props.c97_simple_partial",
    "Verif.Props.c97_modified_partial",
    "Verif.Props.c97_progress_partial",
    "Verif.Props.c97_exact",
    "Verif.Props.c97_overlap_false"
   ],
   "note": "False when rounding makes the fan triangles of a polygon, or two polygons, overlap: the pixels in common are counted twice in the fitness and shown once (witness: quality above fitness by more than 1/50 on an 8 x 8 image). Proved, for polygons without common pixels and degenerate fan triangles, no indistinguishable corners of a cell and no coordinate equal to the largest double below 1/2, as long as no panic occurs; without rounding of numbers it holds exactly and no panic occurs, for polygons without common pixels."
  },
  {
   "property": "C98",
   "status": "partial",
   "theorems": [
    "Verif.Props.c98_disjoint_partial",
    "Verif.Props.c98_tiling_partial",
    "Verif.Props.c98_lower_partial",
    "Verif.Props.c98_calculate_partial",
    "Verif.Props.c98_default_partial"
   ],
   "note": "Proved for points of which no four pixels lie on one circle (a library could report overlapping triangles of four points on a circle and still meet the Delaunay condition); pixels and areas also for any points if the library returns a tiling (c98_tiling_partial); for the bound on the fitness the vertices of the bounding triangle are included in the condition and no coordinate is the largest double below 1/2, under Arith."
  },
  {
   "property": "C99",
   "status": "proved",
   "theorems": [
    "Verif.Props.c99_area",
    "Verif.Props.c99_pixels"
   ],
   "note": "As stated, for every library that reports each triangle with all other points outside its circle once, and no triangle with a point inside. Pixels with their lattice point on the border of the hull are visited at most once (C98)."
  },
  {
   "property": "C100",
   "status": "partial",
   "theorems": [
    "Verif.Props.c100_cover_partial",
    "Verif.Props.c100_pixels_partial",
    "Verif.Props.c100_net_partial",
    "Verif.Props.c100_exported_partial"
   ],
   "note": "Under Arith (IEEE: images up to 4096 px; 28-bit grid floats with exact scores: 8191 px); exported triangles for points in general position."
  },
  {
   "property": "C101",
   "status": "partial",
   "theorems": [
    "Verif.Props.c101_new",
    "Verif.Props.c101_simple",
    "Verif.Props.c101_modified_partial",
    "Verif.Props.c101_default_new_partial",
    "Verif.Props.c101_default_partial"
   ],
   "note": "The simple algorithm as stated. The modified one while no base has fitness 0 or less (FrontPos, as C42). DefaultAlgorithm for IEEE arithmetic and images up to 4096 px a side, as C78."
  },
  {
   "property": "C102",
   "status": "partial",
   "theorems": [
    "Verif.Props.c102_default_partial"
   ],
   "note": "IEEE arithmetic, images up to 4096 px a side, as C78. Sorting is a function of the fitnesses, as in sort.Sort; other users of the package-level random source do not run at the same time."
  },
  {
   "property": "C103",
   "status": "partial",
   "theorems": [
    "Verif.Props.c103_fitness_partial",
    "Verif.Props.c103_net_partial",
    "Verif.Props.c103_default_partial"
   ],
   "note": "IEEE arithmetic under Arith (images up to 4096 px a side), images of at most 6800000 pixels (the bound on rounding errors of C87), block sizes 1 to 16."
  },
  {
   "property": "C104",
   "status": "partial",
   "theorems": [
    "Verif.Props.c104_boxes",
    "Verif.Props.c104_groups",
    "Verif.Props.c104_filled_partial",
    "Verif.Props.c104_default_partial"
   ],
   "note": "The probability that a box stays empty as stated. The fitness for IEEE arithmetic, images up to 4096 px a side and 6800000 pixels, as C103. Probabilities are counted: the share of the vectors of draws."
  },
  {
   "property": "C105",
   "status": "partial",
   "theorems": [
    "Verif.Props.c105_exported_partial",
    "Verif.Props.c105_general_partial",
    "Verif.Props.c105_default_partial"
   ],
   "note": "The picture for images of at most 6800000 pixels (the bound on rounding errors of C87) and 32767 a side, for any Delaunay triangulation of any points. DefaultAlgorithm for best points in general position, IEEE arithmetic, images up to 4096 px a side, by C98 and C103."
  },
  {
   "property": "C106",
   "status": "proved",
   "theorems": [
    "Verif.Props.c106_area",
    "Verif.Props.c106_pixels",
    "Verif.Props.library_tiling"
   ],
   "note": "As stated. That the result of the call is a Delaunay triangulation is an assumption on the library, met for points in general position by every library that reports each Delaunay triangle once (library_tiling) and shown for a square grid."
  },
  {
   "property": "C107",
   "status": "partial",
   "theorems": [
    "Verif.Props.c107_generate_partial",
    "Verif.Props.c107_general_partial",
    "Verif.Props.c107_library_partial",
    "Verif.Props.c107_default_partial"
   ],
   "note": "IEEE arithmetic, images of at most 6800000 pixels and 32767 a side, as C105; DefaultAlgorithm for images up to 4096 px a side and best points in general position, as C98. Probabilities are counted: the share of the vectors of draws."
  },
  {
   "property": "C108",
   "status": "proved",
   "theorems": [
    "Verif.Props.c108_library",
    "Verif.Props.c108_strict",
    "Verif.Props.c108_unique"
   ],
   "note": "As stated. The library shown to exist is not fogleman/delaunay, which stays a parameter; it shows that what C105-C107 assume of a library can be met for all points."
  },
  {
   "property": "C109",
   "status": "proved",
   "theorems": [
    "Verif.Props.c109_nearest",
    "Verif.Props.c109_even",
    "Verif.Props.c109_unique",
    "Verif.Props.c109_format",
    "Verif.Props.c109_ieee",
    "Verif.Props.c109_sqrt",
    "Verif.Props.c109_sqrt_strict"
   ],
   "note": "As stated. That Go compiles each operation to one IEEE operation (no fused multiply-add) stays an assumption, as do the ranges: that no value of the code overflows or is subnormal is not shown in general."
  },
  {
   "property": "C110",
   "status": "proved",
   "theorems": [
    "Verif.Props.c110_score",
    "Verif.Props.c110_circle",
    "Verif.Props.c110_grid",
    "Verif.Props.c110_valid"
   ],
   "note": "As stated. Values outside of the normal range are any rationals; infinities and NaN are not values of the model, but it is shown that no operation of the triangulation leaves the normal range. C111 and C112 treat the rasterizers and the fitness of triangles; the Voronoi diagrams are not covered."
  },
  {
   "property": "C111",
   "status": "proved",
   "theorems": [
    "Verif.Props.c111_lines",
    "Verif.Props.c111_pixels",
    "Verif.Props.c111_blocks"
   ],
   "note": "As stated. The value that stands for an infinite slope, which is never used to compute a coordinate, is assumed to be zero or of moderate size."
  },
  {
   "property": "C112",
   "status": "proved",
   "theorems": [
    "Verif.Props.c112_fitness",
    "Verif.Props.c112_calculated"
   ],
   "note": "As stated, without the cache. The value that stands for an infinite slope is assumed to be zero or of moderate size."
  },
  {
   "property": "C113",
   "status": "proved",
   "theorems": [
    "Verif.Props.c113_pixels",
    "Verif.Props.c113_first_call"
   ],
   "note": "As stated, for the first call of a function; later calls evaluate from a base or from their own triangulation (C41)."
  }
 ]
}