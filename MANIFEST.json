{
 "claims": [
  {
   "property": "C01",
   "status": "proved",
   "theorems": [
    "Verif.BBox.C01_union_is_least",
    "Verif.BBox.C01_union_succeeds_iff",
    "Verif.BBox.C01_order_independent",
    "Verif.BBox.C01_empty_identity",
    "Verif.BBox.C01_inside_after_union"
   ],
   "note": ""
  },
  {
   "property": "C02",
   "status": "partial",
   "theorems": [
    "Verif.BBox.C02_slab_exact_partial",
    "Verif.BBox.C02_true_means_hit_partial",
    "Verif.BBox.C02_exact_without_negative_zero_partial",
    "Verif.BBox.C02_negative_zero_false",
    "Verif.BBox.C02_empty_box_reports_hit_false"
   ],
   "note": "Exact for every proper box and ray (axis-parallel rays included) except a -0.0 direction component with the origin on a face plane, where a true hit is lost (C02_negative_zero_false); the empty box is reported hit. The code violates the full claim; what is proved to fail: C02_negative_zero_false: C02 is violated with `-0.0`: a ray running inside the face x = 0 of the unit box, with x direction `-0.0`, is reported as a miss although the point at t = 1/2 is in the box. | C02_empty_box_reports_hit_false: C02 is violated for the default (empty) box: every ray with a non-zero direction is reported to hit `BBox()`, although no point is inside it. || Proved part: C02_slab_exact_partial: C02 (main part): the test is exact for every proper box (finite or not) and every ray, axis-parallel rays included, except when a `-0.0` component meets an origin on a face plane of that axis. Full statement: `\u2200 b r, FProper b \u2192 \u2026 \u2192 SlabExact b r` without `NoGraze`; it is false (`C02_negative_zero_false`). | C02_true_means_hit_partial: C02 (answer True means a real hit): for a finite box and a non-zero direction, `True` comes with finite `t0 \u2264 t1`, both of which are parameters of points inside the box. | C02_exact_without_negative_zero_partial: C02 (no true hit is lost for `+0.0`): with no `-0.0` component the exclusion is empty, so the test is exact for *every* origin, face planes included."
  },
  {
   "property": "C03",
   "status": "partial",
   "theorems": [
    "Verif.BBox.C03_eq_iff",
    "Verif.BBox.C03_ne_is_not_negation_false",
    "Verif.BBox.C03_ne_misses_difference_false",
    "Verif.BBox.C03_ne_negates_eq_partial"
   ],
   "note": "__ne__ compares pMin with the other box's pMax; violated by every box with pMin != pMax. The code violates the full claim; what is proved to fail: C03_ne_is_not_negation_false: C03 is violated: a proper box is reported different from itself. | C03_ne_misses_difference_false: C03 is violated in the other direction too: two different boxes with `a != b` false. || Proved part: C03_ne_negates_eq_partial: C03 (part that holds): `!=` negates `==` for one-point boxes. Full statement: `\u2200 a b, neOp a b = !(eqOp a b)`; missing: every box with `pMin \u2260 pMax`."
  },
  {
   "property": "C04",
   "status": "proved",
   "theorems": [
    "Verif.BBox.C04_inside_iff",
    "Verif.BBox.C04_overlaps_iff",
    "Verif.BBox.C04_overlaps_comm",
    "Verif.BBox.C04_expand_mem_iff",
    "Verif.BBox.C04_maximum_extent",
    "Verif.BBox.C04_measures_monotone",
    "Verif.BBox.C04_measures_value",
    "Verif.BBox.C04_lerp",
    "Verif.BBox.C04_offset_lerp_inverse",
    "Verif.BBox.C04_bounding_sphere"
   ],
   "note": ""
  },
  {
   "property": "C05",
   "status": "proved",
   "theorems": [
    "Verif.Geom.C05_frame_orthonormal",
    "Verif.Geom.C05_frame_any_vector",
    "Verif.Geom.C05_standard_basis"
   ],
   "note": ""
  },
  {
   "property": "C06",
   "status": "proved",
   "theorems": [
    "Verif.Geom.C06_length_is_norm",
    "Verif.Geom.C06_length_triangle",
    "Verif.Geom.C06_normalize",
    "Verif.Geom.C06_normalize_idempotent",
    "Verif.Geom.C06_face_forward",
    "Verif.Geom.C06_face_forward_type_error",
    "Verif.Geom.C06_cross",
    "Verif.Geom.C06_abs_dot"
   ],
   "note": ""
  },
  {
   "property": "C07",
   "status": "proved",
   "theorems": [
    "Verif.Xform.C07_every_transform_has_inverse",
    "Verif.Xform.C07_every_transform_affine"
   ],
   "note": ""
  },
  {
   "property": "C08",
   "status": "proved",
   "theorems": [
    "Verif.Xform.C08_composition",
    "Verif.Xform.C08_monoid",
    "Verif.Xform.C08_inverse_undoes",
    "Verif.Xform.C08_translate_scale"
   ],
   "note": ""
  },
  {
   "property": "C09",
   "status": "proved",
   "theorems": [
    "Verif.Xform.C09_normals_stay_perpendicular"
   ],
   "note": ""
  },
  {
   "property": "C10",
   "status": "proved",
   "theorems": [
    "Verif.Xform.C10_ray_commutes",
    "Verif.Xform.C10_ray_differential_base",
    "Verif.Xform.C10_from_parent"
   ],
   "note": ""
  },
  {
   "property": "C11",
   "status": "partial",
   "theorems": [
    "Verif.Xform.C11_rotated_box_loses_points_false",
    "Verif.Xform.C11_mirrored_box_loses_points_false",
    "Verif.Xform.C11_box_conservative_partial"
   ],
   "note": "The code violates the full claim; what is proved to fail: C11_rotated_box_loses_points_false: C11 is violated by a quarter turn about z: the point (1,1,1) of the unit box leaves the \"transformed box\". | C11_mirrored_box_loses_points_false: C11 is violated by a mirror scale. || Proved part: C11_box_conservative_partial: C11 (part that holds): affine transforms whose linear part has no negative entry (all translations, positive scales and their products) are conservative. Full statement: `\u2200 t, AffineM t.m \u2192 BoxConservative t`; missing: any negative matrix entry."
  },
  {
   "property": "C12",
   "status": "partial",
   "theorems": [
    "Verif.Xform.C12_look_at_wrong_direction_false",
    "Verif.Xform.C12_look_at_partial"
   ],
   "note": "The code violates the full claim; what is proved to fail: C12_look_at_wrong_direction_false: C12 is violated: looking along +x with z up, the camera's +z axis is mapped to +y. || Proved part: C12_look_at_partial: C12 (part that holds): `look_at` puts the camera at `pos`, is a rigid motion (dot products of vectors are preserved), and it is the *inverse* rotation that sends the camera axes to the frame: the stored rotation maps the viewing direction to the camera's z axis. Full statement: additionally `(lookAt pos look up).vec \u27e80,0,1\u27e9 = viewDir pos look`; it is false."
  },
  {
   "property": "C13",
   "status": "proved",
   "theorems": [
    "Verif.Xform.C13_axis_rotations_add",
    "Verif.Xform.C13_rotate",
    "Verif.Xform.C13_rotate_add",
    "Verif.Xform.C13_axis_rotations_agree",
    "Verif.Xform.C13_handedness_xor",
    "Verif.Xform.C13_handedness_basic",
    "Verif.Xform.C13_rotations_keep_handedness"
   ],
   "note": ""
  },
  {
   "property": "C14",
   "status": "proved",
   "theorems": [
    "Verif.Xform.C14_end_points",
    "Verif.Xform.C14_constant",
    "Verif.Xform.C14_between_consistent"
   ],
   "note": ""
  },
  {
   "property": "C15",
   "status": "partial",
   "theorems": [
    "Verif.Xform.C15_animated_bounds_partial",
    "Verif.Xform.C15_points_partial",
    "Verif.Xform.C15_static_inverse_partial",
    "Verif.Xform.C15_static_forward_false"
   ],
   "note": "The code violates the full claim; what is proved to fail: C15_static_forward_false: C15 is violated for a transform that is not animated and `use_inv=False` (the default): the inverse is applied anyway, so a scaled-up box is bounded by a shrunken one. || Proved part: C15_animated_bounds_partial: C15 animated case: `motion_bounds` is the smallest box holding the transformed boxes at the 128 sample times, which include both key times. | C15_points_partial: C15 hence every point of `b`, moved by a sampled transform whose box image is conservative (C11), stays inside the motion bounds. | C15_static_inverse_partial: C15 with `use_inv=True` the non-animated case is what was asked for."
  },
  {
   "property": "C16",
   "status": "partial",
   "theorems": [
    "Verif.Xform.Quat.C16_to_transform_is_rotation",
    "Verif.Xform.Quat.C16_from_transform_wrong_false",
    "Verif.Xform.Quat.C16_from_transform_partial",
    "Verif.Xform.Quat.C16_slerp"
   ],
   "note": "The code violates the full claim; what is proved to fail: C16_from_transform_wrong_false: C16 (violation): whenever the rotation is not a half-turn the recovered quaternion is wrong: the trace is taken over the 4\u00d74 matrix, so the scalar part comes out as `sqrt(4 s\u00b2 + 1) / 2`. || Proved part: C16_from_transform_partial: C16 (what does hold): exactly the half-turns whose axis has a non-zero third component and a non-zero first or second component are recovered up to sign; everything else is wrong (for the remaining half-turns the wrong comparison `m[2,2] < m[i,i]` picks a zero component)."
  },
  {
   "property": "C17",
   "status": "proved",
   "theorems": [
    "Verif.Dist.C17_sample_cont",
    "Verif.Dist.C17_monotone",
    "Verif.Dist.C17_density_integrates_to_one",
    "Verif.Dist.C17_zero"
   ],
   "note": ""
  },
  {
   "property": "C18",
   "status": "proved",
   "theorems": [
    "Verif.Dist.C18_sample_dis",
    "Verif.Dist.C18_interval",
    "Verif.Dist.C18_total"
   ],
   "note": ""
  },
  {
   "property": "C19",
   "status": "partial",
   "theorems": [
    "Verif.Dist.C19_pdf_partial",
    "Verif.Dist.C19_density_partial",
    "Verif.Dist.C19_row_index_false",
    "Verif.Dist.C19_step_false"
   ],
   "note": "The code violates the full claim; what is proved to fail: C19_row_index_false: C19 is false of the code: the second coordinate is the row index; with three rows of equal weight it is 2 for a sample in the last row, outside the unit square. | C19_step_false: C19 is false of the code on the steps of the cumulative tables, even with the row index mapped back to the unit interval: for the one-row table `[1, 3]` and `u0 = 1/4` the reported density is 1/2 at position 1/2, where `pdf` is 3/2. || Proved part: C19_pdf_partial: C19 (part) `pdf` never fails on the closed unit square: for a table of non-negative entries with positive total and every `u`, `v` in `[0,1]`, both ends included, it is the entry of a cell that contains the point, over the mean of the table | C19_density_partial: C19 (part) for a table of `nv` rows of `nu` entries with positive total, and canonical samples that are not exactly on a step of the cumulative tables, `sample_cont` gives a column position in `[0,1]`, a row index in range and positive weight, and the density that `pdf` reports at that column position and anywhere within that row; the density is the entry over the mean of the table. Missing: the second coordinate is the row index and not a position in `[0,1]` (`C19_row_index_false`), and on the steps the density may be that of the neighbouring cell (`C19_step_false`)."
  },
  {
   "property": "C20",
   "status": "proved",
   "theorems": [
    "Verif.MC.C20_balance",
    "Verif.MC.C20_power",
    "Verif.MC.C20_no_density"
   ],
   "note": ""
  },
  {
   "property": "C21",
   "status": "proved",
   "theorems": [
    "Verif.MC.C21_rejection",
    "Verif.MC.C21_hemisphere",
    "Verif.MC.C21_sphere",
    "Verif.MC.C21_cosine_hemisphere",
    "Verif.MC.C21_disk",
    "Verif.MC.C21_triangle",
    "Verif.MC.C21_concentric",
    "Verif.MC.C21_pdfs"
   ],
   "note": ""
  },
  {
   "property": "C22",
   "status": "proved",
   "theorems": [
    "Verif.Sampler.C22_stratified_1d",
    "Verif.Sampler.C22_stratified_2d"
   ],
   "note": ""
  },
  {
   "property": "C23",
   "status": "proved",
   "theorems": [
    "Verif.Sampler.C23_latin_1d",
    "Verif.Sampler.C23_latin_2d"
   ],
   "note": ""
  },
  {
   "property": "C24",
   "status": "proved",
   "theorems": [
    "Verif.Sampler.C24_scan",
    "Verif.Sampler.C24_fractional_window_never_stops"
   ],
   "note": ""
  },
  {
   "property": "C25",
   "status": "partial",
   "theorems": [
    "Verif.Sampler.C25_tiling_partial",
    "Verif.Sampler.C25_whole_pixels_partial",
    "Verif.Sampler.C25_offset_window_false",
    "Verif.Sampler.C25_indivisible_false"
   ],
   "note": "The code violates the full claim; what is proved to fail: C25_offset_window_false: C25 fails for crop windows that start at 1 or later: for every such window and every number of tasks, no task gets a sampler, so nothing at all is rendered. | C25_indivisible_false: C25 fails when the tile count does not divide the width: task 0's sampler then has a fractional right border, and its `generate` never returns `False`: the task never ends. || Proved part: C25_tiling_partial: C25 (part) for an image window that contains `[0, 1]\u00b2` (as the full, uncropped image does), and every number of tasks: the task windows lie in the image and each point of the image is in the window of exactly one task. Missing from the full property: windows that start at 1 or later (`C25_offset_window_false`) and windows whose borders are not whole pixels (`C25_indivisible_false`). | C25_whole_pixels_partial: C25 (part) if moreover the tile counts divide the image size, every task gets a window of whole pixels, so its sampler visits exactly the pixels of its window (`C24_scan`), and by `C25_tiling_partial` each pixel is rendered by exactly one task."
  },
  {
   "property": "C26",
   "status": "proved",
   "theorems": [
    "Verif.Sampler.Layout.C26_requests",
    "Verif.Sampler.Layout.C26_duplicate",
    "Verif.Sampler.Layout.C26_late_request_has_no_slot"
   ],
   "note": ""
  },
  {
   "property": "C27",
   "status": "proved",
   "theorems": [
    "Verif.Film.C27_add_sample",
    "Verif.Film.C27_table_offset_error"
   ],
   "note": ""
  },
  {
   "property": "C28",
   "status": "proved",
   "theorems": [
    "Verif.Film.C28_order_independent",
    "Verif.Film.C28_tasks"
   ],
   "note": ""
  },
  {
   "property": "C29",
   "status": "partial",
   "theorems": [
    "Verif.Film.Conc.C29_locked",
    "Verif.Film.Conc.C29_progress",
    "Verif.Film.Conc.C29_unlocked_partial",
    "Verif.Film.Conc.C29_lost_update_false"
   ],
   "note": "The code violates the full claim; what is proved to fail: C29_lost_update_false: C29 is false for filters at most half a pixel wide: the code then takes no lock, although a sample on a pixel edge updates both pixels. Two tasks with one sample each can lose an update: the first pixel ends with weight one instead of two. || Proved part: C29_unlocked_partial: C29 (part) unsynchronised filters (at most half a pixel wide): the same holds if no two tasks have samples that reach a common pixel. Missing: tasks that share pixels, for which it is false (`C29_lost_update_false`)."
  },
  {
   "property": "C30",
   "status": "partial",
   "theorems": [
    "Verif.Film.C30_image",
    "Verif.Film.C30_convex",
    "Verif.Film.C30_colour_roundtrip",
    "Verif.Film.C30_zero_weight_false"
   ],
   "note": "The code violates the full claim; what is proved to fail: C30_zero_weight_false: C30 fails for filters with negative lobes: the weights of two white samples cancel, and the pixel, on which nothing was splatted, receives the undivided difference of the two colours."
  },
  {
   "property": "C31",
   "status": "partial",
   "theorems": [
    "Verif.Film.C31_sample_extent",
    "Verif.Film.C31_pixel_extent",
    "Verif.Film.C31_inside_image_partial",
    "Verif.Film.C31_crop_y_false"
   ],
   "note": "The code violates the full claim; what is proved to fail: C31_crop_y_false: C31 fails for cropped non-square images: a 20 \u00d7 10 image cropped to its lower half gets the row range `[10, 11)`, which is outside the image; the crop asked for rows `[5, 10)`. || Proved part: C31_inside_image_partial: C31 (part) for crop fractions in `[0, 1]` that select at least one column (row), the `x` extent is exactly `[\u2308xr c0\u2309, \u2308xr c1\u2309)`, inside the image; the `y` extent likewise if the image is square or the crop starts at the top. Missing: cropped `y` ranges of non-square images, which are wrong (`C31_crop_y_false`)."
  },
  {
   "property": "C32",
   "status": "proved",
   "theorems": [
    "Verif.Filter.C32_symmetric",
    "Verif.Filter.C32_separable",
    "Verif.Filter.C32_edge",
    "Verif.Filter.C32_outside",
    "Verif.Filter.C32_nonneg",
    "Verif.Filter.C32_mitchell_continuous",
    "Verif.Filter.C32_mitchell_partition",
    "Verif.Filter.C32_mitchell_beyond_support",
    "Verif.Filter.C32_lanczos_bounded"
   ],
   "note": ""
  },
  {
   "property": "C33",
   "status": "proved",
   "theorems": [
    "Verif.Agg.C33_full_refine",
    "Verif.Agg.C33_full_refine_simple"
   ],
   "note": ""
  },
  {
   "property": "C34",
   "status": "partial",
   "theorems": [
    "Verif.Agg.C34_intersect_partial",
    "Verif.Agg.C34_intersect_nearest_partial",
    "Verif.Agg.C34_intersect_p",
    "Verif.Agg.C34_isect_not_nearest_false"
   ],
   "note": "The code violates the full claim; what is proved to fail: C34_isect_not_nearest_false: C34 is violated: with the farther plate listed first, `ray.maxt` is 1 (the nearer plate) but the intersection handed back is that of the farther plate. || Proved part: C34_intersect_partial: C34 (what holds): `SimpleAggregate.intersect` reports a hit exactly when some primitive is hit inside `[mint, maxt]`; `ray.maxt` then is the nearest hit parameter; but the recorded intersection is that of the *first primitive in list order* that is hit, not the nearest one. Missing from the full statement: `isect` belongs to a primitive hit at `ray.maxt` (false, see `C34_isect_not_nearest_false`). Also excluded: `-0.0` directions along a face plane (as in C02). | C34_intersect_nearest_partial: C34 when the first primitive that is hit is also the nearest one (in particular with at most one primitive hit), the answer is the right one."
  },
  {
   "property": "C35",
   "status": "partial",
   "theorems": [
    "Verif.BVH.C35_permutation_partial",
    "Verif.BVH.C35_default_succeeds_partial",
    "Verif.BVH.C35_leaf_size",
    "Verif.BVH.C35_middle_assertion_false",
    "Verif.BVH.C35_sah_leaf_type_error_false"
   ],
   "note": "The code violates the full claim; what is proved to fail: C35_middle_assertion_false: C35 is violated by `method='middle'`: two primitives given in decreasing order along the split axis make the constructor fail its own assertion. | C35_sah_leaf_type_error_false: C35 is violated by larger node sizes: when the surface-area heuristic decides for a leaf the constructor raises `TypeError` (five nearly coincident boxes, `max_prim_per_node = 5`). || Proved part: C35_permutation_partial: C35 construction keeps every primitive exactly once and its leaves tile the list. | C35_default_succeeds_partial: C35 with the default method and at most four primitives per node construction never fails, for every non-empty list of primitives (boxes in any position, repeated or degenerate)."
  },
  {
   "property": "C36",
   "status": "proved",
   "theorems": [
    "Verif.BVH.C36_bounds"
   ],
   "note": ""
  },
  {
   "property": "C37",
   "status": "proved",
   "theorems": [
    "Verif.BVH.C37_flatten_is_preorder",
    "Verif.BVH.C37_layout",
    "Verif.BVH.C37_faithful",
    "Verif.BVH.C37_constructor"
   ],
   "note": ""
  },
  {
   "property": "C38",
   "status": "partial",
   "theorems": [
    "Verif.BVH.C38_sah_scenes_fit_partial",
    "Verif.BVH.C38_default_partial",
    "Verif.BVH.C38_deep_false",
    "Verif.BVH.C38_intersect_nearest_partial",
    "Verif.BVH.C38_intersect_p_partial",
    "Verif.BVH.C38_small_scenes_fit_partial",
    "Verif.BVH.C38_negative_zero_false",
    "Verif.BVH.C38_hit_at_maxt_false",
    "Verif.BVH.C38_origin_on_x_face_false"
   ],
   "note": "The code violates the full claim; what is proved to fail: C38_deep_false: C38 is violated for scenes of 67 primitives: 67 cubes in a row with growing distances, a ray along the row that meets all the hypotheses and hits the first cube; both queries raise `IndexError`. | C38_negative_zero_false: C38 is violated for a direction with a `-0.0` component (as produced by negating a vector): a box around the ray, hit at parameter 1 in `[0, inf)`, is missed. | C38_hit_at_maxt_false: C38 is violated for a hit exactly at the ray's upper limit on a flat box: a brute-force test accepts `t = maxt`, the box test requires `tmin < maxt`. | C38_origin_on_x_face_false: C38 is violated for a ray parallel to the x planes whose origin lies on an x face: `0 * inf` is NaN and the x slab then rejects; the same situation in y is accepted. || Proved part: C38_sah_scenes_fit_partial: C38 with the surface-area method the array of pending nodes never overflows for scenes of at most 66 primitives. Missing: larger scenes (`C38_deep_false`: 66 is the best bound). | C38_default_partial: C38 no further hypothesis on the tree: for at most 66 primitives, the surface-area method and a node size of at most four the constructor succeeds and both queries answer correctly for every ray that is not one of the special cases. | C38_intersect_nearest_partial: C38 nearest hit. For every list of primitives, every cost function, node size and split method for which construction succeeds, every tree at most 64 levels high and every ray that is not one of the special cases, `BVH.intersect` terminates without error (within one loop round per node) and gives a correct nearest-hit answer over the *original* primitives. Full statement: also for rays with `-0.0` components, hits exactly at the ray's limits, and deeper trees; these are false, see the `_false` theorems. | C38_intersect_p_partial: C38 any-hit query: `intersect_p` answers `True` only if some primitive is hit within the range, and does so whenever one is hit strictly before the ray's upper limit. | C38_small_scenes_fit_partial: C38 the stack never overflows for scenes of at most 65 primitives."
  },
  {
   "property": "C39",
   "status": "proved",
   "theorems": [
    "Verif.Agg.C39_voxel_counts",
    "Verif.Agg.C39_pos2voxel_in_range",
    "Verif.Agg.C39_offset_bijection",
    "Verif.Agg.C39_cell_contains_point",
    "Verif.Agg.C39_point_of_cell",
    "Verif.Agg.C39_construction",
    "Verif.Agg.C39_every_overlapped_voxel"
   ],
   "note": ""
  },
  {
   "property": "C40",
   "status": "proved",
   "theorems": [
    "Verif.Shape.C40_sound_complete",
    "Verif.Shape.C40_miss",
    "Verif.Shape.C40_geometry",
    "Verif.Shape.C40_intersect_p_agrees",
    "Verif.Shape.C40_world_bound",
    "Verif.Shape.C40_object_bound",
    "Verif.Shape.C40_default_parametrisation"
   ],
   "note": ""
  },
  {
   "property": "C41",
   "status": "proved",
   "theorems": [
    "Verif.Shape.C41_discriminant",
    "Verif.Shape.C41_hit",
    "Verif.Shape.C41_miss",
    "Verif.Shape.C41_small_sphere_invisible",
    "Verif.Shape.C41_intersect_p_agrees",
    "Verif.Shape.C41_object_bound"
   ],
   "note": ""
  },
  {
   "property": "C42",
   "status": "proved",
   "theorems": [
    "Verif.Shape.C42_hit",
    "Verif.Shape.C42_sound",
    "Verif.Shape.C42_intersect_p_agrees",
    "Verif.Shape.C42_object_bound",
    "Verif.Shape.C42_nearly_parallel_missed"
   ],
   "note": ""
  },
  {
   "property": "C43",
   "status": "partial",
   "theorems": [
    "Verif.Shape.C43_refine",
    "Verif.Shape.C43_rejects",
    "Verif.Shape.C43_created_partial",
    "Verif.Shape.C43_negative_false",
    "Verif.Shape.C43_validation",
    "Verif.Shape.C43_discard"
   ],
   "note": "The code violates the full claim; what is proved to fail: C43_negative_false: C43 is false of the code for negative indices: they pass the validation. With `[-4, 0, 1]` and three vertices a mesh is built, and its triangle refers to a vertex that does not exist (so every intersection test raises `IndexError`). || Proved part: C43_created_partial: C43 (part) when the indices are not negative, every triangle of a created mesh refers only to existing vertices: corner `k` of triangle `j` is the transformed point number `indices[3j + k]`. Missing: negative indices are accepted, `C43_negative_false`."
  },
  {
   "property": "C44",
   "status": "proved",
   "theorems": [
    "Verif.Loop.C44_world_bound_holds_output",
    "Verif.Loop.C44_step_convex_combination",
    "Verif.Loop.C44_limit_convex_combination",
    "Verif.Loop.C44_step_affine",
    "Verif.Loop.C44_limit_affine",
    "Verif.Loop.C44_output_in_hull",
    "Verif.Loop.C44_point_fixed"
   ],
   "note": ""
  },
  {
   "property": "C45",
   "status": "proved",
   "theorems": [
    "Verif.Bsdf.C45_count",
    "Verif.Bsdf.C45_choice",
    "Verif.Bsdf.C45_choice_top",
    "Verif.Bsdf.C45_flags",
    "Verif.Bsdf.C45_equal_probability",
    "Verif.Bsdf.C45_pdf",
    "Verif.Bsdf.C45_f",
    "Verif.Bsdf.C45_none",
    "Verif.Bsdf.C45_sample"
   ],
   "note": ""
  },
  {
   "property": "C46",
   "status": "partial",
   "theorems": [
    "Verif.Refl.C46_total_reflection",
    "Verif.Refl.C46_dielectric_partial",
    "Verif.Refl.C46_dielectric_range_false",
    "Verif.Refl.C46_conductor",
    "Verif.Refl.C46_full"
   ],
   "note": "The code violates the full claim; what is proved to fail: C46_dielectric_range_false: The full range claim is false of the code: leaving a medium of index 4 straight on, the \"reflectance\" exceeds one. || Proved part: C46_dielectric_partial: Reflectances are never negative, and on the lighter side of the interface they are at most one; no division by zero occurs there. Missing: the denser side, where the claim is false (next theorem)."
  },
  {
   "property": "C47",
   "status": "partial",
   "theorems": [
    "Verif.Refl.C47_reflection",
    "Verif.Refl.C47_transmission_partial",
    "Verif.Refl.C47_transmission_value",
    "Verif.Refl.C47_snell_iff_partial",
    "Verif.Refl.C47_snell_false",
    "Verif.Refl.C47_spurious_total_reflection_false",
    "Verif.Refl.C47_black"
   ],
   "note": "The code violates the full claim; what is proved to fail: C47_snell_false: Snell's law is false of the code: from air into glass at a slant. | C47_spurious_total_reflection_false: Light entering a denser medium is never totally reflected, yet the code returns nothing for it at some angles. || Proved part: C47_transmission_partial: Refraction, the part that holds: when a direction is returned, it is a unit vector on the other side, in the plane of `wo` and the normal and on the far side of the normal; otherwise the container returns black. Missing: Snell's law itself, see the next theorem. | C47_snell_iff_partial: Snell's law, with the index of the side `wo` lies on: the code satisfies it exactly at normal incidence or when the two indices are equal, because it swaps them on the wrong side."
  },
  {
   "property": "C48",
   "status": "partial",
   "theorems": [
    "Verif.Bsdf.C48_frame",
    "Verif.Bsdf.C48_w2l_isometry_partial",
    "Verif.Bsdf.C48_inverse_iff_partial",
    "Verif.Bsdf.C48_round_trip_false"
   ],
   "note": "The code violates the full claim; what is proved to fail: C48_round_trip_false: The full property is false of the code: in a frame turned about an axis a unit vector does not come back, not even with its length. || Proved part: C48_w2l_isometry_partial: What holds: `w2l` preserves dot products (lengths and angles) for every orthonormal frame, and maps the axes to the coordinate axes. Missing: the other direction, see the two theorems below. | C48_inverse_iff_partial: `l2w` undoes `w2l` for exactly those orthonormal frames whose axes lie along the coordinate axes in order (each possibly reversed)."
  },
  {
   "property": "C49",
   "status": "proved",
   "theorems": [
    "Verif.Interface.C49_fifo",
    "Verif.Interface.C49_next",
    "Verif.Interface.C49_accepted",
    "Verif.Interface.C49_types_independent",
    "Verif.Interface.C49_unknown_type"
   ],
   "note": ""
  },
  {
   "property": "C50",
   "status": "partial",
   "theorems": [
    "Verif.Api.C50_restore_partial",
    "Verif.Api.C50_nested_never_underflows",
    "Verif.Api.C50_contents_partial",
    "Verif.Api.C50_scopes_without_effect_partial",
    "Verif.Api.C50_transforms_leak_false"
   ],
   "note": "The code violates the full claim; what is proved to fail: C50_transforms_leak_false: C50 is false of the code: a translation (or any other factor) inside a scope of either kind is still applied after it, in every state where the current transforms are set and the factor changes one of them. || Proved part: C50_restore_partial: C50 (part) after a properly nested scope (either kind) the graphics state, both stacks and the current transform *list object* are those before the begin. Missing: the contents of that list, see `C50_contents_partial`, `C50_transforms_leak_false`. | C50_contents_partial: C50 (part) the contents of the current transforms are restored by a properly nested scope in which no call changes a transform list (coordinate systems may be added and switched to, the camera set, scopes nested). | C50_scopes_without_effect_partial: C50 (what the code does instead) in a properly nested script that switches to no named coordinate system, the scoping calls have no effect on the transforms at all: the current transforms and all named systems end as they do with every begin and end left out."
  },
  {
   "property": "C51",
   "status": "proved",
   "theorems": [
    "Verif.Render.C51_sanitised",
    "Verif.Render.C51_finite",
    "Verif.Render.C51_opposite_infinities",
    "Verif.Render.C51_film_calls",
    "Verif.Render.C51_raw",
    "Verif.Render.C51_each_sample_once",
    "Verif.Render.C51_terminates"
   ],
   "note": ""
  },
  {
   "property": "C52",
   "status": "proved",
   "theorems": [
    "Verif.Render.Rec.C52_terminates",
    "Verif.Render.Rec.C52_fuel_irrelevant",
    "Verif.Render.Rec.C52_bounded",
    "Verif.Render.Rec.C52_path",
    "Verif.Render.Rec.C52_path_unbounded"
   ],
   "note": ""
  },
  {
   "property": "C53",
   "status": "proved",
   "theorems": [
    "Verif.Ints.C53_conversions",
    "Verif.Ints.C53_rtoi_ties",
    "Verif.Ints.C53_next_pow_2",
    "Verif.Ints.C53_round_pow_2",
    "Verif.Ints.C53_is_pow_2",
    "Verif.Ints.C53_lerp"
   ],
   "note": ""
  },
  {
   "property": "C54",
   "status": "proved",
   "theorems": [
    "Verif.Light.C54_segment_points",
    "Verif.Light.C54_end_points",
    "Verif.Light.C54_unit_direction",
    "Verif.Light.C54_unoccluded",
    "Verif.Light.C54_ray_points"
   ],
   "note": ""
  },
  {
   "property": "C55",
   "status": "partial",
   "theorems": [
    "Verif.Volume.C55_tau_homogeneous_partial",
    "Verif.Volume.C55_tau_additive",
    "Verif.Volume.C55_tau_transformed_false",
    "Verif.Volume.C55_sums",
    "Verif.Volume.C55_emission_false",
    "Verif.Volume.C55_empty",
    "Verif.Volume.C55_interval_partial",
    "Verif.Volume.C55_interval_false"
   ],
   "note": "The code violates the full claim; what is proved to fail: C55_tau_transformed_false: C55 for a transformed region the optical depth is wrong: a unit box moved ten units away still attenuates a ray through the origin, where its attenuation is zero | C55_emission_false: C55 the emission of an aggregate with any region raises | C55_interval_false: C55 a region that is only touched is reported by itself but not through an aggregate, so \"hits exactly when some region is hit\" is false || Proved part: C55_tau_homogeneous_partial: C55 the optical depth of a homogeneous region is the integral of its attenuation along the ray, in world units, whenever the region is not transformed (for transformed regions the claim is false: `C55_tau_transformed_false`) | C55_interval_partial: C55 the interval of an aggregate is the smallest one that contains the interval of every region that is hit (empty when none is), and the answer is that there is a hit exactly when this interval has positive length"
  },
  {
   "property": "C56",
   "status": "partial",
   "theorems": [
    "Verif.MC.C56_isotropic",
    "Verif.MC.C56_rayleigh",
    "Verif.MC.C56_mie_hazy",
    "Verif.MC.C56_mie_murky",
    "Verif.MC.C56_hg",
    "Verif.MC.C56_schlick_false",
    "Verif.MC.C56_schlick_negative_false",
    "Verif.MC.C56_schlick_partial"
   ],
   "note": "The code violates the full claim; what is proved to fail: C56_schlick_false: C56 is false of the code for the Schlick approximation: `a / b * b` is evaluated left to right, so the function is constant and, for `g = 1/2`, has total mass below one. | C56_schlick_negative_false: C56 is false of the code for the Schlick approximation in another way: close to `g = 1` it is negative. || Proved part: C56_schlick_partial: C56 (part) what the Schlick approximation does give for `|g| \u2264 9/10`: a non-negative constant, at most the isotropic value, wherever the divisor is not zero. Missing: normalisation and dependence on the angle."
  },
  {
   "property": "C57",
   "status": "partial",
   "theorems": [
    "Verif.Texture.C57_texel",
    "Verif.Texture.C57_box_partial",
    "Verif.Texture.C57_box_false",
    "Verif.Texture.C57_box_two_partial",
    "Verif.Texture.C57_noise_in_range",
    "Verif.Texture.C57_indices",
    "Verif.Texture.C57_noise_periodic",
    "Verif.Texture.C57_noise_lattice_partial",
    "Verif.Texture.C57_noise_lattice_false",
    "Verif.Texture.C57_weights",
    "Verif.Texture.C57_taps",
    "Verif.Texture.C57_weights_identity"
   ],
   "note": "The code violates the full claim; what is proved to fail: C57_box_false: C57 fails: the finer level is averaged but transposed: in the pyramid of the image that is 1 for `s < 2` and 0 elsewhere, entry `[0, 1]` of level 1 should be the mean of the texels `s < 2, 2 \u2264 t < 4`, which is 1, but is 0 | C57_noise_lattice_false: C57 fails at lattice points: line 111 of `_grad` replaces the gradient component by the constant -1, so the noise is -1 at some lattice points, e.g. at `(2, 0, 0)` || Proved part: C57_box_partial: C57 (part) the pyramid is always built (no exception, for every image with at least one texel); its level 0 is the image and entry `[t, s]` of level `i + 1` is the mean of the four texels `(2s, 2t), (2s+1, 2t), (2s, 2t+1), (2s+1, 2t+1)` of level `i`. Missing: it should be entry `[s, t]`, i.e. every level is transposed against the one below (`C57_box_false`). | C57_box_two_partial: C57 (part) two levels up the orientation is restored: entry `[s, t]` two levels up is the mean of the 4 \u00d7 4 texels from `(4s, 4t)` | C57_noise_lattice_partial: C57 (part) at a lattice point the noise is 0 or -1. Missing: it should be 0 there (`C57_noise_lattice_false`)."
  },
  {
   "property": "C58",
   "status": "partial",
   "theorems": [
    "Verif.Spectral.C58_average_partial",
    "Verif.Spectral.C58_between_partial",
    "Verif.Spectral.C58_arrays_restored",
    "Verif.Spectral.C58_indices",
    "Verif.Spectral.C58_average_false",
    "Verif.Spectral.C58_y",
    "Verif.Spectral.C58_y_linear",
    "Verif.Spectral.C58_roundtrip",
    "Verif.Spectral.C58_roundtrip_exact_false",
    "Verif.Spectral.C58_is_black",
    "Verif.Spectral.C58_is_black_agree",
    "Verif.Spectral.C58_is_black_agree_false",
    "Verif.Spectral.C58_clip",
    "Verif.Spectral.C58_pointwise",
    "Verif.Spectral.C58_lerp_between",
    "Verif.Spectral.C58_average_knot"
   ],
   "note": "The code violates the full claim; what is proved to fail: C58_average_false: C58 the claim fails at an inner wavelength of the table: there the sum runs on to the end of the table. A table that is one everywhere, averaged over its first half, gives two. | C58_roundtrip_exact_false: C58 the two conversions are not exact inverses of each other | C58_is_black_agree_false: C58 the two tests of the code disagree on spectra with negative samples: the method calls a spectrum of \u22121 black, the function does not || Proved part: C58_average_partial: C58 averaging a table over a wavelength interval gives the mean, over that interval, of the spectrum the table describes (linear between neighbouring wavelengths, constant outside). Proved for every interval whose end is not one of the inner wavelengths of the table; at an inner wavelength the claim is false (`C58_average_false`). | C58_between_partial: C58 under the same condition the average lies between any bounds of the data, so between the smallest and the largest datum"
  },
  {
   "property": "C59",
   "status": "partial",
   "theorems": [
    "Verif.BBox.C59_copy_proper_partial",
    "Verif.BBox.C59_copy_of_empty_is_everything_false"
   ],
   "note": "Holds for proper boxes; the copy of BBox() is all of space. The code violates the full claim; what is proved to fail: C59_copy_of_empty_is_everything_false: C59 is violated for the default box: its copy is all of space. || Proved part: C59_copy_proper_partial: C59 copying a proper box gives an equal box."
  },
  {
   "property": "C60",
   "status": "proved",
   "theorems": [
    "Verif.Geom.C60_spherical_direction_unit",
    "Verif.Geom.C60_spherical_theta",
    "Verif.Geom.C60_spherical_phi",
    "Verif.Geom.C60_spherical_round_trip"
   ],
   "note": ""
  },
  {
   "property": "C61",
   "status": "partial",
   "theorems": [
    "Verif.Xform.C61_differentials_not_transformed_false",
    "Verif.Xform.C61_differentials_partial"
   ],
   "note": "The code violates the full claim; what is proved to fail: C61_differentials_not_transformed_false: C61 is violated: a translation does not move the auxiliary origins. || Proved part: C61_differentials_partial: C61 (part that holds): vectors under pure translations; and `scale_differential` moves the auxiliary rays towards the main ray by the factor given. Full statement: `\u2200 t r, AffineM t.m \u2192 DiffsFollow t r`; missing: everything but the identity on origins and translations on directions."
  },
  {
   "property": "C62",
   "status": "partial",
   "theorems": [
    "Verif.Xform.C62_orthographic",
    "Verif.Xform.C62_perspective_partial",
    "Verif.Xform.C62_division_skipped_false"
   ],
   "note": "The code violates the full claim; what is proved to fail: C62_division_skipped_false: C62 is violated by exactly one plane slab: at depth `1 + EPS/2` the homogeneous division is skipped, so a point of the far plane at that depth is not mapped to depth 1. || Proved part: C62_perspective_partial: C62 `perspective(fov, n, f)`: a camera-space point whose depth is not within `EPS` of one (or is exactly one) goes to `(x / (z tan(fov/2)), y / (z tan(fov/2)), f (z - n) / (z (f - n)))`: the near plane goes to 0, the far plane to 1, the field-of-view edge to 1. Full statement: for every point with `z \u2260 0`; missing: depths strictly within `EPS` of 1."
  },
  {
   "property": "C63",
   "status": "partial",
   "theorems": [
    "Verif.Xform.C63_is_identity",
    "Verif.Xform.C63_has_scale_partial",
    "Verif.Xform.C63_rotation_has_no_scale_partial",
    "Verif.Xform.C63_has_scale_rows_false"
   ],
   "note": "The code violates the full claim; what is proved to fail: C63_has_scale_rows_false: C63 is violated in general: `has_scale` measures matrix rows, not the images of the axes. A shear with unit rows stretches the x axis and still answers `False`. || Proved part: C63_has_scale_partial: C63 `has_scale` holds for a diagonal scale exactly when some factor's square is off unity. | C63_rotation_has_no_scale_partial: C63 rotations never report a scale."
  },
  {
   "property": "C64",
   "status": "partial",
   "theorems": [
    "Verif.Agg.C64_complete_partial",
    "Verif.Agg.C64_edge_false",
    "Verif.Agg.C64_traversal_safe",
    "Verif.Agg.C64_sound_partial",
    "Verif.Agg.C64_axis_parallel_miss_false",
    "Verif.Agg.C64_oblique_miss_false"
   ],
   "note": "The code violates the full claim; what is proved to fail: C64_edge_false: C64 is violated also where a diagonal ray leaves the grid exactly where it enters a new voxel on another axis: the hit on the edge of the last box, which brute force reports, is missed. | C64_axis_parallel_miss_false: C64 is violated for rays parallel to an axis: a ray along +x at y = z = 3/2 starting inside the grid runs into the far box at t = 5/2, and brute force reports it, but the grid misses it (the first crossing of the y axis is computed as -inf). | C64_oblique_miss_false: C64 is violated also in general position: an oblique ray (all components non-zero) from inside the grid misses the far box, because `next_crossing` subtracts `grid_intersect / d` from the voxel position instead of dividing their difference. || Proved part: C64_complete_partial: C64 (completeness on the axes that are computed correctly): let the ray start at `t0`, which is `mint` if it is inside the grid there and zero if it is not, let it move upwards on at least one axis, and let the first boundary be computed correctly on every axis (`AxisOK`; this covers every ray in direction `(1, 1, 1)`, and every ray along an axis in unit steps whose other two coordinates are negative). If no hit lies on an upper face of the grid and at the same time on another voxel boundary, `GridAccel.intersect` finds the nearest hit in the ray's range, and `intersect_p` answers whether there is one. Missing: all other rays, for which the claim is false (`C64_axis_parallel_miss_false`, `C64_oblique_miss_false`), and the excluded edges (`C64_edge_false`). | C64_sound_partial: C64 (soundness): whatever the grid reports is a genuine hit of a scene primitive within the ray's range, with `ray.maxt` set to its parameter; `intersect_p` answers `True` only if some primitive is hit in the range. Missing from the full property: completeness and nearness, which the code does not have (`C64_axis_parallel_miss_false`, `C64_oblique_miss_false`)."
  },
  {
   "property": "C65",
   "status": "partial",
   "theorems": [
    "Verif.ImageIO.C65_full_image_partial",
    "Verif.ImageIO.C65_bytes_monotone",
    "Verif.ImageIO.C65_errors",
    "Verif.ImageIO.C65_crop_false"
   ],
   "note": "The code violates the full claim; what is proved to fail: C65_crop_false: C65 is false of the code for cropped images: whatever the window, its position and the existing file, a cropped film either gets a `ValueError` or, for a one-pixel window, leaves the file as it was: no cropped film ever updates the file. (`w`, `h` are the window's pixel counts, as film.py 258-260 passes them.) || Proved part: C65_full_image_partial: C65 (part) writing the full image (no crop) of a non-empty array of non-negative values always succeeds, whatever the file held before; the file has the shape of the array and each byte is its value's share of the largest value of its channel on the scale 0 \u2026 255. Missing: cropped images, `C65_crop_false`."
  },
  {
   "property": "C66",
   "status": "partial",
   "theorems": [
    "Verif.MC.C66_concentric_law",
    "Verif.MC.C66_hemisphere_law",
    "Verif.MC.C66_sphere_law",
    "Verif.MC.C66_disk_law",
    "Verif.MC.C66_triangle_law",
    "Verif.MC.C66_triangle_mean",
    "Verif.MC.C66_disk",
    "Verif.MC.C66_concentric",
    "Verif.MC.C66_hemisphere_follows",
    "Verif.MC.C66_sphere_follows",
    "Verif.MC.C66_cosine_false"
   ],
   "note": "The code violates the full claim; what is proved to fail: C66_cosine_false: C66 is false of the code for the cosine-weighted sampler: it projects points of the uniform sphere instead of points of the disk. Within 60\u00b0 of the pole `cosine_hemisphere_pdf` has mass 3/4, but only half of the samples fall there."
  },
  {
   "property": "C67",
   "status": "partial",
   "theorems": [
    "Verif.MC.C67_cone_law",
    "Verif.MC.C67_hg_law",
    "Verif.MC.C67_hg_small_law",
    "Verif.MC.C67_hg_direction",
    "Verif.MC.C67_hg_follows",
    "Verif.MC.C67_cone",
    "Verif.MC.C67_cone_no_frame_false"
   ],
   "note": "The code violates the full claim; what is proved to fail: C67_cone_no_frame_false: C67 is false of the code when no frame is given: no direction is returned."
  },
  {
   "property": "C68",
   "status": "partial",
   "theorems": [
    "Verif.Api.C68_unknown_name",
    "Verif.Api.C68_reinstated_partial",
    "Verif.Api.C68_not_a_copy_false",
    "Verif.Api.C68_camera_snapshot"
   ],
   "note": "The code violates the full claim; what is proved to fail: C68_not_a_copy_false: C68 is false of the code: a named coordinate system is not a copy; a factor applied after `add_coordinate_system` is still there after `set_coordinate_system`. || Proved part: C68_reinstated_partial: C68 (part) `add_coordinate_system(n)`, then any calls that do not define `n` again, then `set_coordinate_system(n)`: the call succeeds and the current transform *list object* is the one that was current at the `add`; if no call in between changed a transform list, the contents are those at the `add`. Missing: calls in between that change the transforms, see `C68_not_a_copy_false`."
  },
  {
   "property": "C69",
   "status": "partial",
   "theorems": [
    "Verif.Render.C69_radiance_partial",
    "Verif.Render.C69_background_lost_false"
   ],
   "note": "The code violates the full claim; what is proved to fail: C69_background_lost_false: C69 is false of the code: a ray that misses everything is black on the film whatever the lights emit, because `li` is only called when `intersect_p` reports a hit; so with any light that emits towards missed rays the picture differs from `li`. || Proved part: C69_radiance_partial: C69 (part) for a ray on which `intersect` and `intersect_p` agree and which hits something, the film gets the weight times the surface integrator's value; and `SamplerRenderer.li` itself returns the sum of the lights' emission for a ray that misses."
  },
  {
   "property": "C70",
   "status": "partial",
   "theorems": [
    "Verif.Render.Rec.C70_value_partial",
    "Verif.Render.Rec.C70_transmission_lost_false"
   ],
   "note": "The code violates the full claim; what is proved to fail: C70_transmission_lost_false: C70 is false of the code: the transmitted ray contributes nothing. `specular_transmit` takes the second output of `renderer.li`, which is zero without a volume integrator, so removing every refraction from the scene changes no value. || Proved part: C70_value_partial: C70 (part) what the direct lighting and Whitted integrators compute: background for a miss, otherwise the local light, plus (below the depth limit) the factor times the radiance along the mirror ray. Missing: the transmitted ray, `C70_transmission_lost_false`."
  },
  {
   "property": "C71",
   "status": "partial",
   "theorems": [
    "Verif.Shape.C71_sample_partial",
    "Verif.Shape.C71_wrong_vertex_false",
    "Verif.Shape.C71_area",
    "Verif.Shape.C71_uniform_partial"
   ],
   "note": "The code violates the full claim; what is proved to fail: C71_wrong_vertex_false: C71 is false of the code: the second corner is looked up as \"first vertex number plus one\". In a mesh of four vertices the triangle with vertices 0, 2, 3 is sampled at a point off the triangle (off its plane, even). || Proved part: C71_sample_partial: C71 (part) if the triangle's second vertex number is its first plus one, every canonical sample gives a point of the triangle and a unit normal perpendicular to both edges, flipped exactly when the orientation is reversed. Missing: all other triangles, `C71_wrong_vertex_false`. | C71_uniform_partial: C71 (part) the points sampled on a triangle are spread evenly: the mass sent into any set of points is the share of barycentric pairs (an affine chart of the triangle, so the share of area) whose point is in the set. For triangles whose second vertex number is the first plus one; missing: all others, `C71_wrong_vertex_false`."
  },
  {
   "property": "C72",
   "status": "partial",
   "theorems": [
    "Verif.Shape.C72_unshared_partial",
    "Verif.Shape.C72_shared_vertices_false"
   ],
   "note": "The code violates the full claim; what is proved to fail: C72_shared_vertices_false: C72 is false of the code: the lookup ignores the vertex numbers. A triangle that lists three vertices in another order gets the texture coordinates of the wrong vertices, and on a mesh of two triangles sharing an edge, with one pair per vertex as documented, the lookup for the second triangle raises `IndexError`. || Proved part: C72_unshared_partial: C72 (part) the texture coordinates used for a triangle are those of its vertices if its vertex numbers are its positions in the index list (so no vertex is shared). Missing: every other mesh, `C72_shared_vertices_false`."
  },
  {
   "property": "C73",
   "status": "partial",
   "theorems": [
    "Verif.Shape.C73_disk_partial",
    "Verif.Shape.C73_disk_hole_false",
    "Verif.Shape.C73_disk_sector_false",
    "Verif.Shape.C73_sphere_partial",
    "Verif.Shape.C73_sphere_v_false"
   ],
   "note": "The code violates the full claim; what is proved to fail: C73_disk_hole_false: C73 is false for disks with a hole: on the annulus with radii 1/2 and 1 the hit point on the outer edge has `v < 0`, and hit points near the inner edge have no `v` at all (NaN). | C73_disk_sector_false: C73 is false for sectors: on a half disk the reported `dpdu` is half the derivative. | C73_sphere_v_false: C73 is false for `v`: on the complete unit sphere the point (1, 0, 0), half way between the poles, is reported with `v = \u03c0\u00b2/2 \u2248 4.9` (the offset is multiplied by the range instead of divided). || Proved part: C73_disk_partial: C73 (part) for a disk without a hole and a hit off the axis: `u` and `v` are in `[0, 1]`, the parametrisation at `(u, v)` is the hit point, `dpdv` is its derivative in `v`, `dpdu` is its derivative in `u` when the disk is also complete (`phiMax = 2\u03c0`), and `dpdu \u00d7 dpdv` points along +z. Missing: disks with a hole (`C73_disk_hole_false`) and `dpdu` of sectors (`C73_disk_sector_false`). | C73_sphere_partial: C73 (part) for a hit point off the axis of a sphere with `zmin < zmax` and `phiMax > 0`: `u` is in `[0, 1]`; there is a `w` in `[0, 1]` with the parametrisation at `(u, w)` the hit point, `dpdu` and `dpdv` the derivatives there; `dpdu \u00d7 dpdv` points outwards; and `dndu`, `dndv` are the derivatives of the outward unit normal `p / radius`. Missing: the reported `v` is not `w` (`C73_sphere_v_false`)."
  },
  {
   "property": "C74",
   "status": "partial",
   "theorems": [
    "Verif.Shape.C74_disk_partial",
    "Verif.Shape.C74_disk_sector_false",
    "Verif.Shape.C74_disk_normal_false",
    "Verif.Shape.C74_disk_reversed_partial",
    "Verif.Shape.C74_disk_area",
    "Verif.Shape.C74_sphere_false",
    "Verif.Shape.C74_sphere_area"
   ],
   "note": "The code violates the full claim; what is proved to fail: C74_disk_sector_false: C74 is false for sectors: half of the samples of a half disk lie outside it, for example the canonical sample (1/2, 0). | C74_disk_normal_false: C74 is false for the normal: the returned normal is the normalised *position*. On the unit disk in the plane `z = 0`, whose normal is the z axis, the canonical sample (1, 1/2) gets the normal (1, 0, 0), which lies in the disk. | C74_sphere_false: C74 is false for spheres: the canonical sample (0, 0) of the complete unit sphere is the point (0, 0, -3). || Proved part: C74_disk_partial: C74 (part) a complete disk or annulus: every canonical sample gives a point of the disk. Missing: sectors (`C74_disk_sector_false`) and the normal (`C74_disk_normal_false`). | C74_disk_reversed_partial: C74 (part) reversing the orientation of a disk leaves the sampled point alone and reverses the direction returned with it, whatever that direction is; away from the origin of the world that direction is of unit length."
  },
  {
   "property": "C75",
   "status": "partial",
   "theorems": [
    "Verif.Bsdf.C75_single_partial",
    "Verif.Bsdf.C75_two_components_false"
   ],
   "note": "The code violates the full claim; what is proved to fail: C75_two_components_false: The full property is false even in the standard frame: with two identical diffuse components the reported density is half of `pdf`'s and the reported value half of `f`'s. || Proved part: C75_single_partial: Part that holds: with exactly one matching component, itself coherent, a frame along the coordinate axes, and a direction on the side the component is meant for, the sampled density and value are those of `pdf` and `f`. Missing: several matching components, turned frames (see the negations)."
  },
  {
   "property": "C76",
   "status": "partial",
   "theorems": [
    "Verif.Refl.C76_fresnel_iff_partial",
    "Verif.Refl.C76_fresnel_false",
    "Verif.Refl.C76_reversible_false"
   ],
   "note": "The code violates the full claim; what is proved to fail: C76_fresnel_false: The full agreement is false: straight on from air into glass the code's reflectance is not the one of Fresnel's equations (1/25 there). | C76_reversible_false: and therefore so is reversibility: entering and leaving along the same path give different reflectances || Proved part: C76_fresnel_iff_partial: What holds: with the refracted cosine of Snell's law, the code's value agrees with Fresnel's equations exactly when the indices are equal or the light arrives at Brewster's angle (no parallel reflection). Missing: all other angles, because the denominator of the parallel term is wrong."
  },
  {
   "property": "C77",
   "status": "proved",
   "theorems": [
    "Verif.Refl.C77_base",
    "Verif.Refl.C77_density",
    "Verif.Refl.C77_rho"
   ],
   "note": ""
  },
  {
   "property": "C78",
   "status": "proved",
   "theorems": [
    "Verif.Refl.C78_lambertian"
   ],
   "note": ""
  },
  {
   "property": "C79",
   "status": "partial",
   "theorems": [
    "Verif.Refl.C79_transmission_adapter_partial",
    "Verif.Refl.C79_adapter_pdf_false",
    "Verif.Refl.C79_scaled_false"
   ],
   "note": "The code violates the full claim; what is proved to fail: C79_adapter_pdf_false: The adapter's `pdf` is not the density its own `sample_f` reports: for a Lambertian it is zero at every direction sampled. | C79_scaled_false: The scaling adapter never returns: `f` scaled by the given amount is what its documentation promises. || Proved part: C79_transmission_adapter_partial: What holds for the transmission adapter: it exchanges the reflection and transmission flags of a component having exactly one of them and keeps the others, mirrors the incident direction to the other side of the surface, and reports the wrapped component's density and value there. Missing: the adapter's own `pdf` (next theorem)."
  },
  {
   "property": "C80",
   "status": "proved",
   "theorems": [
    "Verif.Refl.C80_coefficients",
    "Verif.Refl.C80_reciprocal",
    "Verif.Refl.C80_nonneg",
    "Verif.Refl.C80_formula",
    "Verif.Refl.C80_smooth"
   ],
   "note": ""
  },
  {
   "property": "C81",
   "status": "proved",
   "theorems": [
    "Verif.Refl.C81_pdf_value",
    "Verif.Refl.C81_half",
    "Verif.Refl.C81_exponent",
    "Verif.Refl.C81_normalised",
    "Verif.Refl.C81_half_follows",
    "Verif.Refl.C81_half_azimuth",
    "Verif.Refl.C81_sample"
   ],
   "note": ""
  },
  {
   "property": "C82",
   "status": "proved",
   "theorems": [
    "Verif.Refl.C82_azimuth",
    "Verif.Refl.C82_azimuth_follows",
    "Verif.Refl.C82_polar_follows",
    "Verif.Refl.C82_factor",
    "Verif.Refl.C82_pdf_value",
    "Verif.Refl.C82_half",
    "Verif.Refl.C82_normalised",
    "Verif.Refl.C82_anisotropic"
   ],
   "note": ""
  },
  {
   "property": "C83",
   "status": "partial",
   "theorems": [
    "Verif.Refl.C83_value",
    "Verif.Refl.C83_attenuation",
    "Verif.Refl.C83_reciprocal",
    "Verif.Refl.C83_nonneg_partial",
    "Verif.Refl.C83_nonneg_false",
    "Verif.Refl.C83_sample"
   ],
   "note": "The code violates the full claim; what is proved to fail: C83_nonneg_false: The value is negative for some pairs of directions on opposite sides (light reflected \"through\" the surface). || Proved part: C83_nonneg_partial: Not negative when both directions are on the same side. Missing: opposite sides, where the sign of the product of cosines survives (next theorem)."
  },
  {
   "property": "C84",
   "status": "proved",
   "theorems": [
    "Verif.Refl.C84_value",
    "Verif.Refl.C84_density",
    "Verif.Refl.C84_reciprocal",
    "Verif.Refl.C84_nonneg",
    "Verif.Refl.C84_sample",
    "Verif.Refl.C84_schlick"
   ],
   "note": ""
  },
  {
   "property": "C85",
   "status": "proved",
   "theorems": [
    "Verif.Refl.C85_remap",
    "Verif.Refl.C85_reciprocal"
   ],
   "note": ""
  },
  {
   "property": "C86",
   "status": "proved",
   "theorems": [
    "Verif.Refl.C86_terminates",
    "Verif.Refl.C86_mean",
    "Verif.Refl.C86_weights"
   ],
   "note": ""
  },
  {
   "property": "C87",
   "status": "partial",
   "theorems": [
    "Verif.Refl.C87_half_frame",
    "Verif.Refl.C87_in_range",
    "Verif.Refl.C87_always_first_entry",
    "Verif.Refl.C87_cell_false"
   ],
   "note": "The code violates the full claim; what is proved to fail: C87_cell_false: The property a table lookup is for is false of the code: the entry read for the difference polar angle is not the one of the cell `[i \u03c0/n, (i+1) \u03c0/n)` containing that angle."
  },
  {
   "property": "C88",
   "status": "proved",
   "theorems": [
    "Verif.Loop.C88_neighbours_linked",
    "Verif.Loop.C88_neighbours_symmetric",
    "Verif.Loop.C88_face_order_irrelevant"
   ],
   "note": ""
  },
  {
   "property": "C89",
   "status": "proved",
   "theorems": [
    "Verif.Loop.C89_refine_manifold",
    "Verif.Loop.C89_four_faces",
    "Verif.Loop.C89_all_levels",
    "Verif.Loop.C89_refine_wellformed",
    "Verif.Loop.C89_refine_oriented",
    "Verif.Loop.C89_vnum_safe"
   ],
   "note": ""
  },
  {
   "property": "C90",
   "status": "proved",
   "theorems": [
    "Verif.Loop.C90_flipped_face_hangs",
    "Verif.Loop.C90_boundary_search_terminates"
   ],
   "note": ""
  },
  {
   "property": "C91",
   "status": "proved",
   "theorems": [
    "Verif.Loop.C91_valence_counts_edges"
   ],
   "note": ""
  },
  {
   "property": "C92",
   "status": "proved",
   "theorems": [
    "Verif.Loop.C92_boundary_ring_ends",
    "Verif.Loop.C92_one_ring_is_the_neighbours"
   ],
   "note": ""
  },
  {
   "property": "C93",
   "status": "proved",
   "theorems": [
    "Verif.Loop.C93_even_flags",
    "Verif.Loop.C93_odd_flags",
    "Verif.Loop.C93_step_good",
    "Verif.Loop.C93_init_good",
    "Verif.Loop.C93_levels_good"
   ],
   "note": ""
  },
  {
   "property": "C94",
   "status": "partial",
   "theorems": [
    "Verif.Loop.C94_interior_limit",
    "Verif.Loop.C94_interior_position_iff",
    "Verif.Loop.C94_boundary_limit",
    "Verif.Loop.C94_boundary_position_iff",
    "Verif.Loop.C94_output_on_limit_surface_false"
   ],
   "note": "The code violates the full claim; what is proved to fail: C94_output_on_limit_surface_false: C94 (violation): on every mesh and at every vertex, interior or boundary, there are control points for which the point `refine` outputs for the vertex is not the limit of subdivision."
  },
  {
   "property": "C95",
   "status": "partial",
   "theorems": [
    "Verif.Loop.C95_boundary_normal_local",
    "Verif.Loop.C95_refine_returns_iff",
    "Verif.Loop.C95_closed_mesh_raises_false",
    "Verif.Loop.C95_output_wellformed",
    "Verif.Loop.C95_interior_tangents",
    "Verif.Loop.C95_interior_normal_local_false"
   ],
   "note": "The code violates the full claim; what is proved to fail: C95_closed_mesh_raises_false: C95 (violation): `refine` raises on every closed mesh. | C95_interior_normal_local_false: C95 (violation): the normal of an interior vertex depends on the vertex before it in the list, because the tangents are added to those of that vertex: for every interior vertex there are two boundary predecessors for which it gets two different normals, one of them the zero vector."
  },
  {
   "property": "C96",
   "status": "proved",
   "theorems": [
    "Verif.Light.C96_point_sample",
    "Verif.Light.C96_point_flux"
   ],
   "note": ""
  },
  {
   "property": "C97",
   "status": "partial",
   "theorems": [
    "Verif.Light.C97_falloff_range",
    "Verif.Light.C97_falloff_monotone",
    "Verif.Light.C97_falloff_angles",
    "Verif.Light.C97_sample_l_iff",
    "Verif.Light.C97_outside_divides_by_zero",
    "Verif.Light.C97_sample_l_false"
   ],
   "note": "The code violates the full claim; what is proved to fail: C97_sample_l_false: C97 the full statement fails: a light at the origin shining along +z, a point on the axis at distance 2."
  },
  {
   "property": "C98",
   "status": "proved",
   "theorems": [
    "Verif.Light.C98_collects_all",
    "Verif.Light.C98_pdf_is_mixture",
    "Verif.Light.C98_pdf_p"
   ],
   "note": ""
  },
  {
   "property": "C99",
   "status": "proved",
   "theorems": [
    "Verif.Light.C99_area_sample"
   ],
   "note": ""
  },
  {
   "property": "C100",
   "status": "proved",
   "theorems": [
    "Verif.Integrator.C100_in_range",
    "Verif.Integrator.C100_one_light_unbiased",
    "Verif.Integrator.C100_all_lights"
   ],
   "note": ""
  },
  {
   "property": "C101",
   "status": "partial",
   "theorems": [
    "Verif.Integrator.C101_delta_light_partial",
    "Verif.Integrator.C101_point_light",
    "Verif.Integrator.C101_bsdf_half_never_contributes",
    "Verif.Integrator.C101_area_light_weighted",
    "Verif.Integrator.C101_area_light_too_dark",
    "Verif.Integrator.C101_area_light_false"
   ],
   "note": "The code violates the full claim; what is proved to fail: C101_area_light_false: C101 the full statement (the estimate of a light that is not a delta light is, on average, the plain estimate) fails: here it is half of it for every sample. || Proved part: C101_delta_light_partial: C101 lights with a delta distribution (point, spot, ...): the estimate is the plain light sample."
  },
  {
   "property": "C102",
   "status": "partial",
   "theorems": [
    "Verif.Light.C102_background",
    "Verif.Light.C102_background_false",
    "Verif.Light.C102_background_partial"
   ],
   "note": "The code violates the full claim; what is proved to fail: C102_background_false: C102 so a ray that leaves a scene without environment light is not always black: one area light suffices. || Proved part: C102_background_partial: C102 it holds for scenes without emitting area lights."
  },
  {
   "property": "C103",
   "status": "partial",
   "theorems": [
    "Verif.Light.C103_only_poles",
    "Verif.Light.C103_sample_false",
    "Verif.Light.C103_const_pdf",
    "Verif.Light.C103_pdf_false"
   ],
   "note": "The code violates the full claim; what is proved to fail: C103_sample_false: C103 hence a constant environment is never sampled with a usable density: whatever the sample, no direction with a density comes out. | C103_pdf_false: C103 `pdf` is not a density over directions: for a constant environment its integral over the sphere is `4\u03c0`."
  },
  {
   "property": "C104",
   "status": "partial",
   "theorems": [
    "Verif.Integrator.C104_unchanged_partial",
    "Verif.Integrator.C104_decays",
    "Verif.Integrator.C104_unchanged_false"
   ],
   "note": "The code violates the full claim; what is proved to fail: C104_unchanged_false: C104 the full statement (rendering does not change the lights) fails with a volume integrator. || Proved part: C104_unchanged_partial: C104 without a volume integrator (the transmittance is one, renderer.py 82) estimating direct light leaves the light unchanged, whatever the sequence of calls."
  },
  {
   "property": "C105",
   "status": "partial",
   "theorems": [
    "Verif.Spectral.C105_order",
    "Verif.Spectral.C105_nonneg_grey",
    "Verif.Spectral.C105_from_rgb_partial",
    "Verif.Spectral.C105_wrong_basis",
    "Verif.Spectral.C105_from_rgb_false"
   ],
   "note": "The code violates the full claim; what is proved to fail: C105_from_rgb_false: C105 pure red becomes a multiple of the magenta basis and pure green of the red one, so the claim is false || Proved part: C105_from_rgb_partial: C105 when red is the (strictly) smallest component the result is the documented decomposition; for other colours the claim is false"
  },
  {
   "property": "C106",
   "status": "partial",
   "theorems": [
    "Verif.Spectral.C106_init_bands",
    "Verif.Spectral.C106_sampled_bands_partial",
    "Verif.Spectral.C106_sampled_bands_false",
    "Verif.Spectral.C106_order",
    "Verif.Spectral.C106_sorted",
    "Verif.Spectral.C106_values_partial"
   ],
   "note": "The code violates the full claim; what is proved to fail: C106_sampled_bands_false: C106 every other band of `from_sampled` ends in the wrong place: it is thirty times too far out || Proved part: C106_sampled_bands_partial: C106 `from_sampled` starts its bands at the right places and its first band is right | C106_values_partial: C106 the samples of `from_sampled`: sample `i` is the mean, over its band, of the spectrum the given data describe (linear between neighbouring wavelengths, constant outside). Proved for the bands that the code uses (right only for `i = 0`, see `C106_sampled_bands_false`) that do not end at one of the given wavelengths."
  },
  {
   "property": "C107",
   "status": "partial",
   "theorems": [
    "Verif.Spectral.C107_constructors_partial",
    "Verif.Spectral.C107_create_false"
   ],
   "note": "The code violates the full claim; what is proved to fail: C107_create_false: C107 `create` never gives a spectrum with the samples of a list: floats are refused, integers give an array of another shape with unset elements || Proved part: C107_constructors_partial: C107 three samples are kept by `from_rgb` and by the constructor, one number fills all three, wrong lengths are refused, and `create` keeps the samples of a spectrum"
  },
  {
   "property": "C108",
   "status": "partial",
   "theorems": [
    "Verif.Volume.C108_phase_partial",
    "Verif.Volume.C108_phase_ignores_asymmetry_false",
    "Verif.Volume.C108_aggregate_phase_false"
   ],
   "note": "The code violates the full claim; what is proved to fail: C108_phase_ignores_asymmetry_false: C108 at time zero every region scatters isotropically whatever its asymmetry parameter, and at time one it does not scatter at all in any direction other than straight ahead | C108_aggregate_phase_false: C108 the phase function of an aggregate of one region is that region's; of two copies of a region it has mass two, so it is no phase function || Proved part: C108_phase_partial: C108 inside, the phase function of a region is the Henyey-Greenstein function of the *time*; it is right only when the time equals the asymmetry parameter; outside a homogeneous region it is zero"
  },
  {
   "property": "C109",
   "status": "proved",
   "theorems": [
    "Verif.Volume.C109_tau",
    "Verif.Volume.C109_miss",
    "Verif.Volume.C109_world_units",
    "Verif.Volume.C109_constant",
    "Verif.Volume.C109_converges",
    "Verif.Volume.C109_step_not_positive"
   ],
   "note": ""
  },
  {
   "property": "C110",
   "status": "proved",
   "theorems": [
    "Verif.Volume.C110_homogeneous",
    "Verif.Volume.C110_density",
    "Verif.Volume.C110_aggregate",
    "Verif.Volume.C110_exponential"
   ],
   "note": ""
  },
  {
   "property": "C111",
   "status": "partial",
   "theorems": [
    "Verif.Texture.C111_bounded_partial",
    "Verif.Texture.C111_gradient_partial",
    "Verif.Texture.C111_gradient_false",
    "Verif.Texture.C111_bounded_false",
    "Verif.Texture.C111_continuous_partial",
    "Verif.Texture.C111_continuous_false"
   ],
   "note": "The code violates the full claim; what is proved to fail: C111_gradient_false: C111 fails: for an odd hash the first term is the constant -1 in place of the negated offset, so the noise does not vanish at the lattice point | C111_bounded_false: C111 fails: the noise leaves `[-1, 1]` (it is below -1.9 at `(60, 47, 119.75)`) | C111_continuous_false: C111 fails: the noise jumps across faces `y = j` because line 163 interpolates with `wz` instead of `wy`; along `x = 0, z = 1/2` the value at `y = 4` is -5/4 while the limit from below is -1/2 || Proved part: C111_bounded_partial: C111 (part) the noise is between -2 and 2 everywhere. Missing: the bound should be 1 (`C111_bounded_false`). | C111_gradient_partial: C111 (part) at a lattice point with an even hash the noise is, near the point, the inner product of the offset with one of Perlin's gradients (so it is symmetric in the offset). Missing: odd hashes (`C111_gradient_false`). | C111_continuous_partial: C111 (part) the noise is a function that is continuous on every beam `j \u2264 y < j+1, k \u2264 z < k+1` of cells (jointly in all three coordinates, across the cell faces in `x`), and on every plane `z = k`, `k` an integer, including across the faces in `y`. Missing: continuity across the other faces, which fails (`C111_continuous_false`)."
  },
  {
   "property": "C112",
   "status": "partial",
   "theorems": [
    "Verif.Texture.C112_turbulence",
    "Verif.Texture.C112_turbulence_bounds",
    "Verif.Texture.C112_octaves",
    "Verif.Texture.C112_fbm_partial",
    "Verif.Texture.C112_fbm_false",
    "Verif.Texture.C112_fade_false"
   ],
   "note": "The code violates the full claim; what is proved to fail: C112_fbm_false: C112 fails: whenever at least one octave is allowed and the screen differentials are at most one unit long, `FBm` raises instead of returning the sum of octaves, e.g. for zero differentials and one octave | C112_fade_false: C112 fails also for the transition between octave counts: the last octave should enter with weight 0 (so that the value changes continuously with the filter width) but enters with weight 0.216 and leaves with weight 0.784 instead of 1 || Proved part: C112_fbm_partial: C112 (part) when no whole octave is wanted `FBm` returns the faded first octave. Missing: every other case raises (`C112_fbm_false`)."
  },
  {
   "property": "C113",
   "status": "partial",
   "theorems": [
    "Verif.Texture.C113_smooth_step_partial",
    "Verif.Texture.C113_smooth_step_false"
   ],
   "note": "The code violates the full claim; what is proved to fail: C113_smooth_step_false: C113 fails: `smooth_step` does not rescale, so it is not 0 at `lo` and 1 at `hi` (with the interval `[0.3, 0.7]` used by `FBm` and `turbulence` it is 0.216 and 0.784), and outside `[0, 1]` it is not even monotone: on `[0, 2]` it runs from 0 through 1 to -4 || Proved part: C113_smooth_step_partial: C113 (part) `smooth_step` is constant below `lo` and above `hi`; it is non-decreasing and between 0 and 1 when `[lo, hi]` is part of `[0, 1]`; for `lo = 0`, `hi = 1` it is 0 below, 1 above and the cubic in between. Missing: the values 0 at `lo` and 1 at `hi` for other intervals (`C113_smooth_step_false`)."
  },
  {
   "property": "C114",
   "status": "partial",
   "theorems": [
    "Verif.Texture.C114_sizes",
    "Verif.Texture.C114_mean_partial",
    "Verif.Texture.C114_mean_false"
   ],
   "note": "The code violates the full claim; what is proved to fail: C114_mean_false: C114 fails for black wrapping: once one axis has a single texel the other rows read by the filter are black, so an all-white 1 \u00d7 2 image becomes grey (1/2) at the next level || Proved part: C114_mean_partial: C114 (part) with repeat or clamp wrapping every level of the pyramid of a `2^a \u00d7 2^b` image has the mean of the image, in particular the single texel of the last level is the mean of the image; with black wrapping the same for square images. Missing: black wrapping of other images (`C114_mean_false`)."
  },
  {
   "property": "C115",
   "status": "partial",
   "theorems": [
    "Verif.Texture.C115_convex",
    "Verif.Texture.C115_constant",
    "Verif.Texture.C115_centers",
    "Verif.Texture.C115_coarse_partial",
    "Verif.Texture.C115_coarse_false",
    "Verif.Texture.C115_orientation_false"
   ],
   "note": "The code violates the full claim; what is proved to fail: C115_coarse_false: C115 fails for black wrapping: the coarsest level is read at the corner of its single texel, so a lookup of a wholly white image over its whole extent returns a quarter | C115_orientation_false: C115 fails for the orientation: in the image that is 1 where `s < 1/2` and 0 elsewhere, a lookup at `(1/4, 3/4)` with width 1/2 covers only texels equal to 1, and returns 0, because level 1 is transposed || Proved part: C115_coarse_partial: C115 (part) a lookup whose width is at least the whole image returns the mean of the image, for repeat and clamp wrapping. Missing: black wrapping (`C115_coarse_false`)."
  },
  {
   "property": "C116",
   "status": "partial",
   "theorems": [
    "Verif.Texture.C116_aniso_partial",
    "Verif.Texture.C116_coarse_partial",
    "Verif.Texture.C116_aniso_false"
   ],
   "note": "The code violates the full claim; what is proved to fail: C116_aniso_false: C116 fails: without `trilinear`, a lookup whose smaller differential (after the eccentricity clamp) is shorter than 2 texture widths but not zero raises, for every image: the elliptical filter calls a function that does not exist. Stated for differentials within the allowed eccentricity. || Proved part: C116_aniso_partial: C116 (part) anisotropic lookups of a trilinear map are isotropic ones of twice the largest differential; without a minor axis (two parallel or zero differentials of which one vanishes) the image is interpolated bilinearly. Missing: lookups with both differentials raise (`C116_aniso_false`). | C116_coarse_partial: C116 (part) without `trilinear`, a lookup whose smaller differential spans at least two texture widths (within the allowed eccentricity) returns the mean of the image, for images whose sides are powers of two (equal ones, or with repeat or clamp wrapping, see `C114_mean_false`)"
  },
  {
   "property": "C117",
   "status": "partial",
   "theorems": [
    "Verif.Texture.C117_separable_partial",
    "Verif.Texture.C117_constant",
    "Verif.Texture.C117_built",
    "Verif.Texture.C117_nonsquare_false"
   ],
   "note": "The code violates the full claim; what is proved to fail: C117_nonsquare_false: C117 fails for images that are not square: the two axes are confused in the first pass, and the constructor raises for every image that is not square and has a side that is not a power of two || Proved part: C117_separable_partial: C117 (part) a square image that is not a power of two wide is resampled to the next power of two; each new texel is the clipped weighted mean of the 4 \u00d7 4 taps around it, the weights being the product of the weights of the two axes, with the wrap mode deciding about taps outside. Missing: images that are not square (`C117_nonsquare_false`)."
  },
  {
   "property": "C118",
   "status": "partial",
   "theorems": [
    "Verif.Texture.C118_uv",
    "Verif.Texture.C118_planar",
    "Verif.Texture.C118_identity3d",
    "Verif.Texture.C118_spherical",
    "Verif.Texture.C118_spherical_still_partial",
    "Verif.Texture.C118_spherical_false"
   ],
   "note": "The code violates the full claim; what is proved to fail: C118_spherical_false: C118 fails: line 87 (and 126) subtracts `s` where `t` is meant, so at `(1, 0, 0)` with a point that does not move the differential of `t` in y is -4 instead of 0 || Proved part: C118_spherical_still_partial: C118 (part) the differentials of `s`, and of `t` in x, vanish when the point does not move. Missing: the one of `t` in y (`C118_spherical_false`)."
  },
  {
   "property": "C119",
   "status": "partial",
   "theorems": [
    "Verif.Texture.C119_mix",
    "Verif.Texture.C119_bilerp",
    "Verif.Texture.C119_uv",
    "Verif.Texture.C119_checker_point",
    "Verif.Texture.C119_checker_3d",
    "Verif.Texture.C119_checker_aa_partial",
    "Verif.Texture.C119_checker_aa_false"
   ],
   "note": "The code violates the full claim; what is proved to fail: C119_checker_aa_false: C119 fails for filters over several checks: wherever the anti-aliased checkerboard of two equal textures of value `c` is filtered, its value is 1 (or not a number) instead of `c`; for instance `c = 1/4` at `(1, 1/2)` with differentials 1/4 || Proved part: C119_checker_aa_partial: C119 (part) with anti-aliasing the value is the point sample when the filter lies inside one check. Missing: filters over several checks (`C119_checker_aa_false`)."
  },
  {
   "property": "C120",
   "status": "partial",
   "theorems": [
    "Verif.Texture.C120_cache_partial",
    "Verif.Texture.C120_cache_false",
    "Verif.Texture.C120_convert_partial",
    "Verif.Texture.C120_nonsquare_false"
   ],
   "note": "The code violates the full claim; what is proved to fail: C120_cache_false: C120 fails for mixed storage types: the key leaves the storage type out, so the second of two textures of the same file with different storage types gets the map of the first, for every way of making maps that distinguishes the types | C120_nonsquare_false: C120 fails for images that are not square: the conversion reads beyond the array and raises, for every image with two different non-zero sides || Proved part: C120_cache_partial: C120 (part) for any history of textures of one storage type the cache is invisible: every texture gets the map its own parameters describe. Missing: histories that mix storage types (`C120_cache_false`). | C120_convert_partial: C120 (part) a square image file is converted texel by texel, in place. Missing: other images (`C120_nonsquare_false`)."
  },
  {
   "property": "C121",
   "status": "proved",
   "theorems": [
    "Verif.Camera.C121_moving",
    "Verif.Camera.C121_ray",
    "Verif.Camera.C121_corners",
    "Verif.Camera.C121_fov",
    "Verif.Camera.C121_projects"
   ],
   "note": ""
  },
  {
   "property": "C122",
   "status": "proved",
   "theorems": [
    "Verif.Camera.C122_perspective",
    "Verif.Camera.C122_orthographic"
   ],
   "note": ""
  },
  {
   "property": "C123",
   "status": "proved",
   "theorems": [
    "Verif.Camera.C123_ray"
   ],
   "note": ""
  },
  {
   "property": "C124",
   "status": "partial",
   "theorems": [
    "Verif.Camera.C124_time_partial",
    "Verif.Camera.C124_environment_false",
    "Verif.Camera.C124_perspective_differential_false"
   ],
   "note": "The code violates the full claim; what is proved to fail: C124_environment_false: C124 fails for the environment camera: whatever the sample and the shutter, the ray has time 0 and its depth is the time it should have; with the shutter open from 1 to 2 the time is outside and the recursion depth of the camera ray starts at 1 or more | C124_perspective_differential_false: C124 fails for the differential rays of the perspective camera: their time is the raw sample time, so with the shutter open from 1 to 2 it is never inside for sample times below 1 || Proved part: C124_time_partial: C124 (part) the rays of `generate_ray` of the projective cameras have a time in the shutter interval, running from its begin to its end with the time of the sample, and depth 0. Missing: the environment camera (`C124_environment_false`) and the differential rays of the perspective camera (`C124_perspective_differential_false`)."
  },
  {
   "property": "C125",
   "status": "partial",
   "theorems": [
    "Verif.Camera.C125_perspective_partial",
    "Verif.Camera.C125_orthographic_partial",
    "Verif.Camera.C125_orthographic_false",
    "Verif.Camera.C125_orthographic_lens_false",
    "Verif.Camera.C125_perspective_false",
    "Verif.Camera.C125_generic_false"
   ],
   "note": "The code violates the full claim; what is proved to fail: C125_orthographic_false: C125 fails for an orthographic camera that is not at the origin: the camera transform is applied twice, so for the moved camera the main ray of `generate_ray_differential` is one unit away from the ray of `generate_ray` | C125_orthographic_lens_false: C125 fails for an orthographic camera with a lens: the origin is shifted along the lens by a pixel instead of turning the direction, so the auxiliary rays are not those of the neighbouring pixels (which start at the same lens point), for every sample | C125_perspective_false: C125 fails for a perspective camera that is not at the origin: the main ray is transformed but the auxiliary rays are left in camera space; for the moved camera they start at the origin while all its rays start at `(1, 0, 0)` | C125_generic_false: C125 fails for the pinhole and environment cameras (the generic implementation): the auxiliary rays are those of the raster points `(1, 0)` and `(0, 1)` at time 0 whatever the sample, because the copies of the sample are empty || Proved part: C125_perspective_partial: C125 (part) the perspective camera at the origin with shutter interval `[0, 1]` returns the ray of the sample and the rays of the two neighbouring pixels, with and without a lens. Missing: other positions of the camera (the auxiliary rays stay in camera space, `C125_perspective_false`) and other shutter intervals (`C124_perspective_differential_false`). | C125_orthographic_partial: C125 (part) the orthographic camera at the origin without a lens returns the ray of the sample and the rays of the two neighbouring pixels, for every shutter interval. Missing: other positions (`C125_orthographic_false`) and lenses (`C125_orthographic_lens_false`)."
  },
  {
   "property": "C126",
   "status": "partial",
   "theorems": [
    "Verif.Camera.C126_pinhole",
    "Verif.Camera.C126_pinhole_unit_false",
    "Verif.Camera.C126_environment"
   ],
   "note": "The code violates the full claim; what is proved to fail: C126_pinhole_unit_false: C126 fails for the promise that directions are normalised: the pinhole direction of film point `(3, 0)` with focal length 4 has length 5"
  },
  {
   "property": "C127",
   "status": "partial",
   "theorems": [
    "Verif.DiffG.C127_copy_partial",
    "Verif.DiffG.C127_copy_false"
   ],
   "note": "The code violates the full claim; what is proved to fail: C127_copy_false: C127 fails: a copy drops the screen differentials (so textures evaluated by a material, which works on a copy, never see a filter width) and recomputes the normal (so a shading normal that was turned to face the viewer turns back), for every geometry || Proved part: C127_copy_partial: C127 (part) a copy has the same point, tangents, normal derivatives, parameters and shape, and for a geometry as the constructor makes it the copy is identical in all fields. Missing: later changes are not copied (`C127_copy_false`)."
  },
  {
   "property": "C128",
   "status": "proved",
   "theorems": [
    "Verif.DiffG.C128_differentials",
    "Verif.DiffG.C128_none"
   ],
   "note": ""
  },
  {
   "property": "C129",
   "status": "partial",
   "theorems": [
    "Verif.Mat.C129_bump_false"
   ],
   "note": "The code violates the full claim; what is proved to fail: C129_bump_false: C129 fails: bump mapping raises for every texture and surface point, and so does `get_bsdf` of every material with a bump map, also inside a mixture"
  },
  {
   "property": "C130",
   "status": "partial",
   "theorems": [
    "Verif.Mat.C130_nonneg_partial",
    "Verif.Mat.C130_nonneg_false"
   ],
   "note": "The code violates the full claim; what is proved to fail: C130_nonneg_false: C130 fails for opacities above one: opacity 2 gives a component with coefficient \u22121, and a sampled value that is negative: light is subtracted || Proved part: C130_nonneg_partial: C130 (part) for every material whose opacities are at most one, all texture values and surface points, the colour coefficients of all components of the BSDF are non-negative. Missing: opacities above one (`C130_nonneg_false`)"
  },
  {
   "property": "C131",
   "status": "proved",
   "theorems": [
    "Verif.Mat.C131_mirror",
    "Verif.Mat.C131_glass",
    "Verif.Mat.C131_matte",
    "Verif.Mat.C131_kdSubsurface",
    "Verif.Mat.C131_total",
    "Verif.Mat.C131_specular"
   ],
   "note": ""
  },
  {
   "property": "C132",
   "status": "proved",
   "theorems": [
    "Verif.Mat.C132_energy",
    "Verif.Mat.C132_opaque",
    "Verif.Mat.C132_transparent"
   ],
   "note": ""
  },
  {
   "property": "C133",
   "status": "partial",
   "theorems": [
    "Verif.Mat.C133_mix_false"
   ],
   "note": "The code violates the full claim; what is proved to fail: C133_mix_false: C133 fails: `get_bsdf` of a mixture raises whenever the BSDF of one of the two materials has a component; it returns a BSDF (with no components) exactly if both are empty, whatever the mixing texture says"
  },
  {
   "property": "C134",
   "status": "proved",
   "theorems": [
    "Verif.Mat.C134_read",
    "Verif.Mat.C134_reject",
    "Verif.Mat.C134_sample",
    "Verif.Mat.C134_comments"
   ],
   "note": ""
  },
  {
   "property": "C135",
   "status": "partial",
   "theorems": [
    "Verif.Mat.C135_first_partial",
    "Verif.Mat.C135_reload_false",
    "Verif.Mat.C135_extension_false"
   ],
   "note": "The code violates the full claim; what is proved to fail: C135_reload_false: C135 fails: after a file was loaded, every further load of that name gives a material without samples, so that evaluating it raises (`None[idx]`); the tree is the one of the first file, also if the second has the same name in another directory, and the other file is not even opened | C135_extension_false: C135 fails: the documented extension `.brdt` (and `.merl`) is rejected whatever the file contains || Proved part: C135_first_partial: C135 (part) in every history of loads, the first load of a file name gives the data of that file (or fails as the file demands). Missing: every later load of the same name (`C135_reload_false`)."
  },
  {
   "property": "C136",
   "status": "partial",
   "theorems": [
    "Verif.Mat.C136_bssrdf_partial",
    "Verif.Mat.C136_subsurface_false"
   ],
   "note": "The code violates the full claim; what is proved to fail: C136_subsurface_false: C136 fails: the subsurface material's `get_bsdf` raises at every point, and so does `get_bssrdf` of the material given by diffuse reflectance and mean free path || Proved part: C136_bssrdf_partial: C136 (part) the subsurface material's BSSRDF carries absorption and reduced scattering scaled by `scale` and the index of refraction, for every point; materials that are not translucent return `None`. Missing: the two statements refuted by `C136_subsurface_false`."
  },
  {
   "property": "C137",
   "status": "partial",
   "theorems": [
    "Verif.MC.C137_uniform_partial",
    "Verif.MC.C137_continuous_false"
   ],
   "note": "The code violates the full claim; what is proved to fail: C137_continuous_false: C137 fails: the map is not continuous. In two of the four sectors (left and bottom) the angle runs backwards: near the corner `u = (0, 1)` of the unit square, samples on one side of the diagonal are mapped near angle `3\u03c0/4` and those on the other side near `5\u03c0/4`, at distance more than 1 however close they are || Proved part: C137_uniform_partial: C137 (part) the points of `concentric_sample_disk` are uniform on the disc: for every radius `\u03c1 \u2264 1` and angles `0 \u2264 \u03b1 \u2264 \u03b2 \u2264 2\u03c0`, the canonical samples mapped within distance `\u03c1` of the centre and to an angle between `\u03b1` and `\u03b2` fill the share of the unit square that this part of the disc has of the disc's area, `\u03c1\u00b2 (\u03b2 - \u03b1) / (2\u03c0)`. Missing: continuity of the map (`C137_continuous_false`)."
  },
  {
   "property": "C138",
   "status": "partial",
   "theorems": [
    "Verif.Shape.C138_shading_partial",
    "Verif.Shape.C138_degenerate_partial",
    "Verif.Shape.C138_hit_partial",
    "Verif.Shape.C138_no_data",
    "Verif.Shape.C138_normals_only_false",
    "Verif.Shape.C138_shared_false",
    "Verif.Shape.C138_wrong_vertices_false"
   ],
   "note": "The code violates the full claim; what is proved to fail: C138_normals_only_false: C138 fails for a mesh with normals but no tangents: the normals are ignored, whatever they are, and the shading normal is the true normal | C138_shared_false: C138 fails for a mesh with one normal per vertex whose triangles share vertices, so that it has fewer than three vertices per triangle: the last triangle always raises an `IndexError`. (Other triangles use the normals of the vertices number `v`, `v + 1`, `v + 2`, not of their corners, see `C138_wrong_vertices_false`.) | C138_wrong_vertices_false: C138 fails for triangles that do not use the vertices in order: there is a mesh of two triangles without shared vertices in which all corners of the first triangle have the normal `z`, but its shading normal is `x` (the normals of the other triangle), at every point of the triangle || Proved part: C138_shading_partial: C138 (part) the shading geometry of a point of a triangle, for meshes with normals and tangents whose triangles do not share vertices, with parameters that are not degenerate and an interpolated normal that does not vanish. Missing: normals without tangents (`C138_normals_only_false`), shared vertices (`C138_shared_false`). | C138_degenerate_partial: C138 (part) if the parameters of the corners are degenerate, so that they do not determine the point, the shading normal is the average of the corner normals, its derivatives are zero, and the frame is still orthonormal | C138_hit_partial: C138 (part) for a ray that hits such a triangle: the shading normal is the normal interpolated at the point that is hit"
  },
  {
   "property": "C139",
   "status": "proved",
   "theorems": [
    "Verif.Shape.C139_bounds",
    "Verif.Shape.C139_hits_inside",
    "Verif.Shape.C139_no_vertices"
   ],
   "note": ""
  },
  {
   "property": "C140",
   "status": "partial",
   "theorems": [
    "Verif.Shape.C140_sample_partial",
    "Verif.Shape.C140_pdf",
    "Verif.Shape.C140_pdf_outside_false",
    "Verif.Shape.C140_visible_false",
    "Verif.Shape.C140_scaled_false"
   ],
   "note": "The code violates the full claim; what is proved to fail: C140_pdf_outside_false: C140 fails for the density of directions that do not meet the sphere: it is the same as in the cone (it should be zero), for every direction whatever | C140_visible_false: C140 fails for points very near the sphere: 0.000006 above the pole of the unit sphere, the point sampled straight below is the far pole, which cannot be seen | C140_scaled_false: C140 fails for a scaled sphere, whose radius in world space is not `self.radius`: the unit sphere scaled by two, seen from (0, 0, 4). Its point (6/5, 0, 8/5) is turned towards that point, but no sample ever goes there. || Proved part: C140_sample_partial: C140 (part) sampling a whole sphere (placed by a rigid transformation) from a point outside: the sampled point lies in front of `pnt` in the sampled direction, on the sphere with the outward normal, and it is turned towards `pnt`; the direction is a unit vector in the cone of directions towards the sphere, and its angle with the axis follows the density reported by `pdf_p`. Missing: points nearer to the sphere than `EPS` (`C140_visible_false`), scaled spheres (`C140_scaled_false`)."
  },
  {
   "property": "C141",
   "status": "proved",
   "theorems": [
    "Verif.Shape.C141_change_of_measure"
   ],
   "note": ""
  },
  {
   "property": "C142",
   "status": "partial",
   "theorems": [
    "Verif.Agg.Lazy.C142_voxel",
    "Verif.Agg.Lazy.C142_complete",
    "Verif.Agg.Lazy.C142_progress",
    "Verif.Agg.Lazy.C142_terminates",
    "Verif.Agg.Lazy.C142_exception_false"
   ],
   "note": "The code violates the full claim; what is proved to fail: C142_exception_false: If refining a primitive raises an exception the lock is never released: from then on no other thread that found the voxel not yet refined returns, whatever happens."
  },
  {
   "property": "C143",
   "status": "partial",
   "theorems": [
    "Verif.Scene.C143_bound",
    "Verif.Scene.C143_simple_answers_partial",
    "Verif.Scene.C143_bvh_answers_partial",
    "Verif.Scene.C143_grid_false",
    "Verif.Scene.C143_shared_false"
   ],
   "note": "The code violates the full claim; what is proved to fail: C143_grid_false: C143 is violated for the grid: a volume that reaches beyond the primitives moves the origin of the voxels but not the primitives stored in them, and a ray that finds its box without the volume misses it with the volume. | C143_shared_false: C143 is violated when an aggregate is shared: the bound of a scene without a volume grows when a second scene with a volume is built on the same aggregate. || Proved part: C143_simple_answers_partial: Building scenes with volumes on a brute-force aggregate changes none of its answers, for rays that keep the box test out of its special case (a `-0.0` component on a face plane, see C02). | C143_bvh_answers_partial: A `BVH` in a scene with a volume still gives a correct nearest-hit answer over the original primitives, and the scene's bound is the smallest box that holds the primitives and the volume. (The conditions are those of C38, and that the ray is not special for the enlarged root box either.)"
  },
  {
   "property": "C144",
   "status": "partial",
   "theorems": [
    "Verif.Integrator.Path.C144_value",
    "Verif.Integrator.Path.C144_roulette",
    "Verif.Integrator.Path.C144_defined",
    "Verif.Integrator.Path.C144_specular_partial",
    "Verif.Integrator.Path.C144_emission_false",
    "Verif.Integrator.Path.C144_attenuation_false"
   ],
   "note": "The code violates the full claim; what is proved to fail: C144_emission_false: C144 is violated: after a diffuse bounce that happens to meet a light source, the light it emits is added although the direct lighting of the first vertex already holds it. | C144_attenuation_false: C144 is violated: the first two segments between vertices are not attenuated by the medium: an absorbing medium between a mirror and the light it shows makes no difference. || Proved part: C144_specular_partial: If every bounce is specular the value is the one path tracing should give."
  },
  {
   "property": "C145",
   "status": "partial",
   "theorems": [
    "Verif.Prim.C145_intersect",
    "Verif.Prim.C145_steps",
    "Verif.Prim.C145_bvh_partial",
    "Verif.Prim.C145_turned_false"
   ],
   "note": "The code violates the full claim; what is proved to fail: C145_turned_false: Violated for turned shapes: a disk that is turned by a quarter turn (which does not change it) is hit by the ray straight down at `(1/2, 0)`, but its world bound holds none of its points, and the box test of the BVH rejects that ray. || Proved part: C145_bvh_partial: From shapes to the BVH: for every list of spheres, disks and triangles (with upright transforms), every cost function, node size and split method for which the construction succeeds with a tree of at most 64 levels, and every ray that does not start on a shape and is not one of the special cases of the box test, `BVH.intersect` gives the nearest point of all the shapes along the ray. Missing: turned and mirrored shapes (`C145_turned_false`), and what is missing in C38."
  },
  {
   "property": "C146",
   "status": "partial",
   "theorems": [
    "Verif.Integrator.Spec.C146_ray",
    "Verif.Integrator.Spec.C146_directions_partial",
    "Verif.Integrator.Spec.C146_flat_partial",
    "Verif.Integrator.Spec.C146_curved_false"
   ],
   "note": "The code violates the full claim; what is proved to fail: C146_curved_false: C146 fails for curved mirrors: the normal turns by `(1, 0, 0)` per pixel, so the mirror image turns by `(2, 0, 0)`; but the bsdf of any material holds a copy of the geometry, which has lost its differentials (`C127_copy_false`), and the offset direction equals the direction || Proved part: C146_directions_partial: C146 (part) the offset directions of a mirror ray are right to first order: along every curve of viewer directions and normals whose derivatives are the differentials of the parent ray and of the shading normal, the mirror image of the viewer direction changes at the rate by which the offset directions differ from the direction. Missing: the shading geometry that materials use never has differentials of its own, so the normal's part is lost (`C146_curved_false`). | C146_flat_partial: C146 (part) for a flat mirror (the normal does not change along the surface) with any material: the bsdf's geometry is a copy (`material.py`), and the offset directions are the mirror images of the parent's offset directions, exactly"
  },
  {
   "property": "C147",
   "status": "partial",
   "theorems": [
    "Verif.Integrator.Spec.C147_ray",
    "Verif.Integrator.Spec.C147_sampled",
    "Verif.Integrator.Spec.C147_directions_partial",
    "Verif.Integrator.Spec.C147_direction_false"
   ],
   "note": "The code violates the full claim; what is proved to fail: C147_direction_false: C147 fails: a camera ray that leans to `+x` by one per pixel meets a flat pane of equal indices straight on; the refracted direction leans to `+x` too, the offset direction of the child ray leans to `-x` || Proved part: C147_directions_partial: C147 (part) along every curve of viewer directions and normals with the right derivatives, the refracted direction changes at a rate of which the program's offset is the exact negative, up to the term with the change of the normal (zero on flat surfaces, and always zero for the copies materials make): the size of the footprint is right there. Missing: the sign (`C147_direction_false`) and the normal's term."
  },
  {
   "property": "C148",
   "status": "partial",
   "theorems": [
    "Verif.Integrator.Spec.C148_reflection",
    "Verif.Integrator.Spec.C148_both_partial",
    "Verif.Integrator.Spec.C148_limit",
    "Verif.Integrator.Spec.C148_record_false"
   ],
   "note": "The code violates the full claim; what is proved to fail: C148_record_false: C148 fails: whatever record the reflected ray leaves behind (`scene.intersect` writes the new hit into the object it is given), the refracted ray of the first hit starts at that record's minimum distance, and its offset origins are moved by that record's differentials || Proved part: C148_both_partial: C148 (part) when no reflection is traced at the hit, or when tracing it leaves the record alone, and the bounces are within the depth limit, the light of the two specular rays is the sum of the two contributions, both made from the record of the hit \u2014 except that the second takes the second output of `renderer.li`. Missing: the record is overwritten when the reflected ray hits something (`C148_record_false`), and the second output is the transmittance, not the radiance (`C70_transmission_lost_false`)."
  },
  {
   "property": "C149",
   "status": "partial",
   "theorems": [
    "Verif.Shape.C149_intersect_p",
    "Verif.Shape.C149_intersect_partial",
    "Verif.Shape.C149_intersect_false",
    "Verif.Shape.C149_object_bound",
    "Verif.Shape.C149_sample",
    "Verif.Shape.C149_uniform",
    "Verif.Shape.C149_area"
   ],
   "note": "The code violates the full claim; what is proved to fail: C149_intersect_false: C149 fails for `intersect`: whenever there is something to report it raises, since it reads an attribute that belongs to spheres || Proved part: C149_intersect_partial: C149 (part) `intersect` reports a miss exactly when `intersect_p` does. Missing: a hit is never reported (`C149_intersect_false`)."
  },
  {
   "property": "C150",
   "status": "partial",
   "theorems": [
    "Verif.Agg.Ids.C150_alone_partial",
    "Verif.Agg.Ids.C150_range_partial",
    "Verif.Agg.Ids.C150_same_false",
    "Verif.Agg.Ids.C150_repeated_false"
   ],
   "note": "The code violates the full claim; what is proved to fail: C150_same_false: C150 fails: any number of threads that enter the constructor together all get the same identifier | C150_repeated_false: C150 fails also later: a thread delayed in its increment while another makes `n` objects turns the counter back to 2, with no thread in a constructor any more; the identifiers 1 to `n` are taken, and all but the first will be handed out again to the objects made afterwards, one at a time || Proved part: C150_alone_partial: C150 (part) as long as constructors do not overlap, by however many threads, the objects get the identifiers 1, 2, 3, \u2026 in the order in which they are made; in particular no two get the same. Missing: overlapping constructors (`C150_same_false`, `C150_repeated_false`). | C150_range_partial: C150 (part) in every execution whatever an identifier is at least 1 and at most the number of objects made up to then, the object itself counted (`r` are the objects made before it)"
  },
  {
   "property": "C151",
   "status": "proved",
   "theorems": [
    "Verif.Xform.C151_decompose",
    "Verif.Xform.C151_singular"
   ],
   "note": ""
  },
  {
   "property": "C152",
   "status": "partial",
   "theorems": [
    "Verif.Xform.C152_stretch_partial",
    "Verif.Xform.C152_translation_partial",
    "Verif.Xform.C152_moving_partial",
    "Verif.Xform.C152_rotation_false",
    "Verif.Xform.C152_inverse_false",
    "Verif.Xform.C152_mirror_false"
   ],
   "note": "The code violates the full claim; what is proved to fail: C152_rotation_false: C152 fails for rotations: an object turned by 90\u00b0 about z in both key frames, moving anywhere, is turned by the angle of cosine 5/13 (about 67\u00b0) at every instant between them, so that it jumps when the motion starts and when it ends | C152_inverse_false: C152 fails: between key frames that both turn by 120\u00b0 about the diagonal the transform half way is no rotation at all and its stored inverse is not its inverse | C152_mirror_false: C152 fails for mirrorings: a mirrored object that moves is not mirrored between the key frames || Proved part: C152_stretch_partial: C152 (part) key frames that translate and stretch but neither rotate nor mirror: at every instant between them the transform is the translation that far between the two translations after the stretch that far between stretches `S\u2080` and `S\u2081`, which are those of the key frames to within 2\u207b\u00b9\u2070\u2070, and it has its inverse. Missing: key frames that rotate (`C152_rotation_false`, `C152_inverse_false`) or mirror (`C152_mirror_false`). | C152_translation_partial: C152 (part) an animation between two translations is the translation that far between them, exactly | C152_moving_partial: C152 (part) so an animated transform from one translation to another is, at every time from start to end, the translation that far between them"
  },
  {
   "property": "C153",
   "status": "partial",
   "theorems": [
    "Verif.Inst.C153_placed_partial",
    "Verif.Inst.C153_agree_partial",
    "Verif.Inst.C153_point_partial",
    "Verif.Inst.C153_construct_false",
    "Verif.Inst.C153_mirrored_false"
   ],
   "note": "The code violates the full claim; what is proved to fail: C153_construct_false: C153 fails: `TransformedPrimitive` cannot be made, because it does not define all methods that are abstract | C153_mirrored_false: C153 fails for mirrored instances: the copy of the record that shading is done with (`shape/__init__.py:86-88`) has the normal of the record reversed, for every shape, placement, hit and instance transform that swaps handedness (surface points with a normal) || Proved part: C153_placed_partial: C153 (part) an instance of a shape, at the time of the ray, answers as the shape itself would if it were placed with the transforms of the instance after its own: the same answer, the same reduced ray and the same record \u2014 position, derivatives, the derivatives of the normal, the normal with its sign, surface parameters, transforms, shape identifier and epsilon \u2014 except that the primitive identifier is the instance's, and that the shape the record refers to (and with it the sign it would give a normal) is the instanced one. Missing: that instances can be made (`C153_construct_false`), refined or asked whether they can be intersected, and copies of the record when the instance mirrors (`C153_mirrored_false`). | C153_agree_partial: C153 (part) for an instance of any primitive whose two tests agree, the two tests of the instance agree | C153_point_partial: C153 (part) for an instance of any primitive that reports the point of the ray at the parameter it leaves as the ray's end, the instance does: the reported point is the point of the ray in the world"
  },
  {
   "property": "C154",
   "status": "partial",
   "theorems": [
    "Verif.Requests.C154_path",
    "Verif.Requests.C154_direct_partial",
    "Verif.Requests.C154_one_light_false"
   ],
   "note": "The code violates the full claim; what is proved to fail: C154_one_light_false: C154 (the other strategy) asking for one light per sample never works: with every scene and every sample, requesting raises. || Proved part: C154_direct_partial: C154 direct lighting with all lights (partial: the one-light strategy of the same integrator fails, see below). For any numbers of samples per light, the loop over all the lights reads its numbers without an index error, six numbers for each sample of each light, no number twice, none of somebody else's request, and in every filled sample all of them are in `[0, 1)`."
  },
  {
   "property": "C155",
   "status": "partial",
   "theorems": [
    "Verif.Kinds.C155_construct",
    "Verif.Kinds.C155_affine",
    "Verif.Kinds.C155_classes",
    "Verif.Kinds.C155_proper_partial",
    "Verif.Kinds.C155_proper_false",
    "Verif.Kinds.C155_equality"
   ],
   "note": "The code violates the full claim; what is proved to fail: C155_proper_false: C155 (violation) the inherited operators do not check: the difference of two properly constructed vectors, or the sum of a point and a vector, can be an object no constructor would make. || Proved part: C155_proper_partial: C155 (partial) subtracting from a point never hands out NaN: with proper operands the result is proper, or the operation raises `ValueError`, which happens exactly when some coordinate subtracts an infinity from itself. The full claim, that no operation makes an object with a NaN coordinate, fails (see below)."
  },
  {
   "property": "C156",
   "status": "proved",
   "theorems": [
    "Verif.Rays.C156_rays_are_values"
   ],
   "note": ""
  },
  {
   "property": "C157",
   "status": "proved",
   "theorems": [
    "Verif.Full.C157_render",
    "Verif.Full.C157_again",
    "Verif.Full.C157_picture"
   ],
   "note": ""
  },
  {
   "property": "C158",
   "status": "partial",
   "theorems": [
    "Verif.Emit.C158_seen_partial"
   ],
   "note": " || Proved part: C158_seen_partial: C158 what a ray sees at its hit. Give primitives with distinct ids to the BVH (compound shapes are refined). If the tree is built and the ray is not one of the special cases of C38, then tracing the ray either finds nothing, and then no part of any given primitive is met before the end of the ray's range; or there are a given primitive `p` and a part `s` of it, the nearest of all parts of all given primitives, such that the light seen towards any `w` is what `p`'s area light emits there, on the side of the normal of `s` at the hit, and the BSDF is made by `p`'s material at that hit with the shading geometry of `s`. Missing: what is missing in C38 (deep trees, special rays)."
  },
  {
   "property": "C159",
   "status": "partial",
   "theorems": [
    "Verif.Files.C159_read_partial",
    "Verif.Files.C159_resample_false"
   ],
   "note": "The code violates the full claim; what is proved to fail: C159_resample_false: C159 is violated: a picture with another size is not resampled, and its fourth channel is kept. Grey pictures cannot be read. || Proved part: C159_read_partial: C159 a picture with sides that are powers of two is read as it is, without its fourth channel. Missing: other sizes (`C159_resample_false`)."
  },
  {
   "property": "C160",
   "status": "partial",
   "theorems": [
    "Verif.Files.C160_gonio_partial",
    "Verif.Files.C160_pictures_false"
   ],
   "note": "The code violates the full claim; what is proved to fail: C160_pictures_false: C160 is violated: whatever the picture file, a projection light cannot be made; a goniophotometric light is equally bright in all directions and at all distances; an environment light is the constant one; and sampling a distant light raises. || Proved part: C160_gonio_partial: C160 a goniophotometric light is seen in the direction of its position, with a shadow ray that reaches from the point to the light. Missing: the pattern and the distance (`C160_pictures_false`)."
  },
  {
   "property": "C161",
   "status": "partial",
   "theorems": [
    "Verif.Rho.C161_sum",
    "Verif.Rho.C161_hd_bounds",
    "Verif.Rho.C161_hh_bounds",
    "Verif.Rho.C161_unbiased_false",
    "Verif.Rho.C161_frame_false"
   ],
   "note": "The code violates the full claim; what is proved to fail: C161_unbiased_false: C161 is violated: the mean of the estimate over the samples is not the light reflected: for `f = |cos \u03b8i|` it is `\u03c0/2`, and the light reflected is `2\u03c0/3`. | C161_frame_false: C161 is violated: the reflectance depends on how the surface lies in the world: the same surface seen along its normal has reflectance `\u03c0` facing up and `0` facing sideways."
  },
  {
   "property": "C162",
   "status": "partial",
   "theorems": [
    "Verif.System.C162_init",
    "Verif.System.C162_clean",
    "Verif.System.C162_options",
    "Verif.System.C162_fresh_false",
    "Verif.System.C162_guard_false"
   ],
   "note": "The code violates the full claim; what is proved to fail: C162_fresh_false: C162 is violated: stopping and starting again does not give a fresh system: transforms and coordinate systems of the previous use are still there. | C162_guard_false: C162 is violated: calls made while the system is not started are not refused: transforms can be changed, the rendering options raise `AttributeError` in place of `RuntimeError`, and after `world_begin` the system can no longer be started (although it never was)."
  },
  {
   "property": "C163",
   "status": "proved",
   "theorems": [
    "Verif.Whitted.C163_li",
    "Verif.Whitted.C163_specular",
    "Verif.Whitted.C163_matte",
    "Verif.Whitted.C163_matte_close"
   ],
   "note": ""
  },
  {
   "property": "C164",
   "status": "proved",
   "theorems": [
    "Verif.Whitted.C164_agree"
   ],
   "note": ""
  },
  {
   "property": "C165",
   "status": "proved",
   "theorems": [
    "Verif.Sampler.Unbiased.C165_stratified_1d",
    "Verif.Sampler.Unbiased.C165_stratified_1d_variance",
    "Verif.Sampler.Unbiased.C165_stratified_2d",
    "Verif.Sampler.Unbiased.C165_stratified_2d_variance",
    "Verif.Sampler.Unbiased.C165_latin_1d",
    "Verif.Sampler.Unbiased.C165_latin_2d",
    "Verif.Sampler.Unbiased.C165_error"
   ],
   "note": ""
  },
  {
   "property": "C166",
   "status": "proved",
   "theorems": [
    "Verif.Agg.C166_counts",
    "Verif.Agg.C166_total",
    "Verif.Agg.C166_cubes"
   ],
   "note": ""
  },
  {
   "property": "C167",
   "status": "proved",
   "theorems": [
    "Verif.Full.C167_superposition",
    "Verif.Full.C167_scale",
    "Verif.Full.C167_uniform"
   ],
   "note": ""
  },
  {
   "property": "C168",
   "status": "partial",
   "theorems": [
    "Verif.Picture.C168_li_partial",
    "Verif.Picture.C168_sample_partial",
    "Verif.Picture.C168_picture_partial"
   ],
   "note": " || Proved part: C168_li_partial: C168 the radiance of a ray: no exception, and the light is what the scene sends along the ray | C168_sample_partial: C168 one sample: whatever was rendered before, if the ray of the sample's image position is fine the value that reaches the film is the light the scene sends along that ray; the visibility test, the search and the integrator raise no exception. | C168_picture_partial: C168 the picture. A scene of matte triangles under point lights, any camera position, field of view, sampling window and numbers of samples: rendering it puts exactly one sample into every cell of every pixel of the window, each with the light that the scene sends to the eye from the direction of that image position, and every pixel of the picture written is the filter-weighted mean of the samples under its filter. Missing: samples that are not `Fine`, trees of more than 64 levels."
  },
  {
   "property": "C169",
   "status": "partial",
   "theorems": [
    "Verif.Mirrors.C169_li_partial",
    "Verif.Mirrors.C169_sample_partial",
    "Verif.Mirrors.C169_picture_partial",
    "Verif.Mirrors.C169_turned_false"
   ],
   "note": "The code violates the full claim; what is proved to fail: C169_turned_false: C169 fails for every level mirror whose texture runs along the y axis instead (so that turning the scene by a quarter changes the picture): whatever the random numbers, the ray that is followed is not the one the mirror throws back, unless the two horizontal components happen to be equal in size. (`BSDF.l2w` is not the inverse of `BSDF.w2l`, `C48_round_trip_false`.) || Proved part: C169_li_partial: C169 the radiance along a ray: no exception, and the light is what the scene sends along the ray, mirrors included, up to the depth limit of the integrator. Missing: mirrors that are not `Level` (`C169_turned_false`), rays that are not `Fine`. | C169_sample_partial: C169 one sample: whatever was rendered before, if the ray of the sample's image position is fine the value that reaches the film is the light the scene sends along that ray; no exception is raised, and `maxDepth` nested calls are enough. | C169_picture_partial: C169 the picture: a scene of matte triangles and mirrors under point lights. Every cell of every pixel of the window gets exactly one sample with the light that the scene sends to the eye from there, mirrors included, and every pixel of the picture is the filter-weighted mean of the samples under its filter. Missing: mirrors that are not `Level`, samples that are not `Fine`, trees of more than 64 levels."
  },
  {
   "property": "C170",
   "status": "partial",
   "theorems": [
    "Verif.Volume.C170_homogeneous_partial",
    "Verif.Volume.C170_exponential_partial",
    "Verif.Volume.C170_aggregate",
    "Verif.Volume.C170_aggregate_holds",
    "Verif.Volume.C170_miss_partial",
    "Verif.Volume.C170_mirrored_false",
    "Verif.Volume.C170_moved_false"
   ],
   "note": "The code violates the full claim; what is proved to fail: C170_mirrored_false: C170 is violated by a mirrored region: the mirror image of the unit box absorbs at (-1, 0, 0), outside its own world bound | C170_moved_false: C170 is violated by a region that has only been moved: a ray that never enters its world bound is attenuated || Proved part: C170_homogeneous_partial: C170 (part) a homogeneous region that is placed without rotation or reflection acts only inside its world bound. Missing: other placements (`C170_mirrored_false`). | C170_exponential_partial: C170 (part) the same for exponential densities | C170_miss_partial: C170 (part) a ray that never enters the world bound of a homogeneous region that is not transformed passes through without attenuation. Missing: transformed regions (`C170_moved_false`)."
  },
  {
   "property": "C171",
   "status": "partial",
   "theorems": [
    "Verif.Spectral.C171_startup",
    "Verif.Spectral.C171_rgb_tables_partial",
    "Verif.Spectral.C171_cie_tables_false",
    "Verif.Spectral.C171_luminance_false",
    "Verif.Spectral.C171_xyz",
    "Verif.Spectral.C171_to_rgb"
   ],
   "note": "The code violates the full claim; what is proved to fail: C171_cie_tables_false: C171 is violated by the colour matching tables: every one of their thirty samples is the integral from the start of its band to the end of the data at 830 nm, divided by the width of the band | C171_luminance_false: C171 is violated: the spectrum that is one everywhere should have luminance one (the data give 0.9994), but its `y()` is above sixteen || Proved part: C171_rgb_tables_partial: C171 (part) the fourteen tables for colours are right: every sample is the mean over its band of the spectrum which the data describe"
  },
  {
   "property": "C172",
   "status": "partial",
   "theorems": [
    "Verif.Integrator.C172_near_point",
    "Verif.Integrator.C172_mean_partial",
    "Verif.Integrator.C172_irradiance",
    "Verif.Integrator.C172_matte_partial",
    "Verif.Integrator.C172_matte_false"
   ],
   "note": "The code violates the full claim; what is proved to fail: C172_matte_false: C172 fails for every such surface and light: wherever the light's contribution is not zero, the mean is below the exact value || Proved part: C172_mean_partial: C172 the mean over the two numbers that choose the point on the light is the integral, over the solid angle under which the sphere is seen, of the reflected light: each direction once, whatever the visibility. Missing: the factor of the multiple-importance weight (see C101), and a ring at the edge of the sphere, where the code's test for a hit fails, that gives no light. | C172_matte_partial: C172 a matte surface under a spherical light which is wholly above it and which nothing hides: the mean of the estimates against the exact value `E = R L cos \u03b1 r\u00b2/D\u00b2`. It never exceeds `E (1 - 1/(400000 r\u00b2))`, and falls short of that by no more than the fraction `4 (1 - cos \u03b2)\u00b2`, where `\u03b2` is half the angle under which the light is seen. Missing: equality with `E`, see `C172_matte_false`."
  },
  {
   "property": "C173",
   "status": "partial",
   "theorems": [
    "Verif.Integrator.C173_mean_partial",
    "Verif.Integrator.C173_wrong_vertex_false"
   ],
   "note": "The code violates the full claim; what is proved to fail: C173_wrong_vertex_false: C173 fails for triangles whose second vertex number does not follow the first: this light, a proper mesh of one triangle that `create_triangle_mesh` accepts, lights nothing, whatever the surface and whatever it emits, although a matte surface below it that faces it should receive light from every one of its points. || Proved part: C173_mean_partial: C173 an area light made of triangles no two of which are behind each other as seen from `p`: the mean, over the three numbers that choose the triangle and the point on it, is the sum over the triangles of the integral over their surface of the light that arrives from there and is reflected, with the cosine at the light over the squared distance: each visible point once, whatever the number and sizes of the triangles. Missing: the factor of the multiple-importance weight (see C101), and triangles whose second vertex number does not follow the first (see `C173_wrong_vertex_false`)."
  },
  {
   "property": "C174",
   "status": "partial",
   "theorems": [
    "Verif.Rnd.C174_strata_partial",
    "Verif.Rnd.C174_weights_partial",
    "Verif.Rnd.C174_distribution",
    "Verif.Rnd.C174_upper_end_false",
    "Verif.Rnd.C174_power_false",
    "Verif.Rnd.C174_row_false"
   ],
   "note": "The code violates the full claim; what is proved to fail: C174_upper_end_false: C174 is violated in the strict sense: two stratified samples from the draws `0` and `1 - 2^-53` (the largest number below 1 that `np.random.rand` gives): the second one is 1, outside the half-open unit interval and its stratum. | C174_power_false: C174 is violated for tiny densities: their squares underflow, and the weight is NaN although both densities are positive | C174_row_false: C174 is violated in two dimensions: the row is computed from the sampled point, `15 / 22 * 22` is rounded to less than 15, and the sample is taken from the empty row 14: the result is NaN. (The draw `2^-53` is one that `np.random.rand` gives.) || Proved part: C174_strata_partial: C174 rounded stratified samples: the `i`-th of `n` lies between the rounded ends of its stratum, so all are between 0 and 1 and in ascending order. Missing: that the upper end is excluded (`C174_upper_end_false`). | C174_weights_partial: C174 rounded multiple-importance weights are fractions whenever they are numbers"
  },
  {
   "property": "C175",
   "status": "partial",
   "theorems": [
    "Verif.BVH.C175_box_test",
    "Verif.BVH.C175_construction",
    "Verif.BVH.C175_queries_partial",
    "Verif.BVH.C175_margin",
    "Verif.BVH.C175_edge_false"
   ],
   "note": "The code violates the full claim; what is proved to fail: C175_edge_false: C175 is violated at the edge of a box: the ray meets the box at the parameter 1, where the primitive reports its hit, but in binary64 `49 * (1 / 49) < 1` and the hierarchy of this one primitive answers that nothing is hit. || Proved part: C175_queries_partial: C175 queries, every operation of the builder and of the box test rounded: for every list of primitives and every constructed hierarchy at most 64 levels high, and every ray without a `-0.0` component, if each primitive's own box passes the box test whenever the primitive is hit before the ray's limit, then `intersect` gives a correct nearest-hit answer over the original primitives and `intersect_p` a correct any-hit answer. Missing: the condition on the primitives' own boxes (see `C175_margin` and `C175_edge_false`)."
  },
  {
   "property": "C176",
   "status": "proved",
   "theorems": [
    "Verif.Film.C176_sums",
    "Verif.Film.C176_picture",
    "Verif.Film.C176_order",
    "Verif.Film.C176_weight",
    "Verif.Film.C176_window",
    "Verif.Film.C176_table",
    "Verif.Film.C176_order_matters",
    "Verif.Film.C176_add_sample",
    "Verif.Film.C176_footprint"
   ],
   "note": ""
  },
  {
   "property": "C177",
   "status": "partial",
   "theorems": [
    "Verif.Sampler.C177_scan",
    "Verif.Sampler.C177_tiling",
    "Verif.Sampler.C177_offset_window_false",
    "Verif.Sampler.C177_power_of_two_tasks",
    "Verif.Sampler.C177_task_scan",
    "Verif.Sampler.C177_own_pixel",
    "Verif.Sampler.C177_time",
    "Verif.Sampler.C177_time_from_zero",
    "Verif.Sampler.C177_task_border_false",
    "Verif.Sampler.C177_pixel_end_false",
    "Verif.Sampler.C177_time_false"
   ],
   "note": "The code violates the full claim; what is proved to fail: C177_offset_window_false: C177 also in rounded arithmetic no task gets a sampler when the window starts at 1 or later (C25) | C177_task_border_false: C177 is violated by 49 tasks on an image of 49 \u00d7 1 pixels: task 0 should get pixel 0, but its right border, computed in binary64, is `1 - 2^-53`; the scan steps over it and never ends: after any number of calls of `generate` the next one still does not return `False`. | C177_pixel_end_false: C177 is violated in the strict sense of C24: at pixel 1 the largest draw below 1 gives the position 2, in the next pixel | C177_time_false: C177 is violated in the strict sense of C24: five samples without jitter and a shutter interval of length zero at time 3: one sample gets a time before the shutter opens"
  },
  {
   "property": "C178",
   "status": "proved",
   "theorems": [
    "Verif.FullR.C178_render",
    "Verif.FullR.C178_picture",
    "Verif.FullR.C178_between",
    "Verif.FullR.C178_extent"
   ],
   "note": ""
  },
  {
   "property": "C179",
   "status": "partial",
   "theorems": [
    "Verif.Loop.C179_none",
    "Verif.Loop.C179_surface",
    "Verif.Loop.C179_manifold",
    "Verif.Loop.C179_bad_index",
    "Verif.Loop.C179_unused_point_false"
   ],
   "note": "The code violates the full claim; what is proved to fail: C179_unused_point_false: C179 (violated) a point that no face uses is harmless for a mesh, but here it makes the constructor raise (or hang at an earlier vertex): no surface comes back."
  },
  {
   "property": "C180",
   "status": "proved",
   "theorems": [
    "Verif.Shape.C180_found",
    "Verif.Shape.C180_reported",
    "Verif.Shape.C180_not_watertight"
   ],
   "note": ""
  },
  {
   "property": "C181",
   "status": "proved",
   "theorems": [
    "Verif.TriScene.C181_scene",
    "Verif.TriScene.C181_small_scene"
   ],
   "note": ""
  },
  {
   "property": "C182",
   "status": "partial",
   "theorems": [
    "Verif.XformR.C182_point",
    "Verif.XformR.C182_vector",
    "Verif.XformR.C182_normal",
    "Verif.XformR.C182_affine",
    "Verif.XformR.C182_compose",
    "Verif.XformR.C182_ray",
    "Verif.XformR.C182_translate",
    "Verif.XformR.C182_translate_inverse",
    "Verif.XformR.C182_translate_back",
    "Verif.XformR.C182_scale",
    "Verif.XformR.C182_scale_back",
    "Verif.XformR.C182_total",
    "Verif.XformR.C182_scale_inverse_false",
    "Verif.XformR.C182_box_false",
    "Verif.XformR.C182_back_false"
   ],
   "note": "The code violates the full claim; what is proved to fail: C182_scale_inverse_false: C182 A scaling times its inverse is not the identity, in no order of additions: factor 49. | C182_box_false: C182 A transformed box need not contain the images of its points: already the identity (translation by zero) moves the upper corner `2^-60` of a box that begins at `-1` down to zero. | C182_back_false: C182 Translated there and back, a point need not be where it was: `1`, translated by `2^60`, comes back as `0`."
  },
  {
   "property": "C183",
   "status": "partial",
   "theorems": [
    "Verif.GeomR.C183_normalize",
    "Verif.GeomR.C183_unit",
    "Verif.GeomR.C183_frame",
    "Verif.GeomR.C183_normalized_frame",
    "Verif.GeomR.C183_face_forward",
    "Verif.GeomR.C183_tiny_false"
   ],
   "note": "The code violates the full claim; what is proved to fail: C183_tiny_false: C183 A vector that is not zero need not get unit length: for `(2^-600, 0, 0)` the squared length underflows and the vector is returned as it is."
  },
  {
   "property": "C184",
   "status": "partial",
   "theorems": [
    "Verif.SelfHit.C184_exact",
    "Verif.SelfHit.C184_self",
    "Verif.SelfHit.C184_scene",
    "Verif.SelfHit.C184_acne_false",
    "Verif.SelfHit.C184_leak_false"
   ],
   "note": "The code violates the full claim; what is proved to fail: C184_acne_false: C184 The offset is not enough when the hit is close: a ray from a point `10^-9` above a triangle hits it and the mirrored ray, back to the side it came from, is reported to hit the same triangle again. | C184_leak_false: C184 The offset is too much when the hit is far: a triangle that is closer to the point than a thousandth of the distance of the hit is passed by (here a sheet half a unit above a floor seen from a height of 1000: the floor is lit through the sheet)."
  },
  {
   "property": "C185",
   "status": "proved",
   "theorems": [
    "Verif.ShadowR.C185_target",
    "Verif.ShadowR.C185_sample",
    "Verif.ShadowR.C185_light",
    "Verif.ShadowR.C185_scene"
   ],
   "note": ""
  },
  {
   "property": "C186",
   "status": "proved",
   "theorems": [
    "Verif.FirstR.C186_first",
    "Verif.FirstR.C186_miss",
    "Verif.FirstR.C186_picture",
    "Verif.FirstR.C186_small_scene"
   ],
   "note": ""
  },
  {
   "property": "C187",
   "status": "proved",
   "theorems": [
    "Verif.CamR.C187_perspective",
    "Verif.CamR.C187_pixel",
    "Verif.CamR.C187_orthographic",
    "Verif.CamR.C187_total"
   ],
   "note": ""
  },
  {
   "property": "C188",
   "status": "proved",
   "theorems": [
    "Verif.MatteR.C188_lambert",
    "Verif.MatteR.C188_normal",
    "Verif.MatteR.C188_triangle",
    "Verif.MatteR.C188_shadow",
    "Verif.MatteR.C188_scene",
    "Verif.MatteR.C188_black",
    "Verif.MatteR.C188_total"
   ],
   "note": ""
  },
  {
   "property": "C189",
   "status": "proved",
   "theorems": [
    "Verif.MatteP.C189_ray",
    "Verif.MatteP.C189_background",
    "Verif.MatteP.C189_picture"
   ],
   "note": ""
  },
  {
   "property": "C190",
   "status": "proved",
   "theorems": [
    "Verif.DiskR.C190_hit",
    "Verif.DiskR.C190_miss",
    "Verif.DiskR.C190_parallel",
    "Verif.DiskR.C190_p"
   ],
   "note": ""
  },
  {
   "property": "C191",
   "status": "proved",
   "theorems": [
    "Verif.SphereR.C191_enters",
    "Verif.SphereR.C191_leaves",
    "Verif.SphereR.C191_range",
    "Verif.SphereR.C191_passes_by",
    "Verif.SphereR.C191_p"
   ],
   "note": ""
  },
  {
   "property": "C192",
   "status": "proved",
   "theorems": [
    "Verif.FresnelR.C192_accurate",
    "Verif.FresnelR.C192_le_one",
    "Verif.FresnelR.C192_negative"
   ],
   "note": ""
  },
  {
   "property": "C193",
   "status": "proved",
   "theorems": [
    "Verif.CylR.C193_p",
    "Verif.CylR.C193_near",
    "Verif.CylR.C193_far",
    "Verif.CylR.C193_neither",
    "Verif.CylR.C193_passes_by"
   ],
   "note": ""
  },
  {
   "property": "C194",
   "status": "proved",
   "theorems": [
    "Verif.SphereParts.C194_near",
    "Verif.SphereParts.C194_far",
    "Verif.SphereParts.C194_neither"
   ],
   "note": ""
  },
  {
   "property": "C195",
   "status": "proved",
   "theorems": [
    "Verif.MCR.C195_unit",
    "Verif.MCR.C195_accurate",
    "Verif.MCR.C195_disc",
    "Verif.MCR.C195_concentric",
    "Verif.MCR.C195_triangle",
    "Verif.MCR.C195_cone"
   ],
   "note": ""
  },
  {
   "property": "C196",
   "status": "proved",
   "theorems": [
    "Verif.MixScene.C196_limit_triangle",
    "Verif.MixScene.C196_limit_sphere",
    "Verif.MixScene.C196_limit_disk",
    "Verif.MixScene.C196_scene",
    "Verif.MixScene.C196_small_scene",
    "Verif.MixScene.C196_total"
   ],
   "note": ""
  },
  {
   "property": "C197",
   "status": "proved",
   "theorems": [
    "Verif.FirstMixed.C197_first",
    "Verif.FirstMixed.C197_miss",
    "Verif.FirstMixed.C197_picture",
    "Verif.FirstMixed.C197_small_scene"
   ],
   "note": ""
  },
  {
   "property": "C198",
   "status": "proved",
   "theorems": [
    "Verif.SelfQ.C198_exact_sphere",
    "Verif.SelfQ.C198_exact_disk",
    "Verif.SelfQ.C198_outwards",
    "Verif.SelfQ.C198_across",
    "Verif.SelfQ.C198_returns",
    "Verif.SelfQ.C198_sphere",
    "Verif.SelfQ.C198_disk"
   ],
   "note": ""
  },
  {
   "property": "C199",
   "status": "proved",
   "theorems": [
    "Verif.MipR.C199_mean",
    "Verif.MipR.C199_pyramid",
    "Verif.MipR.C199_levels",
    "Verif.MipR.C199_constant",
    "Verif.MipR.C199_bilinear",
    "Verif.MipR.C199_range",
    "Verif.MipR.C199_trilinear",
    "Verif.MipR.C199_centers",
    "Verif.MipR.C199_coarse"
   ],
   "note": ""
  },
  {
   "property": "C200",
   "status": "proved",
   "theorems": [
    "Verif.DiffR.C200_coefficients",
    "Verif.DiffR.C200_reciprocal",
    "Verif.DiffR.C200_smooth",
    "Verif.DiffR.C200_accurate"
   ],
   "note": ""
  },
  {
   "property": "C201",
   "status": "proved",
   "theorems": [
    "Verif.HgR.C201_cosine",
    "Verif.HgR.C201_direction"
   ],
   "note": ""
  },
  {
   "property": "C202",
   "status": "proved",
   "theorems": [
    "Verif.NoiseR.C202_noise",
    "Verif.NoiseR.C202_periodic",
    "Verif.NoiseR.C202_lattice"
   ],
   "note": ""
  },
  {
   "property": "C203",
   "status": "proved",
   "theorems": [
    "Verif.QuatR.C203_to_transform",
    "Verif.QuatR.C203_slerp",
    "Verif.QuatR.C203_animated"
   ],
   "note": ""
  },
  {
   "property": "C204",
   "status": "proved",
   "theorems": [
    "Verif.MatteM.C204_shadow",
    "Verif.MatteM.C204_ray",
    "Verif.MatteM.C204_background",
    "Verif.MatteM.C204_picture"
   ],
   "note": ""
  },
  {
   "property": "C205",
   "status": "proved",
   "theorems": [
    "Verif.BlinnR.C205_half",
    "Verif.BlinnR.C205_pdf",
    "Verif.BlinnR.C205_sample",
    "Verif.BlinnR.C205_geometric"
   ],
   "note": ""
  },
  {
   "property": "C206",
   "status": "proved",
   "theorems": [
    "Verif.SpotR.C206_range",
    "Verif.SpotR.C206_monotone",
    "Verif.SpotR.C206_accurate",
    "Verif.SpotR.C206_direction",
    "Verif.SpotR.C206_edge"
   ],
   "note": ""
  },
  {
   "property": "C207",
   "status": "partial",
   "theorems": [
    "Verif.MarchR.C207_terminates",
    "Verif.MarchR.C207_sum",
    "Verif.MarchR.C207_nonneg",
    "Verif.MarchR.C207_stuck_false",
    "Verif.MarchR.C207_start",
    "Verif.MarchR.C207_constant"
   ],
   "note": "The code violates the full claim; what is proved to fail: C207_stuck_false: C207 for steps that are tiny against the distance of the first sample the march never ends: the step is lost in rounding, the position stays where it is"
  },
  {
   "property": "C208",
   "status": "partial",
   "theorems": [
    "Verif.PhaseR.C208_accurate",
    "Verif.PhaseR.C208_exact",
    "Verif.PhaseR.C208_forward_false"
   ],
   "note": "The code violates the full claim; what is proved to fail: C208_forward_false: C208 closer to one it fails: for `g = 1 - 2^-30` straight ahead the denominator is zero although the exact phase function is finite"
  },
  {
   "property": "C209",
   "status": "proved",
   "theorems": [
    "Verif.PhaseR.C209_mie",
    "Verif.PhaseR.C209_isotropic",
    "Verif.PhaseR.C209_rayleigh"
   ],
   "note": ""
  },
  {
   "property": "C210",
   "status": "proved",
   "theorems": [
    "Verif.FilterR.C210_triangle",
    "Verif.FilterR.C210_triangle_accurate",
    "Verif.FilterR.C210_gaussian",
    "Verif.FilterR.C210_gaussian_accurate"
   ],
   "note": ""
  }
 ]
}