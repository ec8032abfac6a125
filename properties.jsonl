{"id": "C01", "title": "Box union is the smallest enclosing box", "statement": "Starting from BBox(), any sequence of union() calls with points and boxes yields the least axis-aligned box that contains every point and every box that was added; the result does not depend on the order or repetition of the calls, BBox() is the identity, and Union(a, b) returns the same box without changing its arguments.", "quantifier": "all finite sequences of points/boxes, all coordinates (including infinite ones), all orders", "why_tests_cant": "leastness and order independence quantify over every sequence and every competing box", "anchors": ["pytracer/geometry/__init__.py::BBox.__init__", "pytracer/geometry/__init__.py::BBox.union", "pytracer/geometry/__init__.py::BBox.Union", "pytracer/geometry/__init__.py::BBox.inside"]}
{"id": "C02", "title": "Ray/box slab test is exact", "statement": "BBox.intersect_p(r) returns [True, t0, t1] exactly when some parameter in [r.mint, r.maxt] puts the ray inside the closed box, and then [t0, t1] is exactly the set of such parameters; otherwise it returns [False, 0, 0]. This holds for rays parallel to an axis too (either sign of zero) whenever the origin is not on a face plane of that axis, and when it is, the answer never loses a true hit.", "quantifier": "all boxes, all ray origins, directions (zero components and both signed zeros included) and parameter ranges", "why_tests_cant": "culling must be right for every ray; one wrongly rejected ray in 10^9 is a visible hole and IEEE infinities/NaNs arise only on measure-zero inputs", "anchors": ["pytracer/geometry/__init__.py::BBox.intersect_p", "pytracer/geometry/__init__.py::Ray.__call__"]}
{"id": "C03", "title": "Box equality and inequality agree", "statement": "For any two boxes, a != b is the negation of a == b; in particular a != a is False.", "quantifier": "all pairs of boxes", "why_tests_cant": "must hold for every pair; a test on one degenerate (point) box passes", "anchors": ["pytracer/geometry/__init__.py::BBox.__eq__", "pytracer/geometry/__init__.py::BBox.__ne__"]}
{"id": "C04", "title": "Box queries and measures", "statement": "overlaps(a,b) holds exactly when non-empty boxes a and b share a point (and is symmetric); inside is exactly closed membership; expand(d) contains exactly the points within d of the box in the max norm; maximum_extent returns an axis whose extent is at least every other extent; surface_area and volume are non-negative and monotone under union; lerp stays inside the box for parameters in [0,1], hits the corners at 0/1, and offset inverts it; bounding_sphere contains the whole box.", "quantifier": "all boxes, points, deltas and interpolation parameters", "why_tests_cant": "geometric containments quantify over every point of space", "anchors": ["pytracer/geometry/__init__.py::BBox.overlaps", "pytracer/geometry/__init__.py::BBox.inside", "pytracer/geometry/__init__.py::BBox.expand", "pytracer/geometry/__init__.py::BBox.maximum_extent", "pytracer/geometry/__init__.py::BBox.surface_area", "pytracer/geometry/__init__.py::BBox.volume", "pytracer/geometry/__init__.py::BBox.lerp", "pytracer/geometry/__init__.py::BBox.offset", "pytracer/geometry/__init__.py::BBox.bounding_sphere"]}
{"id": "C05", "title": "Coordinate frame construction", "statement": "coordinate_system(v) for any unit v returns (v, v2, v3), three mutually orthogonal unit vectors with v3 = v x v2; for the zero vector it returns the standard basis; it never divides by zero for a non-zero v.", "quantifier": "all vectors", "why_tests_cant": "orthonormality at every direction, including near-degenerate ones where the branch on |x|>|y| matters", "anchors": ["pytracer/geometry/utility.py::coordinate_system"]}
{"id": "C06", "title": "Vector helpers", "statement": "normalize returns a unit vector parallel to and in the direction of any non-zero vector and leaves the zero vector alone; face_forward(n, v) returns n or -n and never makes a negative dot product with v; cross is orthogonal to both operands, anti-commutative and satisfies Lagrange's identity; length is a norm (zero only at zero).", "quantifier": "all vectors", "why_tests_cant": "universally quantified identities", "anchors": ["pytracer/geometry/utility.py::normalize", "pytracer/geometry/utility.py::face_forward", "pytracer/geometry/__init__.py::Vector.cross", "pytracer/geometry/__init__.py::Vector.sq_length", "pytracer/geometry/__init__.py::Vector.normalize"]}
{"id": "C07", "title": "Every transform carries its true inverse", "statement": "For every transform built from translate, scale (non-zero factors), rotate_x/y/z, rotate (non-zero axis), look_at (non-degenerate frame), orthographic, to_transform of a unit quaternion, composition and inverse(), the matrix m and the matrix m_inv multiply to the identity in both orders.", "quantifier": "all expression trees over the constructors, all parameters", "why_tests_cant": "an unbounded space of compositions", "anchors": ["pytracer/transform/__init__.py::Transform.__mul__", "pytracer/transform/__init__.py::Transform.inverse", "pytracer/transform/__init__.py::Transform.translate", "pytracer/transform/__init__.py::Transform.scale", "pytracer/transform/__init__.py::Transform.rotate", "pytracer/transform/__init__.py::Transform.look_at", "pytracer/transform/quat.py::to_transform"]}
{"id": "C08", "title": "Composition and undoing of transforms on points, vectors and normals", "statement": "(t1*t2)(x) = t1(t2(x)) for points (under affine transforms), vectors and normals, composition is associative with identity, and t.inverse()(t(x)) = x for every affine transform that carries its inverse.", "quantifier": "all affine transforms, all points, vectors, normals", "why_tests_cant": "universally quantified algebraic law", "anchors": ["pytracer/transform/__init__.py::Transform.__call__", "pytracer/transform/__init__.py::Transform.__mul__", "pytracer/transform/__init__.py::Transform.inverse"]}
{"id": "C09", "title": "Normals stay perpendicular", "statement": "If a normal n is perpendicular to a vector v then t(n) is perpendicular to t(v); more strongly dot(t(n), t(v)) = dot(n, v), for every transform that carries its true inverse.", "quantifier": "all transforms, normals and vectors", "why_tests_cant": "must hold under every non-uniform scale/shear", "anchors": ["pytracer/transform/__init__.py::Transform.__call__"]}
{"id": "C10", "title": "Transforming a ray commutes with evaluating it", "statement": "t(r) keeps mint, maxt, depth and time and t(r)(s) = t(r(s)) for every parameter s under affine t, so hit parameters found in object space are valid in world space.", "quantifier": "all affine transforms, rays and parameters", "why_tests_cant": "universally quantified", "anchors": ["pytracer/transform/__init__.py::Transform.__call__", "pytracer/geometry/__init__.py::Ray.__call__"]}
{"id": "C11", "title": "Transformed boxes stay conservative", "statement": "For every transform t and box b, t(b) contains t(p) for every point p of b (so transformed bounds can be used for culling).", "quantifier": "all affine transforms, all boxes, all points in the box", "why_tests_cant": "containment over all points of space; axis-preserving tests pass", "anchors": ["pytracer/transform/__init__.py::Transform.__call__", "pytracer/shape/__init__.py::Shape.world_bound"]}
{"id": "C12", "title": "look_at places and orients the camera", "statement": "look_at(pos, look, up) maps the camera-space origin to pos, maps the camera +z axis to the unit direction from pos to look, and is an isometry, whenever up is not parallel to the viewing direction.", "quantifier": "all positions, targets and up vectors", "why_tests_cant": "orientation must be right for every viewpoint; the symmetric viewpoints usually tested hide a transpose", "anchors": ["pytracer/transform/__init__.py::Transform.look_at"]}
{"id": "C13", "title": "Rotations preserve geometry and handedness is a parity", "statement": "rotate_x/y/z and rotate preserve dot products of vectors, fix their axis and add angles; swaps_handedness is True exactly for negative determinant, is False for rotations and translations, and for composed invertible transforms is the exclusive-or of the two.", "quantifier": "all angles, axes, transforms", "why_tests_cant": "universally quantified", "anchors": ["pytracer/transform/__init__.py::Transform.rotate", "pytracer/transform/__init__.py::Transform.rotate_x", "pytracer/transform/__init__.py::Transform.rotate_y", "pytracer/transform/__init__.py::Transform.rotate_z", "pytracer/transform/__init__.py::Transform.swaps_handedness"]}
{"id": "C14", "title": "Animated transform end points", "statement": "An AnimatedTransform applied to a ray, point or vector at any time at or before its start uses the start transform, at any time at or after its end uses the end transform, keeps the ray's time, and if both key frames are equal it is constant in time.", "quantifier": "all times, key frames and arguments", "why_tests_cant": "all times, including the boundary instants", "anchors": ["pytracer/transform/__init__.py::AnimatedTransform.__call__", "pytracer/transform/__init__.py::AnimatedTransform.interpolate"]}
{"id": "C15", "title": "Animated bounds cover the motion", "statement": "motion_bounds(b, use_inv) encloses b transformed by the (inverse, if use_inv) transform at each of the sampled times, and for a non-animated transform it encloses b transformed by exactly the transform requested.", "quantifier": "all animated transforms, boxes, both values of use_inv", "why_tests_cant": "quantifies over transforms and points", "anchors": ["pytracer/transform/__init__.py::AnimatedTransform.motion_bounds"]}
{"id": "C16", "title": "Quaternion rotations", "statement": "to_transform of any unit quaternion is a rotation (orthogonal with determinant 1) and q and -q give the same transform; from_transform recovers, up to sign, the quaternion of any rotation built by to_transform; slerp returns unit quaternions and hits its end points at t=0 and t=1.", "quantifier": "all unit quaternions and t in [0,1]", "why_tests_cant": "identity-rotation tests do not see the trace or axis-selection branches", "anchors": ["pytracer/transform/quat.py::to_transform", "pytracer/transform/quat.py::from_transform", "pytracer/transform/quat.py::from_arr", "pytracer/transform/quat.py::slerp"]}
{"id": "C17", "title": "1D distribution: continuous sampling inverts the CDF", "statement": "For a Distribution1D over any non-negative table with positive sum and any u in (0,1), sample_cont(u) returns x in [0,1] inside a cell with positive weight whose CDF value is exactly u, a density equal to that cell's value divided by the mean, and x is monotone in u; the density integrates to one.", "quantifier": "all table sizes and values, all u", "why_tests_cant": "zero-weight cells, equal CDF entries and end cells for every table", "anchors": ["pytracer/montecarlo/distribution.py::Distribution1D.__init__", "pytracer/montecarlo/distribution.py::Distribution1D.sample_cont"]}
{"id": "C18", "title": "1D distribution: discrete sampling picks each cell with its weight", "statement": "sample_dis(u) returns an in-range index whose weight is positive for u in (0,1); the set of u that select index i is an interval of length weight_i / total and the reported probability equals that length; probabilities sum to one.", "quantifier": "all tables, all u", "why_tests_cant": "an exact measure statement over a continuum", "anchors": ["pytracer/montecarlo/distribution.py::Distribution1D.sample_dis"]}
{"id": "C19", "title": "2D distribution: samples are points of the unit square consistent with pdf", "statement": "Distribution2D.sample_cont(u0,u1) returns a point of [0,1]^2 together with a density equal to pdf() at that point.", "quantifier": "all 2D tables and all u0, u1", "why_tests_cant": "quantifies over tables and a continuum of samples", "anchors": ["pytracer/montecarlo/distribution.py::Distribution2D.sample_cont", "pytracer/montecarlo/distribution.py::Distribution2D.pdf"]}
{"id": "C20", "title": "Multiple importance weights partition unity", "statement": "balance_heuristic(nf,f,ng,g)+balance_heuristic(ng,g,nf,f)=1 and the same for power_heuristic whenever at least one density is positive; each weight is in [0,1], and scaling both densities leaves the weights unchanged.", "quantifier": "all sample counts and densities", "why_tests_cant": "universally quantified; bias from a wrong weight is invisible to tolerance tests", "anchors": ["pytracer/montecarlo/utility.py::balance_heuristic", "pytracer/montecarlo/utility.py::power_heuristic"]}
{"id": "C21", "title": "Direction and area samplers land on their domain", "statement": "For every pair of canonical samples: uniform_sample_hemisphere returns a unit vector with z >= 0, uniform_sample_sphere a unit vector, uniform_sample_disk and concentric_sample_disk a point of the closed unit disk, uniform_sample_triangle barycentrics that are non-negative and sum to at most one, and the matching *_pdf functions are positive and normalise over their domain; cosine_sample_hemisphere returns a unit vector with z >= 0.", "quantifier": "all u1, u2 in [0,1]", "why_tests_cant": "range statements over a continuum", "anchors": ["pytracer/montecarlo/utility.py::uniform_sample_hemisphere", "pytracer/montecarlo/utility.py::uniform_sample_sphere", "pytracer/montecarlo/utility.py::uniform_sample_disk", "pytracer/montecarlo/utility.py::concentric_sample_disk", "pytracer/montecarlo/utility.py::uniform_sample_triangle", "pytracer/montecarlo/utility.py::cosine_sample_hemisphere", "pytracer/montecarlo/utility.py::uniform_sample_cone"]}
{"id": "C22", "title": "Stratified samples fill every stratum once", "statement": "stratified_sample_1d/2d return exactly n (nx*ny) values, the i-th lying in the i-th stratum of [0,1) (row-major in 2D) and strictly below 1, whatever the random draws and whether or not jitter is on; without jitter they are the stratum centres.", "quantifier": "all counts and all random draws in [0,1)", "why_tests_cant": "holds for every random sequence", "anchors": ["pytracer/sampler/utility.py::stratified_sample_1d", "pytracer/sampler/utility.py::stratified_sample_2d"]}
{"id": "C23", "title": "Latin hypercube samples are Latin", "statement": "latin_hypercube_1d(n) and both coordinates of latin_hypercube_2d(n) hold exactly one value in each of the n equal strata of [0,1), for every sequence of random draws and every shuffle.", "quantifier": "all n, all random draws, all permutations chosen by the shuffle", "why_tests_cant": "permutation invariant over all shuffles", "anchors": ["pytracer/sampler/utility.py::latin_hypercube_1d", "pytracer/sampler/utility.py::latin_hypercube_2d"]}
{"id": "C24", "title": "The stratified sampler visits each pixel once", "statement": "Repeated generate() on a StratifiedSampler over a non-empty integer window fills, in row-major order, one full batch of xs*ys samples per pixel of the window, with image coordinates inside that pixel, and then returns False forever; the number of True results is the number of pixels.", "quantifier": "all windows, sample counts, random draws and call histories", "why_tests_cant": "a whole-history property of a stateful generator for every window", "anchors": ["pytracer/sampler/sampler/stratified.py::StratifiedSampler.generate"]}
{"id": "C25", "title": "Sub-windows tile the image", "statement": "compute_subwindow(i, n) over i = 0..n-1 gives windows that are pairwise disjoint, lie in the image and together cover each pixel exactly once, so no pixel is rendered twice or skipped by parallel tasks.", "quantifier": "all image rectangles and all task counts", "why_tests_cant": "holds for every resolution and every task count", "anchors": ["pytracer/sampler/sampler/__init__.py::Sampler.compute_subwindow", "pytracer/sampler/sampler/stratified.py::StratifiedSampler.get_subsampler"]}
{"id": "C26", "title": "Sample layout offsets", "statement": "Sample.add_1d/add_2d return consecutive distinct indices, and each request of count n gets its own array of n (2n) entries; arrays for different requests never overlap and duplicate(n) gives n samples with the same shape whose value arrays are not shared.", "quantifier": "all sequences of requests", "why_tests_cant": "every history of requests", "anchors": ["pytracer/sampler/sample.py::Sample"]}
{"id": "C27", "title": "A sample updates exactly the pixels under its filter footprint", "statement": "ImageFilm.add_sample never indexes outside the pixel array or the filter table, for every sample position; it changes exactly the pixels of the crop window whose centre is within the filter half-width of the sample, and leaves all others unchanged.", "quantifier": "all films, filters, sample positions (in or outside the image)", "why_tests_cant": "index safety at every boundary position", "anchors": ["pytracer/film/film.py::ImageFilm.add_sample"]}
{"id": "C28", "title": "Film accumulation is order independent", "statement": "The accumulated image after any multiset of samples and splats depends only on the multiset, not on the order in which samples arrive or are divided among tasks.", "quantifier": "all finite sample sequences and permutations", "why_tests_cant": "all schedules", "anchors": ["pytracer/film/film.py::ImageFilm.add_sample", "pytracer/film/film.py::ImageFilm.splat"]}
{"id": "C29", "title": "Concurrent film updates lose nothing", "statement": "When several tasks add samples concurrently, every interleaving of their pixel reads and writes yields the same sums as running them sequentially.", "quantifier": "all interleavings of any number of tasks", "why_tests_cant": "schedules cannot be enumerated by tests", "anchors": ["pytracer/film/film.py::ImageFilm.add_sample"]}
{"id": "C30", "title": "Written image is the filtered average", "statement": "write_image produces for each pixel max(0, weighted colour sum / weight sum) + scale * splat when the weight is non-zero and only the splat otherwise; with non-negative filter weights every pixel is a convex combination of the sample colours that reached it.", "quantifier": "all sample histories", "why_tests_cant": "convexity over all histories", "anchors": ["pytracer/film/film.py::ImageFilm.write_image"]}
{"id": "C31", "title": "Sample extent covers the film", "statement": "get_sample_extent returns an integer rectangle such that every sample that can affect any pixel of the crop window has coordinates inside it; get_pixel_extent is the crop window itself, non-empty, inside the image for crop fractions in [0,1].", "quantifier": "all resolutions, crop windows, filter widths", "why_tests_cant": "rounding at all boundaries", "anchors": ["pytracer/film/film.py::ImageFilm.get_sample_extent", "pytracer/film/film.py::ImageFilm.get_pixel_extent", "pytracer/film/film.py::ImageFilm.__init__"]}
{"id": "C32", "title": "Reconstruction filters", "statement": "Box, triangle, Gaussian, Mitchell and Lanczos filters are symmetric in x and y, separable, vanish (box excepted) at the edge of their support, non-negative where documented (box, triangle, Gaussian), and Mitchell's 1D kernel is continuous and satisfies the partition of unity for every B, C with the given normalisation.", "quantifier": "all positions and filter parameters", "why_tests_cant": "continuum of positions and parameters", "anchors": ["pytracer/filter/filter.py::BoxFilter", "pytracer/filter/filter.py::TriangleFilter", "pytracer/filter/filter.py::GaussianFilter", "pytracer/filter/filter.py::MitchellFilter"]}
{"id": "C33", "title": "Full refinement returns every leaf exactly once", "statement": "For any primitive whose refinement tree is finite, full_refine appends exactly the intersectable leaves of that tree, each once, and nothing else, and terminates.", "quantifier": "all refinement trees", "why_tests_cant": "unbounded trees", "anchors": ["pytracer/aggregate/primitive.py::Primitive.full_refine"]}
{"id": "C34", "title": "Brute-force aggregate finds the nearest hit", "statement": "SimpleAggregate.intersect reports a hit exactly when some primitive is hit inside [mint, maxt], the reported intersection is the nearest one, r.maxt is its parameter; intersect_p agrees with intersect on whether there is a hit.", "quantifier": "all primitive lists and rays", "why_tests_cant": "every order of primitives and hit distances", "anchors": ["pytracer/aggregate/aggregate.py::SimpleAggregate.intersect", "pytracer/aggregate/aggregate.py::SimpleAggregate.intersect_p"]}
{"id": "C35", "title": "BVH construction keeps every primitive exactly once", "statement": "For every split method, maximum leaf size and non-empty list of primitives, building a BVHAccel finishes, its ordered primitive array is a permutation of the refined input, and every primitive lies in exactly one leaf range.", "quantifier": "all primitive lists, bounds, split methods and leaf sizes", "why_tests_cant": "all recursion shapes", "anchors": ["pytracer/aggregate/accelerator/bvh.py::BVHAccel.__init__", "pytracer/aggregate/accelerator/bvh.py::BVHAccel._recursive_build"]}
{"id": "C36", "title": "BVH bounds are conservative at every node", "statement": "Every node's bounds enclose the bounds of every primitive below it, in the tree and in the flattened array, and world_bound() encloses the whole scene.", "quantifier": "all trees built", "why_tests_cant": "all recursion shapes", "anchors": ["pytracer/aggregate/accelerator/bvh.py::BVHAccel._recursive_build", "pytracer/aggregate/accelerator/bvh.py::BVHAccel._flatten_tree", "pytracer/aggregate/accelerator/bvh.py::BVHAccel.world_bound"]}
{"id": "C37", "title": "Flattened BVH is a faithful layout", "statement": "The flat node array contains each tree node exactly once in depth-first order, the first child of an interior node at index+1 and the second at the stored offset, all offsets in range, total_nodes entries.", "quantifier": "all trees", "why_tests_cant": "all tree shapes", "anchors": ["pytracer/aggregate/accelerator/bvh.py::BVHAccel._flatten_tree"]}
{"id": "C38", "title": "BVH traversal agrees with brute force", "statement": "BVHAccel.intersect returns a hit exactly when some primitive would be hit by testing all of them, and the hit is a nearest one; intersect_p returns exactly whether one exists; both terminate and never read outside the arrays.", "quantifier": "all scenes, all rays", "why_tests_cant": "culling must be right for every ray and every tree", "anchors": ["pytracer/aggregate/accelerator/bvh.py::BVHAccel.intersect", "pytracer/aggregate/accelerator/bvh.py::BVHAccel.intersect_p", "pytracer/aggregate/accelerator/bvh.py::BVHAccel._intersect_p"]}
{"id": "C39", "title": "Grid voxel addressing", "statement": "GridAccel maps every point to voxel coordinates inside the grid, offset() is a bijection between grid coordinates and 0..nv-1, each primitive is stored in every voxel its bounds overlap, and the voxel counts per axis are within 1..64.", "quantifier": "all bounds, points, primitives", "why_tests_cant": "index safety at every boundary", "anchors": ["pytracer/aggregate/aggregate.py::GridAccel"]}
{"id": "C40", "title": "Triangle intersection is sound and complete", "statement": "Triangle.intersect reports a hit with parameter t exactly when the triangle is non-degenerate, the ray is not parallel to its plane, and the ray at t in [mint, maxt] is a point of the closed triangle; the returned point is r(t), lies in the triangle and in its world bound; intersect_p agrees with intersect (without alpha texture).", "quantifier": "all triangles and rays", "why_tests_cant": "barycentric boundary decisions for every ray", "anchors": ["pytracer/shape/triangle.py::Triangle.intersect", "pytracer/shape/triangle.py::Triangle.intersect_p", "pytracer/shape/triangle.py::Triangle.world_bound"]}
{"id": "C41", "title": "Sphere intersection", "statement": "Sphere.intersect reports a parameter within [mint, maxt] at which the ray is on the sphere and inside the z/phi limits, it is the smallest such parameter, and a miss means none exists except grazing rays whose discriminant is at most EPS; intersect_p agrees; the hit lies in object_bound.", "quantifier": "all radii, clip limits and rays", "why_tests_cant": "roots ordering and clipping for all rays", "anchors": ["pytracer/shape/sphere.py::Sphere.intersect", "pytracer/shape/sphere.py::Sphere.intersect_p", "pytracer/shape/sphere.py::Sphere.object_bound"]}
{"id": "C42", "title": "Disk intersection", "statement": "Disk.intersect reports exactly the point where the ray (unless nearly parallel to the disk: object-space |d.z| < EPS) meets the plane z = height when it lies within the annulus and the angular limit and the parameter is within [mint, maxt]; intersect_p agrees; the hit is within object_bound.", "quantifier": "all disks and rays", "why_tests_cant": "all boundary radii", "anchors": ["pytracer/shape/disk.py::Disk.intersect", "pytracer/shape/disk.py::Disk.intersect_p"]}
{"id": "C43", "title": "Triangle mesh refinement and validation", "statement": "TriangleMesh.refine yields exactly ntris triangles, the i-th using vertex indices 3i..3i+2; create_triangle_mesh raises an exception, without building anything, whenever an index is out of range, and otherwise every triangle refers only to existing vertices.", "quantifier": "all vertex/index arrays", "why_tests_cant": "all malformed inputs", "anchors": ["pytracer/shape/triangle.py::TriangleMesh.refine", "pytracer/shape/triangle.py::create_triangle_mesh"]}
{"id": "C44", "title": "Loop subdivision weights are affine", "statement": "Every subdivision rule (one-ring, boundary, edge and limit rules) uses weights that sum to one, so a mesh with all vertices at the same point stays there and subdivision commutes with affine maps; weights are non-negative so new vertices stay in the convex hull.", "quantifier": "all valences and rings", "why_tests_cant": "all valences", "anchors": ["pytracer/shape/loopsubdiv.py::LoopSubdiv.beta", "pytracer/shape/loopsubdiv.py::LoopSubdiv.weight_one_ring", "pytracer/shape/loopsubdiv.py::LoopSubdiv.weight_boundary", "pytracer/shape/loopsubdiv.py::LoopSubdiv.gamma"]}
{"id": "C45", "title": "BSDF component selection by flags", "statement": "A BSDF's f, pdf, sample_f and num_components consider exactly the components whose type flags are all contained in the requested flags; sample_f always picks a matching component in range, each with equal probability, and returns black/zero pdf when none matches.", "quantifier": "all component lists, flags and samples", "why_tests_cant": "all flag combinations", "anchors": ["pytracer/reflection/bsdf.py::BSDF.sample_f", "pytracer/reflection/bsdf.py::BSDF.pdf", "pytracer/reflection/bsdf.py::BSDF.f", "pytracer/reflection/bdf/bdf.py::BDF.match_flag"]}
{"id": "C46", "title": "Fresnel reflectances are fractions", "statement": "fr_diel and fr_cond evaluated through the Fresnel classes return, for all cosines in [-1,1] and positive indices, values in [0,1], with total internal reflection giving exactly 1.", "quantifier": "all cosines and refractive indices", "why_tests_cant": "continuum of parameters", "anchors": ["pytracer/reflection/fresnel.py", "pytracer/reflection/utility.py::fr_diel", "pytracer/reflection/utility.py::fr_cond"]}
{"id": "C47", "title": "Specular directions obey the laws of reflection and refraction", "statement": "SpecularReflection.sample_f returns the mirror direction, in the same hemisphere, unit if wo is; SpecularTransmission.sample_f returns a unit direction in the opposite hemisphere obeying Snell's law with the interface's indices on the side wo comes from, or black on total internal reflection.", "quantifier": "all outgoing directions and index pairs", "why_tests_cant": "continuum of directions", "anchors": ["pytracer/reflection/bdf/bdf.py::SpecularReflection.sample_f", "pytracer/reflection/bdf/bdf.py::SpecularTransmission.sample_f"]}
{"id": "C48", "title": "Shading frame conversions are mutually inverse", "statement": "BSDF.l2w(BSDF.w2l(v)) = v and BSDF.w2l(BSDF.l2w(v)) = v for the orthonormal shading frame, so local sampling returns world directions of the same length.", "quantifier": "all frames and vectors", "why_tests_cant": "universally quantified; axis-aligned frames hide swapped components", "anchors": ["pytracer/reflection/bsdf.py::BSDF.w2l", "pytracer/reflection/bsdf.py::BSDF.l2w"]}
{"id": "C49", "title": "Parameter queues are FIFO per type", "statement": "For any history of pushes and enum() calls on a Param, each typed queue returns its parameters in the order they were pushed, each once, independent of operations on other types.", "quantifier": "all operation histories", "why_tests_cant": "every history", "anchors": ["pytracer/interface/parameter.py::Param"]}
{"id": "C50", "title": "Attribute and transform scoping", "statement": "After attribute_begin ... attribute_end (and transform_begin ... transform_end), properly nested, the current transforms and graphics state equal those before the begin, whatever transform calls were made in between.", "quantifier": "all properly nested call sequences", "why_tests_cant": "every nesting and call history", "anchors": ["pytracer/interface/api.py::attribute_begin", "pytracer/interface/api.py::attribute_end", "pytracer/interface/api.py::transform_begin"]}
{"id": "C51", "title": "Each generated sample reaches the film once, sanitised", "statement": "In a render task each sample produced by the sampler is added to the film exactly once, and the radiance added is never NaN, never has infinite luminance and never has luminance below -EPS: such values are replaced by black, all others are passed through unchanged.", "quantifier": "all samplers, radiance values and batch structures", "why_tests_cant": "every radiance value incl. NaN/inf", "anchors": ["pytracer/renderer/renderer.py::SamplerRendererTask"]}
{"id": "C52", "title": "Recursion depth is bounded", "statement": "The direct lighting, Whitted and path integrators stop: along any chain of specular bounces ray depth strictly increases and no more than max_depth levels (for the path integrator max_depth bounces, hence max_depth + 1 vertices) are evaluated, whatever the scene.", "quantifier": "all scenes and ray trees", "why_tests_cant": "termination on every scene (hall of mirrors)", "anchors": ["pytracer/integrator/surface/direct.py::DirectLightingIntegrator.li", "pytracer/integrator/surface/whitted.py::WhittedIntegrator.li", "pytracer/integrator/surface/path.py::PathIntegrator.li"]}
{"id": "C53", "title": "Integer rounding helpers", "statement": "next_pow_2(n) is the least power of two >= n, is_pow_2 is True exactly on powers of two for positive input, round_pow_2(n) is the power of two nearest to n on the logarithmic scale, and ftoi/ctoi/rtoi are floor/ceiling/round.", "quantifier": "all positive integers / reals", "why_tests_cant": "all inputs", "anchors": ["pytracer/utility/utility.py::next_pow_2", "pytracer/utility/utility.py::is_pow_2", "pytracer/utility/utility.py::round_pow_2"]}
{"id": "C54", "title": "Shadow ray segment", "statement": "VisibilityTester.set_segment(p1, eps1, p2, eps2, time) builds a ray that covers exactly the points of the segment from p1 to p2, shortened by distance eps1 at p1 and by the fraction eps2 of its length at p2, so that with positive eps1, eps2 neither end point is covered; unoccluded is exactly that no scene geometry has a point on that shortened segment.", "quantifier": "all point pairs and offsets", "why_tests_cant": "continuum of point pairs", "anchors": ["pytracer/light/utility.py::VisibilityTester"]}
{"id": "C55", "title": "Volume aggregates", "statement": "An AggregateVolume's absorption, scattering and emission are the sums over its regions, its optical depth is additive over adjacent segments for homogeneous regions, and intersect_p returns the smallest interval containing every region's interval and hits exactly when some region is hit.", "quantifier": "all region lists and rays", "why_tests_cant": "all lists", "anchors": ["pytracer/volume/volume.py::AggregateVolume", "pytracer/volume/volume.py::HomogeneousVolumeDensity"]}
{"id": "C56", "title": "Phase functions", "statement": "phase_isotrophic, phase_rayleigh, phase_hg (|g|<1), phase_schlick are non-negative, depend only on the angle (symmetric in the two directions), and normalise over the sphere.", "quantifier": "all directions and g", "why_tests_cant": "continuum", "anchors": ["pytracer/volume/utility.py"]}
{"id": "C57", "title": "Noise and mip-map tables are indexed in range", "statement": "Noise lookups index the 512-entry permutation table in range for every integer lattice cell, are zero at lattice points; MIPMap.texel in repeat and clamp modes always reads in range at every level, and each pyramid level is the box average of the finer one; resampling weights sum to one.", "quantifier": "all coordinates, levels and image sizes", "why_tests_cant": "negative and huge coordinates", "anchors": ["pytracer/texture/utility.py::noise", "pytracer/texture/texture/image.py", "pytracer/texture/utility.py::MIPMap"]}
{"id": "C58", "title": "Spectrum values behave like vectors of samples", "statement": "RGB to XYZ conversion and y() agree (y() is the Y component), is_black holds exactly when every sample is below EPS, clip puts every sample in the given range and is idempotent, lerp interpolates and arithmetic acts per sample; averaging sampled data over a wavelength interval gives a value between the smallest and largest datum and does not change the caller's arrays.", "quantifier": "all spectra and sample tables", "why_tests_cant": "all tables", "anchors": ["pytracer/spectral/spectrum.py"]}
{"id": "C59", "title": "Copying a box", "statement": "BBox.from_bbox(b) equals b for every box b, including the empty default box.", "quantifier": "all boxes", "why_tests_cant": "the default box is the one input a hand-written test forgets", "anchors": ["pytracer/geometry/__init__.py::BBox.from_bbox", "pytracer/geometry/__init__.py::BBox.__init__"]}
{"id": "C60", "title": "Spherical coordinates", "statement": "spherical_direction(sin theta, cos theta, phi) is a unit vector, spherical_theta/spherical_phi of a unit vector lie in [0,pi] and [0,2pi], and the two conversions are mutually inverse.", "quantifier": "all angles and unit vectors", "why_tests_cant": "all quadrants and poles", "anchors": ["pytracer/geometry/utility.py::spherical_direction", "pytracer/geometry/utility.py::spherical_theta", "pytracer/geometry/utility.py::spherical_phi"]}
{"id": "C61", "title": "Ray differentials follow the ray", "statement": "Applying a Transform to a RayDifferential transforms its offset rays in the same way as its main ray, and scale_differential scales the offsets about the main ray.", "quantifier": "all transforms and differential rays", "why_tests_cant": "all transforms", "anchors": ["pytracer/transform/__init__.py::Transform.__call__", "pytracer/geometry/__init__.py::RayDifferential.scale_differential"]}
{"id": "C62", "title": "Projections", "statement": "orthographic(n, f) keeps x and y and maps depth n to 0 and f to 1 linearly; perspective(fov, n, f) divides by depth, maps the near plane to 0, the far plane to 1 and the field-of-view edge to +-1.", "quantifier": "all near/far pairs, angles and points off the eye plane", "why_tests_cant": "continuum of points", "anchors": ["pytracer/transform/__init__.py::Transform.orthographic", "pytracer/transform/__init__.py::Transform.perspective"]}
{"id": "C63", "title": "Transform predicates", "statement": "is_identity answers True exactly for transforms that move no point, and has_scale answers False exactly when the three axis vectors keep their length up to the tolerance.", "quantifier": "all affine transforms", "why_tests_cant": "all matrices", "anchors": ["pytracer/transform/__init__.py::Transform.is_identity", "pytracer/transform/__init__.py::Transform.has_scale"]}
{"id": "C64", "title": "Grid traversal", "statement": "GridAccel.intersect and intersect_p always terminate, never read outside the voxel array, report only intersections that some primitive of the grid really has, and agree with testing every primitive.", "quantifier": "all scenes, grid sizes and rays", "why_tests_cant": "rays parallel to an axis and rays through cell edges are a continuum of cases", "anchors": ["pytracer/aggregate/aggregate.py::GridAccel.intersect", "pytracer/aggregate/aggregate.py::GridAccel.intersect_p"]}
{"id": "C65", "title": "Image file contents", "statement": "Writing a film's image stores, for each pixel and channel, the value's share of the channel's largest value on the scale 0..255, with 255 for the largest and 0 for zero; a cropped film replaces exactly its window of the existing file.", "quantifier": "all non-negative images, sizes and crop windows", "why_tests_cant": "all value arrays and window positions", "anchors": ["pytracer/utility/imageio.py::write_image", "pytracer/film/film.py::ImageFilm.write_image"]}
{"id": "C66", "title": "Samplers follow the densities they report", "statement": "The mass that a sampling routine sends into a set of directions (or points) equals the integral of the density it reports over that set: uniform hemisphere and sphere, cosine hemisphere, uniform and concentric disk, uniform triangle.", "quantifier": "all sets of directions or points (Lebesgue measure on the square of canonical samples)", "why_tests_cant": "a distribution cannot be read off finitely many samples", "anchors": ["pytracer/montecarlo/utility.py::uniform_sample_hemisphere", "pytracer/montecarlo/utility.py::uniform_sample_sphere", "pytracer/montecarlo/utility.py::cosine_sample_hemisphere", "pytracer/montecarlo/utility.py::concentric_sample_disk", "pytracer/montecarlo/utility.py::uniform_sample_disk"]}
{"id": "C67", "title": "Cone and Henyey-Greenstein sampling", "statement": "uniform_sample_cone returns unit directions inside the cone about the frame's axis for every canonical sample, and sample_hg returns unit directions whose angle to w is distributed as the Henyey-Greenstein density.", "quantifier": "all canonical samples, cone angles, frames and asymmetry parameters", "why_tests_cant": "continuum of samples and the special case g near 0", "anchors": ["pytracer/montecarlo/utility.py::uniform_sample_cone", "pytracer/montecarlo/utility.py::sample_hg"]}
{"id": "C68", "title": "Named coordinate systems are snapshots", "statement": "set_coordinate_system(name) makes the current transforms those that were current at the last add_coordinate_system(name), whatever calls were made in between; an unknown name raises RuntimeError.", "quantifier": "all call sequences and names", "why_tests_cant": "every call history", "anchors": ["pytracer/interface/api.py::add_coordinate_system", "pytracer/interface/api.py::set_coordinate_system", "pytracer/interface/api.py::set_camera"]}
{"id": "C69", "title": "Radiance of a camera ray", "statement": "SamplerRenderer.li gives a ray that hits the scene the surface integrator's radiance and a ray that leaves the scene the sum of the lights' background radiance, attenuated by the volume's transmittance, plus the volume's own radiance.", "quantifier": "all scenes, rays and integrators", "why_tests_cant": "scenes and rays are unbounded", "anchors": ["pytracer/renderer/renderer.py::SamplerRenderer.li", "pytracer/renderer/renderer.py::SamplerRendererTask.__call__"]}
{"id": "C70", "title": "Recursive radiance adds reflected and transmitted light", "statement": "The direct lighting and Whitted integrators return emitted plus directly received light plus the radiance of the mirror direction times the reflectance factor plus the radiance of the refracted direction times the transmittance factor.", "quantifier": "all scenes, depths and materials", "why_tests_cant": "recursion trees are unbounded", "anchors": ["pytracer/integrator/utility.py::specular_reflect", "pytracer/integrator/utility.py::specular_transmit", "pytracer/integrator/surface/direct.py::DirectLightingIntegrator.li"]}
{"id": "C71", "title": "Points sampled on a triangle lie on it", "statement": "Triangle.sample returns, for every canonical sample, a point of the triangle and its unit normal (reversed when the orientation is reversed), the points are spread evenly by area, and area is half the norm of the cross product of two sides.", "quantifier": "all meshes, triangles and canonical samples", "why_tests_cant": "continuum of samples, every vertex sharing pattern", "anchors": ["pytracer/shape/triangle.py::Triangle.sample", "pytracer/shape/triangle.py::Triangle.area"]}
{"id": "C72", "title": "Texture coordinates belong to the vertices", "statement": "For a mesh with one (u, v) pair per vertex, the coordinates interpolated over a triangle are those of the triangle's three vertices, whatever vertices the triangles share.", "quantifier": "all meshes and triangles", "why_tests_cant": "every vertex sharing pattern", "anchors": ["pytracer/shape/triangle.py::Triangle.get_uvs"]}
{"id": "C73", "title": "Surface parameters and tangents of quadrics", "statement": "At every hit on a sphere or disk the reported u and v are in [0,1] and are the surface coordinates of the hit point, dpdu and dpdv are the partial derivatives of the surface there, their cross product is an outward (upward) normal, and for the sphere dndu and dndv are the derivatives of the unit normal.", "quantifier": "all spheres and disks, partial ones included, and all hit points", "why_tests_cant": "continuum of surface points and shapes", "anchors": ["pytracer/shape/sphere.py::Sphere.intersect", "pytracer/shape/disk.py::Disk.intersect"]}
{"id": "C74", "title": "Points sampled on quadrics lie on them", "statement": "Sphere.sample and Disk.sample return, for every canonical sample, a point of the (partial) shape with the surface normal there, and area is the area of the shape.", "quantifier": "all shapes and canonical samples", "why_tests_cant": "continuum of samples and shapes", "anchors": ["pytracer/shape/sphere.py::Sphere.sample", "pytracer/shape/disk.py::Disk.sample", "pytracer/shape/sphere.py::Sphere.area", "pytracer/shape/disk.py::Disk.area"]}
{"id": "C75", "title": "Sampling a BSDF agrees with evaluating it", "statement": "For the direction BSDF.sample_f returns for non-specular components, the density and value it reports are those BSDF.pdf and BSDF.f give for the same pair of directions and flags.", "quantifier": "all component lists, frames, directions and samples", "why_tests_cant": "continuum of directions, all component lists", "anchors": ["pytracer/reflection/bsdf.py::BSDF.sample_f", "pytracer/reflection/bsdf.py::BSDF.pdf", "pytracer/reflection/bsdf.py::BSDF.f"]}
{"id": "C76", "title": "Dielectric reflectance follows Fresnel's equations", "statement": "FresnelDielectric returns the unpolarised reflectance of Fresnel's equations with the refracted angle of Snell's law, and the same reflectance along a path and its reverse.", "quantifier": "all index pairs and cosines", "why_tests_cant": "continuum of parameters", "anchors": ["pytracer/reflection/utility.py::fr_diel", "pytracer/reflection/fresnel.py::FresnelDielectric"]}
{"id": "C77", "title": "Default BDF sampling", "statement": "BDF.sample_f draws a unit direction on the outgoing direction's side and reports that direction's pdf and f; the density is |cos|/pi on that side, zero on the other, of total mass one; rho_hd of a constant BDF is pi times the constant.", "quantifier": "all outgoing directions and samples", "why_tests_cant": "continuum of directions and samples", "anchors": ["pytracer/reflection/bdf/bdf.py::BDF.sample_f", "pytracer/reflection/bdf/bdf.py::BDF.pdf", "pytracer/reflection/bdf/bdf.py::BDF.rho_hd"]}
{"id": "C78", "title": "Lambertian reflection", "statement": "Lambertian.f is reciprocal, never negative for a non-negative reflectance and reflects exactly the fraction R of the light arriving from the hemisphere, which is what rho_hd returns.", "quantifier": "all reflectances and directions", "why_tests_cant": "an integral over all directions", "anchors": ["pytracer/reflection/bdf/bdf.py::Lambertian"]}
{"id": "C79", "title": "BDF adapters", "statement": "BRDF2BTDF exchanges the reflection and transmission flags, mirrors the incident direction and keeps densities consistent between sample_f and pdf; ScaledBDF multiplies f, sample_f and the reflectances by its spectrum.", "quantifier": "all wrapped components, directions and samples", "why_tests_cant": "all components", "anchors": ["pytracer/reflection/bdf/bdf.py::BRDF2BTDF", "pytracer/reflection/bdf/bdf.py::ScaledBDF"]}
{"id": "C80", "title": "Oren-Nayar reflection", "statement": "OrenNayar.f is reciprocal, never negative, follows the documented formula, and is Lambertian for zero roughness.", "quantifier": "all roughnesses and directions", "why_tests_cant": "continuum of directions", "anchors": ["pytracer/reflection/bdf/orennayar.py::OrenNayar"]}
{"id": "C81", "title": "Blinn microfacet distribution", "statement": "Blinn.D is never negative and its projected area over the hemisphere is one; sample_f draws half vectors with the density pdf uses, returns the mirror direction about the half vector and, when its density is not zero, the density pdf gives for that direction.", "quantifier": "all exponents up to the clipping limit, directions and samples", "why_tests_cant": "integrals and continua", "anchors": ["pytracer/reflection/bdf/torrance.py::Blinn"]}
{"id": "C82", "title": "Anisotropic microfacet distribution", "statement": "Anisotropic.D and pdf are never negative; sample_f returns the mirror direction about a unit half vector on the outgoing side and, when its density is not zero, the density pdf gives for that direction.", "quantifier": "all exponents, directions and samples", "why_tests_cant": "continua", "anchors": ["pytracer/reflection/bdf/torrance.py::Anisotropic"]}
{"id": "C83", "title": "Torrance-Sparrow reflection", "statement": "Microfacet.f is reciprocal and never negative, its geometric attenuation is in [0,1], and sample_f reports f and pdf of the direction it returns, black on the wrong side.", "quantifier": "all distributions, Fresnel terms and unit directions", "why_tests_cant": "continuum of directions", "anchors": ["pytracer/reflection/bdf/torrance.py::Microfacet"]}
{"id": "C84", "title": "Fresnel blend reflection", "statement": "FresnelBlend.f is reciprocal and never negative for reflectances in [0,1]; sample_f reports f and pdf of the direction it returns or black; the Schlick factor runs from the normal reflectance to one.", "quantifier": "all distributions, reflectances and unit directions", "why_tests_cant": "continuum of directions", "anchors": ["pytracer/reflection/bdf/fresnelblend.py::FresnelBlend"]}
{"id": "C85", "title": "Coordinates of isotropic BRDF tables", "statement": "brdf_remap maps a pair of directions to the product of the sines, the angle between the azimuths as a fraction of pi in [0,1], and the product of the cosines; exchanging the directions changes nothing.", "quantifier": "all direction pairs", "why_tests_cant": "azimuth wrap-around over a continuum", "anchors": ["pytracer/reflection/utility.py::brdf_remap"]}
{"id": "C86", "title": "Lookup in irregular BRDF tables", "statement": "IrIsotropicBRDF.f always terminates and returns a value between the smallest and largest datum whenever a datum is within its largest search radius.", "quantifier": "all tables and directions", "why_tests_cant": "an unbounded loop over arbitrary tables", "anchors": ["pytracer/reflection/bdf/measured.py::IrIsotropicBRDF.f"]}
{"id": "C87", "title": "Lookup in half-angle BRDF tables", "statement": "ReHalfangleBRDF.f reads inside its table for every pair of directions, and the entry of the cell containing the pair's half-angle coordinates.", "quantifier": "all tables and direction pairs", "why_tests_cant": "continuum of directions", "anchors": ["pytracer/reflection/bdf/measured.py::ReHalfangleBRDF.f"]}
{"id": "C88", "title": "Face neighbours of a subdivision mesh are linked correctly", "statement": "After LoopSubdiv is constructed from a mesh in which each edge belongs to at most two faces, a face lists another face as its neighbour across an edge exactly when the two share that edge; the relation is symmetric and does not depend on the order in which the faces are given.", "quantifier": "all meshes of any size, all face orders", "why_tests_cant": "The one-pass dictionary matching has to be right for every mesh and every order of faces.", "anchors": ["pytracer/shape/loopsubdiv.py: LoopSubdiv.__init__ (213-229)"]}
{"id": "C89", "title": "Each level of subdivision is again a consistently oriented manifold with four times the faces", "statement": "If the control mesh is an oriented manifold then so is the mesh after any number of levels: neighbour links are right, no face lookup raises, and there are 4^n times as many faces.", "quantifier": "all oriented manifold control meshes, all numbers of levels", "why_tests_cant": "Requires induction over levels and over all meshes.", "anchors": ["pytracer/shape/loopsubdiv.py: LoopSubdiv.refine (296-384)"]}
{"id": "C90", "title": "Constructing a subdivision surface terminates", "statement": "For every consistently oriented mesh the walk around each vertex in the constructor ends, and marks the vertex as boundary exactly when the walk leaves the mesh. (On an inconsistently oriented mesh it may loop forever.)", "quantifier": "all well-formed oriented meshes, all vertices", "why_tests_cant": "Termination over all meshes; a test can only run finitely many.", "anchors": ["pytracer/shape/loopsubdiv.py: LoopSubdiv.__init__ (231-238)"]}
{"id": "C91", "title": "valence() counts the edges at a vertex", "statement": "For each vertex of an oriented manifold mesh valence() is the number of edges that meet there, for interior and boundary vertices.", "quantifier": "all oriented manifold meshes, all vertices", "why_tests_cant": "All meshes and fan sizes.", "anchors": ["pytracer/shape/loopsubdiv.py: SDVertex.valence (79-101)"]}
{"id": "C92", "title": "one_ring() lists every neighbour exactly once", "statement": "For each vertex of an oriented manifold mesh one_ring() returns the points of exactly the vertices joined to it by an edge, each once, valence() of them; for a boundary vertex the first and last entries are its neighbours along the boundary.", "quantifier": "all oriented manifold meshes, all vertices", "why_tests_cant": "All meshes and fan sizes.", "anchors": ["pytracer/shape/loopsubdiv.py: SDVertex.one_ring (103-128)"]}
{"id": "C93", "title": "Flags carried over to the next level are the ones a fresh mesh would get", "statement": "At each level the boundary flag, the regular flag and the start face of each vertex, old or new, are what the constructor would compute from the refined mesh itself.", "quantifier": "all oriented manifold control meshes, all numbers of levels, all vertices", "why_tests_cant": "An invariant of the level loop over all meshes.", "anchors": ["pytracer/shape/loopsubdiv.py: LoopSubdiv.refine (300-304, 326-358)"]}
{"id": "C94", "title": "Output vertices lie on the limit surface", "statement": "The position refine gives each vertex is the limit of that vertex's position under further subdivision with the same rules.", "quantifier": "all control meshes, all vertices, all vertex positions", "why_tests_cant": "A statement about the limit of an infinite process.", "anchors": ["pytracer/shape/loopsubdiv.py: LoopSubdiv.gamma (259-261), weight_boundary (271-276), refine (386-395)"]}
{"id": "C95", "title": "refine returns a well-formed mesh with local normals", "statement": "refine returns a triangle mesh for every oriented manifold control mesh, with one position and one normal per vertex and indices in range that point at the right vertices, and the normal of a vertex depends only on the vertex and its ring.", "quantifier": "all oriented manifold control meshes, all numbers of levels", "why_tests_cant": "All meshes; the failing case is independent of the data.", "anchors": ["pytracer/shape/loopsubdiv.py: LoopSubdiv.refine (397-446)"]}
{"id": "C96", "title": "Point lights follow the inverse square law", "statement": "PointLight.sample_l returns the unit direction from the point to the light, radiance intensity/d\u00b2, density 1 and a shadow ray along that direction up to the light; the light received by any sphere around the light is 4\u03c0 times the intensity.", "quantifier": "all light positions, points and intensities", "why_tests_cant": "Continuum of positions; the energy statement is an integral.", "anchors": ["pytracer/light/light.py: PointLight.sample_l (129-135)"]}
{"id": "C97", "title": "Spot lights shine inside their cone with a smooth falloff", "statement": "The falloff factor of a SpotLight is between 0 and 1, is 1 within the falloff angle, 0 outside the cone, never increases with the angle, and sample_l returns intensity times falloff over squared distance.", "quantifier": "all directions, cone angles and positions", "why_tests_cant": "Continuum of directions and angles.", "anchors": ["pytracer/light/light.py: SpotLight.__falloff (173-188), SpotLight.sample_l (190-196)"]}
{"id": "C98", "title": "Sampling a set of shapes matches its density", "statement": "ShapeSet collects every intersectable part of a shape once, chooses a part of positive area with probability proportional to area, and pdf(p, wi) is the density of the resulting mixture; pdf_p is one over the total area.", "quantifier": "all refinement trees, lists of shapes, points and directions", "why_tests_cant": "All lists; a density is a statement about every sample.", "anchors": ["pytracer/light/utility.py: ShapeSet (72-138)"]}
{"id": "C99", "title": "Sampling a diffuse area light", "statement": "DiffuseAreaLight.sample_l returns a unit direction to a point of the light, the light's radiance exactly on the side its normal points to and zero on the other, the density pdf() reports for that direction, and a shadow ray that covers only points strictly between the two end points.", "quantifier": "all lights, points and samples", "why_tests_cant": "Continuum of points.", "anchors": ["pytracer/light/light.py: DiffuseAreaLight (484-547)"]}
{"id": "C100", "title": "Choosing one light is unbiased", "statement": "uniform_sample_one_light picks a light number in range for every sample value and the result, averaged over that sample, is the sum over all lights; uniform_sample_all_lights is the sum over lights of the mean of the light's estimates.", "quantifier": "all numbers of lights, all per-light estimates", "why_tests_cant": "An integral over the random number.", "anchors": ["pytracer/integrator/utility.py: uniform_sample_all_lights (45-77), uniform_sample_one_light (80-117)"]}
{"id": "C101", "title": "The direct lighting estimate is unbiased", "statement": "estimate_direct has, on average over light and BSDF samples, the direct lighting integral as its value, for delta lights and for area lights.", "quantifier": "all lights, BSDFs, directions and sample distributions", "why_tests_cant": "An expectation over all samples.", "anchors": ["pytracer/integrator/utility.py: estimate_direct (203-257)"]}
{"id": "C102", "title": "Rays that leave the scene see only the environment", "statement": "The radiance of a ray that hits nothing is the sum of the environment lights' radiance in its direction.", "quantifier": "all lists of lights, all directions", "why_tests_cant": "All light lists.", "anchors": ["pytracer/renderer/renderer.py: SamplerRenderer.li (63-68)", "pytracer/light/light.py: DiffuseAreaLight.le (504-505)"]}
{"id": "C103", "title": "Environment lights are sampled according to their density", "statement": "InfiniteAreaLight.sample_l can produce every direction, with the density pdf() reports, and pdf() integrates to one over the sphere.", "quantifier": "all environment maps, samples and directions", "why_tests_cant": "Integral over all directions.", "anchors": ["pytracer/light/light.py: InfiniteAreaLight.sample_l (603-629), InfiniteAreaLight.pdf (631-639)"]}
{"id": "C104", "title": "Estimating light does not change the light", "statement": "Calls of estimate_direct leave the radiance of the lights unchanged, whatever the sequence of calls.", "quantifier": "all sequences of calls", "why_tests_cant": "A history property.", "anchors": ["pytracer/integrator/utility.py: estimate_direct (222)", "pytracer/light/light.py: DiffuseAreaLight.l (507-508)"]}
{"id": "C105", "title": "SampledSpectrum.from_rgb decomposes colours as documented", "statement": "SampledSpectrum.from_rgb expresses a colour as its smallest component of the white spectrum, plus the difference to the middle component of the secondary (cyan, magenta, yellow) opposite the smallest component, plus the difference to the largest of the primary of the largest component, scaled by the per-type factor and clipped at zero; greys give multiples of white and no sample is negative.", "quantifier": "all RGB triples and both spectrum types", "why_tests_cant": "six orderings, ties, a continuum of colours", "anchors": ["pytracer/spectral/spectrum.py::SampledSpectrum.from_rgb"]}
{"id": "C106", "title": "Sampled spectra are averaged over adjacent bands", "statement": "SampledSpectrum.from_sampled averages its data over N adjacent equal bands that cover 400nm..700nm, in the order of the bands, and the result does not depend on the order in which distinct wavelengths are given; the tables prepared at start-up use the same bands.", "quantifier": "all sample lists and their permutations; all band indices", "why_tests_cant": "all permutations", "anchors": ["pytracer/spectral/spectrum.py::SampledSpectrum.from_sampled", "pytracer/spectral/spectrum.py::SampledSpectrum.init"]}
{"id": "C107", "title": "RGB spectrum constructors keep the given samples", "statement": "RGBSpectrum.create of three numbers, of a three-sample spectrum, from_rgb of three numbers and RGBSpectrum(v) all give a spectrum holding exactly those samples; other lengths are refused.", "quantifier": "all sample values and lengths", "why_tests_cant": "all values", "anchors": ["pytracer/spectral/spectrum.py::RGBSpectrum.create", "pytracer/spectral/spectrum.py::RGBSpectrum.from_rgb"]}
{"id": "C108", "title": "Volume regions use their own phase function", "statement": "The phase function of a volume region is the Henyey-Greenstein function with the asymmetry parameter given when the region was made, whatever the time, and is zero outside a homogeneous region; the phase function of an aggregate is again a phase function (it normalises over the sphere).", "quantifier": "all regions, points, directions and times", "why_tests_cant": "times and overlaps of regions are unbounded", "anchors": ["pytracer/volume/volume.py::HomogeneousVolumeDensity.p", "pytracer/volume/volume.py::DensityRegion.p", "pytracer/volume/volume.py::AggregateVolume.p"]}
{"id": "C109", "title": "Optical thickness of a density region", "statement": "For a positive step DensityRegion.tau stops and returns the step times the sum of the attenuation at the points (k+u)*step past the entry that lie before the exit, with distances measured in world units whatever the length of the ray direction; for constant attenuation this is within one step of the exact optical thickness and for smooth densities the error vanishes with the step.", "quantifier": "all densities, rays, steps and offsets", "why_tests_cant": "any number of steps", "anchors": ["pytracer/volume/volume.py::DensityRegion.tau"]}
{"id": "C110", "title": "Volume coefficients", "statement": "sigma_t is sigma_a plus sigma_s for every region and for aggregates; all coefficients vanish outside the region; an exponential density falls off exponentially with height and stays between zero and its scale inside the region.", "quantifier": "all regions and points", "why_tests_cant": "all points", "anchors": ["pytracer/volume/volume.py::HomogeneousVolumeDensity", "pytracer/volume/volume.py::ExponentialDensity", "pytracer/volume/volume.py::VolumeRegion.sigma_t"]}
{"id": "C111", "title": "Noise is bounded and continuous", "statement": "noise is a function on all of space with values between -1 and 1 (the range its users assume) and is continuous everywhere, in particular across the faces of the integer lattice.", "quantifier": "all points of space", "why_tests_cant": "a continuum of points, limits", "anchors": ["pytracer/texture/utility.py::noise", "pytracer/texture/utility.py::_grad"]}
{"id": "C112", "title": "Fractal sums add the octaves that fit the filter", "statement": "FBm and turbulence return, for every point and screen differentials, the sum over the octaves that the filter width and max_octaves allow of omega^k times the noise (its absolute value for turbulence) at 1.99^k times the point, plus a last octave faded in smoothly, and use no octave finer than the filter width.", "quantifier": "all points, differentials, roughness values and octave limits", "why_tests_cant": "number of octaves unbounded, a continuum of filter widths", "anchors": ["pytracer/texture/utility.py::FBm", "pytracer/texture/utility.py::turbulence"]}
{"id": "C113", "title": "smooth_step is a smooth step", "statement": "smooth_step(lo, hi, v) is 0 for v below lo, 1 for v above hi and non-decreasing in between.", "quantifier": "all lo <= hi and all v", "why_tests_cant": "a continuum of arguments", "anchors": ["pytracer/texture/utility.py::smooth_step"]}
{"id": "C114", "title": "Every pyramid level halves the image and keeps its mean", "statement": "For an image of 2^a by 2^b texels the MIPMap has 1+max(a,b) levels, each axis is halved until it is 1, the last level is one texel, and every level has the mean colour of the image.", "quantifier": "all image sizes 2^a x 2^b, contents and wrap modes", "why_tests_cant": "all sizes and contents", "anchors": ["pytracer/texture/utility.py::MIPMap.__init__"]}
{"id": "C115", "title": "Isotropic texture lookups interpolate", "statement": "A lookup of a MIPMap at any position and filter width returns a weighted mean of texels (no overshoot), shows a one-coloured image in its colour everywhere, returns exactly a texel at its centre for width 0, returns the mean of the image when the filter covers the whole image and looks at the right place of the image at every level.", "quantifier": "all images, positions and widths", "why_tests_cant": "a continuum of positions and widths, all images", "anchors": ["pytracer/texture/utility.py::MIPMap.look_up", "pytracer/texture/utility.py::MIPMap"]}
{"id": "C116", "title": "Anisotropic texture lookups", "statement": "A lookup with two screen differentials returns the elliptically filtered value of the image for all differentials; for a trilinear map it is the isotropic lookup of the larger extent, and without a minor axis it is bilinear.", "quantifier": "all images, positions and differentials", "why_tests_cant": "a continuum of arguments", "anchors": ["pytracer/texture/utility.py::MIPMap.look_up"]}
{"id": "C117", "title": "Images of any size are resampled to powers of two", "statement": "An image whose sides are not powers of two is resampled to the next powers of two, each new texel a weighted mean (weights a product over the axes, summing to 1) of the 4 x 4 nearest texels; one-coloured images stay one-coloured and the pyramid is built for every image.", "quantifier": "all image sizes and contents", "why_tests_cant": "all sizes", "anchors": ["pytracer/texture/utility.py::MIPMap.__init__", "pytracer/texture/utility.py::MIPMap.resample"]}
{"id": "C118", "title": "Texture mappings and their differentials", "statement": "The uv, planar and 3D mappings return the texture coordinates they describe with differentials that are the exact rates of change of the coordinates; the spherical mapping returns coordinates in [0,1] from which the direction can be recovered, and its differentials vanish when the point does not move.", "quantifier": "all mappings, points and differentials", "why_tests_cant": "a continuum of arguments", "anchors": ["pytracer/texture/texturemap/__init__.py::UVMapping2D", "pytracer/texture/texturemap/__init__.py::SphericalMapping2D", "pytracer/texture/texturemap/__init__.py::PlannarMapping2D", "pytracer/texture/texturemap/__init__.py::IdentityMapping3D"]}
{"id": "C119", "title": "Procedural textures", "statement": "MixTexture and BilerpTexture interpolate between their values (exact at the ends and corners, inside every convex set containing the values in between), UVTexture is periodic with values in [0,1), checkerboards alternate between the two textures from check to check, and an anti-aliased checkerboard of two equal textures is that texture.", "quantifier": "all texture values and coordinates", "why_tests_cant": "a continuum of arguments", "anchors": ["pytracer/texture/texture/__init__.py::MixTexture", "pytracer/texture/texture/__init__.py::BilerpTexture", "pytracer/texture/texture/__init__.py::UVTexture", "pytracer/texture/texture/__init__.py::Chekcerboard2DTexture", "pytracer/texture/texture/__init__.py::Checkboard3DTexture"]}
{"id": "C120", "title": "The image texture cache is invisible", "statement": "In any sequence of constructions of image textures every texture gets the map that its own file, parameters and storage type describe, as if there were no cache, and every image file is converted texel by texel.", "quantifier": "all histories of texture constructions; all image files", "why_tests_cant": "histories of any length and all image sizes", "anchors": ["pytracer/texture/texture/image.py::ImageTexture.get_texture", "pytracer/texture/texture/image.py::TexInfo"]}
{"id": "C121", "title": "Perspective camera rays", "statement": "For every field of view between 0 and 180 degrees, film resolution and screen window, the ray PerspectiveCamera.generate_ray makes for a raster point starts at the eye and goes with unit direction through the corresponding point of the screen window (row 0 is the top, the window's edges enclose the field of view), and every point on it projects back to that raster point.", "quantifier": "all fields of view, films, windows and samples", "why_tests_cant": "a continuum of arguments", "anchors": ["pytracer/camera/projective.py::PerspectiveCamera.generate_ray", "pytracer/camera/projective.py::ProjectiveCamera.__init__"]}
{"id": "C122", "title": "Depth of field", "statement": "With a lens, the rays of one raster point start on the lens disc and all pass through the same point of the plane of focus, the one seen without a lens, for the perspective and the orthographic camera.", "quantifier": "all cameras, raster points and lens samples", "why_tests_cant": "a continuum of lens samples", "anchors": ["pytracer/camera/projective.py::PerspectiveCamera.generate_ray", "pytracer/camera/projective.py::OrthoCamera.generate_ray"]}
{"id": "C123", "title": "Orthographic camera rays", "statement": "Without a lens the rays of OrthoCamera are parallel to the camera axis and start at the screen position of their raster point.", "quantifier": "all cameras and samples", "why_tests_cant": "a continuum of arguments", "anchors": ["pytracer/camera/projective.py::OrthoCamera.generate_ray"]}
{"id": "C124", "title": "Camera rays are made at a time when the shutter is open", "statement": "The time of every camera ray lies in the shutter interval, runs linearly from its begin to its end with the sample time, and camera rays start at recursion depth 0, for all cameras and for plain and differential rays.", "quantifier": "all cameras, shutters and samples", "why_tests_cant": "a continuum of times", "anchors": ["pytracer/camera/projective.py::PerspectiveCamera", "pytracer/camera/projective.py::OrthoCamera", "pytracer/camera/environment.py::EnvironmentCamera.generate_ray"]}
{"id": "C125", "title": "Camera ray differentials are the rays of the neighbouring pixels", "statement": "generate_ray_differential returns the ray of generate_ray for the sample and, as auxiliary rays, the rays of the raster points one pixel to the right and one pixel down, in the same (world) space, for every camera, position, lens and sample.", "quantifier": "all cameras, camera transforms and samples", "why_tests_cant": "a continuum of positions and samples", "anchors": ["pytracer/camera/camera.py::Camera.generate_ray_differential", "pytracer/camera/projective.py::OrthoCamera.generate_ray_differential", "pytracer/camera/projective.py::PerspectiveCamera.generate_ray_differential", "pytracer/sampler/sample.py::Sample.duplicate"]}
{"id": "C126", "title": "Pinhole and environment cameras", "statement": "Every ray of the pinhole camera starts at its film point and passes the pinhole; the environment camera looks in unit directions and sees every direction from exactly one raster point apart from the poles and the seam; returned directions are normalised.", "quantifier": "all camera positions and samples", "why_tests_cant": "a continuum of directions", "anchors": ["pytracer/camera/projective.py::PinholeCamera.generate_ray", "pytracer/camera/environment.py::EnvironmentCamera.generate_ray"]}
{"id": "C127", "title": "Copying a differential geometry", "statement": "DifferentialGeometry.copy returns an object equal to the original in every field: point, tangents, normal (also one that was changed after construction), parameters and the screen-space differentials textures use for filtering.", "quantifier": "all differential geometries", "why_tests_cant": "a continuum of field values and any history of updates", "anchors": ["pytracer/geometry/diffgeom.py::DifferentialGeometry.copy"]}
{"id": "C128", "title": "Screen differentials of surface points", "statement": "compute_differential sets dpdx and dpdy to the displacements from the surface point to the points where the auxiliary rays meet the tangent plane, and the parameter differentials are their coordinates in the tangents (dpdx = dudx*dpdu + dvdx*dpdv, and the same in y); without auxiliary rays all differentials are zero.", "quantifier": "all surface points with independent tangents and all auxiliary rays not parallel to the tangent plane", "why_tests_cant": "a continuum of rays and tangents; the choice of the two axes depends on the normal", "anchors": ["pytracer/geometry/diffgeom.py::DifferentialGeometry.compute_differential"]}
{"id": "C129", "title": "Bump mapping", "statement": "A material with a bump map shades with the displaced surface: get_bsdf returns a BSDF whose shading frame comes from the tangents displaced by the texture, for every material, texture and surface point.", "quantifier": "all materials, displacement textures and surface points", "why_tests_cant": "a continuum of textures and points", "anchors": ["pytracer/material/material.py::Material.bump", "pytracer/material/material.py::MatteMaterial.get_bsdf"]}
{"id": "C130", "title": "Material colours are never negative", "statement": "Whatever values the textures return, the colour coefficients of all components of the BSDF a material makes are non-negative, so no material can subtract light.", "quantifier": "all materials, texture values and surface points", "why_tests_cant": "a continuum of texture values", "anchors": ["pytracer/material/material.py::MatteMaterial.get_bsdf", "pytracer/material/material.py::UberMaterial.get_bsdf", "pytracer/material/material.py::GlassMaterial.get_bsdf"]}
{"id": "C131", "title": "Components of the basic materials", "statement": "Mirror, glass and matte materials make exactly the components their textures ask for: black ones are left out, matte is Lambertian for zero roughness and Oren-Nayar otherwise; mirrors and glass evaluate to black for every pair of directions and have no non-specular component; get_bsdf does not raise without a bump map.", "quantifier": "all texture values, surface points, directions and flags", "why_tests_cant": "a continuum of texture values and directions", "anchors": ["pytracer/material/material.py::MirrorMaterial.get_bsdf", "pytracer/material/material.py::GlassMaterial.get_bsdf", "pytracer/material/material.py::MatteMaterial.get_bsdf"]}
{"id": "C132", "title": "Uber material conserves energy", "statement": "If the four colours of an uber material add to at most one, the coefficients of all its components add to at most one at every opacity; at full opacity there is no pass-through component, and at zero opacity all light passes undeflected and unattenuated.", "quantifier": "all texture values and surface points", "why_tests_cant": "a continuum of texture values", "anchors": ["pytracer/material/material.py::UberMaterial.get_bsdf"]}
{"id": "C133", "title": "Mixing materials", "statement": "MixMaterial.get_bsdf returns the components of both materials, those of the first scaled by the mixing texture and those of the second by its complement.", "quantifier": "all pairs of materials (mixtures included), textures and surface points", "why_tests_cant": "mixtures nest to any depth", "anchors": ["pytracer/material/material.py::MixMaterial.get_bsdf"]}
{"id": "C134", "title": "Reading measured BRDF files", "statement": "A measured BRDF file with n wavelengths and any number of records of four angles and n values is read completely and in order, one sample per record, and the k-th point of the search tree belongs to the k-th sample; files of any other length are rejected; comment lines are ignored.", "quantifier": "all files", "why_tests_cant": "files of any length and content", "anchors": ["pytracer/material/material.py::MeasuredMaterial.__init__"]}
{"id": "C135", "title": "Measured materials can be made repeatedly", "statement": "In every history of material constructions, MeasuredMaterial(filename) holds the data of the file named, also if the file was loaded before or another file has the same base name; the documented file types are accepted.", "quantifier": "all histories of loads", "why_tests_cant": "arbitrary histories with a process-wide cache", "anchors": ["pytracer/material/material.py::MeasuredMaterial.__init__", "pytracer/__init__.py::IrIsotropicData"]}
{"id": "C136", "title": "Subsurface materials", "statement": "Subsurface materials return a BSDF with the surface reflection, and a BSSRDF with the scaled scattering coefficients and the index of refraction, at every point; other materials have no BSSRDF.", "quantifier": "all subsurface materials and surface points", "why_tests_cant": "a continuum of texture values", "anchors": ["pytracer/material/material.py::SubsurfaceMaterial.get_bsdf", "pytracer/material/material.py::SubsurfaceMaterial.get_bssrdf", "pytracer/material/material.py::KdSubsurfaceMaterial.get_bssrdf", "pytracer/volume/utility.py::subsurface_from_diffuse", "pytracer/volume/bssrdf.py::BSSRDF"]}
{"id": "C137", "title": "Concentric disc sampling", "statement": "concentric_sample_disk maps uniform canonical pairs to uniform points of the unit disc (every sector of every concentric disc receives its share of area), and, as Shirley's concentric map, is continuous so that stratified samples stay stratified.", "quantifier": "all canonical sample pairs and all sectors of the disc", "why_tests_cant": "a continuum of samples", "anchors": ["pytracer/montecarlo/utility.py::concentric_sample_disk"]}
{"id": "C138", "title": "Shading geometry of a triangle interpolates the mesh's normals", "statement": "For a mesh with per-vertex normals and tangents, the shading geometry at a point of a triangle keeps the point, the parameters and the screen differentials of the true geometry, its normal is the corner normals interpolated with the barycentric weights of that point and transformed to world space (turned for reversed orientation), its tangents form an orthonormal frame with the normal and its normal derivatives are those of the interpolation; without per-vertex data the true geometry is returned. (Violated by the code for meshes with normals but no tangents, for shared vertices and for vertices that are not in order.)", "quantifier": "all meshes, all triangles and points on them, all normals, tangents, texture coordinates and transforms", "why_tests_cant": "the interpolation is over all points of all triangles and index layouts; tests use a few triangles whose index order happens to equal the vertex order", "anchors": ["pytracer/shape/triangle.py:Triangle.get_shading_geometry"]}
{"id": "C139", "title": "The bounds of a mesh hold everything that can be hit", "statement": "The world bound of a triangle mesh is the smallest axis-aligned box holding all vertices, the object bound the smallest holding them in object space, and every point at which any ray hits any triangle of the mesh lies in the world bound.", "quantifier": "all meshes (any number of vertices and triangles, any indices), all rays", "why_tests_cant": "a bound that is too small loses hits only for particular rays and meshes", "anchors": ["pytracer/shape/triangle.py:TriangleMesh.object_bound", "pytracer/shape/triangle.py:TriangleMesh.world_bound"]}
{"id": "C140", "title": "Sampling a sphere from a point chooses visible points with the reported density", "statement": "sample_p on a whole sphere from a point outside returns a point on the sphere, in front of the given point and turned towards it, with the outward (or, for reversed orientation, inward) normal; the direction is in the cone of directions that meet the sphere, its angle with the axis is distributed with the density reported by pdf_p, which integrates to one over exactly the directions that meet the sphere. (Violated by the code for points nearer than EPS, for scaled spheres, and because pdf_p is positive for directions that miss.)", "quantifier": "all radii, rigid placements, points outside the sphere and all random numbers in [0, 1]", "why_tests_cant": "an unbiased estimate needs the density to match the sampling for every point and direction; a test sees a few samples", "anchors": ["pytracer/shape/sphere.py:Sphere.sample_p", "pytracer/shape/sphere.py:Sphere.pdf_p", "pytracer/shape/sphere.py:Sphere.sample"]}
{"id": "C141", "title": "The directional density of a shape is its area density converted to solid angle", "statement": "Shape.pdf_p is zero for a direction in which the shape is not hit, and otherwise positive with pdf_p times |cos| / distance\u00b2 equal to one over the area, where the cosine is between the direction and the normal at the hit.", "quantifier": "all shapes (any intersect routine and any area), all points and unit directions", "why_tests_cant": "the identity is over all hits at all distances and angles", "anchors": ["pytracer/shape/__init__.py:Shape.pdf_p"]}
{"id": "C142", "title": "Lazy refinement in grid voxels is safe under any schedule", "statement": "When any number of threads query the same grid voxel, in any interleaving, no two of them refine at the same time, every primitive that cannot be intersected is refined exactly once and no other is, no query ever looks at an unrefined primitive, every query returns, and its answer is that of the fully refined voxel. (Violated by the code if a refinement raises: the lock stays held and the other threads wait forever.)", "quantifier": "all lists of primitives, all refinement functions, all numbers of threads, all mixes of intersect and intersect_p queries and all interleavings of their steps", "why_tests_cant": "a test runs a handful of schedules; the guarantee is about all of them", "anchors": ["pytracer/aggregate/aggregate.py:Voxel.intersect", "pytracer/aggregate/aggregate.py:Voxel.intersect_p"]}
{"id": "C143", "title": "A scene's bound holds everything in it, and building a scene changes no answer", "statement": "Scene.world_bound is the smallest box that holds every primitive and the volume, and building the scene leaves the answers of the aggregate's intersect and intersect_p as they were. (Violated by the code: the scene enlarges the aggregate's own box object, so a uniform grid with a volume misses primitives, and two scenes on one aggregate share their bound.)", "quantifier": "all lists of primitives, all volumes, all sequences of scenes built on one aggregate, all rays", "why_tests_cant": "the guarantee is about all rays and volumes; the harm done by sharing a box shows only for some pairs", "anchors": ["pytracer/scene/scene.py:Scene.__init__", "pytracer/scene/scene.py:Scene.world_bound", "pytracer/aggregate/aggregate.py:GridAccel.world_bound", "pytracer/aggregate/accelerator/bvh.py:BVH.world_bound"]}
{"id": "C144", "title": "The path integrator's value, and Russian roulette does not bias it", "statement": "PathIntegrator.li returns, for every path, the sum over its vertices of the direct light, and of the emitted light at the first vertex and after specular bounces, each weighted by the product of f |cos| / pdf and of the medium's transmittance along the path before it; it always ends within the depth limit, and averaged over the roulette's numbers it returns what it would return without roulette. (Violated by the code: every bounce counts as specular, so emitted light is counted twice after a diffuse bounce, and the first two segments are not attenuated.)", "quantifier": "all scenes, all paths of any length, all random numbers, all depth limits", "why_tests_cant": "unbiasedness is an integral over all random numbers and the sum must be right for every path length", "anchors": ["pytracer/integrator/surface/path.py:PathIntegrator.li"]}
{"id": "C145", "title": "Primitives record their nearest hit, and the BVH finds the nearest point of all shapes", "statement": "GeometricPrimitive.intersect on a sphere, disk or triangle answers True exactly when the ray is on the shape within its range; it then sets ray.maxt to the smallest such parameter, fills the Intersection with data of this primitive and this point, and otherwise leaves ray and Intersection untouched; intersect_p agrees. A BVH of such primitives returns the nearest point of all of them. (Violated for turned or mirrored spheres and disks, whose world bound does not hold them.)", "quantifier": "all shapes, transforms, rays, ranges and previous contents of the intersection record; all lists of primitives and all BVH configurations", "why_tests_cant": "an unbounded number of primitives and orders of tests, a continuum of rays; the order of tests must not matter", "anchors": ["pytracer/aggregate/primitive.py:GeometricPrimitive.intersect", "pytracer/aggregate/primitive.py:GeometricPrimitive.intersect_p", "pytracer/aggregate/intersection.py:Intersection", "pytracer/aggregate/accelerator/bvh.py:BVH.intersect", "pytracer/shape/__init__.py:Shape.world_bound"]}
{"id": "C146", "title": "Mirror rays carry correct differentials", "statement": "The reflected ray that the integrators trace at a specular surface starts at the hit, one level deeper, at the same time, with the hit's minimum distance; it has differentials exactly when its parent has; its offset origins are the hit moved by the differentials of the hit point, and its offset directions differ from its direction by the derivative, per pixel, of the mirror image of the viewing direction (including the change of the normal). (Violated on curved surfaces: materials shade with a copy of the geometry, which has lost its differentials.)", "quantifier": "all parent rays and differentials, hits, shading geometries, and all curves of viewing directions and normals with those derivatives", "why_tests_cant": "a derivative is a statement about all nearby rays; tests compare numbers, not rates of change", "anchors": ["pytracer/integrator/utility.py:specular_reflect", "pytracer/geometry/__init__.py:RayDifferential.from_parent", "pytracer/geometry/diffgeom.py:DifferentialGeometry.copy"]}
{"id": "C147", "title": "Refracted rays carry correct differentials", "statement": "The refracted ray that the integrators trace starts at the hit, one level deeper, at the same time; it has differentials exactly when its parent has; its offset directions differ from its direction by the derivative, per pixel, of the refracted direction. (Violated: the offset is the negative of the derivative on flat surfaces and lacks the right normal term on curved ones.)", "quantifier": "all parent rays and differentials, hits, indices of refraction without total reflection, and all curves of viewing directions and normals with those derivatives", "why_tests_cant": "a derivative is a statement about all nearby rays; tests compare numbers, not rates of change", "anchors": ["pytracer/integrator/utility.py:specular_transmit"]}
{"id": "C148", "title": "Both specular rays of a hit leave from that hit", "statement": "At a hit that both reflects and refracts, the light added is the sum of two contributions f * L * |cos| / pdf, one along the reflected and one along the refracted ray, each ray made from the record of this hit (minimum distance, differentials), none beyond the depth limit. (Violated: tracing the reflection overwrites the record that the refraction then reads; and the refraction takes the transmittance instead of the radiance.)", "quantifier": "all hits, BSDF samples, scenes (any renderer behaviour, including how it leaves the record), depths and limits", "why_tests_cant": "depends on what an arbitrary recursive rendering leaves behind in a shared object", "anchors": ["pytracer/integrator/utility.py:specular_reflect", "pytracer/integrator/utility.py:specular_transmit", "pytracer/integrator/surface/whitted.py:WhittedIntegrator.li", "pytracer/integrator/surface/direct.py:DirectLightingIntegrator.li", "pytracer/aggregate/primitive.py:GeometricPrimitive.intersect"]}
{"id": "C149", "title": "Cylinders report exactly their own points", "statement": "A (partial) cylinder's intersect_p answers True exactly when some point of the ray within its range lies on the cylinder's patch (lines tangent to the cylinder or parallel to its axis excepted), intersect answers the same and reports the hit; the object bound holds every point; the area is the patch's area; samples lie on the patch, evenly by area, with a unit normal perpendicular to it that points away from the axis (towards it if reversed). (Violated: intersect raises AttributeError on every hit, so a cylinder is never rendered.)", "quantifier": "all radii, height ranges, sweep angles, affine placements, rays and canonical samples", "why_tests_cant": "quantifies over a continuum of rays and shapes, and evenness is a statement about every patch", "anchors": ["pytracer/shape/cylinder.py:Cylinder.intersect", "pytracer/shape/cylinder.py:Cylinder.intersect_p", "pytracer/shape/cylinder.py:Cylinder.sample", "pytracer/shape/cylinder.py:Cylinder.area", "pytracer/shape/cylinder.py:Cylinder.object_bound"]}
{"id": "C150", "title": "Every primitive and every shape has an identifier of its own", "statement": "Primitives (and shapes) get the identifiers 1, 2, 3, \u2026 in the order they are made, and no two share one, also when several rendering threads make them while refining. (Violated when constructors overlap: the class counter is read twice and written without a lock, so threads that enter together all get the same identifier, and a delayed increment turns the counter back, so that identifiers are handed out again.)", "quantifier": "all numbers of threads and all interleavings of their accesses to the counter", "why_tests_cant": "needs every interleaving; a collision depends on the scheduler", "anchors": ["pytracer/aggregate/primitive.py:Primitive.__init__", "pytracer/shape/__init__.py:Shape.__init__", "pytracer/aggregate/aggregate.py:Voxel.intersect"]}
{"id": "C151", "title": "Key frames are taken apart into translation, rotation and stretch", "statement": "AnimatedTransform takes the matrix of a key frame apart so that its linear part is R times S, where S is symmetric and positive definite, R keeps lengths (to about 1e-60 relative to the stretch) and mirrors exactly when the matrix does, and the translation is the matrix's own; this succeeds for every matrix whose linear part is not singular, and a singular one raises.", "quantifier": "all 4x4 key frame matrices", "why_tests_cant": "convergence of an iteration over a continuum of matrices", "anchors": ["pytracer/transform/__init__.py:AnimatedTransform.decompose", "pytracer/transform/__init__.py:AnimatedTransform.__init__"]}
{"id": "C152", "title": "Between its key frames an animated transform interpolates", "statement": "Between its key frames an AnimatedTransform translates by the translation that far between the two, rotates by a rotation between the two and stretches by the stretch that far between the two, continuously, and every intermediate transform has its inverse. (Violated: because the quaternion of a rotation is computed wrongly, an object rotated alike in both key frames is rotated differently between them, an intermediate transform need not be a rotation nor have its inverse, and a mirrored object is not mirrored between them.)", "quantifier": "all key frames and all times between them", "why_tests_cant": "a continuum of transforms and times; tests at the key frames never see the interpolation", "anchors": ["pytracer/transform/__init__.py:AnimatedTransform.interpolate", "pytracer/transform/quat.py:from_arr", "pytracer/transform/quat.py:slerp"]}
{"id": "C153", "title": "An instance behaves like the primitive placed where the instance puts it", "statement": "Intersecting an instance (TransformedPrimitive) with a ray answers as the instanced primitive would if it were itself placed with the instance's transform at the ray's time: same answer from intersect and intersect_p, same hit parameter, and a record with the position on the ray, the derivatives, the normal with its orientation and the transforms of that placement, carrying the instance's identifier; shading sees the same normal. (Violated: instances cannot be made, since abstract methods are missing; can_intersect and refine read an attribute that does not exist; and the copy of the record used for shading has the normal reversed when the instance mirrors.)", "quantifier": "all shapes, placements, key frames, times and rays", "why_tests_cant": "a continuum of transforms and rays, and orientation is a parity of several transforms", "anchors": ["pytracer/aggregate/primitive.py:TransformedPrimitive", "pytracer/geometry/diffgeom.py:DifferentialGeometry", "pytracer/shape/__init__.py:Shape.get_shading_geometry"]}
{"id": "C154", "title": "The integrators' sample requests never collide and are always filled", "statement": "After an integrator has requested its samples, every sample value it later reads (for each bounce of the path integrator's first three, for each light and each of its requested samples in the direct integrator) exists in every Sample the sampler fills, lies in [0, 1), is read once, and is none of the entries requested earlier by anyone else. (Violated: with the sample-one-light strategy the direct integrator's request raises AttributeError.)", "quantifier": "all numbers of bounces, all lists of lights and their sample counts, all earlier requests, all fillings by the sampler", "why_tests_cant": "the offsets depend on everything requested before, for unbounded numbers of lights and requests", "anchors": ["pytracer/integrator/surface/path.py:PathIntegrator.request_samples", "pytracer/integrator/surface/direct.py:DirectLightingIntegrator.request_samples", "pytracer/light/utility.py:LightSampleOffset", "pytracer/reflection/bsdf.py:BSDFSampleOffset", "pytracer/sampler/sample.py:Sample"]}
{"id": "C155", "title": "Points, vectors and normals keep their classes and reject NaN", "statement": "Constructing a point, vector or normal raises ValueError exactly if a coordinate is NaN; point minus point is the vector between them, point minus vector is a point, a normal cannot be subtracted from a point (TypeError) and in-place subtraction from a point always raises; sums keep the first operand's class; == compares coordinates only, is symmetric and transitive, false with a NaN, and != is its negation. No operation yields an object with a NaN. (Violated: sums, and differences of vectors or normals, of infinite coordinates give an object with a NaN; differences of points raise.)", "quantifier": "all objects of the three classes, with finite, infinite and NaN coordinates", "why_tests_cant": "a continuum of coordinates including the special values", "anchors": ["pytracer/geometry/__init__.py:Vector", "pytracer/geometry/__init__.py:Point", "pytracer/geometry/__init__.py:Normal"]}
{"id": "C156", "title": "Rays behave as values", "statement": "Making rays and ray differentials from origins, directions, other rays and parents, changing the points and the origins and directions of rays in place, assigning range, depth, time and flag, and scaling differentials gives, for every ray, what it would give if each ray had its own private copy of its points and vectors: no change through one ray is visible in another, nor in the point or vector it was made from.", "quantifier": "all histories of constructions, copies, in-place changes and assignments", "why_tests_cant": "aliasing shows only in particular histories of operations; histories are unbounded", "anchors": ["pytracer/geometry/__init__.py:Ray", "pytracer/geometry/__init__.py:RayDifferential"]}
{"id": "C157", "title": "A rendering samples each cell of each pixel exactly once and writes their weighted mean", "statement": "Rendering with a stratified sampler ends without an exception; the film receives exactly one sample in each stratum of each pixel of the sampler's window and none outside it, each with the sanitised radiance of its own camera ray; the picture written is, at each pixel, the filter-weighted mean of those radiances (0 if negative, black if nothing falls on it); rendering a second time adds nothing and writes the same picture.", "quantifier": "all windows, sample counts, jittered or not, random sources, cameras, scenes and integrators with finite radiance, films, filters", "why_tests_cant": "the whole pipeline for unbounded numbers of pixels and samples and all random sources", "anchors": ["pytracer/renderer/renderer.py:SamplerRenderer.render", "pytracer/renderer/renderer.py:SamplerRendererTask", "pytracer/sampler/sampler/stratified.py:StratifiedSampler", "pytracer/film/film.py:ImageFilm"]}
{"id": "C158", "title": "A ray sees the emission and material of the surface it hits first", "statement": "What a ray sees at the hit an accelerator reports is that of the user's own object it hits first: Intersection.le returns the emission of the area light of the object the shape came from, on the side the light emits from, and black without one; get_bsdf evaluates the material of that object with the differential geometry of the hit \u2014 although the accelerator holds only the pieces the object was refined into. A ray that meets nothing gets no record.", "quantifier": "all lists of objects with arbitrarily nested shapes, lights and materials, all rays", "why_tests_cant": "refinement is recursive and the accelerator reorders the pieces; sizes are unbounded", "anchors": ["pytracer/aggregate/intersection.py:Intersection", "pytracer/aggregate/primitive.py:GeometricPrimitive", "pytracer/aggregate/accelerator/bvh.py:BVHAccel"]}
{"id": "C159", "title": "Pictures are read with their sizes and pixels", "statement": "Reading a picture returns its pixels unchanged with the opacity channel dropped, resampled to powers of two if its sides are not; grey pictures are read too. (Violated: for other sizes the picture comes back with its own size and its opacity channel, and grey pictures raise ValueError.)", "quantifier": "all sizes, channel counts and contents of the picture", "why_tests_cant": "sizes and contents are unbounded", "anchors": ["pytracer/utility/imageio.py:read_image"]}
{"id": "C160", "title": "Lights with pictures and distant lights illuminate as described", "statement": "A goniophotometric light scales its intensity by its picture in the light's direction and by the inverse square of the distance, a projection light projects its picture, an environment light shines its picture, a distant light shines from its direction; the shadow ray reaches to the light. (Violated: a projection light can never be made, the goniophotometric light ignores the picture and the distance, the environment light ignores its file, sampling a distant light raises AttributeError.)", "quantifier": "all pictures, positions, directions and intensities", "why_tests_cant": "a continuum of geometries and unbounded pictures", "anchors": ["pytracer/light/light.py:ProjectionLight", "pytracer/light/light.py:GonioPhotometricLight", "pytracer/light/light.py:DistantLight", "pytracer/light/light.py:InfiniteAreaLight"]}
{"id": "C161", "title": "Reflectance estimates of a surface are those of its components and lie within the bounds of the reflection", "statement": "BSDF.rho_hd and rho_hh return the sum, over the components matching the flags, of the components' estimates made with one sample in each cell of a k x k grid (a Lambertian's is its reflectance). A component with reflection between m and M is estimated between pi m and pi M, whatever the random numbers; the two-sided estimate within a factor 1 +- 1/k of those. The mean of the estimate is the light reflected, and it depends only on the direction relative to the surface. (Violated: the mean is wrong for a reflection that varies with the angle, and the direction is not turned into the surface's frame.)", "quantifier": "all component lists, flags, directions, grid sizes and random numbers", "why_tests_cant": "a continuum of random numbers and reflections, unbounded sample counts", "anchors": ["pytracer/reflection/bsdf.py:BSDF.rho_hd", "pytracer/reflection/bsdf.py:BSDF.rho_hh", "pytracer/reflection/bdf/bdf.py:BDF.rho_hd", "pytracer/reflection/bdf/bdf.py:BDF.rho_hh", "pytracer/reflection/bdf/bdf.py:Lambertian"]}
{"id": "C162", "title": "Starting and stopping the system, and the rendering options", "statement": "system_init starts a stopped system with the options given, the default rendering choices (box filter, image film, perspective camera, stratified sampler, simple aggregate, sampler renderer, directlighting, no volume integrator) and times 0 to 1, and raises RuntimeError on a started one, changing nothing; system_clean never fails, forgets the options, is idempotent, and the system can be started again. From a start on, whatever is called in whatever order and whatever exceptions are raised, each of filter, film, camera, sampler, accelerator, surface integrator, volume integrator and renderer has the name (in lower case where so documented) and the parameters of the last call about it, the defaults without one. A stopped and restarted system is as a fresh one, and calls on a stopped system raise RuntimeError. (Violated: transforms and named coordinate systems survive a restart; on a stopped system transform calls succeed, option calls raise AttributeError, and world_begin makes starting impossible.)", "quantifier": "all histories of calls, with caught exceptions, all options, names and parameters", "why_tests_cant": "histories are unbounded", "anchors": ["pytracer/interface/api.py:system_init", "pytracer/interface/api.py:system_clean", "pytracer/interface/api.py:set_film", "pytracer/interface/option.py:RenderOption"]}
{"id": "C163", "title": "The light a surface sends to the viewer is its emission plus what each light adds", "statement": "WhittedIntegrator.li returns the emission of the surface towards the viewer plus, for each light, reflection times arriving radiance times cosine times transmittance over density if the light is seen from the point, plus the light of the specular rays (none for materials without specular components, whatever the random numbers). For a matte surface under point lights in a scene of triangles this is emission + sum over the lights seen on the viewer's side of (Kd/pi)(I/d^2)|cos|, up to 1e-5 of the larger of Kd/pi and I/d^2 for each light (values below the black threshold are dropped), and never more. Mirrors and glass show no direct light.", "quantifier": "all materials, geometries, viewing directions, scenes of triangles, lists of lights, depths and random numbers", "why_tests_cant": "a continuum of geometries, unbounded numbers of lights and triangles", "anchors": ["pytracer/integrator/surface/whitted.py:WhittedIntegrator.li", "pytracer/light/light.py:PointLight.sample_l", "pytracer/light/utility.py:VisibilityTester", "pytracer/material/material.py:MatteMaterial.get_bsdf", "pytracer/reflection/bsdf.py:BSDF.f"]}
{"id": "C164", "title": "Direct lighting with all lights agrees with the Whitted integrator on point-like lights", "statement": "For lights with a delta distribution, whatever the number of samples per light, DirectLightingIntegrator.li sampling all lights returns exactly what WhittedIntegrator.li returns.", "quantifier": "all materials, geometries, viewing directions, lists of lights, sample counts, depths and random numbers", "why_tests_cant": "unbounded numbers of lights and samples, a continuum of geometries", "anchors": ["pytracer/integrator/surface/direct.py:DirectLightingIntegrator.li", "pytracer/integrator/surface/whitted.py:WhittedIntegrator.li", "pytracer/integrator/utility.py:uniform_sample_all_lights", "pytracer/integrator/utility.py:estimate_direct"]}
{"id": "C165", "title": "Sample patterns estimate integrals without bias, no worse than independent samples", "statement": "Given draws that are independent and uniform on [0, 1), the mean of a function over stratified_sample_1d(n), stratified_sample_2d(nx, ny) or latin_hypercube_1d(n) (however it is shuffled) has expectation exactly the integral of the function over the unit interval or square, and its variance is at most that of the mean of as many independent samples; latin_hypercube_2d(n) is unbiased if all rearrangements are equally likely. For every sequence of draws, jittered or not, the 1-D estimate of a function with Lipschitz constant L is within L/n of the integral.", "quantifier": "all integrable (square-integrable for the variance) functions, all pattern sizes, all offsets into the stream of draws, all shuffles", "why_tests_cant": "expectation and variance over a continuum of draws, for every integrand", "anchors": ["pytracer/sampler/utility.py::stratified_sample_1d", "pytracer/sampler/utility.py::stratified_sample_2d", "pytracer/sampler/utility.py::latin_hypercube_1d", "pytracer/sampler/utility.py::latin_hypercube_2d"]}
{"id": "C166", "title": "The grid's resolution follows the number and the extent of the objects", "statement": "A GridAccel over N objects has, along every axis, the whole part of 3 times the cube root of N times that side's share of the longest side as its number of voxels, but at least 1 and at most 64. In total it has at most 27 N voxels, so memory is linear in the number of objects, and where the limits are not reached no side of a voxel is twice as long as another.", "quantifier": "all numbers of objects and all bounds with positive extent", "why_tests_cant": "all box shapes and object counts", "anchors": ["pytracer/aggregate/aggregate.py:GridAccel.__init__"]}
{"id": "C167", "title": "Light adds up in the picture", "statement": "With the same view, sampler and random numbers: a scene whose radiance is the sum of those of two others (some lamps, the other lamps, all of them) gives a picture that is exactly the sum of the two pictures wherever both are not black, and nowhere brighter than the sum; t times the radiance gives exactly t times the picture; a scene that looks the same along every camera ray gives the same value in every pixel, within a millionth of the colour seen.", "quantifier": "all sampler windows and sample counts, random sources, cameras, scenes and integrators with finite non-negative radiance, films and filters without negative values", "why_tests_cant": "relates whole renderings for a continuum of scenes", "anchors": ["pytracer/renderer/renderer.py:SamplerRenderer.render", "pytracer/renderer/renderer.py:SamplerRendererTask.__call__", "pytracer/film/film.py:ImageFilm.add_sample", "pytracer/film/film.py:ImageFilm.write_image"]}
{"id": "C168", "title": "What the picture of a scene shows", "statement": "Rendering a scene of matte triangles under point lights (perspective camera without lens, bounding volume hierarchy, Whitted integrator, stratified sampler) gives the film exactly one sample per cell of every pixel; the value of each sample is the light the scene sends to the eye from the direction of that image position: black where no triangle is met, else the sum of Lambert's law over the lights that no triangle hides from the nearest triangle's point and that are on the viewer's side (arriving light or reflectance below 1/100000 counts as none); no exception is raised, and each pixel of the picture is the filter-weighted mean of its samples.", "quantifier": "all lists of triangles with usable texture coordinates, colours, lights, camera placements, fields of view, split methods, windows, sample counts, random numbers, films and filters; samples whose rays are no special cases (not parallel to a coordinate plane or to a triangle, not starting on one)", "why_tests_cant": "the claim is about every scene and every sample, and joins camera, hierarchy, shapes, integrator, lights, sampler and film", "anchors": ["pytracer/renderer/renderer.py:SamplerRenderer.render", "pytracer/renderer/renderer.py:SamplerRenderer.li", "pytracer/integrator/surface/whitted.py:WhittedIntegrator.li", "pytracer/camera/projective.py:PerspectiveCamera.generate_ray_differential", "pytracer/aggregate/accelerator/bvh.py:BVH.intersect", "pytracer/shape/triangle.py:Triangle.intersect", "pytracer/film/film.py:ImageFilm.write_image"]}
{"id": "C169", "title": "Mirrors in the picture", "statement": "In a scene of matte triangles and mirrors under point lights the light of a sample is what the scene sends to the eye along its ray: where a mirror is met first, the mirror's colour times the light that arrives along the ray thrown back by it (beginning a thousandth of the distance travelled beyond the mirror), and so on until a matte triangle or nothing is met; a mirror met after max_depth - 1 others shows black, as does a mirror whose colour is below 1/100000; lights are not seen in the mirror itself. max_depth nested calls are enough, no exception is raised and the result does not depend on the random numbers.", "quantifier": "all lists of matte and mirror triangles, colours, lights, depth limits, cameras, windows, sample counts, random numbers; proved for level mirrors with texture along x and rays that are no special cases", "why_tests_cant": "recursion through renderer, integrator and specular reflection for every scene and every depth limit", "anchors": ["pytracer/renderer/renderer.py:SamplerRenderer.li", "pytracer/integrator/surface/whitted.py:WhittedIntegrator.li", "pytracer/integrator/utility.py:specular_reflect", "pytracer/material/material.py:MirrorMaterial.get_bsdf", "pytracer/reflection/bsdf.py:BSDF.sample_f", "pytracer/reflection/bsdf.py:BSDF.l2w"]}
{"id": "C170", "title": "A volume acts only inside its world bound", "statement": "world_bound() of a volume region holds every point at which the region absorbs, scatters or emits, wherever the region is placed; the bound of an AggregateVolume is the smallest box that holds the bounds of its regions; and a ray that never enters the bound of a homogeneous region passes through it without attenuation.", "quantifier": "all regions, placements, points and rays", "why_tests_cant": "The bound is asked of every point of space and every placement of the region; a test looks at a few of them.", "anchors": ["pytracer/volume/volume.py:HomogeneousVolumeDensity.world_bound", "pytracer/volume/volume.py:ExponentialDensity.world_bound", "pytracer/volume/volume.py:AggregateVolume.__init__", "pytracer/volume/volume.py:AggregateVolume.world_bound"]}
{"id": "C171", "title": "The spectral tables made at start-up, and colours computed from sampled spectra", "statement": "Start-up leaves the shared wavelength and colour data as they were and fills each spectral table with thirty samples, sample i being the mean of its data set over the band from 400 + 10 i to 410 + 10 i nm. y() of a sampled spectrum is the Y component of its to_xyz(), to_xyz() and to_rgb() are linear in the spectrum, nonnegative spectra have nonnegative XYZ, the colour made by to_rgb() has the luminance of the spectrum, and the spectrum that is one everywhere has luminance one.", "quantifier": "all data sets on the two wavelength grids, all bands, all sampled spectra", "why_tests_cant": "The tables are averages of piecewise linear functions and the conversions range over all spectra; a test compares a few numbers.", "anchors": ["pytracer/spectral/spectrum.py:SampledSpectrum.init", "pytracer/spectral/spectrum.py:SampledSpectrum.y", "pytracer/spectral/spectrum.py:SampledSpectrum.to_xyz", "pytracer/spectral/spectrum.py:SampledSpectrum.to_rgb", "pytracer/data/spectral.py"]}
{"id": "C172", "title": "The light a spherical area light sends to a surface point", "statement": "Averaged over the two numbers that choose the point on the light, estimate_direct with a DiffuseAreaLight on a sphere gives the integral of the reflected light over the directions in which the sphere is seen from the point: each visible direction once, hidden ones not at all. For a matte surface with the whole sphere above it and nothing in between this is R L cos(alpha) r^2 / D^2.", "quantifier": "all spheres, rigid placements, surface points outside the sphere, BSDFs, visibility and transmittance functions, viewing directions and spectra", "why_tests_cant": "The claim is about an integral over all pairs of sample numbers and all directions; a test averages a finite number of samples and cannot tell a bias from noise.", "anchors": ["pytracer/integrator/utility.py:estimate_direct", "pytracer/light/light.py:DiffuseAreaLight.sample_l", "pytracer/shape/sphere.py:Sphere.sample_p", "pytracer/shape/sphere.py:Sphere.pdf_p", "pytracer/light/utility.py:ShapeSet"]}
{"id": "C173", "title": "The light that an area light made of triangles sends to a surface point", "statement": "Averaged over the three numbers that choose a triangle and the point on it, estimate_direct with a DiffuseAreaLight on a triangle mesh gives the sum over the triangles of the integral over their surface of the light that arrives from there and is reflected (emission, times the transmittance, times the BSDF, times both cosines, over the squared distance): each visible point of the lit side once, whatever the number and the relative sizes of the triangles.", "quantifier": "all meshes of proper triangles, any number of them, both orientations, surface points not in the plane of a triangle, BSDFs, visibility and transmittance functions, viewing directions and spectra", "why_tests_cant": "The claim is about an integral over all triples of sample numbers and over the whole surface of the light; a test averages a finite number of samples and cannot tell a bias from noise.", "anchors": ["pytracer/integrator/utility.py:estimate_direct", "pytracer/light/light.py:DiffuseAreaLight.sample_l", "pytracer/light/utility.py:ShapeSet", "pytracer/shape/triangle.py:Triangle.sample", "pytracer/shape/__init__.py:Shape.pdf_p"]}
{"id": "C174", "title": "Samples and weights stay in range when every operation is rounded", "statement": "With floating-point rounding: the i-th of n stratified samples is in the i-th stratum and below 1, and the samples ascend; the balance and power heuristics give numbers between 0 and 1; and Distribution1D/2D sampling succeeds, never picks a cell whose value is zero, and returns a point inside the picked cell with that cell's density.", "quantifier": "all roundings of the results that are monotone, symmetric, leave their own results and the whole numbers up to 2^53 unchanged and never round a non-zero difference to zero (binary64 with gradual underflow is proved to be one), all numbers of strata up to 2^53, all draws in [0, 1), all densities and all non-negative arrays", "why_tests_cant": "The failures need particular bit patterns: the largest draw below 1, a product that underflows, a quotient that is rounded below a whole number. Random tests do not hit them.", "anchors": ["pytracer/sampler/utility.py:stratified_sample_1d", "pytracer/montecarlo/utility.py:balance_heuristic", "pytracer/montecarlo/utility.py:power_heuristic", "pytracer/montecarlo/distribution.py:Distribution1D.sample_cont", "pytracer/montecarlo/distribution.py:Distribution2D.sample_cont"]}
{"id": "C175", "title": "Rounding cannot make the hierarchy lose what a primitive's own box admits", "statement": "With every operation of the BVH builder and of its box test rounded: construction with the surface-area method and at most four primitives per node succeeds, keeps every primitive exactly once and bounds them tightly; the box test of a larger box passes whenever that of a smaller box inside it does; and intersect / intersect_p give the nearest-hit and any-hit answers of a brute-force scan whenever a hit primitive's own box passes the test, which in binary64 holds for every hit that is inside the box by a relative margin of 2^-51.", "quantifier": "all roundings as in C174, all lists of primitives, split costs and node sizes, hierarchies up to 64 levels, rays without -0.0 components, intersection routines of the primitives", "why_tests_cant": "Which boxes are lost depends on the last bits of coordinates and directions; no set of example rays covers them, and the exact-arithmetic argument does not apply to the program as it runs.", "anchors": ["pytracer/aggregate/accelerator/bvh.py:BVH._recursive_build", "pytracer/aggregate/accelerator/bvh.py:BVH._intersect_p", "pytracer/aggregate/accelerator/bvh.py:BVH.intersect", "pytracer/aggregate/accelerator/bvh.py:BVH.intersect_p"]}
{"id": "C176", "title": "The picture is the weighted average up to rounding, in any order", "statement": "With every operation of the film rounded to binary64: add_sample never indexes out of range; every pixel of the window whose centre is within the filter's half-widths is reached, with the right filter-table cell up to rounding, and none farther away by more than rounding; the weight of a pixel is never below the weight of a sample that reached it; and the written value of a pixel reached by n samples differs from the exact weighted average of their colours by at most (n+9) 2^-47 of the largest channel (and the stated 3e-6 for the conversion to XYZ and back), so that rearranging the samples or dividing them among tasks changes the picture by no more than twice that.", "quantifier": "all films at non-negative pixel positions, filters given by their table of floats, sample positions and sequences of up to 2^40 samples per pixel with non-negative weights and colours that are not tiny (below 2^-500)", "why_tests_cant": "Floating-point addition is not associative, so the result depends on the order in which tasks add their samples; tests see one order and a few values.", "anchors": ["pytracer/film/film.py:ImageFilm.add_sample", "pytracer/film/film.py:ImageFilm.write_image", "pytracer/spectral/spectrum.py:rgb2xyz", "pytracer/spectral/spectrum.py:xyz2rgb"]}
{"id": "C177", "title": "Task windows, scan and sample positions in rounded arithmetic", "statement": "With every operation of the sampler rounded to binary64: the windows handed to the tasks lie in the image and each point of the image is in exactly one of them, for any number of tasks (rounding opens no gap and makes no overlap); for a power of two as the number of tasks the windows are computed without error; on a window of whole pixels generate fills one complete batch per pixel, in row-major order, and then returns False; each position is in the closed pixel and sub-cell of its index, so it reaches its own pixel on the film if the filter is at least a pixel wide; lens and request values are between 0 and 1, one per stratum; times are within 2^-51 of the larger shutter time of the shutter interval, and exactly in it if the shutter opens at 0. Violated in the strict sense: 49 tasks on a 49 x 1 image give task 0 the right border 1 - 2^-53, so that its scan never ends; a draw of 1 - 2^-53 at pixel 1 gives position 2; a shutter that opens and closes at time 3 gives a time before 3.", "quantifier": "all image windows containing [0,1]^2, numbers of tasks, random numbers, shuffles, sample counts up to 2^53, and for the first claims any monotone rounding", "why_tests_cant": "The borders depend on how k/n and the interpolation round for each of the tasks; a test with 4 or 16 tasks never sees a rounded border.", "anchors": ["pytracer/sampler/sampler/__init__.py:Sampler.compute_subwindow", "pytracer/sampler/sampler/stratified.py:StratifiedSampler.generate", "pytracer/sampler/sampler/stratified.py:StratifiedSampler.get_subsampler", "pytracer/sampler/utility.py", "pytracer/utility/utility.py:lerp"]}
{"id": "C178", "title": "A whole rendering in rounded arithmetic", "statement": "With every operation of StratifiedSampler and ImageFilm rounded, SamplerRenderer.render ends without an exception whatever camera, scene and integrators compute: the film receives the requested number of samples for every pixel of the sampler's window, row by row, each with a float position in its closed pixel and with the radiance computed for it. In binary64, if the film's window is in the sampler's (as it is for get_sample_extent) and the filter is at least a pixel wide and positive, then every pixel of the film is reached by at least samples-per-pixel samples and has a positive weight, and every channel of the picture write_image hands to the image writer is the weighted average of the radiances of the n samples that reach the pixel up to 3e-6*M + (n+9)*2^-47*M (M bounds the radiances); so no pixel is darker than the darkest or brighter than the brightest radiance up to that bound, and a scene of uniform radiance gives a uniform picture.", "quantifier": "every film window, filter table, sampler window, sample count, random source, camera, scene and integrators (an arbitrary stateful function), every rounding for the first part and binary64 for the second", "why_tests_cant": "a rendering passes through thousands of rounded operations on random numbers; whether rounding can stop the loop, lose a pixel or push a value outside the radiances depends on all windows and all draws, and a test renders a handful of pictures", "anchors": ["pytracer/renderer/renderer.py:SamplerRenderer.render, SamplerRendererTask.__call__", "pytracer/sampler/sampler/stratified.py:StratifiedSampler.generate", "pytracer/film/film.py:ImageFilm.add_sample, get_sample_extent, write_image"]}
{"id": "C179", "title": "Subdivision surfaces from scene parameters", "statement": "create_loop_subdiv(o2w, w2o, ro, params) returns None exactly if 'indices' or 'P' is missing or has a length that is not a multiple of three. Otherwise a surface that comes back has vertex j at entries 3j, 3j+1, 3j+2 of 'P', corner k of face a at the vertex named by entry 3a+k of 'indices' (negative entries count from the end), every face and vertex once, and params['nlevels'] levels, 3 if not given; every flat description of a manifold mesh that uses all its points gives such a surface, in the state from which refinement is proved correct. IndexError is raised exactly if an index is below -n or not below n, n the number of points. Violated: a point that no face uses makes the constructor raise AttributeError instead of being ignored.", "quantifier": "all lists of indices and coordinates, all numbers of levels", "why_tests_cant": "the mapping must hold for every index list and every point; tests build one or two meshes without negative, excessive or missing indices", "anchors": ["pytracer/shape/loopsubdiv.py:create_loop_subdiv", "pytracer/shape/loopsubdiv.py:LoopSubdiv.__init__"]}
{"id": "C180", "title": "The triangle test in rounded arithmetic", "statement": "In binary64 Triangle.intersect and intersect_p find every hit that is clear of the edges and of both ends of the ray by a few times a tolerance e, and report its distance up to e*(L/G+|t|) and its barycentric coordinates up to 2e; conversely whatever they report as a hit is, up to the tolerance, the point where the ray meets the plane of the triangle, and that point is outside the triangle by at most 2e, 2e and 5e in the three barycentric coordinates. Here e = 2^-45*G*L^2 over the volume spanned by the direction and the two edges, where L bounds the differences of the corners and of the ray's origin to the first corner and G the direction's components. The clearance is needed: a ray through the inside of an edge that two triangles share can meet both in exact arithmetic and be reported by neither, even when all coordinates are small whole numbers.", "quantifier": "every triangle and ray whose coordinates are multiples of 2^-200 with L, G <= 2^100, not parallel, with e <= 1/8; every mint and maxt", "why_tests_cant": "rounding errors depend on all bits of the fifteen coordinates; a test checks a few triangles and cannot show that a surface has no holes or spurious hits", "anchors": ["pytracer/shape/triangle.py:Triangle.intersect", "pytracer/shape/triangle.py:Triangle.intersect_p", "pytracer/geometry/__init__.py:Vector.cross, Point.__sub__"]}
{"id": "C181", "title": "A scene of triangles in rounded arithmetic", "statement": "Build a BVH over any list of triangles and ask it for the nearest hit or for any hit of a ray, with every operation of construction, box test and triangle test rounded to binary64. Neither query fails (hierarchy at most 64 levels high; always so for up to 65 triangles with the surface-area method). A reported hit is one the triangle test computed for the reported triangle, in the range of the ray, so by C180 the ray meets that triangle there up to a tolerance. Every triangle that the ray clearly meets - away from its edges, from the near end of the ray and from the end of the range by a few times the tolerance - is seen: a hit is reported that is not farther than that triangle, up to the tolerance of its distance, and intersect_p says yes. No margin to the bounding boxes is needed, flat boxes included.", "quantifier": "every list of triangles and every ray with coordinates that are multiples of 2^-200 of size up to 2^100 and no -0.0 direction component; every method and node size for which the hierarchy is at most 64 levels high; any range of the ray", "why_tests_cant": "whether rounding in a box test can cull a triangle whose own test succeeds depends on all coordinates of the scene and the order of construction; tests render a few scenes and see a hole only if a sample ray falls into it", "anchors": ["pytracer/aggregate/accelerator/bvh.py:BVH.__init__, BVH.intersect, BVH.intersect_p", "pytracer/shape/triangle.py:Triangle.intersect, Triangle.intersect_p, Triangle.world_bound", "pytracer/aggregate/primitive.py:GeometricPrimitive.intersect"]}
{"id": "C182", "title": "Transformations in rounded arithmetic", "statement": "In IEEE binary64, whatever the order in which numpy adds the products of a dot product and whether or not it fuses multiplications and additions: an affine Transform applied to a point, vector or normal is, in every coordinate, within 2^-50 of the exact image relative to the magnitude of the terms (as long as nothing underflows or overflows); products of affine transformations are affine exactly, so points are never divided; (A*B)(p) and A(B(p)), and T(ray)(s) and T(ray(s)), differ by at most 2^-48 of the magnitude of the terms. translate adds the offset with one rounding, leaves vectors and normals exactly alone, and times its inverse is exactly the identity; scale multiplies with one rounding; there and back is within 3*2^-53 of |p|+|d| for translations and within 2^-50 |p| for scalings. A transformation times its inverse is the identity, there and back leads back exactly, and a transformed box contains the transformed points. (The last three are violated: scaling by 49; the point 1 translated by 2^60 and back; the identity applied to the box from -1 to 2^-60.)", "quantifier": "all affine transformations, all points, vectors, normals, rays and parameters without underflow or overflow, all orders of summation", "why_tests_cant": "errors depend on all inputs and on the order of summation of the BLAS in use", "anchors": ["pytracer/transform/__init__.py:Transform.__call__", "pytracer/transform/__init__.py:Transform.__mul__", "pytracer/transform/__init__.py:Transform.translate", "pytracer/transform/__init__.py:Transform.scale", "pytracer/transform/__init__.py:Transform.inverse"]}
{"id": "C183", "title": "Normalisation and coordinate systems in rounded arithmetic", "statement": "In IEEE binary64, for every vector that is not zero and whose components are zero or between 2^-200 and 2^150 in size: normalize returns a vector each of whose components is within a relative error of 2^-48 of the exact one, so its squared length is 1 up to 2^-46; coordinate_system of it returns it and two more vectors, the three orthonormal and the third the vector product of the first two up to 2^-41 (and for any vector of about unit length, up to 2^-42 and the deviation of its squared length). face_forward returns the normal or its opposite, on the side of the vector up to 2^-50 of the terms of the dot product, in whatever order they are added. Every vector other than zero gets unit length. (The last is violated where the squared length underflows: (2^-600, 0, 0) is returned unchanged.)", "quantifier": "all vectors in the stated range, all orders of summation of the dot product", "why_tests_cant": "errors depend on all inputs; a test tries some vectors", "anchors": ["pytracer/geometry/__init__.py:Vector.length", "pytracer/geometry/__init__.py:Vector.normalize", "pytracer/geometry/__init__.py:Vector.cross", "pytracer/geometry/utility.py:normalize", "pytracer/geometry/utility.py:coordinate_system", "pytracer/geometry/utility.py:face_forward"]}
{"id": "C184", "title": "A surface does not cast a shadow on itself", "statement": "When a ray hits a triangle, rays that start at the reported point (shadow rays, mirrored and refracted rays, the next segment of a path) are never reported to meet that triangle or another triangle in the same plane, in any direction. In exact arithmetic this holds always. With every operation rounded to binary64 it holds when the distance of the hit is more than 2^-29 of the size of the scene times the skews of the two rays; then, in a scene of triangles under the hierarchy, whatever such a ray meets or is blocked by lies outside the plane it leaves. It does not hold for hits at very short distances (about 1e-10 in a scene of size 1000 the mirrored ray hits the triangle it leaves), and the offset that ensures it makes the ray pass through anything closer than a thousandth of the distance of the hit.", "quantifier": "all triangles, rays and directions; all triangles in the same plane; all lists of triangles the hierarchy accepts", "why_tests_cant": "whether a rounded point ends up on the right side of a surface depends on every bit of the operands; a picture shows the failures as isolated dark pixels", "anchors": ["pytracer/shape/triangle.py:Triangle.intersect", "pytracer/shape/triangle.py:Triangle.intersect_p", "pytracer/geometry/__init__.py:Ray.__call__", "pytracer/geometry/__init__.py:Ray.from_parent", "pytracer/integrator/utility.py:specular_reflect", "pytracer/integrator/utility.py:specular_transmit", "pytracer/integrator/utility.py:estimate_direct", "pytracer/integrator/surface/path.py:PathIntegrator.li"]}
{"id": "C185", "title": "Shadow rays in rounded arithmetic", "statement": "With every operation rounded to binary64: a point sampled on a triangle lies within 2^-46 of the scene's size of the triangle's plane, inside the triangle up to 2^-53; a shadow ray to it is not reported to be blocked by that triangle or another one in its plane if it is longer than 2^-23 of the scene's size times its skew; and in a scene of triangles under the hierarchy the shadow test from the point of a hit on A to a point of the light's triangle B answers 'blocked' only because of a triangle that is neither in the plane of A nor in that of B and whose distance is in the range of the segment, and always does so if a triangle clearly crosses the segment within its range.", "quantifier": "all points, triangles, random numbers in [0,1], all lists of triangles the hierarchy accepts, in the stated ranges of sizes", "why_tests_cant": "self-shadowing at either end depends on the last bits of all operands; a test tries some points", "anchors": ["pytracer/light/utility.py:VisibilityTester.set_segment", "pytracer/light/utility.py:VisibilityTester.unoccluded", "pytracer/light/light.py:DiffuseAreaLight.sample_l", "pytracer/shape/triangle.py:Triangle.sample", "pytracer/montecarlo/utility.py:uniform_sample_triangle"]}
{"id": "C186", "title": "The picture shows what is in front, in floating point", "statement": "In double precision, for a scene of triangles under a BVH of at most 64 levels: if a ray clearly meets one triangle, and clearly crosses the plane of every other triangle either behind it, or before the start of the ray, or outside that triangle (by more than the rounding tolerance of the tests), then scene.intersect reports exactly that triangle, at its distance up to the tolerance, and intersect_p is true; if it clearly passes all of them, nothing is reported and intersect_p is false. Consequently, in a whole rendering (sampler, camera rays, hierarchy, film), if along the rays of all samples that reach a pixel the same triangle is clearly in front, the pixel shows only the radiance of that triangle: each channel is between the darkest and the brightest radiance that shading gives it, up to the rounding error of the film; likewise for the background.", "quantifier": "all lists of triangles, all rays, all cameras, all shadings with finite non-negative radiance, all samplers and films that fit together, all random sequences, all pixels", "why_tests_cant": "A test renders a few scenes; that no rounding error in any box test, triangle test or film update lets a hidden triangle through, or drops the visible one, ranges over all scenes and rays.", "anchors": ["pytracer/aggregate/accelerator/bvh.py:BVH.intersect", "pytracer/shape/triangle.py:Triangle.intersect", "pytracer/scene/scene.py:Scene.intersect", "pytracer/renderer/renderer.py:SamplerRendererTask.__call__", "pytracer/film/film.py:ImageFilm.add_sample"]}
{"id": "C187", "title": "Camera rays in floating point point at their sample", "statement": "In double precision, for a camera that does not move and has no lens, a screen window and film of ordinary size and image positions that are multiples of 2^-60 up to 2^20: the ray of the perspective camera starts exactly at the camera's position; its direction in camera space is a unit vector up to 2^-46, points forward, and points at the raster position of the sample up to 2^-45 times the size of the raster coordinates (far below a pixel); in world space it is the direction to the screen point of the sample for one focal length common to all samples, up to 2^-47 of the magnitude of the terms. The rays of the orthographic camera all have exactly the direction of the camera's axis and start at the screen point of the sample up to 2^-48 of the magnitude of the terms. This holds for every order of summation in numpy.dot, and for every value that tan and the numerical matrix inversion return, as long as the inverse has its zeros and ones.", "quantifier": "all windows, resolutions, scale factors, camera transformations, image positions, in the stated ranges; all orders of summation", "why_tests_cant": "The error of a ray depends on the last bits of some forty operations; a test looks at a few pixels of a few cameras.", "anchors": ["pytracer/camera/projective.py:ProjectiveCamera.__init__", "pytracer/camera/projective.py:PerspectiveCamera.generate_ray", "pytracer/camera/projective.py:OrthoCamera.generate_ray", "pytracer/transform/__init__.py:Transform.perspective", "pytracer/transform/__init__.py:Transform.orthographic"]}
{"id": "C188", "title": "Matte surfaces lit by point lights in floating point follow Lambert's law", "statement": "In double precision, for a spot on a matte surface, point lights with positions and intensities in ordinary ranges, and a viewer clearly on one side of the surface: the direct light that the Whitted integrator adds up for the spot is, in every channel, the sum over the lights that are not occluded, that are on the side of the viewer and whose light at the spot reaches EPS in some channel, of reflectance / pi * intensity / distance^2 * |cosine|, up to N + 52 units of 2^-52 of what the N lights could add at most. On a triangle without normals the normal the program computes is the true normal (or its opposite) up to 2^-45 times a shape factor, and the law holds with the true normal. In a scene of triangles under the BVH where the segment from the spot to every light clearly misses all triangles or clearly meets one, exactly the lights with a free segment count. A surface whose reflectance over pi stays below EPS gets nothing. All this for every order of summation in numpy.dot.", "quantifier": "all spots, triangles, lights, numbers of lights, reflectances, viewing directions in the stated ranges; all orders of summation; all triangle scenes", "why_tests_cant": "Rounding in the normal, the distances, the cosines and the sum can accumulate, and the thresholds (is_black, the side test) are discontinuous; a test sees a few spots.", "anchors": ["pytracer/integrator/surface/whitted.py:WhittedIntegrator.li", "pytracer/light/light.py:PointLight.sample_l", "pytracer/light/utility.py:VisibilityTester.set_segment", "pytracer/reflection/bsdf.py:BSDF.f", "pytracer/reflection/bdf/bdf.py:Lambertian.f", "pytracer/geometry/diffgeom.py:DifferentialGeometry.__init__", "pytracer/shape/triangle.py:Triangle.intersect", "pytracer/spectral/spectrum.py:CoefficientSpectrum.is_black"]}
{"id": "C189", "title": "The picture of matte triangles under point lights in floating point is Lambert's law", "statement": "In double precision, for a scene of matte triangles under the BVH and point lights, rendered by the Whitted integrator: if a camera ray clearly meets a triangle first at distance t, and each light is clearly seen or clearly hidden from the spot the program computes, then the radiance of the ray is, in every channel, what Lambert's law (reflectance / pi * intensity / distance^2 * |cosine|, summed over the lights that are seen and on the viewer's side) gives at the exact point of the ray at distance t with the true normal, up to an error proportional to what the lights could add at most: the rounding terms of C188 plus 12 kappa, where kappa bounds the error of the computed point relative to the distance of each light. A ray that clearly meets nothing is black. If this holds for the rays of all samples that reach a pixel, the pixel of the picture is the filter-weighted mean of those Lambert values, up to the largest error of a ray, the film's matrix error (3e-6 of the largest radiance) and its rounding.", "quantifier": "all triangle scenes, reflectances, lights, cameras rays, random draws, image sizes, sample counts and filters in the stated ranges; all orders of summation", "why_tests_cant": "A picture is the composition of the BVH, the intersection, the normal, shadow rays, the BSDF and the film, each with rounding and thresholds; a test compares a few pixels of one scene.", "anchors": ["pytracer/renderer/renderer.py:SamplerRenderer.li", "pytracer/renderer/renderer.py:SamplerRendererTask.__call__", "pytracer/integrator/surface/whitted.py:WhittedIntegrator.li", "pytracer/shape/triangle.py:Triangle.intersect", "pytracer/aggregate/accelerator/bvh.py:BVH", "pytracer/light/light.py:PointLight.sample_l", "pytracer/film/film.py:ImageFilm.add_sample", "pytracer/film/film.py:ImageFilm.write_image"]}
{"id": "C190", "title": "Disks are hit and missed correctly in floating point", "statement": "In double precision, for a disk, ring or sector of a ring and an affine world-to-object transformation: a ray that crosses the plane of the disk at parameter t clearly within its range, at a point clearly between the two radii and (for a sector) clearly within the angle, is reported by intersect, with the parameter within sigma of t and the object-space position within delta of the exact one; a ray that crosses the plane clearly out of its range, clearly beyond the outer or inside the inner radius, or clearly beyond the angle, is not reported; nor is one clearly parallel to the plane. The margins sigma and delta are explicit multiples of the unit roundoff, the size of the coordinates and the reciprocal of the slope. Complete disks need no margin in the angle. intersect_p always agrees with intersect. For every order of summation in numpy.dot and every arctan2 that is accurate to 2^-50.", "quantifier": "all disks, transformations, rays and margins in the stated ranges; all orders of summation; all arctan2 of that accuracy", "why_tests_cant": "Near the edges the rounding of the transformed ray, the division and the squares decides; a test sees a few rays.", "anchors": ["pytracer/shape/disk.py:Disk.intersect", "pytracer/shape/disk.py:Disk.intersect_p", "pytracer/transform/__init__.py:Transform.__call__"]}
{"id": "C191", "title": "Complete spheres are hit and missed correctly in floating point", "statement": "In double precision, for a complete sphere and an affine world-to-object transformation, with np.roots backward accurate to epsilon and arctan2 accurate to 2^-50: a ray that enters the sphere at parameter tau0 and leaves it at tau1, clearly apart, is reported by intersect to hit it at tau0 up to sigma if tau0 is clearly in its range, at tau1 if it clearly starts inside, and not at all if its range clearly ends before, starts after or lies between the two; the object-space position is right up to delta (a computed position on the axis is moved off it by EPS times the radius, any other is reported as computed). A ray whose line clearly passes by, so that the discriminant is clearly below EPS, is not reported. Where the ray clearly passes through, np.roots never returns complex numbers, so no comparison raises. The margins are explicit: sigma is 6 (2^-46 kappa + 2 epsilon) N^2 / (tau1 - tau0). intersect_p always agrees with intersect. For every order of summation in numpy.dot.", "quantifier": "all complete spheres, affine transformations, rays and margins in the stated ranges; all orders of summation; all np.roots and arctan2 of that accuracy", "why_tests_cant": "Cancellation in the discriminant and the roots decides near the silhouette; a test sees a few rays.", "anchors": ["pytracer/shape/sphere.py:Sphere.intersect", "pytracer/shape/sphere.py:Sphere.intersect_p", "pytracer/transform/__init__.py:Transform.__call__", "pytracer/geometry/__init__.py:Vector.sq_length"]}
{"id": "C192", "title": "The reflectance of conductors in floating point", "statement": "In double precision, the Fresnel reflectance FresnelConductor(eta, k)(cosi) of a conductor is the value of the formula up to 2^-45, for every refractive index eta > 0, absorption k >= 0 and cosine, however large short of overflow: no cancellation in the numerators is amplified by the divisions. It never exceeds 1, not even by rounding, so a mirror never returns more light than it receives; but it may come out negative by rounding, and does for explicit doubles (index just above 1, no absorption, perpendicular light).", "quantifier": "all indices, absorptions and cosines that are multiples of 2^-160 (and every double for the bound 1)", "why_tests_cant": "Rounding errors in eight sums, products and quotients depend on every input; a test tries a few metals.", "anchors": ["pytracer/reflection/utility.py:fr_cond", "pytracer/reflection/fresnel.py:FresnelConductor.__call__"]}
{"id": "C193", "title": "Cylinders block rays correctly in floating point", "statement": "In double precision, for a cylinder (or the part of it within an angle) and an affine world-to-object transformation, with np.roots backward accurate to epsilon and arctan2 accurate to 2^-50: if the line of the ray enters the infinite cylinder at tau0 and leaves it at tau1, clearly apart, then intersect_p returns True when the entry point is clearly in the ray's range and on the cylinder, and also when the exit point is while the ray clearly starts after the entry or enters where the cylinder is cut away; it returns False when each of the two points is clearly out of range or cut away; and False when the line clearly passes by. In all those cases np.roots returns real numbers, so nothing raises. intersect takes the same path always: it returns a miss where intersect_p returns False and raises AttributeError (thetaMax) where it returns True. Explicit margins, every order of summation in numpy.dot.", "quantifier": "all cylinders, affine transformations, rays and margins in the stated ranges; all orders of summation; all np.roots and arctan2 of that accuracy", "why_tests_cant": "Four clipping tests, two roots and their rounding combine; a test sees a few rays.", "anchors": ["pytracer/shape/cylinder.py:Cylinder.intersect_p", "pytracer/shape/cylinder.py:Cylinder.intersect", "pytracer/transform/__init__.py:Transform.__call__"]}
{"id": "C194", "title": "Parts of spheres are hit and missed correctly in floating point", "statement": "In double precision, for a sphere cut by two planes of constant z and a maximal angle, under the assumptions of the property on complete spheres: a ray that clearly passes through the sphere, entering at tau0 and leaving at tau1, is reported by intersect to hit at tau0 up to sigma when that point is clearly in its range and in the part that is kept; at tau1 when that one is and the ray clearly started inside the sphere or entered where it is cut away; and is not reported when each of the two points is clearly out of its range or cut away. The reported object-space position is right up to delta, except that a computed position on the axis is moved off it by EPS times the radius. A plane at or beyond a pole and a full angle need no margin.", "quantifier": "all partial spheres, affine transformations, rays and margins in the stated ranges; all orders of summation; all np.roots and arctan2 of that accuracy", "why_tests_cant": "The second root is tried only on some paths through four clipping tests, each decided on rounded numbers; a test sees a few rays.", "anchors": ["pytracer/shape/sphere.py:Sphere.intersect", "pytracer/transform/__init__.py:Transform.__call__"]}
{"id": "C195", "title": "Sampled directions and points in floating point", "statement": "In double precision, with sin and cos accurate to 2^-52 and at most 1: for all random numbers in [0, 1], uniform_sample_hemisphere, uniform_sample_sphere and cosine_sample_hemisphere return vectors whose squared length is 1 up to 2^-48, never below the horizon for the two hemispheres, and within 2^-22 of the exact sample in each coordinate (a square root near the poles costs half the digits); uniform_sample_disk and concentric_sample_disk return points with x^2 + y^2 at most 1 + 2^-49, the former within 2^-45 of the exact sample, the latter within 2^-44 of the exact sample of random numbers within 2^-49 of the given ones; uniform_sample_triangle returns non-negative coordinates whose sum exceeds 1 by at most 2^-52, within 2^-51 of the exact ones; and uniform_sample_cone with a frame, although its square root is not guarded, never takes the root of a negative number, so no NaN arises, and is within 2^-21 of the exact sample in each coordinate.", "quantifier": "all random numbers in [0, 1], all cones, all frames with coordinates up to 1, all sin and cos of that accuracy", "why_tests_cant": "The failures would need a draw whose rounding pushes a cosine above 1; random tests do not find it.", "anchors": ["pytracer/montecarlo/utility.py:uniform_sample_hemisphere", "pytracer/montecarlo/utility.py:uniform_sample_sphere", "pytracer/montecarlo/utility.py:cosine_sample_hemisphere", "pytracer/montecarlo/utility.py:uniform_sample_disk", "pytracer/montecarlo/utility.py:concentric_sample_disk", "pytracer/montecarlo/utility.py:uniform_sample_triangle", "pytracer/montecarlo/utility.py:uniform_sample_cone", "pytracer/utility/utility.py:lerp"]}
{"id": "C196", "title": "Scenes of triangles, spheres and disks are searched correctly in floating point", "statement": "In double precision, for a BVH over any mixture of triangles, spheres (complete or parts) and disks with affine transformations: boxes transformed with rounding (every order of summation in numpy.dot), construction, box tests and object tests all rounded. If the hierarchy is at most 64 levels high (always so for up to 65 objects with the surface-area method and at most four per node), no direction component is -0.0 and no root raises TypeError, then the nearest-hit query succeeds; a reported hit is the result of the reported object's own test, within the ray's range; every object that the ray clearly hits (away from its edges by the rounding error, and passing its box clearly or crossing it where it is flat) not after the parameter e, e before the end of the range, forces a reported hit not farther than e; and the any-hit query answers yes exactly with some object's test, and whenever some object is clearly hit. An upper limit on the ray changes the test of a triangle, a sphere or a disk only by dropping a hit beyond it, so shortening the ray while searching is harmless.", "quantifier": "all lists of objects, transformations, rays and tree shapes in the stated ranges; all orders of summation; all np.roots and arctan2 of the stated accuracy", "why_tests_cant": "The box of an object is computed by other roundings than its intersection test; whether the two can disagree about a visible object depends on all of them, for every ray and tree.", "anchors": ["pytracer/aggregate/accelerator/bvh.py:BVH", "pytracer/shape/__init__.py:Shape.world_bound", "pytracer/transform/__init__.py:Transform.__call__", "pytracer/shape/sphere.py:Sphere.intersect", "pytracer/shape/disk.py:Disk.intersect", "pytracer/shape/triangle.py:Triangle.intersect", "pytracer/aggregate/primitive.py:GeometricPrimitive.intersect"]}
{"id": "C197", "title": "The picture of a mixed scene shows what is in front, in floating point", "statement": "In double precision, for a BVH of at most 64 levels over any mixture of triangles, spheres (complete or parts) and disks with affine transformations: if a ray clearly hits one object, and every other object is clearly passed by, or clearly met only behind that hit or before the start of the ray, or only where it is cut away, then scene.intersect reports exactly that object, at the distance its own test gives, and intersect_p is true; if everything is clearly passed, nothing is reported and intersect_p is false. In a whole rendering, if the same object is clearly in front along the rays of all samples that reach a pixel, each channel of the pixel is between the darkest and the brightest radiance that shading gives that object, up to the rounding error of the film; likewise for the background.", "quantifier": "all lists of objects, transformations, rays, cameras, shadings with finite non-negative radiance, samplers, films, random sequences and pixels in the stated ranges; all orders of summation in numpy.dot; all np.roots and arctan2 of the stated accuracy", "why_tests_cant": "A test renders a few scenes; that no rounding in any transformation, box test, root or film update lets a hidden object through or drops the visible one ranges over all of them.", "anchors": ["pytracer/aggregate/accelerator/bvh.py:BVH.intersect", "pytracer/shape/sphere.py:Sphere.intersect", "pytracer/shape/disk.py:Disk.intersect", "pytracer/shape/triangle.py:Triangle.intersect", "pytracer/scene/scene.py:Scene.intersect", "pytracer/renderer/renderer.py:SamplerRendererTask.__call__", "pytracer/film/film.py:ImageFilm.add_sample"]}
{"id": "C198", "title": "A sphere or a disk does not cast a shadow on itself", "statement": "When a ray hits a sphere (or part of one) or a disk at distance t, the reported point goes to world space and every ray that leaves it begins at the reported offset EPS*t. In exact arithmetic a ray that leaves a sphere outwards, and a ray that leaves a disk in any direction, never meets the object it leaves, neither for intersect nor for intersect_p. In double precision, with rounded transformations (every order of summation in numpy.dot), rounded point and rounded roots, the same holds when the distance t is large enough against the stated errors of the point and of the roots; and a ray that leaves a point of a complete sphere inwards is reported to meet the other side of the sphere, not the point it starts from.", "quantifier": "all spheres, parts of spheres and disks, transformations, first rays, directions and ends of the new ray in the stated ranges; all orders of summation; all np.roots and arctan2 of the stated accuracy", "why_tests_cant": "Whether a shaded point shadows itself depends on the rounding errors of the hit, the transformation to the world and back, and the new quadratic equation, for every hit and direction.", "anchors": ["pytracer/shape/sphere.py:Sphere.intersect", "pytracer/shape/disk.py:Disk.intersect", "pytracer/integrator/utility.py:estimate_direct", "pytracer/light/utility.py:VisibilityTester", "pytracer/transform/__init__.py:Transform.__call__"]}
{"id": "C199", "title": "Mip-maps in floating point", "statement": "In double precision the pyramid of an image is always built. Averaging four texels never leaves the range of the texels, not even by a rounding error, so every level stays between the smallest and the largest texel of the image and a constant image is exactly constant on every level; level i differs from the exact pyramid by at most i*(2^-51 M + 2^-1075), M being the largest magnitude. A bilinear lookup differs from the exact filter by a stated multiple of 2^-50 M also when rounding moves it to another texel; between two levels a lookup is the blend of the exact filters of both, weighted by the fraction of the computed level, up to a stated error; a lookup of any width stays between the smallest and the largest texel up to 2^-46 M + 2^-1072 and is never negative if no texel is; at the centre of a texel the lookup without width returns the texel exactly; and a lookup over the whole extent returns the mean of the image up to a stated error.", "quantifier": "all images of doubles (below 2^1021), wrap modes, levels, positions and widths; any np.log2 for the range statements", "why_tests_cant": "How rounding accumulates over levels and whether a lookup can step to a wrong texel depends on all texels and all positions.", "anchors": ["pytracer/texture/utility.py:MIPMap.__init__", "pytracer/texture/utility.py:MIPMap.texel", "pytracer/texture/utility.py:MIPMap.__triangle", "pytracer/texture/utility.py:MIPMap.look_up"]}
{"id": "C200", "title": "Diffuse reflection in floating point", "statement": "With every operation rounded to a 64-bit float, an Oren-Nayar surface of any roughness gets coefficients within 2^-46 of the exact ones, with A in [1/2, 1] and B in [0, 1/2]; its reflection is the same, bit for bit, with the two directions exchanged; with roughness 0 it is bit for bit that of a Lambertian surface; and for nearly unit directions that are not both grazing it is never negative and within (2^-16 R + 2^-1070)/max(|cos \u03b8o|, |cos \u03b8i|) of the exact formula - within (2^-32 R + 2^-1070)/max(|cos \u03b8o|, |cos \u03b8i|) unless a direction's sine is within 2^-24 of the cutoff 10^-5.", "quantifier": "every reflectance from 0 to 2^100, roughness up to 2^400 degrees, and pair of directions of length nearly 1 of which one has a cosine of at least 2^-900", "why_tests_cant": "The errors of sines near the pole are amplified by divisions; a bound for all directions cannot be established by trying some.", "anchors": ["pytracer/reflection/bdf/orennayar.py:OrenNayar", "pytracer/reflection/utility.py:sin_theta", "pytracer/reflection/utility.py:cos_phi", "pytracer/reflection/bdf/bdf.py:Lambertian"]}
{"id": "C201", "title": "Henyey-Greenstein sampling in floating point", "statement": "With every operation rounded to a 64-bit float, sample_hg draws a cosine that is within 2^-27/(1 - |g|) of the one that follows the Henyey-Greenstein phase function exactly (within 2^-49 of the uniform one for |g| below EPS), and returns a direction whose cosine with w is that number up to 2^-39, whose azimuth is 2 pi u2 about w up to 2^-38, and whose squared length is 1 up to 2^-25/(1 - |g|) + 2^-35; it never fails, also when rounding makes the cosine exceed one.", "quantifier": "every asymmetry with |g| at most 1 - 2^-20, all random numbers from 0 to 1 and every direction w of length 1 up to rounding (components zero or not below 2^-400); any np.cos and np.sin that are correct up to 2^-52", "why_tests_cant": "The quotient and the cancellation in the formula amplify rounding errors depending on g and u; only a bound for all of them excludes bad directions.", "anchors": ["pytracer/montecarlo/utility.py:sample_hg", "pytracer/geometry/utility.py:spherical_direction", "pytracer/geometry/utility.py:coordinate_system"]}
{"id": "C202", "title": "Perlin noise in floating point", "statement": "With every operation rounded to a 64-bit float, noise returns a value for every point, that is within 2^-39 of the value of the exact formula and never exceeds 2 + 2^-39 in size; at points with integer coordinates it is exactly the value of the formula, and it repeats exactly with period 256 along each axis.", "quantifier": "every point, and all integer multiples of the period for which the shifted coordinates are floats too", "why_tests_cant": "The rounding errors depend on the position in the cell and on the eight gradients chosen by the permutation table; a test sees a few points only.", "anchors": ["pytracer/texture/utility.py:noise", "pytracer/texture/utility.py:_grad", "pytracer/utility/utility.py:lerp"]}
{"id": "C203", "title": "Rotations from quaternions in floating point", "statement": "With every operation rounded to a 64-bit float, to_transform returns a matrix whose entries are those of the formula up to 2^-47 and whose stored inverse is exactly its transpose, and for a quaternion with squared length within eta of one the product of the two is the identity up to 5 eta + 2^-40. slerp returns a quaternion of squared length 1 up to 2^-28 that lies, up to 2^-33 in each component, on the great circle through the two quaternions at the fraction t of the angle between them (on the normalised segment if they are nearly parallel). So the matrix of an interpolated rotation is a rotation up to 2^-25.", "quantifier": "all quaternions of length 1 up to rounding that are not nearly opposite (scalar product at least -1 + 2^-16), every t from 0 to 1; any np.cos and np.sin correct up to 2^-52 and np.arccos correct up to 2^-50", "why_tests_cant": "Normalising the difference of nearly parallel quaternions amplifies rounding errors; only a bound over all pairs shows that the threshold EPS keeps the result a rotation.", "anchors": ["pytracer/transform/quat.py:to_transform", "pytracer/transform/quat.py:slerp", "pytracer/transform/quat.py:dot"]}
{"id": "C204", "title": "The picture of matte triangles among spheres and disks in floating point is Lambert's law with the shadows of all objects", "statement": "In double precision, for a BVH of at most 64 levels over any mixture of triangles, spheres (complete or parts) and disks with affine transformations, and point lights, rendered by the Whitted integrator: the shadow test of a light is true if the segment to it is clearly free of all objects and false if it clearly meets one of any kind. If a camera ray clearly meets a matte triangle first, and each light is clearly seen or clearly hidden from the spot the program computes, the radiance of the ray is in every channel what Lambert's law gives at the exact point with the true normal and the lights that no object hides, up to the error of C189. A ray that clearly meets nothing is black. If every sample that reaches a pixel is of one of these two kinds, the pixel of the picture is the filter-weighted mean of those values, up to the largest error of a ray, the film's matrix error (3e-6 of the largest radiance) and its rounding.", "quantifier": "all lists of objects, transformations, reflectances, lights, camera rays, random draws, image sizes, sample counts and filters in the stated ranges; all orders of summation; all np.roots and arctan2 of the stated accuracy", "why_tests_cant": "A picture composes the hierarchy, three kinds of intersection tests, shadow rays, shading and film, each with rounding and thresholds; a test compares a few pixels of one scene.", "anchors": ["pytracer/integrator/surface/whitted.py:WhittedIntegrator.li", "pytracer/light/utility.py:VisibilityTester.unoccluded", "pytracer/aggregate/accelerator/bvh.py:BVH.intersect", "pytracer/aggregate/accelerator/bvh.py:BVH.intersect_p", "pytracer/shape/sphere.py:Sphere.intersect", "pytracer/shape/disk.py:Disk.intersect", "pytracer/shape/triangle.py:Triangle.intersect", "pytracer/film/film.py:ImageFilm.add_sample"]}
{"id": "C205", "title": "Blinn's microfacet distribution in floating point", "statement": "In double precision, for exponents from 0 to 10000: the half vector that Blinn.sample_f draws has squared length 1 up to 2^-48, does not point below the surface before it is turned to the viewer's side, its cosine is u1^(1/(e+1)) up to 2^-50 and each coordinate is within 2^-23 of the exact half vector. The incident direction is in each coordinate within 2^-46 of the mirror image of wo at the half vector, which is on the side of wo unless the product of the two cosines underflows, and its squared length is that of wo up to 2^-42. The density is never negative, zero if wo is clearly on the other side of the microfacet, and where the scalar product D of wo and the half vector is at least 2^-30 it is (e + 1) cos^e / (8 pi D) up to a relative error of 2^-45 / D. The geometric term of Microfacet is between 0 and 1 and within 2^-44 / |D| of the exact one.", "quantifier": "all exponents, all wo of length one up to 1/8 in the square, all random numbers in [0, 1]; all orders of summation in numpy.dot; all np.power, np.cos and np.sin of the stated accuracy", "why_tests_cant": "A cosine above 1, a half vector on the wrong side or a negative density would need particular bit patterns of the draws; the error bounds range over all of them.", "anchors": ["pytracer/reflection/bdf/torrance.py:Blinn.sample_f", "pytracer/reflection/bdf/torrance.py:Blinn.pdf", "pytracer/reflection/bdf/torrance.py:Microfacet.G", "pytracer/geometry/utility.py:spherical_direction"]}
{"id": "C206", "title": "The falloff of spot lights in floating point", "statement": "In double precision, for a spot light whose falloff starts inside its cone (the stored cosines differ): the falloff factor never is a NaN, is between 0 and 1, exactly 0 on and outside the edge of the cone, exactly 1 where the falloff has not started, and never decreases as the direction turns to the axis. It is within 2^-48 of the fourth power of ((ct - cos_width) / (cos_falloff - cos_width)), cut off at 0 and 1, for the cosine ct the light computed, however narrow the band is, and within 2^-48 + 4 eps / (cos_falloff - cos_width) of the exact falloff if that cosine has the error eps. If the two stored cosines are equal, the edge itself gives 0/0.", "quantifier": "all floats cos_width < cos_falloff and all cosines", "why_tests_cant": "Cancellation in two differences and a quotient could leave [0, 1], divide by zero or break the order for neighbouring floats; tests cannot try all neighbours.", "anchors": ["pytracer/light/light.py:SpotLight.__falloff"]}
{"id": "C207", "title": "Ray marching through a density region in floating point", "statement": "In double precision, for the optical thickness of a density region between its entry and its exit, marched with a positive step: if the step is at least 2^-52 of the largest of |first sample|, |exit| (plus one step), the call returns, with exactly one result, after n samples all of which lie before the exit, the next one not; each sample is at most one rounding per step away from the first sample plus k steps; and n steps are the length of the march up to one step and that rounding. The first sample is a fraction u of a step past the entry up to two roundings. The sum of non-negative attenuations is exact up to one relative rounding per sample, and the result is never negative. For constant attenuation c and at most a million steps to the exit, the result is within 1.01 c step of c times the length. But if the step is below 2^-54 of the first sample's parameter the call never returns: adding the step does not change the position.", "quantifier": "all floats for step, offset, entry and exit, and all attenuation functions with non-negative float values", "why_tests_cant": "The loop ends only because each rounded addition makes progress; how far the samples drift after thousands of additions depends on every rounding, and non-termination cannot be observed by a test.", "anchors": ["pytracer/volume/volume.py:DensityRegion.tau"]}
{"id": "C208", "title": "The Henyey-Greenstein phase function in floating point", "statement": "In double precision, with an accurate np.power: for an asymmetry parameter g with |g| <= 1 - 2^-20 and two directions whose computed dot product is within 2^-48 of the exact cosine, phase_hg never is a NaN or an infinity, is not negative, and is within a relative 2^-40 / (1 - |g|)^2 of the exact value for the exact cosine (up to an underflow of 2^-1000). For |g| closer to one this fails: for g = 1 - 2^-30 straight ahead the denominator cancels to zero and the result is infinite, although the exact phase function is finite.", "quantifier": "all g up to 1 - 2^-20, all directions, all roundings of the dot product and the power", "why_tests_cant": "1 + g^2 - 2 g cos cancels for g and cosines near one; whether it stays positive depends on every rounding, and tests cannot try all floats near the pole.", "anchors": ["pytracer/volume/utility.py:phase_hg"]}
{"id": "C209", "title": "The isotropic, Rayleigh and Mie phase functions in floating point", "statement": "In double precision, with an accurate np.power for whole exponents, for any two directions whose exact cosine is in [-1, 1] and whose computed dot product is within 2^-48 of it: the isotropic phase function is within 2^-48, Rayleigh's within 2^-47, the hazy Mie one within 2^-43 and the murky Mie one within 2^-40 of the exact value, and all four are positive - also where the computed dot product leaves [-1, 1].", "quantifier": "all directions and all roundings of the dot product and the power", "why_tests_cant": "The dot product of two unit vectors can round above 1 or below -1, and the powers 8 and 32 amplify each rounding; tests cannot try all directions.", "anchors": ["pytracer/volume/utility.py:phase_isotrophic", "pytracer/volume/utility.py:phase_rayleigh", "pytracer/volume/utility.py:phase_mie_hazy", "pytracer/volume/utility.py:phase_mie_murky"]}
{"id": "C210", "title": "Triangle and Gaussian filters in floating point", "statement": "In double precision: TriangleFilter, for all widths, and GaussianFilter, for all non-negative widths and alpha and every np.exp that is monotone, are exactly symmetric in x and in y, never negative, exactly zero from the edge of their extent on, and never increase away from the centre in x or y. The triangle filter is within a relative 2^-51 of the exact one (up to an underflow of 2^-1075), even next to its edge; the Gaussian filter is within 2^-40 of the exact one for every np.exp accurate to 2^-52, where alpha d^2 is at most 64 and |d| at most 2^20 for the widths and the two coordinates.", "quantifier": "all widths, alpha and coordinates in the stated ranges; all np.exp that are monotone (accurate)", "why_tests_cant": "A rounded difference at the edge could come out negative or non-zero and the order of neighbouring values could flip; tests cannot try all neighbouring floats.", "anchors": ["pytracer/filter/filter.py:TriangleFilter", "pytracer/filter/filter.py:GaussianFilter"]}
