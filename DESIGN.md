# Formal model of zjiayao/pyTracer in Lean 4 — design

The sources are read as text from `/repo` (package `/repo/pytracer`), never run.
`lean/Verif/<Area>/*.lean` holds, per area, the model (definitions, each citing file and lines),
a small specification independent of it (what it means for a point to be on a shape, for a
sequence to be a schedule, …) and the property theorems `Cnn_*`, each with an `example` that meets its
hypotheses. In the large areas these are split into `Model`, `Lemmas` and `Props`.

## Trusted base

* Lean 4.33.0's kernel and the three standard axioms `propext`, `Classical.choice`,
  `Quot.sound`. Every theorem depends on a subset of these three and on nothing else: no axioms are
  added, no compiled-code axioms are used (`vcheck` prints the axioms).
* Mathlib definitions used in statements (ordered fields, reals, `Real.sqrt`, `sin`, Lebesgue measure,
  interval integrals, `HasDerivAt`, `Matrix`, `List.Perm`, …).
* The reading of the Python source. The model is hand-written; each definition cites the lines it models,
  and says what it leaves out. Nothing checks mechanically that the model is the code.
* Numbers. `float64` is replaced by
  - any bounded linear order when the code only compares / takes min and max (this is exact
    for non-NaN floats, no rounding is involved);
  - an arbitrary linearly ordered field `K` when it does `+ - * /` (rounding **not** modelled, except in `Num/Ranges` and the modules that import `Num/Round`: there every result is rounded by an arbitrary monotone rounding, of which binary64 without overflow is proved to be one);
  - `ℝ` when it uses `sqrt/sin/cos/exp/log`;
  - `Verif.Num.F K` (finite, ±inf, NaN; signed zero of a divisor passed as a flag) where the
    code relies on IEEE special values (slab tests, zero division, NaN sanitising).
* numpy semantics as documented: `np.fmax/fmin` ignore NaN, `np.searchsorted` (left), `np.clip`,
  C-style division by zero yields inf/nan and does not raise for numpy scalars; `np.roots` returns the roots;
  `np.arctan2` is the argument of a complex number.
* Python semantics where it matters: lists and boxes are shared objects (heaps of cells in the model),
  exceptions are results (`none` or an error constructor), `for`/`while` are recursion, with fuel only where
  the loop may diverge (then fuel independence is proved or divergence is part of the claim).
* Random number generators are arbitrary functions to `[0,1)`; shuffles are arbitrary permutations. Statements
  about distributions are about Lebesgue measure on the unit square (or interval) of canonical samples.
* Threads: sequentially consistent interleavings of single shared reads, writes and lock operations
  (`Film/Conc`, `Agg/Voxel`). CPython's GIL makes the steps at least this coarse.

## How a violated property is handled

If the code contradicts the English property, the model keeps the code's behaviour, the negation
is proved with a concrete witness (`Cnn_…_false`), and the strongest true part is proved as
`Cnn_…_partial`.

## Plan per property

`part` in the last column means that the code contradicts part of the English property; the failing part has its own theorem (`_false`).

| id | property | model (lean/Verif/…) | proof technique | status |
|----|----|----|----|----|
| C01 | Box union is the smallest enclosing box | BBox/Props | order reasoning; folds of unions by induction over the sequence | proved |
| C02 | Ray/box slab test is exact | BBox/SlabProps | invariant of the slab loop over IEEE special values: after each axis the interval is the set of parameters inside the slabs so far | part |
| C03 | Box equality and inequality agree | BBox/Props | order reasoning; folds of unions by induction over the sequence | part |
| C04 | Box queries and measures | BBox/Props | order reasoning; folds of unions by induction over the sequence | proved |
| C05 | Coordinate frame construction | Geom/Props | real algebra (sqrt, cross and dot identities) | proved |
| C06 | Vector helpers | Geom/Props | real algebra (sqrt, cross and dot identities) | proved |
| C07 | Every transform carries its true inverse | Xform/Props | 4x4 matrix algebra, induction over an expression type of all constructors | proved |
| C08 | Composition and undoing of transforms on points, vectors and normals | Xform/Props | 4x4 matrix algebra, induction over an expression type of all constructors | proved |
| C09 | Normals stay perpendicular | Xform/Props | 4x4 matrix algebra, induction over an expression type of all constructors | proved |
| C10 | Transforming a ray commutes with evaluating it | Xform/Props | 4x4 matrix algebra, induction over an expression type of all constructors | proved |
| C11 | Transformed boxes stay conservative | Xform/Props | 4x4 matrix algebra, induction over an expression type of all constructors | part |
| C12 | look_at places and orients the camera | Xform/Props | 4x4 matrix algebra, induction over an expression type of all constructors | part |
| C13 | Rotations preserve geometry and handedness is a parity | Xform/Props | 4x4 matrix algebra, induction over an expression type of all constructors | proved |
| C14 | Animated transform end points | Xform/AnimProps | case analysis of time; folds of unions | proved |
| C15 | Animated bounds cover the motion | Xform/AnimProps | case analysis of time; folds of unions | part |
| C16 | Quaternion rotations | Xform/QuatProps | polynomial identities under unit norm | part |
| C17 | 1D distribution: continuous sampling inverts the CDF | Dist/Props | prefix sums by induction; searchsorted as a count; measure of preimages for the law of the samples | proved |
| C18 | 1D distribution: discrete sampling picks each cell with its weight | Dist/Props | prefix sums by induction; searchsorted as a count; measure of preimages for the law of the samples | proved |
| C19 | 2D distribution: samples are points of the unit square consistent with pdf | Dist/Props | prefix sums by induction; searchsorted as a count; measure of preimages for the law of the samples | part |
| C20 | Multiple importance weights partition unity | MC/Props | field inequalities, trigonometric identities, integrals, measures of preimages | proved |
| C21 | Direction and area samplers land on their domain | MC/Props | field inequalities, trigonometric identities, integrals, measures of preimages | proved |
| C22 | Stratified samples fill every stratum once | Sampler/Strata | lists, permutations, one sample per stratum | proved |
| C23 | Latin hypercube samples are Latin | Sampler/Strata | lists, permutations, one sample per stratum | proved |
| C24 | The stratified sampler visits each pixel once | Sampler/Scan | generator as a state machine; induction over calls | proved |
| C25 | Sub-windows tile the image | Sampler/Sub | integer/real window arithmetic; partition of the window | part |
| C26 | Sample layout offsets | Sampler/Layout | heap of list objects; induction over requests | proved |
| C27 | A sample updates exactly the pixels under its filter footprint | Film/Props | folds over the sample list; permutation invariance | proved |
| C28 | Film accumulation is order independent | Film/Props | folds over the sample list; permutation invariance | proved |
| C29 | Concurrent film updates lose nothing | Film/Conc | interleavings of reads/writes and pixel locks of any number of tasks; invariant; serialisability | part |
| C30 | Written image is the filtered average | Film/Image | lists of rows, exact footprint | part |
| C31 | Sample extent covers the film | Film/Props | folds over the sample list; permutation invariance | part |
| C32 | Reconstruction filters | Filter/Filters | real algebra, continuity, symmetry | proved |
| C33 | Full refinement returns every leaf exactly once | Agg/Refine | refinement as a finite tree with a work list; induction on tree size | proved |
| C34 | Brute-force aggregate finds the nearest hit | Agg/Simple | fold over the primitives | part |
| C35 | BVH construction keeps every primitive exactly once | BVH/BuildProps, BVH/BuildProps2 | structural induction over the recursive builder; permutations; partition loops by induction; same builder, induction on the range | part |
| C36 | BVH bounds are conservative at every node | BVH/BuildProps | structural induction over the recursive builder; permutations; partition loops by induction | proved |
| C37 | Flattened BVH is a faithful layout | BVH/Flatten | structural induction on the tree, specification = depth-first listing | proved |
| C38 | BVH traversal agrees with brute force | BVH/Depth, BVH/TraverseProps | induction over the construction; a sharp bound with a kernel-computed witness; stack loop invariant, refinement to brute force over all primitives | part |
| C39 | Grid voxel addressing | Agg/GridProps | arithmetic on voxel addresses; induction over the primitives inserted | proved |
| C40 | Triangle intersection is sound and complete | Shape/Triangle | Cramer; barycentric coordinates | proved |
| C41 | Sphere intersection | Shape/Sphere | quadratic discriminant, arguments of complex numbers | proved |
| C42 | Disk intersection | Shape/Disk | plane intersection, polar coordinates | proved |
| C43 | Triangle mesh refinement and validation | Shape/Mesh | index arrays, list algebra; measure of preimages | part |
| C44 | Loop subdivision weights are affine | Shape/LoopOut, Shape/LoopWeights | vector algebra; permutations of the output mesh; affine maps and convex hulls by induction over levels | proved |
| C45 | BSDF component selection by flags | Reflection/Bsdf | bit vectors for flags, list induction over components | proved |
| C46 | Fresnel reflectances are fractions | Reflection/Fresnel | real algebra and monotonicity | part |
| C47 | Specular directions obey the laws of reflection and refraction | Reflection/Fresnel | real algebra and monotonicity | part |
| C48 | Shading frame conversions are mutually inverse | Reflection/Bsdf | bit vectors for flags, list induction over components | part |
| C49 | Parameter queues are FIFO per type | Interface/Param | dictionary of queues; induction over call histories | proved |
| C50 | Attribute and transform scoping | Interface/Api | heap of list objects with references, state machine of calls; induction over call sequences | part |
| C51 | Each generated sample reaches the film once, sanitised | Render/Task | state machine of the task loop with arbitrary collaborators; induction over the batches | proved |
| C52 | Recursion depth is bounded | Render/Recursion | well-founded recursion on max_depth - depth; count of calls | proved |
| C53 | Integer rounding helpers | Util/Ints | strong induction on integers | proved |
| C54 | Shadow ray segment | Light/Light | real algebra; occlusion as existence of hits on a segment | proved |
| C55 | Volume aggregates | Volume/Volume | slabs; integrals of the density along a segment | part |
| C56 | Phase functions | MC/Phase | integrals over the sphere, inversion of distribution functions | part |
| C57 | Noise and mip-map tables are indexed in range | Texture/MipMap, Texture/Noise, Texture/Resample | levels by induction; convex combinations of texels; periodicity, continuity, bounds of interpolated gradients; weighted sums with index arithmetic | part |
| C58 | Spectrum values behave like vectors of samples | Spectral/Average, Spectral/Rgb, Spectral/Tables | integrals of piecewise linear functions by induction over the segments; pointwise algebra; determinant of the colour matrices; induction over the tables and bands with C58 (arrays restored); exactness of the trapezoid rule for piecewise linear data; the sums over the printed data are evaluated by the kernel | part |
| C59 | Copying a box | BBox/Props | order reasoning; folds of unions by induction over the sequence | part |
| C60 | Spherical coordinates | Geom/Props | real algebra (sqrt, cross and dot identities) | proved |
| C61 | Ray differentials follow the ray | Xform/Props | 4x4 matrix algebra, induction over an expression type of all constructors | part |
| C62 | Projections | Xform/AnimProps | case analysis of time; folds of unions | part |
| C63 | Transform predicates | Xform/AnimProps | case analysis of time; folds of unions | part |
| C64 | Grid traversal | Agg/GridComplete, Agg/GridWalk | invariant of the walk: next crossings are exact and every hit in an earlier voxel is accounted for; induction on the walk; invariant of the 3D walk (crossing parameters, current voxel), induction over steps; refinement to the brute-force answer | part |
| C65 | Image file contents | Util/ImageIO | rows of bytes; clamping inequalities | part |
| C66 | Samplers follow the densities they report | MC/ConcentricLaw, MC/Law, MC/Props | radius and angle of the map have the joint density r/pi (sector by sector, Fubini); area in polar coordinates; change of variables (Jacobians) on the unit square, for all measurable sets; field inequalities, trigonometric identities, integrals, measures of preimages | part |
| C67 | Cone and Henyey-Greenstein sampling | MC/Law, MC/Phase, MC/Props | change of variables (Jacobians) on the unit square, for all measurable sets; integrals over the sphere, inversion of distribution functions; field inequalities, trigonometric identities, integrals, measures of preimages | part |
| C68 | Named coordinate systems are snapshots | Interface/Api | heap of list objects with references, state machine of calls; induction over call sequences | part |
| C69 | Radiance of a camera ray | Render/Task | state machine of the task loop with arbitrary collaborators; induction over the batches | part |
| C70 | Recursive radiance adds reflected and transmitted light | Render/Recursion | well-founded recursion on max_depth - depth; count of calls | part |
| C71 | Points sampled on a triangle lie on it | Shape/Mesh, Shape/TriLaw | index arrays, list algebra; measure of preimages; reduction to the law of the barycentric sampler | part |
| C72 | Texture coordinates belong to the vertices | Shape/Mesh | index arrays, list algebra; measure of preimages | part |
| C73 | Surface parameters and tangents of quadrics | Shape/Disk, Shape/SphereGeo | plane intersection, polar coordinates; derivatives of the parametrisation, integrals for the area | part |
| C74 | Points sampled on quadrics lie on them | Shape/Disk, Shape/SphereGeo | plane intersection, polar coordinates; derivatives of the parametrisation, integrals for the area | part |
| C75 | Sampling a BSDF agrees with evaluating it | Reflection/Bsdf | bit vectors for flags, list induction over components | part |
| C76 | Dielectric reflectance follows Fresnel's equations | Reflection/Fresnel | real algebra and monotonicity | part |
| C77 | Default BDF sampling | Reflection/Diffuse | integrals over the hemisphere, trigonometric inequalities | proved |
| C78 | Lambertian reflection | Reflection/Diffuse | integrals over the hemisphere, trigonometric inequalities | proved |
| C79 | BDF adapters | Reflection/Diffuse | integrals over the hemisphere, trigonometric inequalities | part |
| C80 | Oren-Nayar reflection | Reflection/Diffuse | integrals over the hemisphere, trigonometric inequalities | proved |
| C81 | Blinn microfacet distribution | Reflection/Aniso, Reflection/Microfacet | derivatives and integrals of the sampling densities; real algebra, Jacobians, energy bounds | proved |
| C82 | Anisotropic microfacet distribution | Reflection/Aniso, Reflection/Microfacet | derivatives and integrals of the sampling densities; real algebra, Jacobians, energy bounds | proved |
| C83 | Torrance-Sparrow reflection | Reflection/Aniso, Reflection/Microfacet | derivatives and integrals of the sampling densities; real algebra, Jacobians, energy bounds | part |
| C84 | Fresnel blend reflection | Reflection/Aniso, Reflection/Microfacet | derivatives and integrals of the sampling densities; real algebra, Jacobians, energy bounds | proved |
| C85 | Coordinates of isotropic BRDF tables | Reflection/Measured | k-d tree lookup as weighted sum; table indices in bounds | proved |
| C86 | Lookup in irregular BRDF tables | Reflection/Measured | k-d tree lookup as weighted sum; table indices in bounds | proved |
| C87 | Lookup in half-angle BRDF tables | Reflection/Measured | k-d tree lookup as weighted sum; table indices in bounds | part |
| C88 | Face neighbours of a subdivision mesh are linked correctly | Shape/LoopTopo | finite maps for faces/edges; induction over the face list | proved |
| C89 | Each level of subdivision is again a consistently oriented manifold with four times the faces | Shape/LoopLevels, Shape/LoopTopo | invariants of the connectivity, induction over levels; finite maps for faces/edges; induction over the face list | proved |
| C90 | Constructing a subdivision surface terminates | Shape/LoopLevels, Shape/LoopWalk | invariants of the connectivity, induction over levels; fuelled loops; termination and the visited ring by induction | proved |
| C91 | valence() counts the edges at a vertex | Shape/LoopWalk | fuelled loops; termination and the visited ring by induction | proved |
| C92 | one_ring() lists every neighbour exactly once | Shape/LoopLimit, Shape/LoopWalk | eigenvectors of the subdivision rule; limits; fuelled loops; termination and the visited ring by induction | proved |
| C93 | Flags carried over to the next level are the ones a fresh mesh would get | Shape/LoopLevels, Shape/LoopPos, Shape/LoopWeights | invariants of the connectivity, induction over levels; affine combinations; affine maps and convex hulls by induction over levels | proved |
| C94 | Output vertices lie on the limit surface | Shape/LoopLimit | eigenvectors of the subdivision rule; limits | part |
| C95 | refine returns a well-formed mesh with local normals | Shape/LoopOut | vector algebra; permutations of the output mesh | part |
| C96 | Point lights follow the inverse square law | Light/Light | real algebra; occlusion as existence of hits on a segment | proved |
| C97 | Spot lights shine inside their cone with a smooth falloff | Light/Light | real algebra; occlusion as existence of hits on a segment | part |
| C98 | Sampling a set of shapes matches its density | Light/Area | real algebra and integrals; distributions from Dist | proved |
| C99 | Sampling a diffuse area light | Light/Area | real algebra and integrals; distributions from Dist | proved |
| C100 | Choosing one light is unbiased | Integrator/Direct | finite sums; multiple importance sampling weights; expectation over the choice of a light | proved |
| C101 | The direct lighting estimate is unbiased | Integrator/Direct | finite sums; multiple importance sampling weights; expectation over the choice of a light | part |
| C102 | Rays that leave the scene see only the environment | Light/Area | real algebra and integrals; distributions from Dist | part |
| C103 | Environment lights are sampled according to their density | Light/Area | real algebra and integrals; distributions from Dist | part |
| C104 | Estimating light does not change the light | Integrator/Direct | finite sums; multiple importance sampling weights; expectation over the choice of a light | part |
| C105 | SampledSpectrum.from_rgb decomposes colours as documented | Spectral/Rgb | pointwise algebra; determinant of the colour matrices | part |
| C106 | Sampled spectra are averaged over adjacent bands | Spectral/Rgb | pointwise algebra; determinant of the colour matrices | part |
| C107 | RGB spectrum constructors keep the given samples | Spectral/Rgb | pointwise algebra; determinant of the colour matrices | part |
| C108 | Volume regions use their own phase function | Volume/Volume | slabs; integrals of the density along a segment | part |
| C109 | Optical thickness of a density region | Volume/Volume | slabs; integrals of the density along a segment | proved |
| C110 | Volume coefficients | Volume/Volume | slabs; integrals of the density along a segment | proved |
| C111 | Noise is bounded and continuous | Texture/Noise | periodicity, continuity, bounds of interpolated gradients | part |
| C112 | Fractal sums add the octaves that fit the filter | Texture/Noise | periodicity, continuity, bounds of interpolated gradients | part |
| C113 | smooth_step is a smooth step | Texture/Noise | periodicity, continuity, bounds of interpolated gradients | part |
| C114 | Every pyramid level halves the image and keeps its mean | Texture/MipMap | levels by induction; convex combinations of texels | part |
| C115 | Isotropic texture lookups interpolate | Texture/MipMap | levels by induction; convex combinations of texels | part |
| C116 | Anisotropic texture lookups | Texture/MipMap | levels by induction; convex combinations of texels | part |
| C117 | Images of any size are resampled to powers of two | Texture/Resample | weighted sums with index arithmetic | part |
| C118 | Texture mappings and their differentials | Texture/Tex | case analysis; cache histories by induction | part |
| C119 | Procedural textures | Texture/Tex | case analysis; cache histories by induction | part |
| C120 | The image texture cache is invisible | Texture/Tex | case analysis; cache histories by induction | part |
| C121 | Perspective camera rays | Camera/Camera | matrix algebra, explicit rays; counterexamples where the code is wrong | proved |
| C122 | Depth of field | Camera/Camera | matrix algebra, explicit rays; counterexamples where the code is wrong | proved |
| C123 | Orthographic camera rays | Camera/Camera | matrix algebra, explicit rays; counterexamples where the code is wrong | proved |
| C124 | Camera rays are made at a time when the shutter is open | Camera/Camera | matrix algebra, explicit rays; counterexamples where the code is wrong | part |
| C125 | Camera ray differentials are the rays of the neighbouring pixels | Camera/Camera | matrix algebra, explicit rays; counterexamples where the code is wrong | part |
| C126 | Pinhole and environment cameras | Camera/Camera | matrix algebra, explicit rays; counterexamples where the code is wrong | part |
| C127 | Copying a differential geometry | Geom/DiffGeom | linear algebra in the tangent plane (Cramer) | part |
| C128 | Screen differentials of surface points | Geom/DiffGeom | linear algebra in the tangent plane (Cramer) | proved |
| C129 | Bump mapping | Material/Material | case analysis over all materials and all spectra/textures | part |
| C130 | Material colours are never negative | Material/Material | case analysis over all materials and all spectra/textures | part |
| C131 | Components of the basic materials | Material/Material | case analysis over all materials and all spectra/textures | proved |
| C132 | Uber material conserves energy | Material/Material | case analysis over all materials and all spectra/textures | proved |
| C133 | Mixing materials | Material/Material | case analysis over all materials and all spectra/textures | part |
| C134 | Reading measured BRDF files | Material/MeasuredFile | file contents as lists, cache as a state, induction over histories | proved |
| C135 | Measured materials can be made repeatedly | Material/MeasuredFile | file contents as lists, cache as a state, induction over histories | part |
| C136 | Subsurface materials | Material/Material | case analysis over all materials and all spectra/textures | part |
| C137 | Concentric disc sampling | MC/Concentric | preimage sets; change of variables, Lebesgue measure of preimages | part |
| C138 | Shading geometry of a triangle interpolates the mesh's normals | Shape/Shading | linear algebra (barycentric solve) | part |
| C139 | The bounds of a mesh hold everything that can be hit | Shape/MeshBound | folds of unions | proved |
| C140 | Sampling a sphere from a point chooses visible points with the reported density | Shape/SphereSample | cone geometry, density of directions | part |
| C141 | The directional density of a shape is its area density converted to solid angle | Shape/SphereSample | cone geometry, density of directions | proved |
| C142 | Lazy refinement in grid voxels is safe under any schedule | Agg/Voxel | interleaving semantics, one shared access per step, any number of threads; inductive invariant over all executions | part |
| C143 | A scene's bound holds everything in it, and building a scene changes no answer | Scene/Scene | cells for the shared box objects | part |
| C144 | The path integrator's value, and Russian roulette does not bias it | Integrator/Path | loop as recursion on the bounce; induction to a closed sum over path vertices | part |
| C145 | Primitives record their nearest hit, and the BVH finds the nearest point of all shapes | Agg/Geometric | shapes as first-hit primitives; refinement of the BVH theorem to shape geometry | part |
| C146 | Mirror rays carry correct differentials | Integrator/Specular | derivatives (HasDerivAt) of reflection and refraction along arbitrary curves; call trees | part |
| C147 | Refracted rays carry correct differentials | Integrator/Specular | derivatives (HasDerivAt) of reflection and refraction along arbitrary curves; call trees | part |
| C148 | Both specular rays of a hit leave from that hit | Integrator/Specular | derivatives (HasDerivAt) of reflection and refraction along arbitrary curves; call trees | part |
| C149 | Cylinders report exactly their own points | Shape/Cylinder | quadratic discriminant, arguments of complex numbers, measure of preimages | part |
| C150 | Every primitive and every shape has an identifier of its own | Agg/Ids | invariants of a transition system of interleaved threads, by induction on executions | part |
| C151 | Key frames are taken apart into translation, rotation and stretch | Xform/Polar | invariants of the iteration by congruence of positive definite matrices, Cauchy-Schwarz, induction on rounds | proved |
| C152 | Between its key frames an animated transform interpolates | Xform/Interp | positive definiteness of the stretches, computed counterexamples | part |
| C153 | An instance behaves like the primitive placed where the instance puts it | Agg/Instance | adjugate identity for cross products, composition of transforms, parity of handedness | part |
| C154 | The integrators' sample requests never collide and are always filled | Sampler/Requests | induction over lights and bounces; disjoint ranges of offsets | part |
| C155 | Points, vectors and normals keep their classes and reject NaN | Geom/Kinds | case analysis on floats with infinities and NaN | part |
| C156 | Rays behave as values | Geom/Rays | heap of point and vector objects, ownership invariant, refinement to values by induction on histories | proved |
| C157 | A rendering samples each cell of each pixel exactly once and writes their weighted mean | Render/Full | composition of the sampler, the task loop (C51) and the film (C27, C30); induction over pixels | proved |
| C158 | A ray sees the emission and material of the surface it hits first | Agg/Emit | composition of the full refinement, the accelerator (C38) and the intersection record; invariant linking pieces to the object they came from | part |
| C159 | Pictures are read with their sizes and pixels | Light/Files | case analysis over the kinds of picture; every path of the loader | part |
| C160 | Lights with pictures and distant lights illuminate as described | Light/Files | case analysis over the kinds of picture; every path of the loader | part |
| C161 | Reflectance estimates of a surface are those of its components and lie within the bounds of the reflection | Reflection/Rho | induction over samples and components; sums over strata; fundamental theorem of calculus | part |
| C162 | Starting and stopping the system, and the rendering options | Interface/System | state machine over histories with caught exceptions; induction | part |
| C163 | The light a surface sends to the viewer is its emission plus what each light adds | Integrator/Whitted | composition of material (C131), lights (C96), visibility (C54) and specular rays (C148); induction over the lights | proved |
| C164 | Direct lighting with all lights agrees with the Whitted integrator on point-like lights | Integrator/Whitted | composition of material (C131), lights (C96), visibility (C54) and specular rays (C148); induction over the lights | proved |
| C165 | Sample patterns estimate integrals without bias, no worse than independent samples | Sampler/Unbiased | An abstract lemma: N maps that send a law to N cells whose laws average to it give an unbiased estimator whose variance is at most that of independent points (variance of pairwise independent sums, Cauchy-Schwarz); the strata of the interval and the square are such cells (image of Lebesgue measure under affine maps, product measures); random rearrangements by relabelling. | proved |
| C166 | The grid's resolution follows the number and the extent of the objects | Agg/GridSize | real arithmetic of the resolution formula; uses the longest axis (C04) | proved |
| C167 | Light adds up in the picture | Render/Linear | worlds with the same view take the same samples (lockstep induction over the task loop); linearity of the weighted means | proved |
| C168 | What the picture of a scene shows | Render/Picture | composition: the models of camera, BVH, triangle, material, light, integrator, task and film are joined into one world; the answers of the BVH are translated into statements about the triangles (C38, C145), the radiance by C163, the film by C157 | part |
| C169 | Mirrors in the picture | Render/Mirrors | the recursion renderer - integrator - specular reflection as structural recursion on the nesting; induction on the mirrors left; specification as an inductive relation (what is seen after n mirrors) | part |
| C170 | A volume acts only inside its world bound | Volume/Bound | points of the region are carried into the bound by C11; the aggregate by induction over the regions; the counterexamples are computed | part |
| C171 | The spectral tables made at start-up, and colours computed from sampled spectra | Spectral/Tables | induction over the tables and bands with C58 (arrays restored); exactness of the trapezoid rule for piecewise linear data; the sums over the printed data are evaluated by the kernel | part |
| C172 | The light a spherical area light sends to a surface point | Integrator/SphereLight | the sampled point is computed in closed form (C41, C140); change of variables from the unit square to the cone; independence of the frame by periodicity; bounds by monotonicity of the integral | part |
| C173 | The light that an area light made of triangles sends to a surface point | Integrator/TriLight | law of the chosen triangle (C98) and of the point on it (C66); the density of a direction is computed from the one triangle it meets; the counterexample is a one-triangle mesh that lights nothing | part |
| C174 | Samples and weights stay in range when every operation is rounded | Num/Ranges | results of every operation rounded by an arbitrary monotone rounding; monotonicity; the counterexamples are binary64 computations with certificates | part |
| C175 | Rounding cannot make the hierarchy lose what a primitive's own box admits | BVH/Rounded | the box test is monotone in the box because every rounded operation is; induction over the tree; error analysis of one slab; the counterexample is a binary64 computation | part |
| C176 | The picture is the weighted average up to rounding, in any order | Film/Average, Film/Rounded | induction over the samples with Err of Num/Majorant; quotient of two approximations; the example where the order matters is a binary64 computation; as Film/Model with rounded operations; monotonicity of rounding and exactness of x - 1/2 for the footprint; Err (k roundings, majorant) for the cell | proved |
| C177 | Task windows, scan and sample positions in rounded arithmetic | Sampler/Rounded, Sampler/RoundedSub | rounded model function by function; each draw bounded by the rounded ends of its stratum; induction over the calls of generate; rounded interpolation is monotone across zero and exact at 0 and 1; dyadic fractions are exact; certified roundings for the witnesses | part |
| C178 | A whole rendering in rounded arithmetic | Render/Rounded | induction on the pixels still to do (rounded generate, then rounded add_sample for the batch); the block of samples of a pixel reaches it by the footprint theorem of C176, hence positive weight and the bound of C176 | proved |
| C179 | Subdivision surfaces from scene parameters | Shape/LoopCreate | case analysis of the factory and of the constructor loops; the flat lists are compared with an independent description (FlatFaces, FlatPoints), the state with C93 | part |
| C180 | The triangle test in rounded arithmetic | Shape/TriRounded | rounded model of the test; error of the three determinants and the denominator by Flt, of the quotients by quot_err, compared with Cramer; the crack by kernel evaluation | proved |
| C181 | A scene of triangles in rounded arithmetic | BVH/TriScene | per-primitive version of the traversal invariant; a clear hit of a triangle keeps a distance from two pairs of faces of its box, and the parameter of a thin third slab is known well enough (thin_third), so one parameter passes all three rounded slabs | proved |
| C182 | Transformations in rounded arithmetic | Xform/Rounded | dot products as a relation with one rounding per product and sum in any order, with or without fma; induction over the derivation with the error calculus of Num/Majorant and Num/Grid; exact cases from partial sums that are floats; counterexamples evaluated by the kernel | part |
| C183 | Normalisation and coordinate systems in rounded arithmetic | Geom/Rounded | error calculus extended to reciprocals and square roots; componentwise relative errors of normalize; the exact frame as reference, perturbation of the six inner products | part |
| C184 | A surface does not cast a shadow on itself | Shape/SelfHit | error analysis: distance of the rounded point from the plane against the offset 1e-3 t; composition with C180 and C181; kernel-evaluated counterexamples | part |
| C185 | Shadow rays in rounded arithmetic | Light/ShadowRounded | error analysis of the normalised direction and of the plane parameter against the shortening by EPS; composition with C181, C183 and C184 | proved |
| C186 | The picture shows what is in front, in floating point | Render/FirstRounded | uniqueness of the plane parameter (Cramer) with the error bounds of C180 for the hidden triangles; composition with C181 and C178 | proved |
| C187 | Camera rays in floating point point at their sample | Camera/Rounded | the sparse matrix products computed entry by entry; relative error calculus (Err, Flt) through reciprocals, the homogeneous divide, normalisation and the world transformation | proved |
| C188 | Matte surfaces lit by point lights in floating point follow Lambert's law | Integrator/MatteRounded | running error bounds (C182/C183 toolkit) through the inverse square, the direction, the cosines, the INV_PI factor and the sum; sign of a rounded scalar product and the EPS thresholds decided under a margin; perturbation of the normal of a triangle; shadows from C181/C186 | proved |
| C189 | The picture of matte triangles under point lights in floating point is Lambert's law | Render/MatteRounded | error of the computed point, Lipschitz bound of the Lambert term in the point (falloff, cosine), then composition of C186, C188 and C178 | proved |
| C190 | Disks are hit and missed correctly in floating point | Shape/DiskRounded | error of the quotient and of the position from C182, comparison of rounded squares, perturbation of the angle by sine and cosine of the difference | proved |
| C191 | Complete spheres are hit and missed correctly in floating point | Shape/SphereRounded | relative error calculus for the coefficients and the discriminant; perturbation of the roots of a quadratic polynomial; np.roots as any backward accurate function | proved |
| C192 | The reflectance of conductors in floating point | Reflection/FresnelRounded | Running error analysis: numerators and denominators of both quotients are known up to 16 roundings relative to the denominator, which bounds the numerator; the bound 1 by monotonicity of rounding; the negative value by evaluating binary64 arithmetic on rationals in the kernel. | proved |
| C193 | Cylinders block rays correctly in floating point | Shape/CylRounded | Running error analysis of the coefficients and the discriminant, the perturbation bounds for the roots from the sphere, the angle bound from the disk; then case analysis of the retry with the second root. | proved |
| C194 | Parts of spheres are hit and missed correctly in floating point | Shape/SphereParts | The roots from C191; the clipping tests are decided by the margins (a point with a clear angle is never moved off the axis); case analysis of the retry with the second root. | proved |
| C195 | Sampled directions and points in floating point | MC/Rounded | Absolute rounding bounds for numbers of order 1, squares and square roots of close numbers; the cosine in a cone is at most 1 because (1 - t) rounded plus t lies below 1 + 2^-53 and rounds to at most 1. | proved |
| C196 | Scenes of triangles, spheres and disks are searched correctly in floating point | BVH/MixScene | forward error bounds for the transformed boxes; one-object traversal lemma of C181 with the clear-hit theorems of C190, C194 | proved |
| C197 | The picture of a mixed scene shows what is in front, in floating point | Render/FirstMixed | a limit on the ray only drops hits (C196), so an object beyond T reports nothing before T (C190, C191, C194); then C196 and the film bound C178 | proved |
| C198 | A sphere or a disk does not cast a shadow on itself | Shape/SelfQuadric | the quadratic equation at its larger root bounds it by the depth of the start under the surface over the outward component; then C191, C190 and the transformation bounds C182 | proved |
| C199 | Mip-maps in floating point | Texture/MipRounded | four equal doubles have exactly their mean (case split on the last bits), monotonicity of rounding; error induction over levels; Lipschitz bound of bilinear interpolation | proved |
| C200 | Diffuse reflection in floating point | Reflection/DiffuseRounded | absolute error analysis: clipped quotients times their divisors, error calculus for the coefficients, scaling by the larger cosine | proved |
| C201 | Henyey-Greenstein sampling in floating point | MC/HgRounded | error analysis of the quotient and of the cancellation; components in the nearly orthonormal frame of C183 | proved |
| C202 | Perlin noise in floating point | Texture/NoiseRounded | error analysis of the fade polynomial and of the nested interpolations; the offsets depend on the fractional parts only | proved |
| C203 | Rotations from quaternions in floating point | Xform/QuatRounded | absolute error analysis of the products; relative error of the length; perturbation of normalised vectors; M M^T - 1 as a multiple of 1 - |q|^2 | proved |
| C204 | The picture of matte triangles among spheres and disks in floating point is Lambert's law with the shadows of all objects | Render/MatteMixed | the first hit of C197 and the shadow test of C196/C197 with the shading lemma behind C189; the film lemma behind C189 | proved |
| C205 | Blinn's microfacet distribution in floating point | Reflection/BlinnRounded | absolute error of any summation order of a scalar product by induction on the tree of sums; t exp(-t) bounds the effect of the rounded exponent; perturbation of quotients | proved |
| C206 | The falloff of spot lights in floating point | Light/SpotRounded | rounding is monotone and differences of floats are relatively exact; Lipschitz constant of the clamped fourth power | proved |
| C207 | Ray marching through a density region in floating point | Volume/MarchRounded | relational model of the loop, equivalence with the first position past the exit, induction over the positions with one relative rounding per addition, Bernoulli for the sum; a lost addition for the non-termination | part |
| C208 | The Henyey-Greenstein phase function in floating point | Volume/PhaseRounded | absolute error of the base against its lower bound (1-|g|)^2, monotone powers for the exponent 3/2, relative errors through the two quotients; exact evaluation of the roundings for the pole | part |
| C209 | The isotropic, Rayleigh and Mie phase functions in floating point | Volume/PhaseRounded2 | absolute errors, the difference of two powers with close bases | proved |
| C210 | Triangle and Gaussian filters in floating point | Filter/Rounded | monotone rounding for symmetry, support and order; relative error of the differences of two floats; the exponential is 1-Lipschitz below zero | proved |

## What is modelled, by source file (`/repo/pytracer`)

| source | modelled in | not modelled |
|----|----|----|
| `geometry/__init__.py`, `geometry/utility.py`, `geometry/diffgeom.py` | Base, Geom, BBox, Xform (rays) | printing; dtype conversions |
| `transform/__init__.py`, `transform/quat.py` | Xform, Xform/Rounded | printing; rounding of `from_transform` |
| `aggregate/*` | Agg, BVH | `repr`s |
| `shape/*` | Shape | `Cylinder` partial derivatives (never reached, the code raises before); ids of shapes |
| `reflection/*` | Reflection | `rho` estimators of arbitrary BDFs (Monte Carlo sums over given samples are modelled for the base class) |
| `material/*` | Material | bump mapping beyond the fact that it raises |
| `texture/*` | Texture | textures that raise on every call |
| `light/*` | Light | `sample_r`, `power` (raise for every light), building the environment map |
| `integrator/*` | Integrator, Render/Recursion | dipole/irradiance integrators (absent from the source) |
| `renderer/renderer.py` | Render | process pool, queue, progress display |
| `film/film.py`, `filter/*`, `sampler/*` | Film, Filter, Sampler | writing to Tk/PIL |
| `camera/*` | Camera | – |
| `volume/*` | Volume, MC/Phase | `VolumeGridDensity` (its constructor raises) |
| `spectral/*` | Spectral, Spectral/Tables | the measured tables are parameters of the conversion theorems; Spectral/Tables has their contents |
| `montecarlo/*` | MC, Dist | – |
| `interface/*` | Interface | calls that only forward to constructors |
| `utility/*` | Util | PIL decoding |

Parts that no model here can express: the rounding error of `math`/`numpy` functions other than the four operations, wall-clock behaviour,
file and image codecs, the Tk/PIL front end, CPython's scheduler (only its interleaving abstraction).

## Errors that keep code from being modelled (it raises whatever the input)

* `interface/api.py` cannot be imported; `from collections import Iterable` fails on Python ≥ 3.10.
* `Cylinder` and `TransformedPrimitive` are abstract (a required method is missing).
* Every light's `sample_r` raises; `power` is a property with an argument; `DistantLight.sample_l` raises; `ProjectionLight` cannot be built from RGB images.
* `VolumeGridDensity` cannot be built; `lve` of a volume aggregate raises.
* `MIPMap` of floats, `CylindricalMapping2D`, `DotsTexture`, `ImageTexture.__call__`, the fallback for unreadable image files, and everything through `FBm` raise.
* Bump maps, `MixMaterial` with components, `SubsurfaceMaterial.get_bsdf` and `KdSubsurfaceMaterial.get_bssrdf` raise.

## Errors found in the code, each with its theorem

* `C02_empty_box_reports_hit_false` — C02 is violated for the default (empty) box: every ray with a non-zero direction is reported to hit `BBox()`, although no point is inside it.
* `C02_negative_zero_false` — C02 is violated with `-0.0`: a ray running inside the face x = 0 of the unit box, with x direction `-0.0`, is reported as a miss although the point at t = 1/2 is in the box.
* `C03_ne_is_not_negation_false` — C03 is violated: a proper box is reported different from itself.
* `C03_ne_misses_difference_false` — C03 is violated in the other direction too: two different boxes with `a != b` false.
* `C11_mirrored_box_loses_points_false` — C11 is violated by a mirror scale.
* `C11_rotated_box_loses_points_false` — C11 is violated by a quarter turn about z: the point (1,1,1) of the unit box leaves the "transformed box".
* `C12_look_at_wrong_direction_false` — C12 is violated: looking along +x with z up, the camera's +z axis is mapped to +y.
* `C15_static_forward_false` — C15 is violated for a transform that is not animated and `use_inv=False` (the default): the inverse is applied anyway, so a scaled-up box is bounded by a shrunken one.
* `C16_from_transform_wrong_false` — C16 (violation): whenever the rotation is not a half-turn the recovered quaternion is wrong: the trace is taken over the 4×4 matrix, so the scalar part comes out as `sqrt(4 s² + 1) / 2`.
* `C19_row_index_false` — C19 is false of the code: the second coordinate is the row index; with three rows of equal weight it is 2 for a sample in the last row, outside the unit square.
* `C19_step_false` — C19 is false of the code on the steps of the cumulative tables, even with the row index mapped back to the unit interval: for the one-row table `[1, 3]` and `u0 = 1/4` the reported density is 1/2 at position 1/2, where `pdf` is 3/2.
* `C25_indivisible_false` — C25 fails when the tile count does not divide the width: task 0's sampler then has a fractional right border, and its `generate` never returns `False`: the task never ends.
* `C25_offset_window_false` — C25 fails for crop windows that start at 1 or later: for every such window and every number of tasks, no task gets a sampler, so nothing at all is rendered.
* `C29_lost_update_false` — C29 is false for filters at most half a pixel wide: the code then takes no lock, although a sample on a pixel edge updates both pixels. Two tasks with one sample each can lose an update: the first pixel ends with weight one instead of two.
* `C30_zero_weight_false` — C30 fails for filters with negative lobes: the weights of two white samples cancel, and the pixel, on which nothing was splatted, receives the undivided difference of the two colours.
* `C31_crop_y_false` — C31 fails for cropped non-square images: a 20 × 10 image cropped to its lower half gets the row range `[10, 11)`, which is outside the image; the crop asked for rows `[5, 10)`.
* `C34_isect_not_nearest_false` — C34 is violated: with the farther plate listed first, `ray.maxt` is 1 (the nearer plate) but the intersection handed back is that of the farther plate.
* `C35_middle_assertion_false` — C35 is violated by `method='middle'`: two primitives given in decreasing order along the split axis make the constructor fail its own assertion.
* `C35_sah_leaf_type_error_false` — C35 is violated by larger node sizes: when the surface-area heuristic decides for a leaf the constructor raises `TypeError` (five nearly coincident boxes, `max_prim_per_node = 5`).
* `C38_deep_false` — C38 is violated for scenes of 67 primitives: 67 cubes in a row with growing distances, a ray along the row that meets all the hypotheses and hits the first cube; both queries raise `IndexError`.
* `C38_hit_at_maxt_false` — C38 is violated for a hit exactly at the ray's upper limit on a flat box: a brute-force test accepts `t = maxt`, the box test requires `tmin < maxt`.
* `C38_negative_zero_false` — C38 is violated for a direction with a `-0.0` component (as produced by negating a vector): a box around the ray, hit at parameter 1 in `[0, inf)`, is missed.
* `C38_origin_on_x_face_false` — C38 is violated for a ray parallel to the x planes whose origin lies on an x face: `0 * inf` is NaN and the x slab then rejects; the same situation in y is accepted.
* `C43_negative_false` — C43 is false of the code for negative indices: they pass the validation. With `[-4, 0, 1]` and three vertices a mesh is built, and its triangle refers to a vertex that does not exist (so every intersection test raises `IndexError`).
* `C46_dielectric_range_false` — The full range claim is false of the code: leaving a medium of index 4 straight on, the "reflectance" exceeds one.
* `C47_snell_false` — Snell's law is false of the code: from air into glass at a slant.
* `C47_spurious_total_reflection_false` — Light entering a denser medium is never totally reflected, yet the code returns nothing for it at some angles.
* `C48_round_trip_false` — The full property is false of the code: in a frame turned about an axis a unit vector does not come back, not even with its length.
* `C50_transforms_leak_false` — C50 is false of the code: a translation (or any other factor) inside a scope of either kind is still applied after it, in every state where the current transforms are set and the factor changes one of them.
* `C55_emission_false` — C55 the emission of an aggregate with any region raises
* `C55_interval_false` — C55 a region that is only touched is reported by itself but not through an aggregate, so "hits exactly when some region is hit" is false
* `C55_tau_transformed_false` — C55 for a transformed region the optical depth is wrong: a unit box moved ten units away still attenuates a ray through the origin, where its attenuation is zero
* `C56_schlick_false` — C56 is false of the code for the Schlick approximation: `a / b * b` is evaluated left to right, so the function is constant and, for `g = 1/2`, has total mass below one.
* `C56_schlick_negative_false` — C56 is false of the code for the Schlick approximation in another way: close to `g = 1` it is negative.
* `C57_box_false` — C57 fails: the finer level is averaged but transposed: in the pyramid of the image that is 1 for `s < 2` and 0 elsewhere, entry `[0, 1]` of level 1 should be the mean of the texels `s < 2, 2 ≤ t < 4`, which is 1, but is 0
* `C57_noise_lattice_false` — C57 fails at lattice points: line 111 of `_grad` replaces the gradient component by the constant -1, so the noise is -1 at some lattice points, e.g. at `(2, 0, 0)`
* `C58_average_false` — C58 the claim fails at an inner wavelength of the table: there the sum runs on to the end of the table. A table that is one everywhere, averaged over its first half, gives two.
* `C58_is_black_agree_false` — C58 the two tests of the code disagree on spectra with negative samples: the method calls a spectrum of −1 black, the function does not
* `C58_roundtrip_exact_false` — C58 the two conversions are not exact inverses of each other
* `C59_copy_of_empty_is_everything_false` — C59 is violated for the default box: its copy is all of space.
* `C61_differentials_not_transformed_false` — C61 is violated: a translation does not move the auxiliary origins.
* `C62_division_skipped_false` — C62 is violated by exactly one plane slab: at depth `1 + EPS/2` the homogeneous division is skipped, so a point of the far plane at that depth is not mapped to depth 1.
* `C63_has_scale_rows_false` — C63 is violated in general: `has_scale` measures matrix rows, not the images of the axes. A shear with unit rows stretches the x axis and still answers `False`.
* `C64_axis_parallel_miss_false` — C64 is violated for rays parallel to an axis: a ray along +x at y = z = 3/2 starting inside the grid runs into the far box at t = 5/2, and brute force reports it, but the grid misses it (the first crossing of the y axis is computed as -inf).
* `C64_edge_false` — C64 is violated also where a diagonal ray leaves the grid exactly where it enters a new voxel on another axis: the hit on the edge of the last box, which brute force reports, is missed.
* `C64_oblique_miss_false` — C64 is violated also in general position: an oblique ray (all components non-zero) from inside the grid misses the far box, because `next_crossing` subtracts `grid_intersect / d` from the voxel position instead of dividing their difference.
* `C65_crop_false` — C65 is false of the code for cropped images: whatever the window, its position and the existing file, a cropped film either gets a `ValueError` or, for a one-pixel window, leaves the file as it was: no cropped film ever updates the file. (`w`, `h` are the window's pixel counts, as film.py 258-260 passes them.)
* `C66_cosine_false` — C66 is false of the code for the cosine-weighted sampler: it projects points of the uniform sphere instead of points of the disk. Within 60° of the pole `cosine_hemisphere_pdf` has mass 3/4, but only half of the samples fall there.
* `C67_cone_no_frame_false` — C67 is false of the code when no frame is given: no direction is returned.
* `C68_not_a_copy_false` — C68 is false of the code: a named coordinate system is not a copy; a factor applied after `add_coordinate_system` is still there after `set_coordinate_system`.
* `C69_background_lost_false` — C69 is false of the code: a ray that misses everything is black on the film whatever the lights emit, because `li` is only called when `intersect_p` reports a hit; so with any light that emits towards missed rays the picture differs from `li`.
* `C70_transmission_lost_false` — C70 is false of the code: the transmitted ray contributes nothing. `specular_transmit` takes the second output of `renderer.li`, which is zero without a volume integrator, so removing every refraction from the scene changes no value.
* `C71_wrong_vertex_false` — C71 is false of the code: the second corner is looked up as "first vertex number plus one". In a mesh of four vertices the triangle with vertices 0, 2, 3 is sampled at a point off the triangle (off its plane, even).
* `C72_shared_vertices_false` — C72 is false of the code: the lookup ignores the vertex numbers. A triangle that lists three vertices in another order gets the texture coordinates of the wrong vertices, and on a mesh of two triangles sharing an edge, with one pair per vertex as documented, the lookup for the second triangle raises `IndexError`.
* `C73_disk_hole_false` — C73 is false for disks with a hole: on the annulus with radii 1/2 and 1 the hit point on the outer edge has `v < 0`, and hit points near the inner edge have no `v` at all (NaN).
* `C73_disk_sector_false` — C73 is false for sectors: on a half disk the reported `dpdu` is half the derivative.
* `C73_sphere_v_false` — C73 is false for `v`: on the complete unit sphere the point (1, 0, 0), half way between the poles, is reported with `v = π²/2 ≈ 4.9` (the offset is multiplied by the range instead of divided).
* `C74_disk_normal_false` — C74 is false for the normal: the returned normal is the normalised *position*. On the unit disk in the plane `z = 0`, whose normal is the z axis, the canonical sample (1, 1/2) gets the normal (1, 0, 0), which lies in the disk.
* `C74_disk_sector_false` — C74 is false for sectors: half of the samples of a half disk lie outside it, for example the canonical sample (1/2, 0).
* `C74_sphere_false` — C74 is false for spheres: the canonical sample (0, 0) of the complete unit sphere is the point (0, 0, -3).
* `C75_two_components_false` — The full property is false even in the standard frame: with two identical diffuse components the reported density is half of `pdf`'s and the reported value half of `f`'s.
* `C76_fresnel_false` — The full agreement is false: straight on from air into glass the code's reflectance is not the one of Fresnel's equations (1/25 there).
* `C76_reversible_false` — and therefore so is reversibility: entering and leaving along the same path give different reflectances
* `C79_adapter_pdf_false` — The adapter's `pdf` is not the density its own `sample_f` reports: for a Lambertian it is zero at every direction sampled.
* `C79_scaled_false` — The scaling adapter never returns: `f` scaled by the given amount is what its documentation promises.
* `C83_nonneg_false` — The value is negative for some pairs of directions on opposite sides (light reflected "through" the surface).
* `C87_cell_false` — The property a table lookup is for is false of the code: the entry read for the difference polar angle is not the one of the cell `[i π/n, (i+1) π/n)` containing that angle.
* `C94_output_on_limit_surface_false` — C94 (violation): on every mesh and at every vertex, interior or boundary, there are control points for which the point `refine` outputs for the vertex is not the limit of subdivision.
* `C95_closed_mesh_raises_false` — C95 (violation): `refine` raises on every closed mesh.
* `C95_interior_normal_local_false` — C95 (violation): the normal of an interior vertex depends on the vertex before it in the list, because the tangents are added to those of that vertex: for every interior vertex there are two boundary predecessors for which it gets two different normals, one of them the zero vector.
* `C97_sample_l_false` — C97 the full statement fails: a light at the origin shining along +z, a point on the axis at distance 2.
* `C101_area_light_false` — C101 the full statement (the estimate of a light that is not a delta light is, on average, the plain estimate) fails: here it is half of it for every sample.
* `C102_background_false` — C102 so a ray that leaves a scene without environment light is not always black: one area light suffices.
* `C103_pdf_false` — C103 `pdf` is not a density over directions: for a constant environment its integral over the sphere is `4π`.
* `C103_sample_false` — C103 hence a constant environment is never sampled with a usable density: whatever the sample, no direction with a density comes out.
* `C104_unchanged_false` — C104 the full statement (rendering does not change the lights) fails with a volume integrator.
* `C105_from_rgb_false` — C105 pure red becomes a multiple of the magenta basis and pure green of the red one, so the claim is false
* `C106_sampled_bands_false` — C106 every other band of `from_sampled` ends in the wrong place: it is thirty times too far out
* `C107_create_false` — C107 `create` never gives a spectrum with the samples of a list: floats are refused, integers give an array of another shape with unset elements
* `C108_aggregate_phase_false` — C108 the phase function of an aggregate of one region is that region's; of two copies of a region it has mass two, so it is no phase function
* `C108_phase_ignores_asymmetry_false` — C108 at time zero every region scatters isotropically whatever its asymmetry parameter, and at time one it does not scatter at all in any direction other than straight ahead
* `C111_bounded_false` — C111 fails: the noise leaves `[-1, 1]` (it is below -1.9 at `(60, 47, 119.75)`)
* `C111_continuous_false` — C111 fails: the noise jumps across faces `y = j` because line 163 interpolates with `wz` instead of `wy`; along `x = 0, z = 1/2` the value at `y = 4` is -5/4 while the limit from below is -1/2
* `C111_gradient_false` — C111 fails: for an odd hash the first term is the constant -1 in place of the negated offset, so the noise does not vanish at the lattice point
* `C112_fade_false` — C112 fails also for the transition between octave counts: the last octave should enter with weight 0 (so that the value changes continuously with the filter width) but enters with weight 0.216 and leaves with weight 0.784 instead of 1
* `C112_fbm_false` — C112 fails: whenever at least one octave is allowed and the screen differentials are at most one unit long, `FBm` raises instead of returning the sum of octaves, e.g. for zero differentials and one octave
* `C113_smooth_step_false` — C113 fails: `smooth_step` does not rescale, so it is not 0 at `lo` and 1 at `hi` (with the interval `[0.3, 0.7]` used by `FBm` and `turbulence` it is 0.216 and 0.784), and outside `[0, 1]` it is not even monotone: on `[0, 2]` it runs from 0 through 1 to -4
* `C114_mean_false` — C114 fails for black wrapping: once one axis has a single texel the other rows read by the filter are black, so an all-white 1 × 2 image becomes grey (1/2) at the next level
* `C115_coarse_false` — C115 fails for black wrapping: the coarsest level is read at the corner of its single texel, so a lookup of a wholly white image over its whole extent returns a quarter
* `C115_orientation_false` — C115 fails for the orientation: in the image that is 1 where `s < 1/2` and 0 elsewhere, a lookup at `(1/4, 3/4)` with width 1/2 covers only texels equal to 1, and returns 0, because level 1 is transposed
* `C116_aniso_false` — C116 fails: without `trilinear`, a lookup whose smaller differential (after the eccentricity clamp) is shorter than 2 texture widths but not zero raises, for every image: the elliptical filter calls a function that does not exist. Stated for differentials within the allowed eccentricity.
* `C117_nonsquare_false` — C117 fails for images that are not square: the two axes are confused in the first pass, and the constructor raises for every image that is not square and has a side that is not a power of two
* `C118_spherical_false` — C118 fails: line 87 (and 126) subtracts `s` where `t` is meant, so at `(1, 0, 0)` with a point that does not move the differential of `t` in y is -4 instead of 0
* `C119_checker_aa_false` — C119 fails for filters over several checks: wherever the anti-aliased checkerboard of two equal textures of value `c` is filtered, its value is 1 (or not a number) instead of `c`; for instance `c = 1/4` at `(1, 1/2)` with differentials 1/4
* `C120_cache_false` — C120 fails for mixed storage types: the key leaves the storage type out, so the second of two textures of the same file with different storage types gets the map of the first, for every way of making maps that distinguishes the types
* `C120_nonsquare_false` — C120 fails for images that are not square: the conversion reads beyond the array and raises, for every image with two different non-zero sides
* `C124_environment_false` — C124 fails for the environment camera: whatever the sample and the shutter, the ray has time 0 and its depth is the time it should have; with the shutter open from 1 to 2 the time is outside and the recursion depth of the camera ray starts at 1 or more
* `C124_perspective_differential_false` — C124 fails for the differential rays of the perspective camera: their time is the raw sample time, so with the shutter open from 1 to 2 it is never inside for sample times below 1
* `C125_generic_false` — C125 fails for the pinhole and environment cameras (the generic implementation): the auxiliary rays are those of the raster points `(1, 0)` and `(0, 1)` at time 0 whatever the sample, because the copies of the sample are empty
* `C125_orthographic_false` — C125 fails for an orthographic camera that is not at the origin: the camera transform is applied twice, so for the moved camera the main ray of `generate_ray_differential` is one unit away from the ray of `generate_ray`
* `C125_orthographic_lens_false` — C125 fails for an orthographic camera with a lens: the origin is shifted along the lens by a pixel instead of turning the direction, so the auxiliary rays are not those of the neighbouring pixels (which start at the same lens point), for every sample
* `C125_perspective_false` — C125 fails for a perspective camera that is not at the origin: the main ray is transformed but the auxiliary rays are left in camera space; for the moved camera they start at the origin while all its rays start at `(1, 0, 0)`
* `C126_pinhole_unit_false` — C126 fails for the promise that directions are normalised: the pinhole direction of film point `(3, 0)` with focal length 4 has length 5
* `C127_copy_false` — C127 fails: a copy drops the screen differentials (so textures evaluated by a material, which works on a copy, never see a filter width) and recomputes the normal (so a shading normal that was turned to face the viewer turns back), for every geometry
* `C129_bump_false` — C129 fails: bump mapping raises for every texture and surface point, and so does `get_bsdf` of every material with a bump map, also inside a mixture
* `C130_nonneg_false` — C130 fails for opacities above one: opacity 2 gives a component with coefficient −1, and a sampled value that is negative: light is subtracted
* `C133_mix_false` — C133 fails: `get_bsdf` of a mixture raises whenever the BSDF of one of the two materials has a component; it returns a BSDF (with no components) exactly if both are empty, whatever the mixing texture says
* `C135_extension_false` — C135 fails: the documented extension `.brdt` (and `.merl`) is rejected whatever the file contains
* `C135_reload_false` — C135 fails: after a file was loaded, every further load of that name gives a material without samples, so that evaluating it raises (`None[idx]`); the tree is the one of the first file, also if the second has the same name in another directory, and the other file is not even opened
* `C136_subsurface_false` — C136 fails: the subsurface material's `get_bsdf` raises at every point, and so does `get_bssrdf` of the material given by diffuse reflectance and mean free path
* `C137_continuous_false` — C137 fails: the map is not continuous. In two of the four sectors (left and bottom) the angle runs backwards: near the corner `u = (0, 1)` of the unit square, samples on one side of the diagonal are mapped near angle `3π/4` and those on the other side near `5π/4`, at distance more than 1 however close they are
* `C138_normals_only_false` — C138 fails for a mesh with normals but no tangents: the normals are ignored, whatever they are, and the shading normal is the true normal
* `C138_shared_false` — C138 fails for a mesh with one normal per vertex whose triangles share vertices, so that it has fewer than three vertices per triangle: the last triangle always raises an `IndexError`. (Other triangles use the normals of the vertices number `v`, `v + 1`, `v + 2`, not of their corners, see `C138_wrong_vertices_false`.)
* `C138_wrong_vertices_false` — C138 fails for triangles that do not use the vertices in order: there is a mesh of two triangles without shared vertices in which all corners of the first triangle have the normal `z`, but its shading normal is `x` (the normals of the other triangle), at every point of the triangle
* `C140_pdf_outside_false` — C140 fails for the density of directions that do not meet the sphere: it is the same as in the cone (it should be zero), for every direction whatever
* `C140_scaled_false` — C140 fails for a scaled sphere, whose radius in world space is not `self.radius`: the unit sphere scaled by two, seen from (0, 0, 4). Its point (6/5, 0, 8/5) is turned towards that point, but no sample ever goes there.
* `C140_visible_false` — C140 fails for points very near the sphere: 0.000006 above the pole of the unit sphere, the point sampled straight below is the far pole, which cannot be seen
* `C142_exception_false` — If refining a primitive raises an exception the lock is never released: from then on no other thread that found the voxel not yet refined returns, whatever happens.
* `C143_grid_false` — C143 is violated for the grid: a volume that reaches beyond the primitives moves the origin of the voxels but not the primitives stored in them, and a ray that finds its box without the volume misses it with the volume.
* `C143_shared_false` — C143 is violated when an aggregate is shared: the bound of a scene without a volume grows when a second scene with a volume is built on the same aggregate.
* `C144_attenuation_false` — C144 is violated: the first two segments between vertices are not attenuated by the medium: an absorbing medium between a mirror and the light it shows makes no difference.
* `C144_emission_false` — C144 is violated: after a diffuse bounce that happens to meet a light source, the light it emits is added although the direct lighting of the first vertex already holds it.
* `C145_turned_false` — Violated for turned shapes: a disk that is turned by a quarter turn (which does not change it) is hit by the ray straight down at `(1/2, 0)`, but its world bound holds none of its points, and the box test of the BVH rejects that ray.
* `C146_curved_false` — C146 fails for curved mirrors: the normal turns by `(1, 0, 0)` per pixel, so the mirror image turns by `(2, 0, 0)`; but the bsdf of any material holds a copy of the geometry, which has lost its differentials (`C127_copy_false`), and the offset direction equals the direction
* `C147_direction_false` — C147 fails: a camera ray that leans to `+x` by one per pixel meets a flat pane of equal indices straight on; the refracted direction leans to `+x` too, the offset direction of the child ray leans to `-x`
* `C148_record_false` — C148 fails: whatever record the reflected ray leaves behind (`scene.intersect` writes the new hit into the object it is given), the refracted ray of the first hit starts at that record's minimum distance, and its offset origins are moved by that record's differentials
* `C149_intersect_false` — C149 fails for `intersect`: whenever there is something to report it raises, since it reads an attribute that belongs to spheres
* `C150_repeated_false` — C150 fails also later: a thread delayed in its increment while another makes `n` objects turns the counter back to 2, with no thread in a constructor any more; the identifiers 1 to `n` are taken, and all but the first will be handed out again to the objects made afterwards, one at a time
* `C150_same_false` — C150 fails: any number of threads that enter the constructor together all get the same identifier
* `C152_inverse_false` — C152 fails: between key frames that both turn by 120° about the diagonal the transform half way is no rotation at all and its stored inverse is not its inverse
* `C152_mirror_false` — C152 fails for mirrorings: a mirrored object that moves is not mirrored between the key frames
* `C152_rotation_false` — C152 fails for rotations: an object turned by 90° about z in both key frames, moving anywhere, is turned by the angle of cosine 5/13 (about 67°) at every instant between them, so that it jumps when the motion starts and when it ends
* `C153_construct_false` — C153 fails: `TransformedPrimitive` cannot be made, because it does not define all methods that are abstract
* `C153_mirrored_false` — C153 fails for mirrored instances: the copy of the record that shading is done with (`shape/__init__.py:86-88`) has the normal of the record reversed, for every shape, placement, hit and instance transform that swaps handedness (surface points with a normal)
* `C154_one_light_false` — C154 (the other strategy) asking for one light per sample never works: with every scene and every sample, requesting raises.
* `C155_proper_false` — C155 (violation) the inherited operators do not check: the difference of two properly constructed vectors, or the sum of a point and a vector, can be an object no constructor would make.
* `C159_resample_false` — C159 is violated: a picture with another size is not resampled, and its fourth channel is kept. Grey pictures cannot be read.
* `C160_pictures_false` — C160 is violated: whatever the picture file, a projection light cannot be made; a goniophotometric light is equally bright in all directions and at all distances; an environment light is the constant one; and sampling a distant light raises.
* `C161_frame_false` — C161 is violated: the reflectance depends on how the surface lies in the world: the same surface seen along its normal has reflectance `π` facing up and `0` facing sideways.
* `C161_unbiased_false` — C161 is violated: the mean of the estimate over the samples is not the light reflected: for `f = |cos θi|` it is `π/2`, and the light reflected is `2π/3`.
* `C162_fresh_false` — C162 is violated: stopping and starting again does not give a fresh system: transforms and coordinate systems of the previous use are still there.
* `C162_guard_false` — C162 is violated: calls made while the system is not started are not refused: transforms can be changed, the rendering options raise `AttributeError` in place of `RuntimeError`, and after `world_begin` the system can no longer be started (although it never was).
* `C169_turned_false` — C169 fails for every level mirror whose texture runs along the y axis instead (so that turning the scene by a quarter changes the picture): whatever the random numbers, the ray that is followed is not the one the mirror throws back, unless the two horizontal components happen to be equal in size. (`BSDF.l2w` is not the inverse of `BSDF.w2l`, `C48_round_trip_false`.)
* `C170_mirrored_false` — C170 is violated by a mirrored region: the mirror image of the unit box absorbs at (-1, 0, 0), outside its own world bound
* `C170_moved_false` — C170 is violated by a region that has only been moved: a ray that never enters its world bound is attenuated
* `C171_cie_tables_false` — C171 is violated by the colour matching tables: every one of their thirty samples is the integral from the start of its band to the end of the data at 830 nm, divided by the width of the band
* `C171_luminance_false` — C171 is violated: the spectrum that is one everywhere should have luminance one (the data give 0.9994), but its `y()` is above sixteen
* `C172_matte_false` — C172 fails for every such surface and light: wherever the light's contribution is not zero, the mean is below the exact value
* `C173_wrong_vertex_false` — C173 fails for triangles whose second vertex number does not follow the first: this light, a proper mesh of one triangle that `create_triangle_mesh` accepts, lights nothing, whatever the surface and whatever it emits, although a matte surface below it that faces it should receive light from every one of its points.
* `C174_power_false` — C174 is violated for tiny densities: their squares underflow, and the weight is NaN although both densities are positive
* `C174_row_false` — C174 is violated in two dimensions: the row is computed from the sampled point, `15 / 22 * 22` is rounded to less than 15, and the sample is taken from the empty row 14: the result is NaN. (The draw `2^-53` is one that `np.random.rand` gives.)
* `C174_upper_end_false` — C174 is violated in the strict sense: two stratified samples from the draws `0` and `1 - 2^-53` (the largest number below 1 that `np.random.rand` gives): the second one is 1, outside the half-open unit interval and its stratum.
* `C175_edge_false` — C175 is violated at the edge of a box: the ray meets the box at the parameter 1, where the primitive reports its hit, but in binary64 `49 * (1 / 49) < 1` and the hierarchy of this one primitive answers that nothing is hit.
* `C177_offset_window_false` — C177 also in rounded arithmetic no task gets a sampler when the window starts at 1 or later (C25)
* `C177_pixel_end_false` — C177 is violated in the strict sense of C24: at pixel 1 the largest draw below 1 gives the position 2, in the next pixel
* `C177_task_border_false` — C177 is violated by 49 tasks on an image of 49 × 1 pixels: task 0 should get pixel 0, but its right border, computed in binary64, is `1 - 2^-53`; the scan steps over it and never ends: after any number of calls of `generate` the next one still does not return `False`.
* `C177_time_false` — C177 is violated in the strict sense of C24: five samples without jitter and a shutter interval of length zero at time 3: one sample gets a time before the shutter opens
* `C179_unused_point_false` — C179 (violated) a point that no face uses is harmless for a mesh, but here it makes the constructor raise (or hang at an earlier vertex): no surface comes back.
* `C182_back_false` — C182 Translated there and back, a point need not be where it was: `1`, translated by `2^60`, comes back as `0`.
* `C182_box_false` — C182 A transformed box need not contain the images of its points: already the identity (translation by zero) moves the upper corner `2^-60` of a box that begins at `-1` down to zero.
* `C182_scale_inverse_false` — C182 A scaling times its inverse is not the identity, in no order of additions: factor 49.
* `C183_tiny_false` — C183 A vector that is not zero need not get unit length: for `(2^-600, 0, 0)` the squared length underflows and the vector is returned as it is.
* `C184_acne_false` — C184 The offset is not enough when the hit is close: a ray from a point `10^-9` above a triangle hits it and the mirrored ray, back to the side it came from, is reported to hit the same triangle again.
* `C184_leak_false` — C184 The offset is too much when the hit is far: a triangle that is closer to the point than a thousandth of the distance of the hit is passed by (here a sheet half a unit above a floor seen from a height of 1000: the floor is lit through the sheet).
* `C207_stuck_false` — C207 for steps that are tiny against the distance of the first sample the march never ends: the step is lost in rounding, the position stays where it is
* `C208_forward_false` — C208 closer to one it fails: for `g = 1 - 2^-30` straight ahead the denominator is zero although the exact phase function is finite
