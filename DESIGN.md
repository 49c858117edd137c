# Formal model of rh12503/triangula in Lean 4

Source under study: `/repo` (Go).  Properties: `properties.jsonl` (C01 ...).  Status of
each property: `MANIFEST.json`.  Mutation tests of the theorems: `seeded/LOG.jsonl`.

## 1. Trusted base

* Lean 4.33 kernel.  Every theorem named in `MANIFEST.json` depends only on the three
  standard axioms `propext`, `Classical.choice`, `Quot.sound` (the audit of `vcheck`
  checks this).  No axiom is added; no `sorry`, `admit`, `native_decide`, `bv_decide`.
* The translation from Go to Lean is by hand.  Every model definition carries a comment
  with the file and lines it models and says where it simplifies.
* Go facts we rely on and do not prove: `sort.Slice`/`sort.Sort` return a permutation
  that is sorted when the comparator is a strict weak order, and touch the collection
  through `Swap` only; buffered channels deliver each sent value exactly once, in some
  order; `append/copy/make` and slice expressions behave as specified; IEEE-754
  round-to-nearest-even for each `float32/float64` operation (no fused multiply-add,
  i.e. `GOARCH=amd64` behaviour).
* Third-party code is not modelled: `fogleman/delaunay` (only used by
  `triangulation.Triangulate`), `dgryski/go-pcgr`, `math/rand`, `panjf2000/ants`.  Random
  numbers are arbitrary inputs; the worker pool is an arbitrary schedule.

## 2. Modelling conventions

* Functions are total Lean functions.  A Go panic (explicit, or index out of range) is
  `none` in `Option`.
* Integer coordinates are `Int`.  The int16/int64/uint16 wrapped versions of the
  arithmetic are modelled separately and C16 shows they agree with the exact versions
  for images up to 8191 pixels on a side.
* Floats: values are rationals.  `Rnd p fl` says that `fl` is a rounding to `p` bits
  (monotone, fixes integers up to 2^p, relative error at most 2^-p); theorems quantify over
  every such rounding, so they cover exact arithmetic and IEEE double.  A computable
  round-to-nearest-even (`Verif/Float`) is an instance; it is also used for concrete
  counterexamples evaluated by the kernel.  C109 (`Props/Rounding`) shows that it is IEEE
  rounding (nearest, ties to even, unique with these properties; in the format for normal values),
  and that the square root is correctly rounded.  C110 (`Props/Range`) shows that no operation of the
  triangulation (circles, grid, scores) leaves the normal range, so that its theorems do not depend on
  the unbounded exponents.  C111 (`Props/RasterRange`) shows the same of the triangle rasterizers,
  C112 (`Props/FitnessRange`) of the fitness of triangles, and C113 (`Props/PointsRange`) of
  the first evaluation of normalised points.  NaN, infinities, subnormals and overflow are
  excluded by the ranges in the theorems, or handled as explicit cases (rasterizer slopes
  with zero denominators).
* Concurrency: `calculateFitnesses` is modelled with an arbitrary arrival order of the
  worker results, and (C47, C48) as an interleaving transition system.
* Mutable slices: contents are lists.  Where capacity and aliasing matter (`Set`), the
  buffer is modelled with its capacity.

## 3. Layers and proof plan

### 3.1 Incremental Delaunay (C01-C21, C74, C90, C100)
Concrete model (`Verif/Incr/*`): slots with the `A.X = -1` marker, free stack, grid cells
as lists of slot numbers, remove-while-iterating loops with the same index arithmetic,
toggled edge list, hull collection, comparator, ear loop, point map.  The grid geometry
(which cells a circle covers, which cell a point falls in) is a parameter with hypothesis
`GeoOK`: a closed circumdisc containing an in-image point covers that point's cell.
`GeoOK` is proved for grid floats of 28 or more bits up to 8191 pixels, and for IEEE
arithmetic up to 4096 pixels for all points and up to 5000 pixels for points off the nine inner rows of
the grid (`ieee_grid_large`; the inner rows, where float32 centres are `2^-10` apart, in `Incr/GridRows`); a concrete failure for an image of 7711 pixels is evaluated in the
kernel (C18).  Rounded scores of Remove (float64 quotients of integers) may exchange two ears whose
scores differ by less than a relative error of 2^-52.  `Faithful` states that nothing worse happens
(proved up to 4096 pixels), and `Tri/LocalGlobal`, `Tri/Near`, `Tri/Gap` show that such a choice is harmless:
each ear cut is then Delaunay with respect to the corners that are left, because in-circle determinants
are integers, and multiples of the side of the image if two of the corners are bounding (`grid_quad`).  The integers of the scores are exact floats: below `2^53`, or multiples of 4 below `2^55` for the
ear of the three bounding corners (`inc_size`).  Hence all neighbouring triangles are locally Delaunay, and `Tiling.delaunay` (a locally
Delaunay tiling is Delaunay) gives the invariant.
Theorems that need these assumptions are named `_partial`.

Abstract theory (`Verif/Tri/*`), over rational points.  A state is a list `T` of
counterclockwise triangles and a set `V` of points.  Invariant:
 1. every triangle has positive orientation, its vertices are in `V` or bounding;
 2. *chain*: for every antisymmetric edge function `f`, the sum of `f` over all directed
    edges of `T` equals the sum over the bounding triangle;
 3. *Delaunay*: the power of every `x` in `V` (and bounding vertex) with respect to every
    triangle is `>= 0`.
Applying 2 to the half-open crossing number of a location shows that each location of the
bounding triangle lies in exactly one half-open triangle (C02, C03).  With 3 this gives
that each point of `V` is a vertex (C04).
 * Insert (Bowyer-Watson): the cavity is the set of triangles with power of p `<= 0`.
   Boundary edges see p strictly on the left (difference of two powers is an affine
   function vanishing on the common edge), so the `G != 0` test never skips; chain is
   preserved because the boundary of a boundary is zero; powers of new triangles are
   bounded below by those of the triangle on the matching side of the edge.
 * Remove (Devillers): link of p sorted by angle is the successor order; invariant of the
   ear loop: the fan of p, with the lift of p raised by the current score, is convex at
   each spoke; conewise local convexity gives global support, hence 3 for the new ear;
   once the ear containing p has been cut the rest is cocircular.
   Scores are compared exactly in the main theorem.  The float64 rounding of scores is a
   parameter with hypothesis "order-faithful"; see the notes in MANIFEST.
C09/C10: two Delaunay states with the same `V` have the same circles, and the same
triangles in general position (supporting-plane argument).
C74 is the converse of C01: a Delaunay state has a triangle for every empty circle through a vertex
(`Vor/Corner.lean`), and if no further point is on the circle it is that triangle.
C90: an empty disc through a bounding vertex enters the image between two stored border points; comparing powers along
that side bounds how deep it reaches.
C100 (`Props/Surround`): an empty disc that contains a location and a bounding vertex has a radius of at least half their distance, so it contains every point near
the location that lies far enough ahead in the direction of its centre.
C11: ghost argument on slots/free list.  C12/C13: buffer model of `Set`; C13 is false,
proved by a two-step history.  C14: minimum over live vertices; false for 3x3 images,
proved for max(w,h) >= 4.  C15-C17: algebra and bounds.  C19: list refinement.
C20: multiset refinement.  C21: sign algebra of cross products.

### 3.2 Voronoi (C22-C26, C67-C72, C75, C76)
`Vor/Model.lean` models `voronoi.go` and `polygonmap.go` completely: collecting the
circumcentres, both sorts, clipping, the polygon map, `Insert`, `Remove`, `Set` and the function
`Voronoi`.  Every float operation is rounded.  `sort.Slice` is a parameter `srt` with assumption
`SorterOK`; `goSort` is the insertion sort the library uses up to 12 elements, an instance.
`Spec/Voronoi.lean` defines the corners of a Voronoi cell by distances alone; `Vor/Corner.lean`
and `Tri/Local.lean` show that the circumcentres collected for a point are exactly its stored
corners (a Delaunay state has a triangle for every empty circle through a vertex).
`Vor/Maps.lean` is the polygon map as a partial function.  `Vor/Inv.lean` is the invariant: each
stored polygon is computed from the corners of the current cell.  Points not in the list of points to
update keep their corners because the triangles at them are kept (`insert_full`,
`remove_full`).
The comparison of the first sort panics if two directions cannot be told apart; `Clash` says
when.  Exact arithmetic has no clashes (`exact_no_clash`).  With IEEE arithmetic there are: four
insertions into a 400 x 7300 image panic (`c22_panics_false`).  Without clashes the comparison is
a strict order (`Vor/Sort.lean`), so polygons do not depend on the order of the corners.
C25, C26: algebra over the rationals.  C26 is false for vertices of polygons that are not convex.
C71, C72 (exact arithmetic): walking from a location of a cell in any direction until a bisector stops
the walk, and then along the bisector, ends in a corner at least as far (`corner_beyond`).  So sorted
corners turn left about the point, corners are extreme, and the corners form a strictly convex
polygon whose hull is the cell.  Clipping only adds locations of the hull.
C69 (exact arithmetic): `Vor/Clip.lean` follows the clipping.  Corners of the cell in the image, cuts
with the sides, and the corners of the image between two cut sides span the part of the cell in the
image, unless the cell contains a whole side of the image or a corner of the cell is within the
tolerance of the border.  In the first case the ends of the side are in no polygon (`c69_side_false`).
C75: a state without the contents of the spare capacities (`vstrip`) determines all later states.
C76: the order of directions of the second sort is a cyclic order (`ord_cyc`); the offsets from the mean
add up to zero, so they do not all lie on one side of a line through the mean.

### 3.3 Rasterizer (C27-C31, C62, C65, C83)
Line and block loops as lists of emitted calls; slopes and cuts under an arbitrary rounding.
For a monotone rounding the number of visits of a pixel by either rasterizer is the same closed
formula of the sorted vertices (`sorted3`), which gives C28 and C31.  For 53-bit roundings the
crossing of a row with an edge depends only on the edge and the orientation of the triangle
decides which edge is left, so visits are sums of antisymmetric edge functions, and the chain
condition of 3.1 gives C30.  C27 with the identity rounding; C62 and C29 from an error bound of
2^-35 for a cut against a lattice gap of 2^-16.  Fuel arguments of the loops are never
reached (`upLoop_fuel`, `downLoop_fuel`, `blockRun_fuel`).
C65: a closed lattice triangle has at most doubled area + 2 lattice points (`Raster/Amount.lean`, by
splitting), visited pixels are among them (C62), and two vertices are never visited.

C83: `Spec/Polygon.lean` says what convex means and which sampling points a polygon owns.  `Raster/Polygon.lean`
models `DDAPolygon` and `DDAPolygonBlocks` and proves that the fan triangles of a convex polygon are disjoint and
make up the polygon, seams included; with rounding each seam is traced by the same calculation from both sides.
Triangles without area (vertices on a line) break the argument, and then a pixel can be visited twice.

### 3.4 Fitness (C32-C41, C63, C73, C84, C87, C92, C94-C99, C103-C108)
`Fit/Model.lean`: `pixel` with its wrapping channel types, the block sums, one triangle's
counters (`triSums`), its value (`triValue`) and the whole sum (`evalTris`), under an arbitrary
rounding.  `Fit/Sums.lean` shows that the counters are plain sums over the pixels of the
triangle (block sizes 1 to 16), which gives C33 and C34 and reduces C32 to algebra.  `Tri/Area.lean`
bounds the total area from the chain condition of 3.1 (C63).  C37 is false (a uniform image of
grey level 7); the proof of its weakened form uses C30, C63 and the monotonicity of rounding.
C73: by C65 the sum of squared errors of a triangle is at most 2 * area * 3 * 128^2 or so, less than the
195075 * area an uncovered area counts, so the rounded result is positive if an area is covered.
The compiler may fuse multiplication and addition on some machines; the model rounds every
operation, as on amd64.
C35/C36 by an invariant on every cache reachable from the heap of entries.  C41 is false; the
negation is proved, with the conditional positive version.

C87 joins evaluator and renderer: the error of a picture is a sum over the pixels of the image (`pictureErr`, a spec without sums over
blocks), which is regrouped by triangles because they do not overlap; per triangle both sides are a squared error about a mean.  With doubles
the losses are added up: stored squares (1 per pixel), the average (2^-22), rounding of sums.
C84: the value of a polygon is the fold of 3.4 over its fan triangles.  In exact arithmetic a triangle without area
contributes nothing; with rounding it can change the count by one, and then the fitness can exceed 1.
C92 is C87 for polygons: `pictureErr` is a spec over any shapes; the losses of a shape (`value_core`) and of the sum over
shapes (`accum_close`) are shared with C87.
C94: recolourings preserve distances of colours, so a recoloured optimal picture is a picture of the recoloured image with
the same error, and C87 and C92 say that the fitness is that of the best picture.
C95: by C09 the triangles are the same up to order, so only the rounding of one sum differs; `foldl_err` bounds it.
C96 joins C78, C80 and C87: for points in general position the Delaunay triangles are unique, so the exported triangles are the evaluated ones and those with a vertex of
the bounding triangle in their circle; each of the latter adds to the quality because it has at most twice its area in pixels (C65).
C97 is C96 for polygons and joins C79, C92 and C95.  The conditions on the points (`Tame`) are about rounding: rounded cells may overlap, and then the claim is false.
C98: the radical axis of the circles of two Delaunay triangles has one on each side, and meets them in shared vertices only.  A pixel visited by both would have its lattice
point on the axis: on a shared edge (C30) or at a shared vertex, where the rounded rasterizer is exact (`vis_vertex`).  The bound on the areas is by Lebesgue measure
(`Spec/Measure.lean`).
C99: of the triangles of the points around a location, the one that is lowest after lifting the points to a paraboloid has no point in its circle: a point inside could replace
a vertex (`exists_delaunay` in `Spec/Hull.lean`); a library reports it.  A location of the hull is in some triangle by Caratheodory's theorem.  For a pixel this is applied to
locations next to its lattice point, on two sides: if the lattice point is on an edge, the triangles on both sides are reported and share the edge, so a rounding error of one
is made up for by the other.
C103 (`Props/Approx`) joins C100 and C87: among dense points the circles of the triangles that own a location away from the border are small, so their pixels have similar colours.
The areas of these triangles add up to at least the rectangle they cover (Lebesgue measure, from Mathlib); the mean colour is at least as good as the colour of one pixel.
C104 (`Props/Dense`): a box is missed by all points with the product of the probabilities, since they use disjoint parts of the vector of draws (`ways_blocks`); a union bound over the boxes
and C103 give the rest.  The 400 groups of the first generation use disjoint parts, too.

C105 (`Props/Tiling`) is C103 for the exported picture, and without general position: `Tiling` says that triangles are some Delaunay triangulation of points.  For two of its triangles the radical
axis of the circles, or a separating line if the circles are equal, meets them in at most two points; turned a little it meets them in shared vertices only, which is what C98 needs.  That the
library returns a `Tiling` is an assumption on the result of the call.
C106 (`Props/Fill`) is C99 for a `Tiling`; `library_tiling` shows that points in general position have one, whichever library is used.
C107 (`Props/Sketch`) combines C104 with C105. That the library returns a Delaunay triangulation, or that the points are in general position, is part of the event counted, not an assumption on all draws.
C108 (`Props/Exists`): the lower hull of the points lifted to the paraboloid plus a small generic height is a `Tiling` of any points; `Spec/Hull` (`exists_lowest`) covers the hull for any heights.

### 3.5 Algorithms (C35, C36, C40-C49, C64, C77, C78, C82, C85, C86, C91, C101, C102)
`Alg/Model.lean` models the fitness functions with their cache, the parallel evaluator
(function slots, shared cache buffers, `Prepare`/`Update`/`SetBase`/`Swap`) and their calls over
an abstract fitness function `Fun` (`Alg/TriFun.lean` and `Alg/PolyFun.lean` give the two
instances).  `Alg/Calls.lean` and `Alg/Cache.lean` hold the invariants of caches: every entry
was computed for the key stored in it.  `Alg/Phase.lean` runs the worker goroutines of one
evaluation as arbitrary interleavings of small steps (one cache access each, one send each,
one receive of the collector each); its invariant gives values, progress, termination
(`Alg/PhaseEnd.lean`) and absence of races (`Alg/Race.lean`: reads and writes of each step are
listed, and the lists are proved sound for the step function).  `Alg/Algo.lean` models the
simple algorithm over these phases.  The sort is an arbitrary sequence of swaps that ends
sorted; mutators are arbitrary functions that record what they change.
`Alg/Laws.lean` lists what the algorithm needs of a fitness function; the triangle function
meets them under Arith.
`Alg/Modified.lean` models the modified genetic algorithm (`setBeneficial`, `combineMutations`,
the tasks for all but the last `cutoff` members) on the same phases; `Alg/Ben.lean` gives the
contents of the table of beneficial mutations after any order of arrivals, `Alg/Combine.lean`
the combined members, `Alg/ModInv.lean` the invariant of a step.  A combined member without
beneficial mutation is left out with fitness 0 and keeps an outdated evaluator, so the
invariant needs the other members to be fitter than 0 (`FrontPos`); `Props/Modified.lean`
shows what goes wrong otherwise.  `ants.Submit` is taken to start a goroutine at once; the
bound on the number of running goroutines of the pool is not modelled (it only removes
schedules).  `Alg/Play.lean` executes concrete schedules, for examples and witnesses.
The polygon function (`Alg/VorFun.lean`) can panic when it changes a diagram, as C22 shows, so it meets
the laws only in exact arithmetic.  `Alg/Opt.lean` replaces a panic of the diagram by a marked value:
the function so changed meets all laws, and what a non-panicking execution of the original
does, it does too.  This gives C42-C49 and C64 for polygons with rounding.  C77: the last call of a
recorded history is evaluated on a diagram of its own points (`Alg/BookValid.lean`); by C67 its polygons are
those of a fresh diagram, and exact sums do not depend on their order.
`Alg/Default.lean` composes image conversion, the table of block sums, random generation, the Gaussian
mutator and the simple algorithm as `DefaultAlgorithm` does; C78 composes the theorems. C101 (`Props/Generation`) says of which members a generation consists, and that `DefaultAlgorithm` does not use a random number twice. C102 follows from C45: the mutators of two runs agree because the members agree.
`Alg/Evaluators.lean` repeats the simple algorithm over the interface `Evaluator`, proves that the parallel
instance is the model of `Alg/Algo.lean`, and treats `NewOne` and `NewMany`, whose `SetBase`, `Swap`, `Prepare` and
`Update` do nothing: a function with a cache then never leaves its first points (C82).

C91 states what the hash codes of triangles and polygons depend on; unequal keys with equal codes are shown.

C85, C86: `Alg/Driver.lean` models the loops of package utils over any object with the interface `Algorithm`, and the
`bufio.Writer` they write through.  `CompareAlgorithms` (C93) has a loop `for false` and does nothing; its body is modelled for any condition of the loop.  `printMemUsage` is not modelled.
`GenerateTrace` never flushes its writer, so that its file lacks the end of the trace (C86).

### 3.6 Small parts (C50-C59, C66, C79-C81, C88, C89)
Direct models and inductions on lists (`Small/Model.lean`).  A random source is
an arbitrary state machine; `Source.OK` says what `math/rand` documents
(`Float64` in [0, 1), `Intn(n)` in [0, n)).  Slices are windows of arrays that
may overlap.  Floats: rationals with a rounding function as before; NaN,
infinities, subnormals and fused multiply-add are not modelled, an average of no
colours (0/0) is `none`.
Where a claim is false of the code the negation is proved with a witness
(`_false`) beside the part that holds.
C79: `Small/Polygonate.lean` models `Polygonate` as a whole.  `fastRound` and `math.Round` agree on every
float64 but one, because below a power of two the sum with one half is exact, or is far enough from the next integer.
C80: `Small/Export.lean` models `Triangulate` with the library as a function from points to indices that returns normally.
`LibOK` (valid indices) and `LibDelaunay` (the definition of a Delaunay triangulation) are hypotheses; `bruteLib_ok` shows that
a library can meet them.
C81: `Small/Normal.lean` models `NormFloat64` with its tables as a machine with one step per pass of a loop.  The
methods of the PCG generator are parameters (`PcgOK`: the documented ranges), `math.Log` and `math.Exp` are
assumed accurate to 2^-50 (`MathOK`; `mathFns_exist` shows that this can be met).  `Small/Ziggurat.lean` compares the 384 table entries with the curve
by rational enclosures of exp (kernel computation), `Small/Density.lean` adds the strips to a density, `Small/PassLaw.lean`,
`Small/Mills.lean` (the tail, by continued fractions) and `Small/TailLaw.lean` (the inner loop, by a change of variables) give the law.
The draws are idealised there: strip uniform among 128, abscissa and height uniform real numbers, independent; a loop repeats
until a pass ends, so its law is the conditional one.
C88: a source whose numbers are read off a sequence `u` (`drawn`); probabilities are numbers of vectors of draws.  The model of
`Mutate` is followed through its states (C50) to a pattern of mutated points, whose law is an induction on the points.
C89: an invariant of the loop of `SpacedPointGenerator`: the computed distances of different points are at least the first minimum.

## 4. What is not modelled
In `utils`: printing, the JSON encoding, profiling, `printMemUsage`; the PCG generator,
`fogleman/delaunay`, wall-clock statistics, memory allocation failure.
