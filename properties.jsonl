{"id": "C01", "title": "Empty circumcircles", "statement": "After any history of Insert and Remove of points inside the image, no point currently stored lies strictly inside the circumcircle of any triangle reported by IterTriangles (nor of any internal triangle).", "quantifier": "every image size within the integer range, every finite history of Insert/Remove of in-image points where each Remove names a stored point", "why_tests_cant": "The claim ranges over an unbounded set of histories/inputs; a test samples finitely many. Degenerate (cocircular, collinear, duplicate) configurations are the ones that break implementations and are rarely sampled.", "anchors": ["triangulation/incrdelaunay/delaunay.go:Insert", "triangulation/incrdelaunay/delaunay.go:Remove", "triangulation/incrdelaunay/delaunay.go:IterTriangles", "triangulation/incrdelaunay/util.go:inCircle"]}
{"id": "C02", "title": "Triangles are non-degenerate and do not overlap", "statement": "After any such history every triangle of the triangulation has positive area and no location of the plane belongs to two triangles (with the half-open boundary convention).", "quantifier": "every history, every pair of triangles, every rational location", "why_tests_cant": "The claim ranges over an unbounded set of histories/inputs; a test samples finitely many.", "anchors": ["triangulation/incrdelaunay/delaunay.go:Insert", "triangulation/incrdelaunay/delaunay.go:Remove"]}
{"id": "C03", "title": "Triangles leave no hole", "statement": "After any such history every location of the bounding (super) triangle, in particular every location of the image, belongs to exactly one triangle of the triangulation (half-open convention).", "quantifier": "every history, every rational location of the image", "why_tests_cant": "The claim ranges over an unbounded set of histories/inputs; a test samples finitely many. Holes are invisible to tests that only count triangles.", "anchors": ["triangulation/incrdelaunay/delaunay.go:Insert", "triangulation/incrdelaunay/delaunay.go:Remove", "triangulation/incrdelaunay/geom.go:NewSuperTriangle"]}
{"id": "C04", "title": "Vertices are exactly the stored points", "statement": "After any such history the vertices of the triangles of the triangulation are exactly the stored points together with the three bounding vertices; triangles reported by IterTriangles use stored points only.", "quantifier": "every history", "why_tests_cant": "The claim ranges over an unbounded set of histories/inputs; a test samples finitely many.", "anchors": ["triangulation/incrdelaunay/delaunay.go:Insert", "triangulation/incrdelaunay/delaunay.go:Remove", "triangulation/incrdelaunay/delaunay.go:IterTriangles"]}
{"id": "C05", "title": "HasPoint is membership", "statement": "HasPoint(p) is true exactly when the number of Insert(p) calls exceeds the number of Remove(p) calls so far.", "quantifier": "every history, every in-image p", "why_tests_cant": "The claim ranges over an unbounded set of histories/inputs; a test samples finitely many.", "anchors": ["triangulation/incrdelaunay/delaunay.go:HasPoint", "triangulation/incrdelaunay/grid.go:HasPoint"]}
{"id": "C06", "title": "Insert never panics", "statement": "Insert of an in-image point never panics, whatever happened before.", "quantifier": "every history, every in-image point (image larger than 1x1)", "why_tests_cant": "The claim ranges over an unbounded set of histories/inputs; a test samples finitely many. The internal panic guards can only be shown dead by reasoning about all reachable states.", "anchors": ["triangulation/incrdelaunay/delaunay.go:Insert", "triangulation/incrdelaunay/grid.go:RemoveCircumcirclesThatContain"]}
{"id": "C07", "title": "Remove never panics on a stored point", "statement": "Remove(p) of a stored point never panics (map lookup, direction sort and ear list are all safe), whatever happened before.", "quantifier": "every history, every stored point", "why_tests_cant": "The claim ranges over an unbounded set of histories/inputs; a test samples finitely many.", "anchors": ["triangulation/incrdelaunay/delaunay.go:Remove"]}
{"id": "C08", "title": "Point accounting", "statement": "NumPoints equals inserts minus removes, counting duplicates, for every history on one triangulation; removing one of several duplicates changes no triangle.", "quantifier": "every history", "why_tests_cant": "The claim ranges over an unbounded set of histories/inputs; a test samples finitely many.", "anchors": ["triangulation/incrdelaunay/delaunay.go:NumPoints", "triangulation/incrdelaunay/delaunay.go:Insert", "triangulation/incrdelaunay/delaunay.go:Remove", "triangulation/incrdelaunay/pointmap.go:AddPoint"]}
{"id": "C09", "title": "History independence", "statement": "Two triangulations of the same image holding the same set of points (in general position: no four cocircular, bounding vertices included) contain the same triangles, whatever the two histories were; in general the circumcircles agree.", "quantifier": "every pair of histories leading to the same set of points", "why_tests_cant": "Quantifies over pairs of unbounded histories.", "anchors": ["triangulation/incrdelaunay/delaunay.go:Insert", "triangulation/incrdelaunay/delaunay.go:Remove", "triangulation/incrdelaunay/delaunay.go:IterTriangles"]}
{"id": "C10", "title": "Remove undoes Insert", "statement": "Insert(p) followed by Remove(p) restores the same triangles as before (points in general position), and always a valid Delaunay triangulation of the previous points.", "quantifier": "every history, every p not stored before", "why_tests_cant": "The claim ranges over an unbounded set of histories/inputs; a test samples finitely many.", "anchors": ["triangulation/incrdelaunay/delaunay.go:Insert", "triangulation/incrdelaunay/delaunay.go:Remove"]}
{"id": "C11", "title": "Slot reuse bounds memory", "statement": "The number of triangle slots ever allocated never exceeds the largest number of triangles alive at one time; freed slots are reused and never handed out twice.", "quantifier": "every history on an image of 2 to 8191 pixels in which no more than 65536 slots are allocated, with any arithmetic of the grid and the scores", "why_tests_cant": "The claim ranges over an unbounded set of histories/inputs; a test samples finitely many.", "anchors": ["triangulation/incrdelaunay/delaunay.go:addTriangle", "triangulation/incrdelaunay/delaunay.go:markFreeTriangle"]}
{"id": "C12", "title": "Set copies a triangulation", "statement": "After d.Set(o), IterTriangles, HasPoint and GetClosestTo of d answer exactly as o does, whatever d held before and whatever its buffer capacities were.", "quantifier": "every pair of reachable states and every buffer capacity", "why_tests_cant": "Capacity-dependent reslicing has unboundedly many cases.", "anchors": ["triangulation/incrdelaunay/delaunay.go:Set", "triangulation/incrdelaunay/grid.go:Set", "triangulation/incrdelaunay/pointmap.go:Set"]}
{"id": "C13", "title": "Set and point counts", "statement": "After d.Set(o), d.NumPoints() equals o.NumPoints().", "quantifier": "every pair of reachable states", "why_tests_cant": "Tests compare after particular histories only.", "anchors": ["triangulation/incrdelaunay/delaunay.go:Set", "triangulation/incrdelaunay/delaunay.go:NumPoints"]}
{"id": "C14", "title": "GetClosestTo returns a nearest stored point", "statement": "For a triangulation holding at least one point, GetClosestTo(p) returns a stored point at minimal distance from p.", "quantifier": "every history leaving at least one point, every in-image query point, every image size", "why_tests_cant": "The claim ranges over an unbounded set of histories/inputs; a test samples finitely many.", "anchors": ["triangulation/incrdelaunay/delaunay.go:GetClosestTo", "triangulation/incrdelaunay/geom.go:DistSq"]}
{"id": "C15", "title": "Bounding triangle contains the image", "statement": "The three bounding vertices computed for a w x h image strictly enclose every point of [0,w]x[0,h] and are not image points.", "quantifier": "every w, h >= 1 within the coordinate type", "why_tests_cant": "The claim ranges over an unbounded set of histories/inputs; a test samples finitely many.", "anchors": ["triangulation/incrdelaunay/geom.go:NewSuperTriangle"]}
{"id": "C16", "title": "No integer overflow", "statement": "For images up to 8191 pixels on the longer side, all int16 and int64 arithmetic in circumcircle, edge and in-circle computations equals exact integer arithmetic.", "quantifier": "every triple/quadruple of vertices of any reachable triangulation", "why_tests_cant": "The input space of four points is ~2^128.", "anchors": ["triangulation/incrdelaunay/geom.go:calcCircumcircle", "triangulation/incrdelaunay/util.go:inCircle", "triangulation/incrdelaunay/delaunay.go:Insert", "triangulation/incrdelaunay/geom.go:NewSuperTriangle"]}
{"id": "C17", "title": "inCircle decides the closed disc", "statement": "inCircle(a,b,c,d) >= 0 exactly when d lies in the closed circumscribed disc of a,b,c, for non-collinear a,b,c in either orientation and any vertex order.", "quantifier": "all quadruples of int16 points with a,b,c not collinear", "why_tests_cant": "The claim ranges over an unbounded set of histories/inputs; a test samples finitely many.", "anchors": ["triangulation/incrdelaunay/util.go:inCircle", "triangulation/incrdelaunay/util.go:orientation"]}
{"id": "C18", "title": "Grid lookup misses nothing", "statement": "The grid cell consulted for p lists every live triangle whose closed circumdisc contains p.", "quantifier": "every reachable triangulation, every in-image p", "why_tests_cant": "A miss depends on float32 rounding of one circle; sampling essentially never hits it.", "anchors": ["triangulation/incrdelaunay/grid.go:AddTriangle", "triangulation/incrdelaunay/grid.go:RemoveCircumcirclesThatContain", "triangulation/incrdelaunay/geom.go:calcCircumcircle"]}
{"id": "C19", "title": "Grid bookkeeping", "statement": "After any sequence of additions and removals each cell lists each live triangle covering it exactly once and no freed triangle; removal while iterating a cell visits every matching triangle exactly once.", "quantifier": "every history on an image of 2 to 8191 pixels in which no more than 65536 slots are allocated, every cell, any arithmetic", "why_tests_cant": "The claim ranges over an unbounded set of histories/inputs; a test samples finitely many.", "anchors": ["triangulation/incrdelaunay/grid.go:AddTriangle", "triangulation/incrdelaunay/grid.go:RemoveTriangle", "triangulation/incrdelaunay/grid.go:RemoveCircumcirclesThatContain", "triangulation/incrdelaunay/grid.go:RemoveThatHasVertex"]}
{"id": "C20", "title": "Point map is a multiset", "statement": "The point map answers copy counts exactly like a multiset for any history and any table size, in spite of hash collisions, as long as no count reaches 65536; removing an absent point panics and nothing else does.", "quantifier": "every history of AddPoint/RemovePoint, every table size", "why_tests_cant": "The claim ranges over an unbounded set of histories/inputs; a test samples finitely many.", "anchors": ["triangulation/incrdelaunay/pointmap.go:AddPoint", "triangulation/incrdelaunay/pointmap.go:RemovePoint", "triangulation/incrdelaunay/pointmap.go:CopiesOf", "triangulation/incrdelaunay/pointmap.go:NumPoints"]}
{"id": "C21", "title": "Direction sort is total", "statement": "The comparator that orders the hull around a removed point is a strict total order by angle on points in pairwise distinct directions, so the sorted order is unique and counterclockwise; its panic is reached only for two points in the same direction.", "quantifier": "every image of 2 to 8191 pixels, every centre in it, every list of image points and bounding vertices in pairwise distinct directions", "why_tests_cant": "The claim ranges over an unbounded set of histories/inputs; a test samples finitely many.", "anchors": ["triangulation/incrdelaunay/delaunay.go:Remove"]}
{"id": "C22", "title": "Voronoi bookkeeping never panics", "statement": "For any history of Insert/Remove on an incremental Voronoi diagram every polygon lookup succeeds and exactly one polygon entry exists per distinct stored point.", "quantifier": "every history", "why_tests_cant": "The claim ranges over an unbounded set of histories/inputs; a test samples finitely many.", "anchors": ["triangulation/incrdelaunay/voronoi.go:Insert", "triangulation/incrdelaunay/voronoi.go:Remove", "triangulation/incrdelaunay/polygonmap.go:RemovePolygon"]}
{"id": "C23", "title": "Incremental Voronoi equals recomputation", "statement": "After any such history the polygon stored for each point is the polygon a recomputation from the current triangulation would give (same circumcentres).", "quantifier": "every history, every stored point", "why_tests_cant": "The claim ranges over an unbounded set of histories/inputs; a test samples finitely many.", "anchors": ["triangulation/incrdelaunay/voronoi.go:Insert", "triangulation/incrdelaunay/voronoi.go:Remove", "triangulation/incrdelaunay/voronoi.go:processPoint"]}
{"id": "C24", "title": "Voronoi vertices are equidistant and nearest", "statement": "Every circumcentre collected for a stored point is at least as close to that point as to any other stored point (exact arithmetic).", "quantifier": "every history, every stored point", "why_tests_cant": "The claim ranges over an unbounded set of histories/inputs; a test samples finitely many.", "anchors": ["triangulation/incrdelaunay/voronoi.go:processPoint", "triangulation/incrdelaunay/voronoi.go:Voronoi"]}
{"id": "C25", "title": "Segment intersection", "statement": "In exact arithmetic segmentsIntersect reports true exactly when the two non-parallel segments share a point, and the returned point lies on both.", "quantifier": "all pairs of non-parallel segments", "why_tests_cant": "The claim ranges over an unbounded set of histories/inputs; a test samples finitely many.", "anchors": ["triangulation/incrdelaunay/voronoi.go:segmentsIntersect"]}
{"id": "C26", "title": "Point in convex polygon", "statement": "polygonPointIntersect accepts a point exactly when it is a vertex or is not strictly on different sides of two edges; for a counterclockwise convex polygon this is membership in the closed polygon.", "quantifier": "all polygons and points", "why_tests_cant": "The claim ranges over an unbounded set of histories/inputs; a test samples finitely many.", "anchors": ["triangulation/incrdelaunay/voronoi.go:polygonPointIntersect"]}
{"id": "C27", "title": "Rasterized pixels are the half-open triangle", "statement": "In exact arithmetic DDATriangle visits pixel (x,y) exactly when the lattice point (x+1,y) lies in the triangle with half-open row and column convention, each once.", "quantifier": "every triangle with integer vertices, nonnegative coordinates", "why_tests_cant": "The claim ranges over an unbounded set of histories/inputs; a test samples finitely many.", "anchors": ["rasterize/lines.go:DDATriangleLines", "rasterize/pixels.go:DDATriangle"]}
{"id": "C28", "title": "Block rasterizer equals line rasterizer", "statement": "DDATriangleBlocks covers exactly the pixels of DDATriangle, each exactly once, for every block size and for any IEEE-like rounding.", "quantifier": "every triangle, every block size >= 1, every monotone rounding", "why_tests_cant": "The claim ranges over an unbounded set of histories/inputs; a test samples finitely many. The existing test checks one triangle with one block size.", "anchors": ["rasterize/blocks.go:DDATriangleBlocks", "rasterize/lines.go:DDATriangleLines"]}
{"id": "C29", "title": "Rasterizer stays in bounds", "statement": "For vertices in [0,w]x[0,h] every line and block the rasterizers report lies inside the w x h pixel array, so pixel reads never panic.", "quantifier": "every triangle, every image size, rounded arithmetic", "why_tests_cant": "An off-by-one caused by rounding would appear for rare slopes only.", "anchors": ["rasterize/lines.go:DDATriangleLines", "rasterize/blocks.go:DDATriangleBlocks", "fitness/triangles.go:Calculate"]}
{"id": "C30", "title": "Adjacent triangles tile", "statement": "Two triangles on opposite sides of a shared edge never both visit a pixel, and every pixel in their union's row range between the outer edges is visited by one of them; over a whole triangulation each pixel is visited at most once.", "quantifier": "every pair of adjacent triangles, every triangulation, rounded arithmetic", "why_tests_cant": "The claim ranges over an unbounded set of histories/inputs; a test samples finitely many.", "anchors": ["rasterize/lines.go:DDATriangleLines", "rasterize/blocks.go:DDATriangleBlocks"]}
{"id": "C31", "title": "Vertex order is irrelevant", "statement": "Permuting the vertices of a triangle does not change the pixels visited.", "quantifier": "every triangle, all six permutations, rounded arithmetic", "why_tests_cant": "The claim ranges over an unbounded set of histories/inputs; a test samples finitely many.", "anchors": ["rasterize/lines.go:DDATriangleLines"]}
{"id": "C32", "title": "Triangle error is the least squared error", "statement": "The accumulated per-triangle value sSq - (sR^2+sG^2+sB^2)/n equals the sum of squared colour distances to the mean colour, which is the minimum over all constant colours; it is never negative when the stored squares are exact.", "quantifier": "every finite multiset of pixels", "why_tests_cant": "The claim ranges over an unbounded set of histories/inputs; a test samples finitely many.", "anchors": ["fitness/triangles.go:Calculate"]}
{"id": "C33", "title": "Block sums are exact", "statement": "Every stored n*n block sum equals the sum over its pixels (no wrap-around) for n <= 16; the bound is sharp for all-white images at 17.", "quantifier": "every image, every block position, every n <= 16", "why_tests_cant": "The claim ranges over an unbounded set of histories/inputs; a test samples finitely many.", "anchors": ["fitness/pixels.go:fromImageN", "fitness/pixels.go:newPixelDataN"]}
{"id": "C34", "title": "Fitness does not depend on block size", "statement": "The value computed for a triangle is the same for every admissible block size.", "quantifier": "every image, triangle, pair of block sizes in 1..16", "why_tests_cant": "The claim ranges over an unbounded set of histories/inputs; a test samples finitely many.", "anchors": ["fitness/triangles.go:Calculate", "rasterize/blocks.go:DDATriangleBlocks"]}
{"id": "C35", "title": "Caching is transparent", "statement": "Whatever the history of evaluations, hash collisions and shared cache contents, the value used for a triangle or polygon is the value an uncached evaluation gives.", "quantifier": "every history of Calculate/Update/SetCache, every cache size", "why_tests_cant": "Wrong hits require hash collisions in particular orders.", "anchors": ["fitness/cache.go:TriangleCacheData.Equals", "fitness/triangles.go:Calculate", "fitness/polygons.go:Calculate", "algorithm/evaluator/parallel.go:Update"]}
{"id": "C36", "title": "Cache indexes stay in range", "statement": "No cache access is out of range, for any cache exponent >= 1 given to NewParallel.", "quantifier": "every history, every cache exponent", "why_tests_cant": "Depends on hashes of all triangles ever seen.", "anchors": ["algorithm/evaluator/parallel.go:Update", "fitness/triangles.go:Calculate"]}
{"id": "C37", "title": "Fitness is at most one", "statement": "A fitness value never exceeds 1.", "quantifier": "every image and point group", "why_tests_cant": "The sum ranges over all pixels of arbitrary images.", "anchors": ["fitness/triangles.go:Calculate", "fitness/pixels.go:fromImage"]}
{"id": "C38", "title": "8-bit colours survive normalisation", "statement": "Converting an 8-bit channel to the normalised float and back gives the same 8-bit value; the stored square differs from the true square by at most one and never exceeds it.", "quantifier": "all 256 channel values / all RGB triples", "why_tests_cant": "Depends on IEEE rounding of each value; a sample of colours does not settle it.", "anchors": ["image/rgbdata.go:convertColor", "fitness/pixels.go:fromImage"]}
{"id": "C39", "title": "Normalised points map into the image", "statement": "createPoint maps coordinates in [0,1] to integer points in [0,w]x[0,h] (rounded arithmetic), is monotone and is within half a pixel of the exact location.", "quantifier": "all coordinates in [0,1], all sizes up to 8191", "why_tests_cant": "The claim ranges over an unbounded set of histories/inputs; a test samples finitely many.", "anchors": ["fitness/util.go:createPoint", "fitness/util.go:fastRound"]}
{"id": "C40", "title": "Incremental evaluation equals full evaluation", "statement": "A member evaluated from its base plus recorded mutations gets the triangulation (hence the fitness) of its own points.", "quantifier": "every history of SetBase/Calculate with mutations recorded against the base", "why_tests_cant": "The claim ranges over an unbounded set of histories/inputs; a test samples finitely many.", "anchors": ["fitness/triangles.go:Calculate", "fitness/triangles.go:SetBase", "triangulation/incrdelaunay/delaunay.go:Set"]}
{"id": "C41", "title": "Evaluation without a base", "statement": "Calculate(points) returns the fitness of the points it is given, on every call.", "quantifier": "every sequence of calls", "why_tests_cant": "The first call behaves; only longer call sequences show the effect.", "anchors": ["fitness/triangles.go:Calculate", "algorithm/evaluator/evaluators.go:one", "algorithm/evaluator/evaluators.go:many"]}
{"id": "C42", "title": "Best fitness never decreases", "statement": "Stats().BestFitness is non-decreasing over Steps.", "quantifier": "every number of steps, mutator, random source and goroutine schedule", "why_tests_cant": "The claim ranges over an unbounded set of histories/inputs; a test samples finitely many.", "anchors": ["algorithm/simple.go:Step", "algorithm/modifiedgenetic.go:Step"]}
{"id": "C43", "title": "Best is the fittest member", "statement": "After construction and after every Step, Best() is a member whose fitness is Stats().BestFitness and no evaluated member has a higher fitness.", "quantifier": "every execution", "why_tests_cant": "The claim ranges over an unbounded set of histories/inputs; a test samples finitely many.", "anchors": ["algorithm/simple.go:updateFitnesses", "algorithm/modifiedgenetic.go:updateFitnesses"]}
{"id": "C44", "title": "Generation counts steps; shapes are preserved", "statement": "After k Steps Generation is k, the population size and the number of points of every member are unchanged.", "quantifier": "every execution", "why_tests_cant": "The claim ranges over an unbounded set of histories/inputs; a test samples finitely many.", "anchors": ["algorithm/simple.go:Step", "algorithm/modifiedgenetic.go:Step", "algorithm/simple.go:newGeneration"]}
{"id": "C45", "title": "Schedules do not matter", "statement": "The order in which workers deliver fitnesses does not change the state after a Step of the simple algorithm; for the modified algorithm the chosen beneficial mutations have the same fitness for every order, and are identical when fitnesses are distinct.", "quantifier": "every permutation of arrivals", "why_tests_cant": "The number of schedules is factorial in the population size.", "anchors": ["algorithm/simple.go:calculateFitnesses", "algorithm/modifiedgenetic.go:calculateFitnesses", "algorithm/modifiedgenetic.go:setBeneficial"]}
{"id": "C46", "title": "Combined member takes the fittest beneficial mutation per point", "statement": "For each base and point index, the combined member carries the mutation of a member with the highest fitness among the members of that base that beat the base and mutated that point, and equals the base elsewhere.", "quantifier": "every execution and arrival order", "why_tests_cant": "The claim ranges over an unbounded set of histories/inputs; a test samples finitely many.", "anchors": ["algorithm/modifiedgenetic.go:setBeneficial", "algorithm/modifiedgenetic.go:combineMutations"]}
{"id": "C47", "title": "Fitness collection terminates", "statement": "Under every schedule the collector receives exactly one result per submitted task, then closes the channel once, and no worker sends on a closed channel or blocks.", "quantifier": "every interleaving, every population size and cutoff with at least one task", "why_tests_cant": "Deadlocks show up only under particular schedules or parameter choices.", "anchors": ["algorithm/simple.go:calculateFitnesses", "algorithm/modifiedgenetic.go:calculateFitnesses"]}
{"id": "C48", "title": "No data races during evaluation", "statement": "While workers run, each mutable location is written by at most one of them and the caches being read are not written by the collector.", "quantifier": "every interleaving", "why_tests_cant": "Races are schedule dependent.", "anchors": ["algorithm/simple.go:calculateFitnesses", "algorithm/evaluator/parallel.go:Prepare", "algorithm/evaluator/parallel.go:Update"]}
{"id": "C49", "title": "Evaluators follow their members", "statement": "After every Step, for every schedule, the evaluator at index i holds the triangulation of member i's points, so a later Remove of a recorded old point always finds it.", "quantifier": "every execution of the simple algorithm with the parallel evaluator", "why_tests_cant": "The claim ranges over an unbounded set of histories/inputs; a test samples finitely many.", "anchors": ["algorithm/evaluator/parallel.go:Swap", "algorithm/simple.go:Swap", "algorithm/simple.go:newGeneration", "fitness/triangles.go:Calculate"]}
{"id": "C50", "title": "Mutation reporting", "statement": "Mutate calls back exactly once per changed index, in increasing order, with Old the value before, New the value after, and leaves every other point untouched; results stay in [0,1].", "quantifier": "every point group, random source, rate and amount", "why_tests_cant": "The claim ranges over an unbounded set of histories/inputs; a test samples finitely many.", "anchors": ["mutation/gaussian.go:Mutate", "mutation/random.go:Mutate", "normgeom/normpoint.go:Constrain"]}
{"id": "C51", "title": "Generators", "statement": "Generate(n) returns exactly n points, all with coordinates in [0,1], for every random source.", "quantifier": "every n and random source (n >= 1 when iterations > 0)", "why_tests_cant": "The claim ranges over an unbounded set of histories/inputs; a test samples finitely many.", "anchors": ["generator/random.go:Generate", "generator/spaced.go:Generate"]}
{"id": "C52", "title": "Point group Set and Copy", "statement": "Set makes the receiver equal to the argument (and panics exactly on different lengths); Copy is equal to and independent of the original.", "quantifier": "all point groups", "why_tests_cant": "The claim ranges over an unbounded set of histories/inputs; a test samples finitely many.", "anchors": ["normgeom/normpoint.go:Set", "normgeom/normpoint.go:Copy"]}
{"id": "C53", "title": "Rendering", "statement": "TrianglesOnImage returns one entry per triangle in order, with the triangle's normalised vertices and the average colour of the pixels it covers (of its clamped corners when it covers none), never dividing by zero; every channel lies between the smallest and largest value of the image.", "quantifier": "every list of triangles with in-image vertices and every image", "why_tests_cant": "The claim ranges over an unbounded set of histories/inputs; a test samples finitely many.", "anchors": ["render/triangles.go:TrianglesOnImage", "color/color.go:Average"]}
{"id": "C54", "title": "Polygon rendering", "statement": "PolygonsOnImage returns one entry per polygon in order with a well-defined average colour.", "quantifier": "every list of polygons with in-image vertices", "why_tests_cant": "The claim ranges over an unbounded set of histories/inputs; a test samples finitely many.", "anchors": ["render/polygons.go:PolygonsOnImage"]}
{"id": "C55", "title": "Average colour", "statement": "Average is the arithmetic mean, independent of the order of additions (exact arithmetic), within the range of the added values, Count is the number of additions.", "quantifier": "every non-empty sequence of colours", "why_tests_cant": "The claim ranges over an unbounded set of histories/inputs; a test samples finitely many.", "anchors": ["color/color.go:Add", "color/color.go:Average"]}
{"id": "C56", "title": "Image conversion", "statement": "ToData has the width and height of the image's maximum bound and each stored channel is the 8-bit channel divided by 255, in [0,1].", "quantifier": "every image", "why_tests_cant": "The claim ranges over an unbounded set of histories/inputs; a test samples finitely many.", "anchors": ["image/rgbdata.go:ToData", "image/rgbdata.go:NewData"]}
{"id": "C57", "title": "Polygon fan", "statement": "Triangulate of an n-gon yields exactly n-2 triangles (none for n<3) whose signed areas add up to the polygon's signed area.", "quantifier": "every polygon", "why_tests_cant": "The claim ranges over an unbounded set of histories/inputs; a test samples finitely many.", "anchors": ["geom/polygon.go:Triangulate", "triangulation/triangulator.go:Area"]}
{"id": "C58", "title": "Polygon area", "statement": "Area is invariant under rotation and reversal of the vertex list and under translation (exact arithmetic) and equals the shoelace area.", "quantifier": "every polygon", "why_tests_cant": "The claim ranges over an unbounded set of histories/inputs; a test samples finitely many.", "anchors": ["triangulation/triangulator.go:Area"]}
{"id": "C59", "title": "Polygonate removes consecutive duplicates", "statement": "Each polygon returned by Polygonate has no two consecutive equal points, keeps the order of its source and drops only repeated points.", "quantifier": "every source polygon", "why_tests_cant": "The claim ranges over an unbounded set of histories/inputs; a test samples finitely many.", "anchors": ["polygonation/polygonate.go:Polygonate", "fitness/polygons.go:Calculate"]}
{"id": "C60", "title": "Insert-only triangulation is valid with IEEE floats", "statement": "With the code's own float32/float64 arithmetic, every sequence of Insert calls with in-image points ends without panic in a Delaunay triangulation of exactly the inserted points: empty circles, positive areas, no overlap, the image covered, HasPoint and NumPoints right, 2*distinct+1 triangles.", "quantifier": "every image up to 4096 pixels on the longer side (not 1 x 1), and up to 5000 pixels if no point is inserted at a height of k/10 of the image (k = 1..9), every finite sequence with at most 32767 distinct points and 65535 copies", "why_tests_cant": "Rounding failures are rare points in a huge input space.", "anchors": ["triangulation/incrdelaunay/delaunay.go:Insert", "triangulation/incrdelaunay/grid.go:AddTriangle", "triangulation/incrdelaunay/geom.go:calcCircumcircle"]}
{"id": "C61", "title": "Triangulation with removals is valid with IEEE floats", "statement": "The same for every sequence of Insert and Remove calls.", "quantifier": "every image up to 4096 pixels on the longer side (not 1 x 1), every finite admissible sequence", "why_tests_cant": "Rounding failures are rare points in a huge input space.", "anchors": ["triangulation/incrdelaunay/delaunay.go:Remove", "triangulation/incrdelaunay/util.go:calculateScore"]}
{"id": "C62", "title": "Rounded rasterizer is right off the edges", "statement": "With any correctly rounded 53-bit arithmetic DDATriangle visits every pixel (x,y) whose lattice point (x+1,y) is strictly inside the triangle, and only pixels whose lattice point is in the closed triangle.", "quantifier": "every triangle of nonzero area with nonnegative int16 vertices, every pixel, every rounding", "why_tests_cant": "Rounding errors at lattice points near an edge are rare.", "anchors": ["rasterize/lines.go:DDATriangleLines", "rasterize/pixels.go:DDATriangle"]}
{"id": "C63", "title": "Areas add up to at most the image", "statement": "The areas of the triangles reported by IterTriangles add up to at most width times height.", "quantifier": "every history of Insert and Remove calls", "why_tests_cant": "The claim ranges over an unbounded set of histories/inputs; a test samples finitely many.", "anchors": ["triangulation/incrdelaunay/delaunay.go:IterTriangles", "fitness/triangles.go:Calculate"]}
{"id": "C64", "title": "Members of the modified algorithm are evaluated or left out", "statement": "Between steps of the modified genetic algorithm every member either has an evaluator whose triangulation holds exactly its points and a fitness that is the one computed from this triangulation, or it is left out with fitness 0; all members but the last cutoff ones are evaluated.", "quantifier": "every execution in which all members but the last cutoff have positive fitness, every schedule and mutator, 1 <= cutoff, 2*cutoff <= size", "why_tests_cant": "Quantifies over all schedules, mutations and generations.", "anchors": ["algorithm/modifiedgenetic.go:Step", "algorithm/modifiedgenetic.go:combineMutations"]}
{"id": "C65", "title": "Pixels of a triangle", "statement": "The line rasterizer visits at most twice the area of a triangle many pixels (each pixel visited at most once), whatever the rounding of the edge slopes.", "quantifier": "every non-degenerate triangle with non-negative 16-bit coordinates, every rounding to 53 bits", "why_tests_cant": "The claim ranges over all triangles and rounding functions.", "anchors": ["rasterize/pixels.go:DDATriangle"]}
{"id": "C66", "title": "Spaced generator spreads points", "statement": "One iteration of the spaced generator either keeps all points or moves one point p to a point q in the unit square such that every other point different from q is farther from q than some point was from p.", "quantifier": "every random source, point list, threshold and decrement", "why_tests_cant": "Ranges over all random sources and point lists; a test samples finitely many.", "anchors": ["generator/spaced.go:Generate", "generator/spaced.go:closestTo"]}
{"id": "C67", "title": "Voronoi polygons do not depend on the history", "statement": "For any two histories of Insert/Remove that leave the same set of points, the polygon stored for each point is the same list of vertices, provided no two corners of its cell are indistinguishable for the comparison of the sort (never the case in exact arithmetic).", "quantifier": "all pairs of histories with the same final set of points, every stored point", "why_tests_cant": "The claim ranges over an unbounded set of histories; a test samples finitely many.", "anchors": ["triangulation/incrdelaunay/voronoi.go:Insert", "triangulation/incrdelaunay/voronoi.go:Remove", "triangulation/incrdelaunay/voronoi.go:processPoint"]}
{"id": "C68", "title": "Batch and incremental Voronoi agree", "statement": "After any history the function Voronoi applied to the triangulation of the diagram reports the same polygons as IterPolygons, up to order, provided no two corners of a cell are indistinguishable for the comparison of the sort (never the case in exact arithmetic).", "quantifier": "every history", "why_tests_cant": "The claim ranges over an unbounded set of histories; a test samples finitely many.", "anchors": ["triangulation/incrdelaunay/voronoi.go:Voronoi", "triangulation/incrdelaunay/voronoi.go:IterPolygons", "triangulation/incrdelaunay/pointmap.go:IterPoints"]}
{"id": "C69", "title": "Reported polygons tile the image", "statement": "After any history with at least one stored point IterPolygons reports exactly one polygon per distinct stored point, and every location of the image is in one of the polygons.", "quantifier": "every history", "why_tests_cant": "The claim ranges over an unbounded set of histories; a test samples finitely many.", "anchors": ["triangulation/incrdelaunay/voronoi.go:IterPolygons", "triangulation/incrdelaunay/voronoi.go:processPoint"]}
{"id": "C70", "title": "Voronoi polygons stay in the image", "statement": "After any history every vertex of every stored polygon is in the image up to the tolerance of 1e-4 of the code (up to rounding).", "quantifier": "every history, every stored polygon", "why_tests_cant": "The claim ranges over an unbounded set of histories; a test samples finitely many.", "anchors": ["triangulation/incrdelaunay/voronoi.go:processPoint", "triangulation/incrdelaunay/voronoi.go:segmentsIntersect", "triangulation/incrdelaunay/voronoi.go:outside"]}
{"id": "C71", "title": "Voronoi polygons stay in their cells", "statement": "In exact arithmetic, after any history every location of the convex hull of the polygon of a point is at least as near to this point as to every other stored point; so the hulls of the polygons of two points meet only on the bisector of the points.", "quantifier": "every history, every stored polygon", "why_tests_cant": "The claim ranges over an unbounded set of histories; a test samples finitely many.", "anchors": ["triangulation/incrdelaunay/voronoi.go:processPoint", "triangulation/incrdelaunay/voronoi.go:Insert", "triangulation/incrdelaunay/voronoi.go:Remove"]}
{"id": "C72", "title": "Voronoi polygons of inner points are the cells", "statement": "In exact arithmetic, after any history, if the corners of the Voronoi cell of a stored point are in the image (longer side at least 4), then its polygon is strictly convex, in a fixed direction, and its locations are exactly the locations of the image that are at least as near to the point as to every other stored point.", "quantifier": "every history, every stored point with its cell in the image", "why_tests_cant": "The claim ranges over an unbounded set of histories; a test samples finitely many.", "anchors": ["triangulation/incrdelaunay/voronoi.go:processPoint", "triangulation/incrdelaunay/voronoi.go:Insert", "triangulation/incrdelaunay/voronoi.go:Remove"]}
{"id": "C73", "title": "Fitness is positive exactly if a triangle is reported", "statement": "The triangle fitness is 0 if IterTriangles reports no triangle and otherwise positive; it is at least 12/25 of the covered fraction of the image. Consequently, in the modified genetic algorithm all members but the last cutoff keep positive fitness as long as the initial members and the mutated members span a triangle.", "quantifier": "every 8-bit image of at most 6800000 pixels, every history, block size 1 to 16", "why_tests_cant": "Quantifies over all images, histories, schedules and mutations.", "anchors": ["fitness/triangles.go:Calculate", "fitness/triangles.go:SetBase", "algorithm/modifiedgenetic.go:Step"]}
{"id": "C74", "title": "Triangles with empty circles are reported", "statement": "If three stored points are not collinear and all other stored points and the vertices of the bounding triangle lie strictly outside their circle, IterTriangles reports the triangle of the three points.", "quantifier": "every history of Insert and Remove calls, every three stored points", "why_tests_cant": "Quantifies over all histories and all triples of stored points.", "anchors": ["triangulation/incrdelaunay/delaunay.go:IterTriangles", "triangulation/incrdelaunay/delaunay.go:Insert", "triangulation/incrdelaunay/delaunay.go:Remove"]}
{"id": "C75", "title": "Set makes a Voronoi diagram observably equal to another one", "statement": "After v.Set(o), for two diagrams of the same image size with arbitrary histories, IterPolygons of v reports the polygons of o in the same order, and every sequence of further Insert and Remove calls panics on v exactly if it panics on o, and otherwise leads to the same reported polygons and triangles.", "quantifier": "every pair of histories, every arithmetic, every sorting routine, every later sequence of calls, whatever the slices of v contained before", "why_tests_cant": "Quantifies over all pairs of histories, over stale contents of reused slices, and over all later calls.", "anchors": ["triangulation/incrdelaunay/voronoi.go:Set", "triangulation/incrdelaunay/polygonmap.go:Set"]}
{"id": "C76", "title": "Clipped Voronoi polygons go once around their mean", "statement": "In exact arithmetic, after any history, the vertices of a stored polygon whose cell has a corner outside the image are listed in counterclockwise order around their arithmetic mean, once around, provided they lie in different directions from the mean; and in every stored polygon of at least three such vertices, clipped or not, each vertex turns counterclockwise around the mean to the next one.", "quantifier": "every history of Insert and Remove calls, every stored point, every sorting routine that sorts strict orders", "why_tests_cant": "Quantifies over all histories and all polygons.", "anchors": ["triangulation/incrdelaunay/voronoi.go:processPoint"]}
{"id": "C77", "title": "Incremental evaluation of polygons equals evaluation from scratch", "statement": "In any history of SetBase, Calculate, Prepare, Update and Swap calls on polygon fitness functions, where each function is first given points of the unit square and later only mutations recorded against the points its base holds, no call panics and the value returned by a last Calculate with some points is the fitness obtained by building a Voronoi diagram of these points afresh and evaluating its polygons without a cache. In particular the fitness stored for every member of the population is that of its own points. This holds also for points that lie on one circle.", "quantifier": "every image, number of functions, cache size, block size from 1 to 16, point group of up to 32767 points, recorded history of calls; exact arithmetic for the full claim", "why_tests_cant": "Quantifies over all histories of calls and over all cache states they leave behind.", "anchors": ["fitness/polygons.go:Calculate", "triangulation/incrdelaunay/voronoi.go:Set"]}
{"id": "C78", "title": "The default algorithm works on every image of at least 4x4 pixels", "statement": "For an image of at least 4 by 4 pixels and any number of points from 1 to 32767, utils.DefaultAlgorithm returns an algorithm whose steps never panic, block or race, under any schedule of the workers and whatever random numbers are drawn. At any time the generation is the number of steps done, Best is a group of exactly the requested number of points, all in the unit square, and the fittest of the 400 members, the best fitness is that of a triangulation of exactly Best's points evaluated without caches, it is at most just above 1, on images of at most 6800000 pixels it is not negative and positive if and only if there is a triangle, and it never decreases. On images with fewer than 4 rows, or more than 4 rows and fewer than 4 columns, DefaultAlgorithm panics.", "quantifier": "every image up to 4096 pixels a side, number of points, random source, number of steps, schedule", "why_tests_cant": "Quantifies over all images, random sources, schedules and numbers of steps.", "anchors": ["utils/default.go:DefaultAlgorithm", "fitness/pixels.go:fromImageN"]}
{"id": "C79", "title": "Polygonate exports the polygons that were evaluated", "statement": "For points of the unit square, Polygonate returns the polygons the polygon fitness function evaluates for these points (after any history of incremental changes), up to order: the same vertices in the same cyclic lists. Every vertex lies in the image, no two neighbouring vertices of a list are equal, no polygon is empty, and there are at most as many polygons as distinct pixel points. Although one function rounds with math.Round and the other with fastRound, the two agree on all float64 values but the largest one below one half.", "quantifier": "every image size up to 8191 pixels, point group of up to 32767 points, history of insertions and removals", "why_tests_cant": "Quantifies over all point groups and histories; the roundings differ for one float64 value only.", "anchors": ["polygonation/polygonate.go:Polygonate", "fitness/util.go:fastRound", "triangulation/incrdelaunay/voronoi.go:Voronoi"]}
{"id": "C80", "title": "Exported pictures have a colour for every shape and restore the pixels", "statement": "For points of the unit square, TrianglesOnImage applied to the result of Triangulate and PolygonsOnImage applied to the result of Polygonate return one entry per shape, in order; every entry has a colour that is the average of at least one pixel of the image; every normalised vertex lies in the unit square and is taken back to the same pixel vertex by scaling and either rounding. Triangulate returns one triangle for each three indices of the Delaunay library, with the pixel points as vertices. If the library returns a Delaunay triangulation, a triangle with no further point on its circle is evaluated by the fitness function if and only if it is exported and no vertex of the bounding triangle is in its circle.", "quantifier": "every image size up to 8191 pixels, image, point group of the unit square, history of insertions and removals, Delaunay library", "why_tests_cant": "Quantifies over all images, point groups and libraries; the round trip must survive two roundings for every pixel.", "anchors": ["triangulation/triangulator.go:Triangulate", "render/triangles.go:TrianglesOnImage", "render/polygons.go:PolygonsOnImage", "normgeom/normtriangle.go"]}
{"id": "C81", "title": "NormFloat64 returns standard normal deviates", "statement": "NormFloat64 never indexes its tables out of range. The tables describe 127 strips of equal area, up to 5 in a million, whose ends and thresholds lie on exp(-x^2/2), up to 3 in 10 million, and a base strip with the area of the tail. A pass returns the abscissa drawn exactly if the point drawn is under the curve, unless the point is within one part in a million of the curve; the same holds for the loop for the tail. For independent uniform draws the returned number is in a set with the probability of the standard normal distribution, up to 3 in 100000. The number is finite unless Float32 returns zero twice in a row, and at most 5 + k/4 in size if the smallest positive Float32 is 2^-k.", "quantifier": "every generator state and sequence of draws, every measurable set, every accurate Log and Exp", "why_tests_cant": "A statistical test of a sample cannot see an error of one table entry in the last digits, nor a rare branch such as the tail, nor the law on all sets.", "anchors": ["random/random.go:NormFloat64", "random/random.go:kn", "random/random.go:wn", "random/random.go:fn"]}
{"id": "C82", "title": "The generic evaluator factories", "statement": "NewSimple with NewMany over a caching image function: whatever the mutator, schedule and number of steps, the fitness values the algorithm works with are those of the initial members, in decreasing order; the reported best fitness is that of the best initial member and never changes, and it need not be the fitness of the points Best returns. NewOne with a caching image function: every Calculate after the first evaluates the points of the first call, and with two or more members two goroutines can be about to write the same memory. With either factory and a function whose value depends on the points alone, the fitness values are those of the members, Best is a member with the greatest fitness, BestFitness is its fitness and never decreases.", "quantifier": "every initial population, mutator, schedule of the goroutines, number of steps, sorting routine, lawful fitness function", "why_tests_cant": "Quantifies over all schedules and mutators; a run with one of the factories looks normal because the reported fitness is plausible.", "anchors": ["algorithm/evaluator/evaluators.go:NewOne", "algorithm/evaluator/evaluators.go:NewMany", "algorithm/simple.go", "fitness/triangles.go:Calculate"]}
{"id": "C83", "title": "DDAPolygon visits the pixels of a convex polygon once each", "statement": "For a strictly convex polygon with at least three vertices (in either orientation, non-negative coordinates) and exact arithmetic DDAPolygon visits a pixel exactly if its sampling point is in the polygon, with points on the boundary assigned by the same rule as for triangles, and no pixel twice. With rounding (coordinates in int16) it visits no pixel twice, every pixel whose sampling point is inside the polygon, and none whose sampling point is outside; only points exactly on the boundary may be assigned differently. DDAPolygonBlocks covers the same pixels as often as DDAPolygon, for every block size and every polygon, and reports nothing outside the image. Vertices on a line break this: with IEEE arithmetic a pixel can be visited twice.", "quantifier": "every convex polygon, every block size, every rounding to 53 bits", "why_tests_cant": "Quantifies over all polygons with any number of vertices; the seams between the fan triangles are missed or doubled only for particular slopes.", "anchors": ["rasterize/polygon.go:DDAPolygon", "rasterize/polygon.go:DDAPolygonBlocks", "geom/polygon.go:Triangulate"]}
{"id": "C84", "title": "Value of a polygon and fitness of polygons", "statement": "In exact arithmetic the value of a polygon is the squared error of the mean colour of the pixels it covers, the least over all colours, whatever the position of its vertices. With IEEE arithmetic and no three vertices of a fan triangle on a line it is within the number of pixels plus 1/1000 of this. It does not depend on the block size, with any rounding. The fitness is one minus the sum of these errors over 195075 times the number of pixels, at most 1, and at least 3/4 if no pixel is in two polygons. Pixels in no polygon cost nothing, so no polygons at all have fitness 1. With IEEE arithmetic and vertices on a line the fitness can exceed 1.", "quantifier": "every image, polygon and block size from 1 to 16", "why_tests_cant": "Quantifies over all images and polygons; the cases with a wrong count need three vertices on a line of particular slopes.", "anchors": ["fitness/polygons.go:Calculate", "fitness/util.go", "rasterize/polygon.go:DDAPolygonBlocks"]}
{"id": "C85", "title": "The loops that run an algorithm", "statement": "RunAlgorithm(algo, reps) prints after iteration k the generation k*reps past the start and the best fitness, which does not decrease from line to line; it never stops by itself. GenerateAlgorithmOutput prints the same, and after every iteration the output file holds the points of Best at that time; with DefaultAlgorithm these are numPoints points of the unit square whose fitness, computed afresh, is the one printed last. GenerateProfile runs a multiple of 5 steps, none if no time is given; GenerateTrace runs 3000.", "quantifier": "every algorithm whose generation counts steps and whose best fitness does not decrease, in particular both algorithms of the project; every number of repetitions and iterations, schedule and random source", "why_tests_cant": "The loops do not end, so that a test sees a finite part of one run.", "anchors": ["utils/fitness.go:RunAlgorithm", "utils/output.go:GenerateAlgorithmOutput", "utils/profile.go:GenerateProfile", "utils/trace.go:GenerateTrace"]}
{"id": "C86", "title": "Files written by the utilities are complete", "statement": "After every iteration of GenerateAlgorithmOutput the file of statistics holds every line printed so far. GenerateTrace's file holds the whole trace. The second is false: the writer is not flushed, so that up to 4096 bytes at the end are missing, some whenever the last write of the tracer is of at most 4096 bytes, and all if the whole trace is that short.", "quantifier": "every sequence of writes of the tracer, every run", "why_tests_cant": "Whether bytes are lost depends on the sizes of the writes of the runtime, which a test cannot vary.", "anchors": ["utils/output.go:GenerateAlgorithmOutput", "utils/trace.go:GenerateTrace"]}
{"id": "C87", "title": "Fitness is that of the rendered picture", "statement": "The fitness of a group of points for an 8-bit image is the share of the image that the triangles cover minus the squared error, per channel and pixel, of the picture that TrianglesOnImage describes for the same triangles: exactly in exact arithmetic, within 1/100000 with IEEE doubles. No other colours of the triangles would give a better picture (with doubles: by more than 1/100000 in fitness). In exact arithmetic the fitness is 1 only if the triangles' areas add up to that of the image and every painted pixel has the colour of the image.", "quantifier": "every 8-bit image of at most 6800000 pixels (6876000 in exact arithmetic), every triangulation, every block size from 1 to 16", "why_tests_cant": "Evaluator and renderer are separate code working with sums over blocks and with averages; that they agree for all images and triangulations needs the algebra of least squares and error bounds, not samples.", "anchors": ["fitness/triangles.go:Calculate", "render/triangles.go:TrianglesOnImage", "color/color.go:Average"]}
{"id": "C88", "title": "Which points a mutation changes", "statement": "If the random numbers are independent and uniform on the multiples of 1/N below 1, then Mutate of either method changes each point independently of the others and of the gaussian numbers, with probability p: the rate rounded up to a multiple of 1/N and cut to [0, 1]. So the number of changed points is binomial with mean n p. With DefaultGaussianMethod(n) for n >= 3 points the mean is 2 up to 2^-23 + n/N and the probability that nothing is mutated is at most 1/7; for one or two points every point is mutated in every call.", "quantifier": "every N, rate, amount, list of points and set of points; for the default method up to 2^24 points", "why_tests_cant": "A probability is a statement about all N^n vectors of draws; a test sees a few runs of one generator. The random method draws a varying number of values per point from one sequence, so independence is not evident.", "anchors": ["mutation/gaussian.go:Mutate", "mutation/gaussian.go:DefaultGaussianMethod", "mutation/random.go:Mutate"]}
{"id": "C89", "title": "The spaced generator keeps points apart", "statement": "SpacedPointGenerator never brings points together: if different points of the random start are at least d apart, then different points of the result are at least d apart (squared distances, up to one part in 2^47), after any number of iterations. A point is only ever moved at least as far as its nearest neighbour, because its own old position counts as another point when the new position is examined. Hence a point whose nearest neighbour is farther than temp/sqrt 2 is not moved in that iteration, although moving it would improve the spacing.", "quantifier": "every source of numbers, number of points, number of iterations and decrease; every iteration", "why_tests_cant": "A statement about every iteration with every sequence of random numbers; that points stop moving although they are badly spaced looks like convergence in a test.", "anchors": ["generator/spaced.go:Generate", "generator/spaced.go:closestTo"]}
{"id": "C90", "title": "How much of the image is covered", "statement": "Let n be the longer side. If the stored points include the corners of the image and neighbouring stored points along each side are at most g apart, then every location farther than g^2/(6n-2) from the border is in exactly one triangle of IterTriangles, whatever else is stored, and every pixel that far from the border is drawn exactly once. With the four corners alone that is about a sixth of n; the rest of the image need not be covered: a point near the border is connected to a vertex of the bounding triangle.", "quantifier": "every history, every image size, every location with rational coordinates", "why_tests_cant": "The gaps depend on points close to the border and on the finite bounding triangle; a random test with few points near the border sees full coverage.", "anchors": ["triangulation/incrdelaunay/delaunay.go:IterTriangles", "triangulation/incrdelaunay/geom.go:NewSuperTriangle"]}
{"id": "C91", "title": "Hash codes of the caches", "statement": "Two triangles of an image have the same TriangleCacheData.Hash exactly if 97 X + Y agrees, where X and Y are the sums of their coordinates; so, however large the cache is, the triangles of a w x h image use at most 291 w + 3 h + 1 of its entries. PolygonCacheData.Hash is the value at 97 of the polynomial with coefficients 1 and the coordinates, modulo 2^64; moving a vertex by (1, -97) does not change it.", "quantifier": "every triangle and polygon with int16 coordinates, every cache size", "why_tests_cant": "Collisions only cost time, so no test of results sees them; the bound on used entries is over all triangles of an image.", "anchors": ["fitness/cache.go:TriangleCacheData.Hash", "fitness/cache.go:PolygonCacheData.Hash", "fitness/triangles.go:Calculate"]}
{"id": "C92", "title": "Fitness of polygons is that of the rendered picture", "statement": "For polygons of which no two share a pixel, the fitness that polygonsImageFunction reports for an 8-bit image is one minus the squared error, per channel and pixel of the image, of the picture that PolygonsOnImage describes for the same polygons with rounded vertices: exactly in exact arithmetic, within 1/100000 with IEEE doubles if no three vertices of a fan triangle are on a line. Pixels in no polygon cost nothing. No other colours of the polygons would give a better picture (with doubles: by more than 1/100000 in fitness). With doubles the fitness is between 3/4 and 1, up to 1/100000. In exact arithmetic it is 1 exactly if every painted pixel has the colour of the image. If polygons overlap the shared pixels are charged more than once.", "quantifier": "every 8-bit image of at most 6800000 pixels (6876000 in exact arithmetic), every list of polygons without common pixels, every block size from 1 to 16", "why_tests_cant": "Evaluator and renderer are separate code working with sums over blocks and with averages; that they agree for all images and polygons needs the algebra of least squares and error bounds, not samples.", "anchors": ["fitness/polygons.go:Calculate", "render/polygons.go:PolygonsOnImage", "color/color.go:Average"]}
{"id": "C93", "title": "CompareAlgorithms compares two algorithms", "statement": "CompareAlgorithms repeatedly constructs both algorithms, runs the first for 10000 generations and the second until its best fitness first reaches that of the first, and prints the mean numbers of generations and the number of rounds. This is false: the condition of its loop is the constant false, so that no call constructs an algorithm or prints anything. What is kept is what the body of the loop would print if it ran.", "quantifier": "every pair of algorithms whose generation counts the steps, every execution, every number of rounds", "why_tests_cant": "The function prints its result and has no return value; how long a round takes depends on random numbers.", "anchors": ["utils/compare.go:CompareAlgorithms"]}
{"id": "C94", "title": "Recolouring the image", "statement": "Reordering the colour channels of the image, or replacing some channels by their negatives, does not change the fitness of any points, be it the fitness of triangles or of polygons.", "quantifier": "every 8-bit image, every composition of channel exchanges and negatives, every list of triangles or polygons", "why_tests_cant": "The claim ranges over all images and all triangulations.", "anchors": ["fitness/pixels.go:fromImage", "fitness/pixels.go:fromImageN", "fitness/triangles.go:Calculate", "fitness/polygons.go:Calculate"]}
{"id": "C95", "title": "Order and repetition of points", "statement": "Two fresh functions of the same image, given lists of points that cover the same set of pixels, in any order and with any repetitions, return the same fitness, be it the fitness of triangles or of polygons.", "quantifier": "every image, every two lists of points with the same set of pixels", "why_tests_cant": "The claim compares all orders of lists of any length; differences occur only for points on one circle or in the last bits.", "anchors": ["fitness/triangles.go:Calculate", "fitness/polygons.go:Calculate", "triangulation/incrdelaunay/delaunay.go:Insert", "triangulation/incrdelaunay/delaunay.go:IterTriangles", "triangulation/incrdelaunay/voronoi.go:IterPolygons"]}
{"id": "C96", "title": "The reported best fitness is the quality of the exported picture", "statement": "Take the best points of DefaultAlgorithm after any number of steps, triangulate them with Triangulate and colour the triangles with TrianglesOnImage, as is done to export a result. The quality of this picture (share of the image in the triangles minus squared error per channel and pixel) is the best fitness, up to 1/90000; hence over any number of steps the exported picture gets worse by at most 1/45000. The same holds of the value of any call of Calculate and its points. If the exported triangles include some that were not evaluated, the picture is at least as good as the fitness says, up to 1/90000.", "quantifier": "every 8-bit image up to 4096 pixels a side and 6800000 pixels, every random source, schedule, number of steps, and every Delaunay library that reports no triangle twice", "why_tests_cant": "Joins two independent triangulations, a cached and incrementally updated evaluation, and a renderer; agreement for all images, libraries and runs needs the uniqueness of Delaunay triangulations and error bounds, not samples.", "anchors": ["utils/default.go:DefaultAlgorithm", "algorithm/simple.go:Best", "triangulation/triangulator.go:Triangulate", "render/triangles.go:TrianglesOnImage", "fitness/triangles.go:Calculate"]}
{"id": "C97", "title": "The fitness of polygons is the quality of the exported picture of polygons", "statement": "Take points evaluated by PolygonsImageFunctions, after any calls of Calculate, or the best points of the simple or the modified algorithm after any number of steps. Compute the polygons with Polygonate and colour them with PolygonsOnImage, as is done to export a result. One minus the squared error of this picture, per channel and pixel, is the fitness, up to 1/90000, and no other colours of these polygons give a picture better than the fitness by more than that; hence over any number of steps of the simple algorithm the exported picture gets worse by at most 1/45000.", "quantifier": "every 8-bit image of at least 3 pixels a side, up to 4096 pixels a side and 6800000 pixels, every block size from 1 to 16, every sequence of calls, mutator, schedule and number of steps, for points whose rounded cells do not overlap", "why_tests_cant": "Joins a diagram that is copied, cached and updated incrementally with one computed from scratch, two rounding routines and two ways to sum colours; agreement for all point sets and histories needs the uniqueness of the Voronoi cells and error bounds. The exception is about cells whose rounded corners make fan triangles overlap, which random samples rarely show to be the cause.", "anchors": ["fitness/polygons.go:Calculate", "polygonation/polygonate.go:Polygonate", "render/polygons.go:PolygonsOnImage", "algorithm/simple.go:Best", "algorithm/modifiedgenetic.go:Best"]}
{"id": "C98", "title": "The exported triangles do not overlap, and the picture is at least as good as the fitness says", "statement": "The triangles that Triangulate returns have no location inside in common, their areas add up to at most the area of the image, and drawing all of them with DDATriangle visits only pixels of the image and none twice, whatever the rounding. Hence the picture made of them by TrianglesOnImage is, up to 1/90000, at least as good as the fitness of the points: as the value of any call of Calculate, and as the best fitness of DefaultAlgorithm after any number of steps.", "quantifier": "every Delaunay library that reports no triangle twice, every list of points of which no four pixels lie on one circle, every arithmetic of 53 bits, images up to 32767 pixels a side (fitness: IEEE arithmetic, 8-bit images up to 4096 pixels a side and 6800000 pixels)", "why_tests_cant": "A statement about every pair of triangles of every point set and every rounding of the slopes; a pixel drawn twice needs a lattice point exactly on an edge, which random samples miss.", "anchors": ["triangulation/triangulator.go:Triangulate", "rasterize/pixels.go:DDATriangle", "render/triangles.go:TrianglesOnImage", "utils/default.go:DefaultAlgorithm", "fitness/triangles.go:Calculate"]}
{"id": "C99", "title": "The exported triangles fill the convex hull of the points", "statement": "The triangles that Triangulate returns fill the convex hull of the points, rounded to pixels: they lie in the hull, almost every location of the hull is inside one of them, and their areas add up to the area of the hull. Drawing all of them with DDATriangle, whatever the rounding, visits every pixel whose lattice point (x + 1, y) is in the interior of the hull exactly once, and no pixel whose lattice point is outside the hull.", "quantifier": "every Delaunay library that reports no triangle twice, every list of points of which no four pixels lie on one circle, every arithmetic of 53 bits, images up to 32767 pixels a side", "why_tests_cant": "A hole needs a missing triangle or a lattice point exactly on an edge together with an unlucky rounding of its slope; that no point set, library and rounding has one follows from a minimality argument on lifted points, not from samples.", "anchors": ["triangulation/triangulator.go:Triangulate", "rasterize/pixels.go:DDATriangle"]}
{"id": "C100", "title": "Locations surrounded by stored points are covered", "statement": "Let n be the longer side. If in every direction from a location there is a stored point at least delta ahead and at most rho away, and 2 rho^2 < (3n - 1) delta, then the location is in exactly one triangle of IterTriangles, the pixel with that lattice point is drawn exactly once, and every exported triangle that contains the location was evaluated. Hence if every disc of radius r in the image contains a stored point, all of the image but a margin of r + delta is covered, for delta of about 8 r^2 / 3n: triangles are lost to the bounding triangle only as slivers along the outline of the points.", "quantifier": "every history, every image size, every location with rational coordinates, all rho and delta; for the exported triangles every Delaunay library and points in general position", "why_tests_cant": "Whether a triangle of the outline is lost depends on circles of radius larger than the image; random tests show neither the losses nor that none happen inside.", "anchors": ["triangulation/incrdelaunay/delaunay.go:IterTriangles", "triangulation/incrdelaunay/geom.go:NewSuperTriangle", "triangulation/triangulator.go:Triangulate"]}
{"id": "C101", "title": "What a generation consists of", "statement": "The first generation is, up to order, the groups the generator returned. After a step of the simple algorithm the population is, up to order, the cutoff fittest members of the generation before, unchanged, and mutants of them: Mutate is given copies of these members in turn until the size is reached. After a step of the modified genetic algorithm it is these members, size - 2 cutoff mutants made in the same way, and cutoff combined members. For every i below cutoff the i-th best fitness never decreases. In DefaultAlgorithm five members are kept and 395 mutated one after the other, and every call of Mutate, and every generation, goes on with the random numbers where the one before stopped.", "quantifier": "every fitness function that meets the evaluator's laws, every mutator that reports its changes, every sorting order of equal fitnesses, every schedule of the workers, every number of steps, population size and cutoff; every random source for DefaultAlgorithm", "why_tests_cant": "A member lost, duplicated or mutated from the wrong parent leaves the best fitness rising as before; the search only gets slower.", "anchors": ["algorithm/simple.go:newGeneration", "algorithm/simple.go:NewSimple", "algorithm/modifiedgenetic.go:newGeneration", "utils/default.go:DefaultAlgorithm"]}
{"id": "C102", "title": "Runs of the default algorithm can be repeated", "statement": "Two runs of DefaultAlgorithm with the same image and number of points that start with the random source in the same state (after random.Seed with the same seed, or both at the start of the program) agree after every number of steps: the same members and fitnesses in the same order, the same Best, Stats.BestFitness and Stats.Generation, and the random source in the same state, although the workers evaluate the members in any order.", "quantifier": "every image, number of points, random source and number of steps; any two schedules of the workers", "why_tests_cant": "The number of schedules is astronomical, and a dependency on the order would change a run only now and then.", "anchors": ["utils/default.go:DefaultAlgorithm", "algorithm/simple.go:calculateFitnesses", "random/random.go:Seed"]}
{"id": "C103", "title": "Dense points approximate the image", "statement": "If every disc of radius r about a location of the image contains one of the points (rounded to pixels), and the mean squared difference of the channels of two pixels at most 9 r apart is at most eta, then Calculate of TrianglesImageFunction returns at least (1 - 4 r / w) (1 - 4 r / h) - eta - 1/100000, however the earlier calls went. Once a member of the population of DefaultAlgorithm is as dense as this, Stats.BestFitness is at least this large, and stays so.", "quantifier": "every image, all points, every history of insertions and removals, every r with 18 r < 3 max(w, h) - 1 and 4 r <= w, every eta, block sizes 1 to 16", "why_tests_cant": "The bound joins the coverage by the triangulation, the size of its triangles and the rounding of all sums; runs show only the fitness of the images and points tried.", "anchors": ["fitness/triangles.go:Calculate", "triangulation/incrdelaunay/delaunay.go:IterTriangles", "utils/default.go:DefaultAlgorithm"]}
{"id": "C104", "title": "Many random points give a good first generation", "statement": "If the random numbers are independent and uniform on the multiples of 1/N in [0, 1), and the unit square is cut into a columns and b rows (a and b divide N), the probability that RandomGenerator.Generate(n) leaves a box without a point is at most a b (1 - 1/(a b))^n. Hence, if rho^2 >= (w/a + 0.51)^2 + (h/b + 0.51)^2 and the mean squared difference of the channels of pixels at most 9 rho apart is at most eta, the probability that a run of DefaultAlgorithm with n points ever reports a Stats.BestFitness below (1 - 4 rho/w)(1 - 4 rho/h) - eta - 1/100000 is at most (a b (1 - 1/(a b))^n)^400.", "quantifier": "every image, number of points, N, a, b, every schedule of the workers, every number of steps; all later random numbers", "why_tests_cant": "A probability of 10^-400 is out of reach of sampling, and a generator that avoids a small region of the image is noticed by no single run.", "anchors": ["generator/random.go:Generate", "utils/default.go:DefaultAlgorithm", "fitness/triangles.go:Calculate"]}
{"id": "C105", "title": "The exported picture of dense points approximates the image", "statement": "If Triangulate returns a Delaunay triangulation of the points rounded to pixels (no overlap, the convex hull filled, no point in a circle; any of them if several points are on a circle), every disc of radius r about a location of the image contains one of these pixels, and the mean squared difference of the channels of two pixels at most 9 r apart is at most eta, then the picture made of the triangles by TrianglesOnImage has a quality (share of the image covered minus squared error per channel and pixel) of at least (1 - 4 r / w) (1 - 4 r / h) - eta - 1/50000. Once a member of the population of DefaultAlgorithm is as dense as this, the picture exported for Best() is as good up to 1/40000, now and after any further steps.", "quantifier": "every image, all points, every Delaunay library, every r with 4 r <= w, every eta; for DefaultAlgorithm every random source, schedule and number of steps", "why_tests_cant": "Samples show the pictures of the images and points tried; that no point set has a triangulation by some library with a hole, an overlap or a thin triangle with far apart corners away from the border needs the argument on circles.", "anchors": ["triangulation/triangulator.go:Triangulate", "render/triangles.go:TrianglesOnImage", "utils/default.go:DefaultAlgorithm"]}
{"id": "C106", "title": "The exported triangles fill the convex hull also when points lie on a circle", "statement": "If Triangulate returns a Delaunay triangulation of the points rounded to pixels (triangles with these vertices and no such pixel in their circles, on two sides of a line each, that contain every location inside the convex hull), their areas add up to the area of the hull and almost every location of the hull is inside one of them. Drawing all of them with DDATriangle, whatever the rounding, visits every pixel whose lattice point (x + 1, y) is inside the hull exactly once, no pixel twice, and no pixel whose lattice point is outside the hull. Every Delaunay library that reports no triangle twice returns such triangles for points of which no four are on a circle.", "quantifier": "every list of points, also grids and other points on common circles and lines, every Delaunay triangulation of them, every arithmetic of 53 bits, images up to 32767 pixels a side", "why_tests_cant": "Points on common circles have many Delaunay triangulations; a library chooses one by the rounding of its tests, and a sample of libraries and points shows only some.", "anchors": ["triangulation/triangulator.go:Triangulate", "rasterize/pixels.go:DDATriangle"]}
{"id": "C107", "title": "The picture of many random points is good with high probability", "statement": "Let the random numbers be independent and uniform on the multiples of 1/N in [0, 1), cut the image into a columns and b rows (a and b divide N), let rho^2 >= (w/a + 0.51)^2 + (h/b + 0.51)^2, and let the mean squared difference of the channels of pixels at most 9 rho apart be at most eta. For the points of RandomGenerator.Generate(n), the probability that Triangulate returns a Delaunay triangulation of them and the picture made of it by TrianglesOnImage has a quality below (1 - 4 rho/w)(1 - 4 rho/h) - eta - 1/50000 is at most a b (1 - 1/(a b))^n. For DefaultAlgorithm with n points, the probability that the picture exported for Best() after any number of steps is worse than this bound by more than 1/200000 is at most (a b (1 - 1/(a b))^n)^400.", "quantifier": "every number of points, every a and b, every image within the limits, every library, every schedule of the workers and every number of steps", "why_tests_cant": "The probabilities are far below what any number of runs could estimate, and a bound on them is a statement on all draws and all later steps together.", "anchors": ["generator/random.go:Generate", "triangulation/triangulator.go:Triangulate", "render/triangles.go:TrianglesOnImage", "utils/default.go:DefaultAlgorithm"]}
{"id": "C108", "title": "Delaunay triangulations exist for all points, and share the triangles that are forced", "statement": "For every list of points there are triangles that Triangulate can return and that form a Delaunay triangulation of the points rounded to pixels (vertices among the pixels, no pixel in a circle, two sides of a line for any two triangles, the convex hull filled): some library returns one for every list, each triangle once. Whichever Delaunay triangulation Triangulate returns, it contains every triangle of the pixels with all other pixels outside its circle. For points of which no four are on a circle, any two libraries that return Delaunay triangulations return the same triangles, up to the order of triangles and of vertices.", "quantifier": "every list of points, also with repetitions, on common lines and circles; every library; every size and arithmetic", "why_tests_cant": "The assumption made on the library in C105-C107 must be satisfiable for all lists of points; examples show it only for some.", "anchors": ["triangulation/triangulator.go:Triangulate"]}
{"id": "C109", "title": "The arithmetic of the model is that of IEEE 754", "statement": "The rounding by which float operations are modelled returns a number with the given number of bits, no such number is nearer, and of two equally near ones it is the one with the even significand; these facts determine it. For values from the least normal to the largest number of the format (float64 or float32) the result is a number of the format, and no number of the format, also subnormal, is nearer. The modelled square root is the number with 53 bits nearest to the real square root, and the only such one if the argument has 53 bits.", "quantifier": "every rational number and every number of bits (at least 2 for uniqueness)", "why_tests_cant": "Quantifies over all rationals and all precisions; it is the link between the rational model and the float64 and float32 operations of the code, on which the theorems about rounded runs rest.", "anchors": ["triangulation/incrdelaunay/geom.go:calcCircumcircle", "fitness/triangles.go:Calculate", "rasterize/lines.go:DDATriangleLines"]}
{"id": "C110", "title": "The triangulation does not depend on overflow and subnormal numbers", "statement": "Take any arithmetic that rounds float64 and float32 operations and square roots as IEEE 754 prescribes for zero and for values from the least normal number to 2^1023 (float32: 2^127), and returns anything at all elsewhere. The circumcircles, the boxes of the grid and the scores of the ears are the same as with rounding of unbounded exponents, so every history of Insert and Remove calls succeeds and leaves a valid Delaunay triangulation of the stored points.", "quantifier": "every such arithmetic, every image size up to 4096 pixels (up to 8191 for the circles and boxes), every history; for the scores and circles all points with int64 coordinates", "why_tests_cant": "Quantifies over all points and over all behaviours outside of the normal range; a test would have to find a triangle that causes an underflow or overflow, and there is none.", "anchors": ["triangulation/incrdelaunay/geom.go:calcCircumcircle", "triangulation/incrdelaunay/grid.go:AddTriangle", "triangulation/incrdelaunay/grid.go:HasPoint", "triangulation/incrdelaunay/util.go:calculateScore"]}
{"id": "C111", "title": "The rasterizers do not depend on overflow and subnormal numbers", "statement": "Take any rounding that is that of IEEE float64 for zero and for values from the least normal number to 2^1023, and anything at all elsewhere. DDATriangleLines, DDATriangle and DDATriangleBlocks make the same calls in the same order as with rounding of unbounded exponents.", "quantifier": "every such rounding, every triangle with coordinates up to 2^60, every block size up to 2^60", "why_tests_cant": "Quantifies over all triangles and over all behaviours outside of the normal range.", "anchors": ["rasterize/lines.go:DDATriangleLines", "rasterize/pixels.go:DDATriangle", "rasterize/blocks.go:DDATriangleBlocks"]}
{"id": "C112", "title": "The fitness of triangles does not depend on overflow and subnormal numbers", "statement": "Take any rounding that is that of IEEE float64 for zero and for values from the least normal number to 2^1023, and anything at all elsewhere. The fitness computed from the triangles of a triangulation is the same as with rounding of unbounded exponents, for every 8-bit image. This also holds when the triangulation itself is computed in such an arithmetic.", "quantifier": "every such rounding, every image of 1 to 32767 pixels on a side (up to 4096 when the triangulation is computed as well), every block size from 1 to 16, every mesh and every history of points", "why_tests_cant": "Quantifies over all images and meshes and over all behaviours outside of the normal range.", "anchors": ["fitness/triangles.go:Calculate", "image/rgbdata.go:ToData", "rasterize/blocks.go:DDATriangleBlocks"]}
{"id": "C113", "title": "Evaluating points does not depend on overflow and subnormal numbers", "statement": "Take any arithmetic that is IEEE arithmetic for zero and normal numbers, and anything at all elsewhere. Every point with coordinates that are zero or normal numbers up to 1 is mapped to the same pixel as with unbounded exponents. The first Calculate of a triangle function returns the fitness, with unbounded exponents, of a valid triangulation of these pixels.", "quantifier": "every such arithmetic, every list of up to 32767 points with coordinates zero or from the least normal number to 1, every 8-bit image up to 4096 pixels on a side (not 1 x 1), every block size from 1 to 16, every call that returns", "why_tests_cant": "Quantifies over all lists of points, all images and all behaviours outside of the normal range.", "anchors": ["fitness/util.go:createPoint", "fitness/util.go:fastRound", "fitness/triangles.go:Calculate"]}
