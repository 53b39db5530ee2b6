# Design: a Lean 4 model of nlsn-delaunay-refine

This file says what is modelled, how each property of `properties.jsonl` is
stated and proved, and what is trusted.

## 1. Trusted base

* Lean 4.33.0's kernel, and the axioms `propext`, `Classical.choice` and
  `Quot.sound` (at most; `#print axioms` on each theorem of `MANIFEST.json`).
  No axiom is added, nothing is left `sorry`, `native_decide` / `bv_decide` are
  not used.
* The reading of the Rust code in `lean/Verif/Model/*.lean`. Every definition
  cites the file and the lines it models and says what it simplifies.
* The assumptions below.

### 1.1 Numbers

`f64` is modelled by an arbitrary linearly ordered field `K`
(`ℚ` when a model function has to be run, `ℝ` when square roots appear).
Arithmetic is exact: rounding, overflow, NaN, infinities and the sign of zero are
not modelled. The tolerance `1.0E-14` of the code is a parameter `eps ≥ 0`
(`approx_eq!(f64, a, b, epsilon = e)` of `float_cmp 0.8` is `|a - b| ≤ e` on
finite values since the ulps margin is zero). The properties that are purely
combinatorial do not use geometry at all: they hold for *every* answer of the
predicates, hence also for the answers rounded arithmetic gives.
`Model/Rounded.lean` models the orientation test, the circle over a segment, the area and the
midpoint with a rounding after each operation (order of operations as in nalgebra),
`Model/RoundedInsert.lean` `insert_vertices` with rounding, and `Model/Elimination.lean` the in-circle
test, whose determinant nalgebra computes by elimination. `Model/RoundedMesh.lean` puts these tests in the insertion procedures.
`Model/RoundedSplit.lean` has the
midpoint and the encroachment test of the splitting of segments with rounding. `Model/RoundedContinence.lean` has the intersection of segments and the test of `may_insert_triangle` with rounding. `Model/RoundedRefine.lean` has `refine` with rounding. `Model/RoundedArea.lean` has the area and the orientation of polygons with rounding. `Model/RoundedQuality.lean` has `distance`, `quality` and `is_irregular_triangle` with rounding; the rounded square root is an argument, and `Spec/Root.lean` says what is asked of it. C83 to C97 are about these. `Spec/Rounding.lean` gives the rounding of `f64` without overflow.

`nalgebra`: `determinant` is the exact determinant (for four rows computed by elimination, see C86); `is_invertible` is
`determinant != 0`, `try_inverse().unwrap()` is the exact inverse.

### 1.2 Hash containers

`HashSet` / `HashMap` find an element when hash and `==` agree. Hashes are
computed from the exact bit patterns, field by field, so lookups are modelled as
identity of the structural value (no hash collision between different values that
are `==` up to the tolerance or up to rotation). Where the code calls `==`
itself, the model uses the tolerant comparison. The iteration order of a hash
container is arbitrary: a model function that iterates takes a scheduler (`Sched`)
that decides the order, and theorems quantify over all schedulers. `all_orders` proves
that the schedulers realise exactly the orders of the elements.

### 1.3 Control

`unwrap()` on `None`, `panic!` and index errors are the explicit result
`Res.panic`. Loops without an obvious bound take fuel and return `Res.diverged` when it
runs out; partial-correctness theorems speak about `Res.ok`, termination theorems
say that enough fuel exists. C82 proves that fuel is no more than a bound: a result other
than `Res.diverged` is the same for all larger amounts of fuel. `Rc` and `RefCell` are transparent; the code never
borrows twice.

### 1.4 What is modelled and what is not

| file in `/repo/src` | model | not modelled |
|---|---|---|
| `elements/vertex.rs` | `Model/Vertex.lean` | `Display` |
| `elements/edge.rs` | `Model/Edge.lean`, `Model/EdgeOps.lean`, `Model/EdgeMaps.lean` (`into_hashmap`, `arrange` with its two maps) | `length`, `Display` |
| `elements/triangle.rs` | `Model/Edge.lean` | `Display` |
| `elements/polyline.rs` | `Model/Polyline.lean`, `Model/Boolean.lean` | `eq` (identity of values is used for hash lookups) |
| `elements/bounding_box.rs` | `Model/BoundingBox.lean` | |
| `properties/*.rs` | `Model/Predicates.lean`, `Model/BoundingBox.lean` (`intersection`), `Model/Angle.lean`, `Model/Rounded.lean`, `Model/Elimination.lean`, `Model/RoundedContinence.lean`, `Model/RoundedRefine.lean`, `Model/RoundedArea.lean` and `Model/RoundedQuality.lean` (with rounding) | rounding in the other functions |
| `planar/triangulation.rs` | `Model/Mesh.lean` | `Display` |
| `planar/triangulation_data.rs` | `Model/Drawing.lean` (what is printed) | the text format of numbers |
| `planar/triangulator.rs` | `Model/Triangulator.lean`, `Model/Histories.lean` (sequences of calls) | |
| `planar/triangulation_procedures/vertices.rs` | `Model/Vertices.lean` | |
| `planar/triangulation_procedures/{boundary,hole,segment}.rs` | `Model/Carve.lean` | |
| `planar/refine_procedures/*.rs` | `Model/Refine.lean` | |
| `triangulator_interface/**` | `Model/Cli.lean`, `Model/Circle.lean` (the exact sine and cosine) | rounding of sine and cosine |
| `json_serializar/models/*.rs` | `Model/Cli.lean` (the data, `from_triangulator`), `Model/Json.lean` (documents as JSON values, by the rules of serde's `derive`) | the characters of a document, formats of uuid and date (parameters) |
| `json_serializar/io.rs` | `Model/Json.lean` (`mainProgram`: a file is a JSON value or unreadable) | the file system |
| `glium_interface/vertex.rs` | `Model/Cli.lean`, `Model/Drawing.lean` | the `f32` conversion (an arbitrary function) |
| `glium_interface/{display,edges,triangles}.rs` | | all (OpenGL) |
| `main.rs` | `Model/Cli.lean` (`runProgram`), `Model/Json.lean` (`mainProgram`) | arguments, drawing |

Memory exhaustion and integer overflow are not modelled. The rules of serde's `derive` (objects by name, arrays by
position, repeated fields refused, other fields ignored, defaults) are trusted as written in `Model/Json.lean`.

### 1.5 Side conditions that recur

* `AdjSound m`: the adjacency map only lists triangles of the mesh. It holds after every run of `triangulate`
  and `refine` (C13), so it excludes no reachable state.
* `NoPinch` (C14, C17, C18, C44): no directed edge is used twice when a vertex is inserted. It is proved for
  insertions without boundary, holes and segments (`C19_noPinch`); with constraints it can fail (`C51_false`).
* Fuel: theorems about `Res.ok` hold for every amount; theorems that say a function returns name an amount.

## 2. Layout

* `Verif/Model/`: the code, function by function.
* `Verif/Spec/`: small definitions used to state the properties (circles, winding
  numbers, closed meshes, ...), independent of the model's helpers.
* `Verif/Lemmas/`: proofs of auxiliary facts.
* `Verif/Props/`: one theorem (or a few) per property, each followed by an
  `example` showing that a concrete non-trivial case meets its hypotheses.

## 3. Properties

| id | what is modelled | how it is proved |
|----|------------------|------------------|
| C01 | `orientation` | determinant identity, case split on sign |
| C02 | `continence`, `circumcenter` | identity `det = orient * (R² - d²)` |
| C03 | `circumcenter` | field identities; uniqueness by linear algebra |
| C04 | `encroach` | identity `measure = d² - r²` |
| C05 | `BoundingBox` | fold invariants, lattice reasoning |
| C06 | `intersection` | linear algebra; parallel case by betweenness |
| C07 | `Edge::contains` | convex combination |
| C08 | `Polyline::contains` | telescoping of half crossings over the cyclic list against an independently defined winding number |
| C09 | `Polyline::contains` | permutation invariance of the sum |
| C10 | `triangles_hull` | invariant of the cancellation loop for every order |
| C11 | `Polyline::arrange` | counterexample (divergence, panic) and a proof for edge sets with distinct heads |
| C12 | `split_intersections` | worklist invariant |
| C13 | `include_triangle`, `remove_triangle` | induction over histories |
| C14 | `solve_conflicts` | chain-level invariant of the cavity loop, arbitrary predicates |
| C15 | `solve_conflicts` | invariant "every vertex is in the mesh or on a pending edge" |
| C16 | `solve_conflicts`, `area` | discrete Stokes lemma |
| C17 | `solve_conflicts` | loop invariant |
| C18 | `solve_conflicts` | measure: triangles without the vertex and pending edges; number of pending vertices |
| C19 | `include` without constraints | global empty-circle invariant: pencil-of-circles algebra; star-shaped cavities; termination |
| C20 | `include` without constraints | counterexample; progress by the covering number (C21) |
| C21 | closed meshes | discrete Stokes with crossing numbers |
| C22 | `insert_vertices` | loop invariants |
| C23 | `insert_segments` | loop invariants; counterexample for zero-length segments |
| C24 | `insert_hole` | case analysis; counterexample for vertices inside the hole |
| C25 | `may_insert_triangle` | counterexample with two holes; proof for at most one hole |
| C26 | `boundary::include` | flood-fill invariant; exactly the triangles reachable from the outside are removed |
| C27 | `hole::include` | flood-fill invariant |
| C28 | `try_circumcenter_insertion` | cavity invariant: included and removed are exact differences; a rejected attempt restores the mesh, an accepted one reports no encroached segment |
| C29 | `unencroach_segment` | invariant on the bisection tree; counterexample for the encroachment part |
| C30 | `split_irregular` | queue invariant over histories of attempts; counterexample |
| C31 | `from_triangulator` | counterexample for two orders; proof when the orders agree |
| C32 | `interpreter::parse` | exact characterisation of ok / error / panic |
| C33 | `domain_evaluator::holes` | loop invariants over an abstract union, counterexamples on polygons |
| C34 | `Vertex::sort` | counterexample; permutation part proved |
| C35 | `PartialEq`, `Hash`, `Ord` | counterexamples; contract under separation |
| C36 | `distribute_conflicts` | the loop equals a stable partition |
| C37 | `edges_from_triangulation` | loop invariant |
| C38 | `quality` | identity `abc = 4 A R`, over `ℝ` |
| C39 | `area_segments`, `area_triangle` | telescoping |
| C40 | `Edge::decompose` | loop invariant; divergence analysis |
| C41 | constructors | list induction |
| C42 | `Polyline::continence` | loop invariant, chains along an edge, local constancy of the winding number (C45); counterexample for the last vertex |
| C43 | `domain_evaluator::boundary` | loop invariants over abstract union and subtraction |
| C44 | `include`, `solve_conflicts` | counting form of the cavity invariant |
| C45 | `Polyline::contains` | the winding number along a segment that misses the polygon |
| C46 | `Edge::arrange` | loop invariants: partition into straight paths, maximality; a simulation from the version with the two hash maps to the version on a set of edges |
| C47 | `Polyline::union` | invariant of the outline loop; discrete Jordan curve arguments on winding numbers; counterexamples |
| C48 | `Polyline::intersection` | the same; general position for the exact statement |
| C49 | `Polyline::subtraction` | the same; counterexamples when a line lies between the polygons |
| C50 | `angle` and the comparison that sorts candidate segments | over `ℝ`, arccos; equivalence with a root-free comparison |
| C51 | `triangulate` | Delaunay mesh of the boundary vertices (C19) carved (C26): coverings of a closed mesh (C21) against the winding number of the boundary; then each insertion inside replaces the triangles that see the vertex, which is a star-shaped hole; counterexample with a segment and a vertex |
| C52 | `minified_noncolinear` | list induction; winding number and area of a polygon with collinear vertices dropped |
| C53 | `triangulator_interface::parse` | composition of C22-C24, C33, C43, C47-C49; counterexamples |
| C54 | `segment::include` | exact set of replaced triangles; counterexample beside a reflex corner |
| C55 | `triangulate`, `refine` | constrained edges through all loops of the refinement |
| C56 | `include` | invariant "what is gone was in conflict, what is new has the vertex" |
| C57 | `triangulate` | edges of the mesh stay locally Delaunay through each insertion; from local to visible vertices by walking along the line of sight |
| C58 | `insert_vertices`, `triangulate` | fuel bound from the measure of the insertion loop, every test of the loop answers on real vertices; each vertex inside is in the circumcircle of the triangle around it, so the loop starts; counterexample |
| C59 | `insert_hole`, `triangulate` | counterexamples; for a convex boundary and one hole: the mesh stays Delaunay while the vertices of the hole are inserted, coverings of the carved mesh against the difference of two winding numbers |
| C60 | `triangulate`, `refine` | invariant of the refinement loops: the mesh is a tiling of a subdivision of the boundary in which every triangle sees no vertex in its circumcircle; midpoints of sides subdivide, circumcentres are inserted inside or taken back ; witnesses for the failures with a hole or a segment |
| C61 | `runProgram` (main without the JSON encoding) | composition of the theorems about parsing, domain evaluation, triangulation, refinement and output |
| C62 | `triangulate`, `refine`, `runProgram`, panics as `Res.panic` | the invariants of C57 and C60 imply that each lookup of the code succeeds; induction over all loops, for any fuel; witnesses for the failures with segments |
| C63 | `new`, `insert_vertices`, `insert_segments`, `insert_hole`, `triangulate`, `refine` as sequences of calls (`Model/Histories.lean`) | invariant over the sessions: stored segments are pieces of accepted ones, real, off the stored vertices, meeting in ends |
| C64 | the same | induction over the sessions with the containment theorem C42 at each accepted item, carried to the pieces of segments; witnesses for later holes |
| C65 | `Session` of plain calls | the invariant of C60 is kept by each call; `refine` on an already divided boundary by the same case analysis |
| C66 | `triangulate`, `refine`, `runProgram` on convex boundaries | pending vertices stay outside the hull, so none is lost (C20 for points in convex position); then all sides appear and C51, C57, C60, C61, C62, C65 apply |
| C67 | `parseCircle` with the exact functions (`Model/Circle.lean`), `runProgram` | trigonometry; three corners in order make a left turn, then C66; for large ratios C68 |
| C68 | `refine` | no segment is encroached and no triangle is queued, so both loops end at once |
| C69 | `unencroach`, `split_irregular`, `refine` | the union of the segments is an invariant of every loop; one rejected circumcentre by C29 |
| C70 | all functions that take the tolerance | a computation is steady when small tolerances do not change it and the schedulers give finitely many results; steadiness passes through every loop |
| C71 | all functions between the public methods and the predicates | two steps: every loop commutes with a renaming of the vertices that commutes with the table of predicates; on triangles with true first corners the predicates agree with their renamed copies, by algebra; false with the tolerance of the code, with witnesses |
| C72 | `triangulate`, `insert_vertices`, `refine` | two triangles of two constrained Delaunay triangulations that overlap: the difference of the powers with respect to their circles is affine, so both circles are the same; with vertices in general position the triangles are the same; the vertices of the mesh by C15 and C58; false in general, with witnesses |
| C73 | `triangulate`, `insert_vertices`, `refine` | move every vertex by the same tiny step forwards and backwards along a direction in which no two vertices are level: each triangle holds exactly one of the moved points of its corners, and both moved points of a vertex inside the domain lie in one triangle each; so the triangles are counted by the vertices, up to the turns of the polygon, which are counted by induction along diagonals (every simple polygon has one) |
| C74 | `boundary::include`, `triangulate`, `insert_vertices`, `refine`, the program | beside the first segment the first vertex removes one ghost only, so a second vertex is tested against all new triangles; each side of a simple quadrilateral has a free circle, by the sign of the in-circle determinant for a reflex corner; then C65; a pentagon as witness that four is the limit |
| C75 | the lists for the renderer, printing | blocks of two and three in flattened lists; C37 for the edges |
| C76 | `Edge::into_hashmap`, `remove_edge` | an invariant of the fold: the maps represent the edges seen so far |
| C77 | accessors of `Triangle` and `Edge` | case analysis, identities |
| C78 | `Triangulator::refine` called twice | C68 on the result; false in general, by a concrete domain (`C78_false`) |
| C79 | the derived readers of the input structures on JSON values | each reader is equivalent to a relation that says what a document means; permutations of entries |
| C80 | `main`, the derived writer and reader of the output | reading undoes writing, field by field; the reader accepts exactly the documents described by `IsOutput`; C61 |
| C81 | `refine` with all its loops | invariant on the corners of everything the insertion, the splitting of segments, the queues and the rollback handle; no loss: the list of removed triangles, and C60 for domains with a boundary and vertices |
| C82 | all modelled calls, with their fuel | a run with more fuel extends a run with less fuel; composed over all functions of the model |
| C83 | `orientation`, `encroach`, `midpoint` with a rounding after each operation | error of each operation added up; `f64` as nearest multiple of the spacing; integers stay exact; counterexample |
| C84 | `midpoint` with the rounding of `f64` | a nearest number stays on the same side of a number of the format |
| C85 | `insert_vertices`, `Polyline::contains`, `Edge::contains`, `==` of vertices with a rounding after each operation | the answers of the orientation test decide (C83); induction over the sides, the segments and the vertices; counterexample |
| C86 | `continence` with the determinant computed by elimination with row exchanges, a rounding after each operation | backward error: the product of the diagonal is the determinant of a nearby matrix, by induction over the columns; perturbation of the determinant; integers have determinants of size at least one; counterexample |
| C87 | `include` of vertices and the boundary step of `triangulate` with the rounded tests | the insertion in a Delaunay mesh asks only about counterclockwise triangles or hull edges and about vertices that are no corners; there rounded and exact answers agree by C83 and C86; induction over the cavity, the vertices and the calls; then C19, C65, C66 and C72 apply; counterexample on a circle |
| C88 | `unencroach_segment` and the first phase of `refine` with rounded midpoints and a rounded encroachment test, any insertion | the computed middle is the nearest number of the format; unless the ends are neighbours it is at most a third of the length off the exact middle; an encroaching vertex has a coordinate strictly between the ends, so segments between neighbours are not encroached; counting of such coordinates; the rounding keeps order and sign, so no vertex encroaches both halves; counterexample for the cover |
| C89 | the boundary and the vertex step of `triangulate` with rounding, in particular `may_insert_triangle`, `Polyline::continence` and the intersection of segments. nalgebra's 2x2 `try_inverse` is taken to compute `m11 m22 - m21 m12`, to divide the entries by it, and the product to be added row by row | the middle of a side is exact on a grid, and its error is below the tolerance for small coordinates; a side judged outside ends `continence` without an answer, by induction over the segments; then no conflict is solved and the mesh stays as it is; counterexample, with C58 and C74 for the exact side |
| C90 | `refine` with rounding (`Model/RoundedRefine.lean`), the quality test a parameter | the domain test refuses every circumcentre by C89; then the search over the triangles finds no conflict, and each round takes one triangle from the lists; counterexample |
| C91 | all programs with rounding, with the identity as rounding | function by function, by induction over the loops; the determinant by elimination from the error bound of C86 with error zero |
| C92 | `orientation`, `area_triangle`, `encroach`, `continence`, `Edge::contains` and `Triangle::encircles` with the rounding of `f64` | the rounding is odd and monotone; C83 on a grid; counterexamples by computation |
| C93 | `Polyline::contains`, `insert_vertices`, and for the counterexample `triangulate` and `refine`, with the rounding of `f64` | every corner is the second end of a side, for which C92 holds; the loop stops at the first side that reports the point; counterexample on a horizontal side by computation |
| C94 | `area_segments` and `segments_orientation` with rounding | the error of each term and of each partial sum, by induction over the segments; on a grid all partial sums are integers below 2^53; counterexamples by computation |
| C95 | `intersection`, `parallel` and `split_intersections` with rounding | exchanging the segments exchanges the rows and the sign of the determinant, which the rounding respects; on integers the determinant and the right-hand sides are exact, and three roundings remain; counterexamples by computation |
| C96 | `circumcenter` with rounding | as for C95, with the entries of the inverse halved; counterexamples by computation |
| C97 | `quality`, `is_irregular_triangle` and `is_large_triangle` with rounding | the area and the squared sides are exact on the grid; the side taken for the shortest is nearly the shortest; R² (2 D)² is the product of the squared sides; two more roundings |

## 4. Properties that are false of the code

For these the manifest says `partial`: the negation is proved on a concrete witness (theorems ending in `_false`, and
`C31_wrong_indices`, `C32_panics`, `C33_merged_kept`, `C34_not_sorting`, `C35_*`), and the part that does hold is proved
for all inputs.

* C11 `Polyline::arrange` may loop, invent an edge or panic.
* C20 `include` may return without one of the requested vertices.
* C23 a zero-length segment is created when a segment ends at a stored vertex.
* C24 vertices inside an inserted hole stay; a hole may swallow another.
* C25 with several holes only the last one visited decides.
* C29 `unencroach_segment` loses vertices that encroach on the pieces.
* C30 `refine` may leave poor triangles.
* C31 coordinates and indices of the output use different hash orders.
* C32 malformed input may panic.
* C33, C53 merged holes are kept, removals and included polygons can be lost, gaps are filled.
* C34, C35 `Vertex::sort`, tolerant equality against hashing and ordering.
* C42 the last vertex of the second polygon is not examined.
* C47, C49 polygons with common sides or clockwise polygons.
* C51 a clockwise triangle after an accepted segment and vertex.
* C58 `triangulate` may drop an accepted vertex.
* C59 with a hole and a reflex corner, a hole and a vertex, or two holes, triangles reach out of the boundary or into a hole, or `triangulate` panics. One thin triangular hole in a square is enough for a panic (`C59_thin_false`) or a triangulation that never ends (`C59_endless_false`, proved for every number of steps).
* C54 part of the domain is lost when a segment passes a reflex corner.

Some properties fail only because of rounding. There the statement names the failing inputs, and the manifest says `proved`:

* C83, C85 the orientation test and `insert_vertices` are wrong for integers near 4e8.
* C86, C87 points on a circle; overlapping triangles.
* C88 the pieces of a split segment need not cover it.
* C89, C90 `triangulate` drops inner vertices, and `refine` does nothing, when the computed middle of a boundary side is judged outside.
* C92 the orientation test depends on the first point, an edge need not contain its first end, a triangle can encircle its own corner.
* C93 a vertex on a horizontal side is accepted, a flat triangle is made of it, and `refine` panics.
* C94 a thin triangle is reported in the wrong orientation, or the code panics on it.
* C95 crossing segments, or segments with a common end, for which no intersection is found.
* C96 a triangle without circumcentre, three points on a line with one.
* C97 a very flat triangle that counts as regular.
