{"id": "C01", "title": "Orientation predicate is exact, antisymmetric and cyclic", "statement": "orientation(a,b,c) answers Counterclockwise exactly when twice the signed area of abc exceeds the tolerance, Clockwise exactly when it is below minus the tolerance and Colinear otherwise; rotating the three arguments never changes the answer and swapping two of them exchanges Clockwise and Counterclockwise.", "quantifier": "all triples of points, every non-negative tolerance", "why_tests_cant": "The plane is infinite; tests sample a handful of triples, while every other routine relies on the symmetries for arbitrary triples.", "anchors": ["src/properties/orientation.rs:orientation"]}
{"id": "C02", "title": "In-circle predicate agrees with the circumscribed circle", "statement": "For three points in counterclockwise order, continence(a,b,c,d) is Inside only if d is strictly closer to the circumcentre than a,b,c are, Outside only if it is strictly farther; with zero tolerance the three answers are equivalent to closer / farther / equidistant.", "quantifier": "all counterclockwise triples and all query points", "why_tests_cant": "A determinant sign error or wrong row only shows on particular configurations; agreement must hold for every quadruple.", "anchors": ["src/properties/continence.rs:continence", "src/properties/circumcenter.rs:circumcenter"]}
{"id": "C03", "title": "Circumcentre exists exactly for non-collinear points and is the unique equidistant point", "statement": "circumcenter(a,b,c) is None exactly when the points are collinear; otherwise it returns the one and only point at the same distance from all three.", "quantifier": "all triples of points", "why_tests_cant": "Existence, equidistance and uniqueness are statements about all triples.", "anchors": ["src/properties/circumcenter.rs:circumcenter"]}
{"id": "C04", "title": "Encroachment means lying in the diametral circle", "statement": "encroach(a,b,p) is Inside only if p is strictly inside the circle having ab as diameter, Outside only if strictly outside; with zero tolerance Boundary means exactly on it.", "quantifier": "all segments (including degenerate ones) and all points", "why_tests_cant": "Universal over points and segments.", "anchors": ["src/properties/encroachment.rs:encroach", "src/elements/edge.rs:Edge::encroach"]}
{"id": "C05", "title": "Bounding boxes are least boxes and form an exact lattice", "statement": "from_vertices returns None exactly for the empty list and otherwise the smallest axis-parallel box containing all the points; intersection is None exactly when the boxes share no point and otherwise contains exactly the shared points; union is the least box above both.", "quantifier": "all finite point lists, all pairs of boxes, all query points", "why_tests_cant": "Minimality is a statement about all competing boxes.", "anchors": ["src/elements/bounding_box.rs:BoundingBox"]}
{"id": "C06", "title": "Segment intersection is sound and complete", "statement": "If intersection_vertex(a,b,c,d) returns a point, the point is on both supporting lines and (up to the tolerance) within both segments; if it returns None for exact arithmetic the two closed segments share no point.", "quantifier": "all pairs of segments including parallel, overlapping and degenerate ones", "why_tests_cant": "Soundness and completeness range over all pairs of segments; the parallel branch has several special cases.", "anchors": ["src/properties/intersection.rs:intersection_vertex", "src/properties/intersection.rs:intersection_region", "src/properties/parallel.rs:parallel"]}
{"id": "C07", "title": "Edge containment is membership in the closed segment", "statement": "Edge::contains(p) holds exactly when p lies on the closed segment (with zero tolerance), and always holds for both endpoints.", "quantifier": "all segments, all points", "why_tests_cant": "Universal over points.", "anchors": ["src/elements/edge.rs:Edge::contains"]}
{"id": "C08", "title": "Point-in-polygon implements the winding rule", "statement": "For every closed polyline and every point: contains answers Boundary exactly when the point is within tolerance of a segment that spans its abscissa, and otherwise Inside exactly when the winding number of the polyline around the point is non-zero; for opened polylines it answers None.", "quantifier": "all closed polylines (convex or not, self-crossing, either direction, repeated vertices) and all points, including points level with vertices", "why_tests_cant": "The half-weights used for points vertically aligned with vertices have unboundedly many configurations.", "anchors": ["src/elements/polyline.rs:Polyline::contains"]}
{"id": "C09", "title": "Point-in-polygon does not depend on where the polygon starts or which way it runs", "statement": "Rotating the vertex list of a closed polyline or reversing it never changes the answer of contains.", "quantifier": "all closed polylines, all rotations, reversal, all points", "why_tests_cant": "Unbounded polygons and points.", "anchors": ["src/elements/polyline.rs:Polyline::contains", "src/elements/polyline.rs:Polyline::vertex_pairs"]}
{"id": "C10", "title": "Hull of a triangle set is its exact boundary, in any hashing order", "statement": "The edges collected from a set of triangles to form its hull are exactly the triangle edges whose reverse is not an edge of the set, whatever order the hash set is iterated in.", "quantifier": "all finite triangle sets and all iteration orders", "why_tests_cant": "Iteration order of hash sets is randomised per process; a test sees one order.", "anchors": ["src/elements/polyline.rs:Polyline::triangles_hull"]}
{"id": "C11", "title": "Arranging edges into a polyline terminates and uses exactly the given edges", "statement": "Polyline::arrange(edges) always returns; when it returns a polyline, the polyline's edges are exactly the given edges and form one closed chain, and it returns None only if no such closed chain exists.", "quantifier": "all finite sets of directed edges and all iteration orders", "why_tests_cant": "Non-termination depends on the shape of the edge graph and on which key is visited first.", "anchors": ["src/elements/polyline.rs:Polyline::arrange"]}
{"id": "C12", "title": "Splitting at intersections removes all crossings and adds no geometry", "statement": "In the result of splitting a list of segments at their mutual intersections no two non-parallel segments meet except at a shared endpoint, and every point of every resulting segment belongs to an input segment and conversely (exact arithmetic).", "quantifier": "all finite lists of segments", "why_tests_cant": "Unbounded lists and arrangements; the worklist revisits pieces in data-dependent order.", "anchors": ["src/elements/polyline.rs:Polyline::split_intersections"]}
{"id": "C13", "title": "Mesh adjacency stays consistent over every edit history", "statement": "After any sequence of include_triangle / remove_triangle, every adjacency entry refers to a triangle that is in the mesh and has that directed edge; as long as at no moment of the history two mesh triangles shared a directed edge, every directed edge of every triangle is also present in the adjacency; include/remove report whether the set of triangles changed.", "quantifier": "all finite edit histories on all meshes", "why_tests_cant": "Histories are unbounded, and overwrites only happen for particular interleavings.", "anchors": ["src/planar/triangulation.rs:Triangulation::include_triangle", "src/planar/triangulation.rs:Triangulation::remove_triangle"]}
{"id": "C14", "title": "Vertex insertion keeps the mesh watertight whatever the predicates answer", "statement": "Inserting a new vertex in a closed mesh (each directed edge used as often as its reverse, ghosts included) leaves the mesh closed: no crack or T-junction appears, whatever the floating point predicates answered. The same holds for a whole list of vertices and any processing order, provided no directed edge is used twice at the moment a vertex is inserted.", "quantifier": "all closed meshes, all vertices, all predicate outcomes, all hash iteration orders", "why_tests_cant": "Requires all predicate outcome combinations and all schedules.", "anchors": ["src/planar/triangulation_procedures/vertices.rs:include", "src/planar/triangulation_procedures/vertices.rs:solve_conflicts"]}
{"id": "C15", "title": "Vertex insertion never loses a vertex and never invents one", "statement": "After insertion every vertex that was in the mesh is still in it, and every vertex of the mesh was either there before or was requested.", "quantifier": "all meshes, all vertex lists, all predicate outcomes and schedules", "why_tests_cant": "Loss only occurs for particular cavity shapes.", "anchors": ["src/planar/triangulation_procedures/vertices.rs:solve_conflicts"]}
{"id": "C16", "title": "Vertex insertion preserves the total area of the domain", "statement": "An insertion that retriangulates only solid triangles leaves the sum of the signed areas of the solid triangles unchanged; in general the sum equals the area enclosed by the ghost boundary.", "quantifier": "all closed meshes, all vertices, all cavity shapes", "why_tests_cant": "Area must be conserved for every cavity, tests check a few.", "anchors": ["src/planar/triangulation_procedures/vertices.rs:solve_conflicts", "src/elements/triangle.rs:Triangle::area"]}
{"id": "C17", "title": "Constrained edges survive vertex insertion", "statement": "Constrained segments survive vertex insertion: an edge of the mesh that runs along a constrained segment is still an edge of the mesh afterwards, with as many triangles on each of its sides as before (the cavity is never extended across a constrained segment).", "quantifier": "all meshes, constraint sets, vertices and schedules", "why_tests_cant": "All schedules and cavities.", "anchors": ["src/planar/triangulation_procedures/vertices.rs:solve_conflicts"]}
{"id": "C18", "title": "Vertex insertion terminates", "statement": "For every closed mesh and every finite list of new vertices, the insertion loop finishes, within a number of iterations linear in the number of triangles and vertices, provided no directed edge is used twice at the moment a vertex is inserted.", "quantifier": "all meshes, vertex lists, predicate outcomes and schedules", "why_tests_cant": "Termination over all inputs cannot be tested.", "anchors": ["src/planar/triangulation_procedures/vertices.rs:solve_conflicts"]}
{"id": "C19", "title": "Unconstrained insertion yields a Delaunay triangulation", "statement": "In exact arithmetic, without boundary, holes and segments, inserting vertices in a Delaunay mesh never panics and yields a mesh in which every triangle is counterclockwise, no vertex is strictly inside the circumcircle of any triangle, every directed edge has exactly one triangle on its left and the hull is convex.", "quantifier": "all finite point sets, all insertion orders and hash iteration orders", "why_tests_cant": "The empty-circle property quantifies over all triangles, vertices and schedules.", "anchors": ["src/planar/triangulation_procedures/vertices.rs:include", "src/planar/triangulation_procedures/boundary.rs:include"]}
{"id": "C20", "title": "Every requested vertex ends up in the mesh", "statement": "In exact arithmetic, after unconstrained insertion every requested vertex is a vertex of the mesh.", "quantifier": "all finite point sets not collinear with the starting segment, all schedules", "why_tests_cant": "A vertex parked in the wrong bucket is silently dropped only for particular schedules.", "anchors": ["src/planar/triangulation_procedures/vertices.rs:solve_conflicts", "src/planar/triangulation_procedures/vertices.rs:distribute_conflicts"]}
{"id": "C21", "title": "The triangles tile the domain", "statement": "In a closed mesh whose solid triangles are all counterclockwise, every point not on an edge is strictly inside exactly as many triangles as the winding number of the outline of the mesh (the ghost boundary) around it. In a Delaunay mesh that number is one for the points within the convex hull and zero for the others, and no point is inside two triangles.", "quantifier": "all closed meshes and all points of the plane", "why_tests_cant": "Covering every point of the plane exactly once is not sampleable.", "anchors": ["src/planar/triangulation.rs:Triangulation", "src/elements/triangle.rs:Triangle"]}
{"id": "C22", "title": "insert_vertices is all or nothing and rejects exactly the invalid vertices", "statement": "insert_vertices returns Err with exactly the given vertices that are not strictly inside the boundary or not strictly outside some hole, and then the triangulator is unchanged; otherwise Ok and each given vertex is afterwards a free vertex or an endpoint of a segment; the boundary and the holes never change.", "quantifier": "all triangulator states, all vertex sets, all iteration orders", "why_tests_cant": "All states and iteration orders.", "anchors": ["src/planar/triangulator.rs:Triangulator::insert_vertices"]}
{"id": "C23", "title": "insert_segments is all or nothing and never creates zero-length segments", "statement": "insert_segments returns Err with exactly the given segments that are not inside the boundary and outside all holes, and then the triangulator is unchanged; on Ok no stored segment joins a vertex to itself unless one was given.", "quantifier": "all triangulator states, all segment sets, all iteration orders", "why_tests_cant": "Depends on vertices inserted earlier and on iteration order.", "anchors": ["src/planar/triangulator.rs:Triangulator::insert_segments"]}
{"id": "C24", "title": "insert_hole is all or nothing and removes the features inside the hole", "statement": "insert_hole returns Err only if the hole does not lie inside the boundary and outside other holes, and then the triangulator is unchanged; on Ok the hole is stored and no stored vertex or segment lies inside it (documented behaviour).", "quantifier": "all triangulator states and holes", "why_tests_cant": "All histories.", "anchors": ["src/planar/triangulator.rs:Triangulator::insert_hole"]}
{"id": "C25", "title": "A new triangle is admitted only if it avoids every hole", "statement": "may_insert_triangle admits a triangle only if it is inside the boundary and outside each one of the holes, independently of the order in which holes are visited.", "quantifier": "all triangles, boundaries, hole sets and iteration orders", "why_tests_cant": "Order of a hash set is randomised.", "anchors": ["src/planar/triangulation_procedures/vertices.rs:may_insert_triangle"]}
{"id": "C26", "title": "Carving the boundary keeps the mesh closed", "statement": "Carving the exterior removes exactly the triangles that can be reached from the outer sides of the boundary edges without crossing the boundary, and puts a ghost triangle on the outer side of every boundary edge. If every boundary edge still has its inner triangle the mesh is closed again (and only then, unless the boundary runs back along itself), and if no old ghost is left its total solid area is the area of the boundary polygon. Carving always terminates.", "quantifier": "all closed meshes, all boundary polygons, all iteration orders", "why_tests_cant": "The flood fill visits unboundedly many triangles in data-dependent order.", "anchors": ["src/planar/triangulation_procedures/boundary.rs:include"]}
{"id": "C27", "title": "Carving a hole keeps the mesh closed", "statement": "Carving a hole whose edges separate its inside from the rest of the mesh removes exactly the triangles reachable from the inner sides of the hole edges without crossing them, nothing else, and puts a ghost triangle on the inner side of every hole edge; if every hole edge has a triangle on its outer side the mesh is closed again. Carving always terminates. (The orientation of the hole matters: given clockwise, the same hole empties the mesh.)", "quantifier": "all closed meshes, hole polygons, iteration orders", "why_tests_cant": "Same as for the boundary.", "anchors": ["src/planar/triangulation_procedures/hole.rs:include"]}
{"id": "C28", "title": "A circumcentre insertion is rejected exactly when it encroaches, and then leaves the mesh unchanged", "statement": "When inserting a circumcentre is rejected, it encroaches on every reported segment, each reported segment is constrained in one of its two directions, there is at least one, and the triangles and adjacency of the mesh are exactly what they were before. When it is inserted, no triangle at the new vertex has an opposite side that is constrained, in either direction, and encroached by it.", "quantifier": "all closed meshes, circumcentres, constraint sets, predicate outcomes", "why_tests_cant": "Rollback must be exact for every cavity shape.", "anchors": ["src/planar/refine_procedures/triangle_split.rs:try_circumcenter_insertion"]}
{"id": "C29", "title": "Segment splitting tiles the segment and removes encroachment", "statement": "Splitting an encroached segment returns subsegments that together cover exactly the original segment, each obtained by repeated bisection, and none of them is encroached by any of the vertices given as encroaching.", "quantifier": "all segments and vertex sets, all iteration orders", "why_tests_cant": "Depends on which vertices encroach which halves, unbounded depth.", "anchors": ["src/planar/refine_procedures/encroachment.rs:unencroach_segment"]}
{"id": "C30", "title": "Refinement leaves no poor triangle", "statement": "When refine returns, every solid triangle of the mesh has a circumradius-to-shortest-edge ratio below the requested bound and area below the requested maximum.", "quantifier": "all meshes, parameters and schedules for which refine returns", "why_tests_cant": "Postcondition over all runs.", "anchors": ["src/planar/triangulator.rs:Triangulator::refine", "src/planar/refine_procedures/triangle_split.rs:split_irregular"]}
{"id": "C31", "title": "Written output indices refer to the right coordinates", "statement": "In the output file, looking up the three indices of each triangle in the coordinate list gives the three corners of that triangle.", "quantifier": "all meshes and all hash iteration orders", "why_tests_cant": "Two independently seeded hash containers are iterated; a test run sees one pair of orders.", "anchors": ["src/json_serializar/models/output.rs:from_triangulator"]}
{"id": "C32", "title": "Parsing input never panics and reports every malformed action", "statement": "Interpreting an input file returns an error, not a panic, for every malformed action (unknown geometry or intent, too few points, index out of range) and otherwise yields exactly the described polygons, vertices and segments.", "quantifier": "all input files", "why_tests_cant": "All inputs.", "anchors": ["src/triangulator_interface/mod.rs:parse", "src/triangulator_interface/interpreter/mod.rs:parse"]}
{"id": "C33", "title": "Overlapping hole polygons are merged into disjoint ones", "statement": "When the removed polygons of the input that lie within the boundary are combined into holes, every one of them is represented among the holes by itself or by the polygon it was merged into, none of the merged polygons remains, and removals that do not overlap stay as they are.", "quantifier": "all boundaries, all lists of removed polygons, all iteration orders", "why_tests_cant": "Order dependent, any number of polygons.", "anchors": ["src/triangulator_interface/domain_evaluator.rs:holes", "src/elements/polyline.rs:Polyline::union"]}
{"id": "C34", "title": "Vertex::sort sorts", "statement": "Vertex::sort leaves the same vertices in lexicographic (x, then y) order.", "quantifier": "all vertex lists", "why_tests_cant": "All lists.", "anchors": ["src/elements/vertex.rs:Vertex::sort"]}
{"id": "C35", "title": "Equality, ordering and hashing of elements agree", "statement": "Equal vertices / edges / triangles hash alike and equality is an equivalence relation, so that the hash sets used everywhere never hold two equal elements and always find an equal element.", "quantifier": "all pairs and triples of elements", "why_tests_cant": "Contracts quantify over all values.", "anchors": ["src/elements/vertex.rs:PartialEq,Hash,Ord", "src/elements/edge.rs:PartialEq", "src/elements/triangle.rs:PartialEq,Hash"]}
{"id": "C36", "title": "Conflict bookkeeping loses no pending vertex", "statement": "Distributing pending vertices among triangles puts each pending vertex in at most one bucket, keeps the others pending in their order, and a vertex is put in the bucket of a triangle only if it is strictly inside the circumcircle and may be inserted there.", "quantifier": "all vertex lists and triangles, all predicate outcomes", "why_tests_cant": "Loop rotates a queue in place; off-by-one errors show for particular lengths only.", "anchors": ["src/planar/triangulation_procedures/vertices.rs:distribute_conflicts", "src/planar/triangulation_procedures/vertices.rs:distribute_conflicts_over_triangulation"]}
{"id": "C37", "title": "Each mesh edge is drawn exactly once", "statement": "The edge list sent to the renderer contains exactly one orientation of each solid mesh edge.", "quantifier": "all meshes, iteration orders", "why_tests_cant": "Order dependent de-duplication.", "anchors": ["src/glium_interface/vertex.rs:edges_from_triangulation"]}
{"id": "C38", "title": "Triangle quality is circumradius over shortest side", "statement": "For a counterclockwise triangle, quality() is the circumradius divided by the length of the shortest side, is at least 1/sqrt 3, and does not depend on the order of the vertices; it is None exactly for ghost triangles.", "quantifier": "all non-degenerate triangles", "why_tests_cant": "Universal identity over real numbers.", "anchors": ["src/elements/triangle.rs:Triangle::quality", "src/elements/triangle.rs:Triangle::area"]}
{"id": "C39", "title": "Polygon area is the shoelace area", "statement": "The area computed from the segments of a closed polygon is minus its signed (shoelace) area, does not change under rotation of the vertex list or translation, changes sign under reversal, and adds up over any triangle fan; a triangle's area is half the cross product of two sides.", "quantifier": "all closed polygons", "why_tests_cant": "Unbounded number of vertices.", "anchors": ["src/properties/area.rs:area_segments", "src/properties/area.rs:area_triangle"]}
{"id": "C40", "title": "Decomposing a segment returns a chain of existing edges", "statement": "Edge::decompose(edges, e) terminates; when it returns a list, the list is a chain of given edges from e.v1 to e.v2.", "quantifier": "all edge sets and segments, all iteration orders", "why_tests_cant": "Order dependent search.", "anchors": ["src/elements/edge.rs:Edge::decompose"]}
{"id": "C41", "title": "Building edges and polylines round-trips", "statement": "The edges of a polyline built from n vertices are the n cyclically (opened: n-1) consecutive pairs; converting pairs to edges and back is the identity; too short lists are refused.", "quantifier": "all vertex lists", "why_tests_cant": "All lengths.", "anchors": ["src/elements/polyline.rs:Polyline::vertex_pairs", "src/elements/edge.rs:Edge::from_vertices", "src/elements/polyline.rs:Polyline::new_closed"]}
{"id": "C42", "title": "Polygon-in-polygon test is sound", "statement": "If continence(p1,p2) reports Inside, every vertex and every edge midpoint of p2 is inside or on p1 (strictly inside for the open variant) and no edge crosses p1 properly; similarly for Outside.", "quantifier": "all pairs of polylines", "why_tests_cant": "Universal over polylines.", "anchors": ["src/elements/polyline.rs:Polyline::continence"]}
{"id": "C43", "title": "Evaluating the boundary uses every included polygon", "statement": "domain_evaluator::boundary succeeds only if all included polygons have been united, one after the other, into one polygon; every removal, in order, has then either been subtracted leaving a single polygon or is returned as unused; it fails only if nothing is included, if a maximal chain of unions misses some included polygon, or if a removal splits the domain.", "quantifier": "all lists of polygons, all iteration orders, all outcomes of polygon union and subtraction", "why_tests_cant": "Depends on hash iteration order and unbounded lists.", "anchors": ["src/triangulator_interface/domain_evaluator.rs:boundary"]}
{"id": "C44", "title": "Each inserted vertex adds exactly two triangles", "statement": "After an insertion the number of triangles, ghosts included, has grown by exactly two for each vertex inserted.", "quantifier": "all meshes, vertex lists, predicate outcomes and schedules", "why_tests_cant": "The count must hold for every cavity shape and every answer of the predicates.", "anchors": ["src/planar/triangulation_procedures/vertices.rs: include, solve_conflicts"]}
{"id": "C45", "title": "The point-in-polygon answer only changes across the polygon", "statement": "Moving a point along a segment that does not meet the closed polygon never changes whether the polygon is said to contain it; so two points with different answers are separated by the polygon; and a point further right, left, above or below than every vertex is outside.", "quantifier": "all closed polygons (including self-intersecting ones) and all pairs of points", "why_tests_cant": "Universal over polygons and over a continuum of points.", "anchors": ["src/elements/polyline.rs:Polyline::contains"]}
{"id": "C46", "title": "Concatenating colinear edges loses nothing", "statement": "Edge::arrange(edges) always returns; the given edges are distributed, each one exactly once, over straight paths that lead from the first to the second vertex of a returned edge; the returned edges cover exactly the same points as the given ones, and no two of them could be concatenated further.", "quantifier": "all finite sets of directed edges, all iteration orders", "why_tests_cant": "The order in which edges are extended is random and sets are unbounded.", "anchors": ["src/elements/edge.rs:Edge::arrange"]}
{"id": "C47", "title": "The union of two polygons follows their outer outlines", "statement": "Polyline::union of two closed polygons always returns (it may panic only when the pieces contain a closed chain of zero area, which takes a clockwise polygon). Opened polylines and polygons whose bounding boxes are apart have none. A union that is returned is a counterclockwise polygon made of pieces of the sides of the two polygons, in their direction and none twice, each lying on one polygon and outside the other; the segments returned with it are exactly the remaining pieces; it encloses nothing the two polygons do not enclose. If the pieces outside the other polygon form circuits of positive total area, a union is returned.", "quantifier": "all pairs of polygons, all iteration orders of the hash sets", "why_tests_cant": "Universal over pairs of polygons and over the random iteration order that decides where the outline starts.", "anchors": ["src/elements/polyline.rs:Polyline::union", "src/properties/angle.rs:angle"]}
{"id": "C48", "title": "Intersection of polygons returns exactly the region common to both", "statement": "The intersection of two simple counterclockwise polygons of which neither has a vertex on the other returns simple counterclockwise polygons, pairwise without a common point, and a point is inside one of them exactly when it is inside both given polygons. For any two polygons, if it returns, every returned polygon is closed, no side occurs twice and every side is part of the common region. When the polygons overlap, every piece of their sides is either a side of a returned polygon or in the returned set of segments, never both. Opened polylines and polygons with disjoint bounding boxes have no intersection. Polygons that touch in other ways may keep it from ever returning.", "quantifier": "all pairs of polygons, all points of the plane, all orders in which hash sets are iterated", "why_tests_cant": "The result is assembled from pieces cut at all crossings and chained in hash order; tests fix a few shapes and one order, while the claim ranges over every pair of polygons and every point of the plane.", "anchors": ["src/elements/polyline.rs: Polyline::intersection", "src/elements/polyline.rs: Polyline::contains", "src/properties/angle.rs: angle"]}
{"id": "C49", "title": "Subtraction of polygons returns exactly the part of the first outside the second", "statement": "The polygons returned by the subtraction of a polygon from another one enclose exactly the points that are inside the first and outside the second, when both are simple and counterclockwise. Every piece of their sides is either a side of a returned polygon or in the returned set of segments.", "quantifier": "all pairs of polygons, all points of the plane, all orders in which hash sets are iterated", "why_tests_cant": "The result is assembled from pieces cut at all crossings and chained in hash order; tests fix a few shapes and one order, while the claim ranges over every pair of polygons and every point of the plane.", "anchors": ["src/elements/polyline.rs: Polyline::subtraction", "src/elements/polyline.rs: Polyline::continence", "src/elements/polyline.rs: Polyline::contains"]}
{"id": "C50", "title": "Angles are counterclockwise turns between zero and a full turn", "statement": "angle(a, b, c), for a and c different from b, is the only number in [0, 2π) such that turning the direction from b to c counterclockwise by it gives the direction from b to a. Where several segments continue an outline, intersection and subtraction go on with one of smallest angle and union with one of largest angle, whatever the order of the hash sets.", "quantifier": "all triples of points, all sets of candidate segments in all orders", "why_tests_cant": "A trigonometric identity over all directions, including the case split at straight and full turns; tests check three right and half-right angles.", "anchors": ["src/properties/angle.rs: angle", "src/elements/polyline.rs: Polyline::intersection", "src/elements/polyline.rs: Polyline::union", "src/elements/polyline.rs: Polyline::subtraction"]}
{"id": "C51", "title": "A triangulation is a partition of the domain", "statement": "When `triangulate` finishes, the triangles of the mesh without ghost vertices are counterclockwise, do not overlap, stay inside the boundary polygon and cover it, and the ghost triangles are exactly those over the sides of the boundary.", "quantifier": "all boundaries, segments and vertices that were accepted, all orders in which hash sets are iterated, all points of the plane", "why_tests_cant": "The partition is a statement about every point of the plane for every domain; tests compare a few triangulations with expected sets of triangles for one iteration order.", "anchors": ["src/planar/triangulator.rs: Triangulator::triangulate", "src/planar/triangulation_procedures/boundary.rs: include", "src/planar/triangulation_procedures/vertices.rs: include"]}
{"id": "C52", "title": "Minifying an outline keeps its corners and its region", "statement": "`minified_noncolinear` of a closed polyline returns the closed polyline of exactly those vertices, in order, that are not collinear with the vertices before and after; it fails only if fewer than three remain, which no simple polygon does; and the result runs around every point of the plane as often as the original and has the same area, if no two consecutive vertices coincide.", "quantifier": "all closed polylines, all points of the plane", "why_tests_cant": "All outlines, with any number of collinear vertices in a row and across the start of the list, and all points of the plane.", "anchors": ["src/elements/polyline.rs: Polyline::minified_noncolinear"]}
{"id": "C53", "title": "The domain that is triangulated is the union of the included polygons without the removed ones", "statement": "When an input is accepted, the points strictly inside the boundary and strictly outside the holes of the triangulator are exactly the points inside an included polygon and outside the removed ones (up to points on the given polygons); the given vertices are in it and are stored, the holes are inside the boundary and apart from one another, and the given segments are inside the domain. An input is refused only if the domain is not connected or a vertex, segment or hole is not admissible.", "quantifier": "all inputs, all points of the plane, all iteration orders", "why_tests_cant": "All polygons and all points of the plane; the result depends on hash iteration order.", "anchors": ["src/triangulator_interface/mod.rs:parse", "src/triangulator_interface/domain_evaluator.rs:boundary", "src/triangulator_interface/domain_evaluator.rs:holes", "src/main.rs:main"]}
{"id": "C54", "title": "Including a segment only re-triangulates the part of the domain it concerns, and makes it an edge", "statement": "When `triangulate` includes a segment of the domain, exactly the solid triangles that the segment concerns (an end of it in or on the circumcircle, or the segment meeting the triangle) and that no constrained side separates from an end of the segment are replaced; all other triangles stay; the new triangles use only corners of replaced triangles and the ends of the segment; afterwards the segment is an edge of the mesh and the new triangles cover the same region as the replaced ones.", "quantifier": "all meshes, all sets of constrained edges, all segments, all hash iteration orders", "why_tests_cant": "The set of replaced triangles depends on geometry and on the constraints; a lost region appears only for certain positions of the segment relative to a reflex corner.", "anchors": ["src/planar/triangulation_procedures/segment.rs: include", "src/planar/triangulator.rs: Triangulator::triangulate"]}
{"id": "C55", "title": "Constrained edges survive the insertion of vertices and the refinement", "statement": "A side of the boundary or of a hole, or a segment, that is an edge of the mesh remains an edge of the mesh when `triangulate` inserts the free vertices, and when `refine` is called unless a vertex of the mesh or an attempted circumcentre is strictly inside its diametral circle; a constrained segment that `refine` splits is replaced by its pieces as constraints.", "quantifier": "all triangulators with boundary, holes, segments and vertices, all refinement parameters, all hash iteration orders", "why_tests_cant": "Whether an edge is respected depends on every later insertion, over an unbounded number of steps and any order of the hash tables.", "anchors": ["src/planar/triangulator.rs: Triangulator::triangulate, Triangulator::refine", "src/planar/triangulation_procedures/vertices.rs: include, solve_conflicts", "src/planar/refine_procedures/encroachment.rs", "src/planar/refine_procedures/triangle_split.rs"]}
{"id": "C56", "title": "Triangles only disappear because of an inserted vertex", "statement": "A triangle disappears during an insertion of vertices only if one of the requested vertices is in its circumcircle (or on the edge of a ghost triangle) and may be connected with it according to the boundary and the holes; every triangle that appears has a requested vertex, that was not a vertex of the mesh, as a corner.", "quantifier": "all meshes, vertex sets, constraint sets, predicates and hash iteration orders", "why_tests_cant": "The insertion runs through an unbounded number of cavities whose order depends on hash tables.", "anchors": ["src/planar/triangulation_procedures/vertices.rs: include, solve_conflicts, distribute_conflicts"]}
{"id": "C57", "title": "The triangulation of a domain is constrained Delaunay", "statement": "When `triangulate` finishes, no vertex of the mesh is strictly inside the circumcircle of a triangle, if it can be seen from the inside of the triangle without leaving the domain.", "quantifier": "all boundaries and vertices that were accepted, all orders in which hash sets are iterated, all triangles, vertices and points of view", "why_tests_cant": "Visibility is a statement about all points of a segment, for every domain and every order of insertion.", "anchors": ["src/planar/triangulator.rs: Triangulator::triangulate", "src/planar/triangulation_procedures/vertices.rs: include, solve_conflicts, may_insert_triangle", "src/planar/triangulation_procedures/boundary.rs: include"]}
{"id": "C58", "title": "Every accepted vertex is in the triangulation", "statement": "Each vertex that `insert_vertices` accepted is a vertex of the mesh when `triangulate` returns, and `triangulate` returns.", "quantifier": "all boundaries, all sets of vertices that were accepted, all orders in which hash sets are iterated", "why_tests_cant": "Whether a vertex is dropped depends on the iteration order of hash tables and on all earlier insertions.", "anchors": ["src/planar/triangulator.rs: Triangulator::insert_vertices, Triangulator::triangulate", "src/planar/triangulation_procedures/vertices.rs: include, solve_conflicts, distribute_conflicts"]}
{"id": "C59", "title": "The triangulation of a domain with holes fills the boundary and leaves the holes empty", "statement": "With accepted holes (simple counterclockwise polygons) and possibly accepted vertices, `triangulate` returns, and the triangles that are exported are counterclockwise, do not overlap, cover each point that is inside the boundary and outside all holes, and reach neither out of the boundary nor into a hole; the border of the mesh is made of the sides of the boundary and of the holes.", "quantifier": "all simple counterclockwise boundaries, all accepted holes and vertices, all orders in which hash sets are iterated", "why_tests_cant": "Hole vertices are inserted without looking at the boundary, and later insertions without looking at all holes; whether this does damage depends on the positions of all vertices and on the iteration order of hash tables.", "anchors": ["src/planar/triangulator.rs: Triangulator::insert_hole, Triangulator::triangulate", "src/planar/triangulation_procedures/hole.rs: include", "src/planar/triangulation_procedures/vertices.rs: include"]}
{"id": "C60", "title": "Refining keeps the partition of the domain", "statement": "If `refine` returns after `triangulate`, the triangles that are exported are still counterclockwise, do not overlap, stay inside the domain and cover all of it; the border of the refined mesh is the boundary of the domain, its sides possibly divided by vertices that lie on them; and no vertex that can be seen from inside a triangle lies in its circumcircle.", "quantifier": "all domains, all quality parameters, all orders in which hash sets are iterated, all numbers of splits, insertions and rollbacks the refinement performs", "why_tests_cant": "Refinement inserts points that depend on the geometry of earlier insertions, also on the sides of the domain, and takes insertions back; the partition must survive every sequence of these steps.", "anchors": ["src/planar/triangulator.rs: Triangulator::refine", "src/planar/refine_procedures/encroachment.rs: unencroach, unencroach_segment, split_segment", "src/planar/refine_procedures/triangle_split.rs: split_irregular"]}
{"id": "C61", "title": "The written file describes the refined triangulation of the described domain", "statement": "Whenever the program writes an output, no action of the input was malformed, and the output lists every vertex once and every triangle of the mesh obtained by triangulating the domain the actions describe and refining it with the parameters of the input. For an input with one included polygon and free vertices, the listed triangles are counterclockwise, do not overlap, stay inside the polygon, cover it, and are constrained Delaunay.", "quantifier": "all input files (any number and order of actions), all parameters, all orders in which hash containers are iterated in all stages of the program", "why_tests_cant": "It relates the whole pipeline from parsing to writing for unbounded inputs; the composition of parser, domain evaluation, triangulation, refinement and writing has infinitely many executions.", "anchors": ["src/main.rs: main", "src/triangulator_interface/mod.rs: parse", "src/json_serializar/models/output.rs: TriangulationOutput::from_triangulator"]}
{"id": "C62", "title": "Triangulating and refining an accepted domain does not panic", "statement": "Once the boundary, holes, segments and vertices of a domain were accepted, `triangulate` and, after it, `refine` do not panic, whatever the parameters; and the program does not panic on an input its parser accepts.", "quantifier": "all accepted domains, all quality parameters, all orders in which hash sets are iterated, all numbers of insertions, splits and rollbacks", "why_tests_cant": "The code unwraps results of lookups in the mesh after every insertion; whether they succeed depends on the whole history of insertions, and the panics that do happen depend on the order of the hash tables.", "anchors": ["src/planar/triangulator.rs: Triangulator::triangulate, Triangulator::refine", "src/planar/triangulation_procedures/vertices.rs: include, solve_conflicts", "src/planar/refine_procedures/encroachment.rs: unencroach", "src/planar/refine_procedures/triangle_split.rs: split_irregular", "src/main.rs: main"]}
{"id": "C63", "title": "Nothing that was accepted is lost, whatever is called afterwards", "statement": "After any sequence of calls of insert_vertices, insert_segments, insert_hole, triangulate and refine on a Triangulator, accepted or refused: the boundary is the one given to new; the holes are exactly the accepted ones; every accepted vertex is a stored vertex or an end of a stored segment, and no vertex is stored that was not accepted; a point is on a stored segment exactly when it is on an accepted one, and every end of an accepted segment is an end of a stored one; no stored vertex lies on a stored segment, and stored segments that are not parallel meet in common ends only.", "quantifier": "all finite sequences of calls with all arguments, all iteration orders of the hash tables in each call", "why_tests_cant": "Each call rewrites the stored segments and vertices; losing one of them needs a particular earlier sequence of calls and a particular order of a hash table.", "anchors": ["src/planar/triangulator.rs: Triangulator::new, insert_vertices, insert_segments, insert_hole, triangulate, refine", "src/elements/polyline.rs: intersections splitting"]}
{"id": "C64", "title": "Everything stored lies in the domain after any sequence of calls", "statement": "After any sequence of calls on a Triangulator whose boundary and holes are not folded back on themselves: every accepted vertex is strictly inside the boundary and strictly outside every hole; every point of a stored segment is inside or on the boundary and outside or on every hole; every side of a hole is inside or on the boundary and outside or on every other hole.", "quantifier": "all finite sequences of calls, all boundaries, holes, segments and vertices, all iteration orders", "why_tests_cant": "The checks compare a new item with the items stored at that time, so the claim for later items needs an invariant over the whole history.", "anchors": ["src/planar/triangulator.rs: insert_vertices, insert_segments, insert_hole", "src/elements/polyline.rs: Polyline::contains, Polyline::continence"]}
{"id": "C65", "title": "The mesh stays a triangulation of the domain through any sequence of calls", "statement": "A Triangulator is made from a simple counterclockwise boundary. Then insert_vertices, insert_segments, insert_hole, triangulate and refine are called any number of times, in any order, with any parameters; some calls may be refused. If triangulate was called at least once, the mesh after the last call consists of counterclockwise triangles that lie in the domain, cover it, do not overlap, meet in whole sides and have the Delaunay property, the sides of the domain being sides of triangles; and no further call panics.", "quantifier": "all finite sequences of calls, all boundaries, vertices and parameters, all iteration orders of each call", "why_tests_cant": "The state after one call is the input of the next, so the claim needs an invariant over histories of any length.", "anchors": ["src/planar/triangulator.rs: Triangulator::insert_vertices, triangulate, refine", "src/planar/refine_procedures/encroachment.rs: unencroach", "src/planar/refine_procedures/triangle_split.rs: split_irregular"]}
{"id": "C66", "title": "Convex domains are always meshed correctly", "statement": "If the boundary is a strictly convex counterclockwise polygon and there are no holes and segments, then: triangulate returns, for every iteration order, within a number of steps that does not depend on the order; no call of insert_vertices, triangulate or refine panics; after any sequence of such calls that contains triangulate, the mesh is a partition of the polygon with the Delaunay property; and the program writes such a partition for an input whose only included polygon is convex.", "quantifier": "all strictly convex polygons with any number of vertices, all vertices inside, all sequences of calls, all parameters, all iteration orders", "why_tests_cant": "The number of vertices, the position of the vertices and the order of the hash tables are unbounded.", "anchors": ["src/planar/triangulator.rs: Triangulator::triangulate, refine", "src/planar/triangulation_procedures/boundary.rs: include", "src/planar/triangulation_procedures/vertices.rs: include", "src/main.rs: main"]}
{"id": "C67", "title": "A circle is read as the inscribed regular polygon and meshed as such", "statement": "A circle action with one centre, a radius other than zero and a resolution of at least three is read as the regular polygon inscribed in the circle: its corners are on the circle, its sides have equal lengths, it is strictly convex and counterclockwise (also for negative radii), it has 100 corners or as many as the rounded second number, its area is n/2 r^2 sin(2 pi/n), it lies in the disc and contains the disc of radius r cos(pi/n). An input whose domain is this circle is written as a partition of the polygon; without a bound on the area and for all large enough ratios the program returns.", "quantifier": "all centres, radii, resolutions, vertices inside, all iteration orders", "why_tests_cant": "Radius, centre and resolution range over infinite sets, and the mesh depends on the order of the hash tables.", "anchors": ["src/triangulator_interface/interpreter/circle_parser.rs: parse, get_circle_point", "src/main.rs: main"]}
{"id": "C68", "title": "Refining a mesh that meets the requirements changes nothing", "statement": "If no vertex of the mesh is strictly inside the diametral circle of a side of the boundary or of a hole or of a segment, and no triangle has a ratio or an area of at least the requested one, then refine returns and leaves the triangulator as it was.", "quantifier": "all triangulators, all parameters, all iteration orders", "why_tests_cant": "It is a claim about every mesh, not about the meshes of some examples.", "anchors": ["src/planar/triangulator.rs: Triangulator::refine", "src/planar/refine_procedures/encroachment.rs: unencroach, distribute_encroachments", "src/planar/refine_procedures/triangle_split.rs: split_irregular"]}
{"id": "C69", "title": "Refining neither loses nor adds any part of a constraint", "statement": "While a mesh is refined the constrained segments are cut into pieces. When the refinement returns, the pieces it protects cover exactly the same points as the sides of the boundary, the sides of the holes and the inserted segments it started with. When a circumcentre is rejected because it encroaches on a single segment, that segment is replaced by pieces that cover exactly it, none of which the circumcentre encroaches on, and every other segment is kept.", "quantifier": "all domains, segments, meshes, refinement parameters, tolerances and iteration orders for which the refinement returns", "why_tests_cant": "The pieces depend on an unbounded number of rejected circumcentres and on the iteration order of hash sets.", "anchors": ["src/planar/triangulator.rs:refine", "src/planar/refine_procedures/triangle_split.rs:split_irregular", "src/planar/refine_procedures/encroachment.rs:unencroach"]}
{"id": "C70", "title": "A small enough comparison tolerance never changes a result", "statement": "For every input there is a positive number such that every comparison tolerance below it, zero included, gives exactly the same result: the same accepted and refused calls, the same mesh, the same output file, the same panics, for every iteration order of the hash containers. This holds for each public method, for every sequence of calls, for the operations on polylines and for the whole program. What is guaranteed for exact comparisons (valid meshes of convex domains, meshing of circles to the end, no panic) is therefore guaranteed with every tolerance that is small enough for the input.", "quantifier": "all inputs, triangulators, sequences of calls, iteration orders and bounds on the number of steps", "why_tests_cant": "The bound has to be good for all iteration orders and all the comparisons of a run, whose number is not bounded.", "anchors": ["src/elements/vertex.rs:Vertex::eq", "src/properties/orientation.rs:orientation", "src/properties/continence.rs:continence", "src/properties/encroachment.rs:encroach", "src/planar/triangulator.rs:Triangulator", "src/main.rs:main"]}
{"id": "C71", "title": "Neither the unit of length nor the origin changes the mesh", "statement": "Take any domain and any sequence of calls of the public methods (inserting vertices, segments and holes, triangulating, refining), and express all coordinates in another unit of length and with another origin: every x becomes k x + a, every y becomes k y + b, with k > 0, and the maximum area becomes k^2 times as large. Then the calls return, panic or loop as before, accept and refuse the same requests, report the same conflicts, and leave the same triangles and the same stored domain, in the new coordinates.", "quantifier": "all boundaries, all sequences of calls with all arguments, all shifts (a, b), all factors k > 0, all iteration orders of the hash tables", "why_tests_cant": "A test compares one input with one shifted or scaled copy; the claim relates every run of every sequence of calls to the run in the other coordinates, through every geometric predicate and every loop.", "anchors": ["src/planar/triangulator.rs: Triangulator::{insert_vertices, insert_segments, insert_hole, triangulate, refine}", "src/properties: orientation, continence, encroach, intersection, circumcenter", "src/elements/vertex.rs: PartialEq for Vertex"]}
{"id": "C72", "title": "Meshing the same domain again gives the same triangles", "statement": "Two calls of `triangulate` for the same boundary and the same accepted vertices give the same triangles, whatever the order in which the vertices were inserted, the iteration order of the hash tables and the calls made before. More generally the triangles are determined by the vertices of the mesh, after any sequence of insertions, triangulations and refinements.", "quantifier": "all boundaries, all sets of accepted vertices, all pairs of sequences of calls, all pairs of orders in which hash sets are iterated", "why_tests_cant": "Rust's hash tables are seeded at random, so each test run sees a few of the orders; that all orders agree is a statement about pairs of runs.", "anchors": ["src/planar/triangulator.rs: Triangulator::triangulate, Triangulator::insert_vertices, Triangulator::refine", "src/planar/triangulation_procedures/vertices.rs: include, solve_conflicts", "src/planar/triangulation_procedures/boundary.rs: include"]}
{"id": "C73", "title": "The number of triangles is determined by the number of vertices", "statement": "A mesh with v vertices, r of which are on the boundary, has 2 v - r - 2 triangles, after any sequence of insertions, triangulations and refinements. So a boundary with n sides and k accepted vertices gives n + 2 k - 2 triangles after `triangulate` exactly when no accepted vertex is missing, and the number of triangles is always between v - 2 and 2 v - 5.", "quantifier": "all boundaries, all sets of accepted vertices, all sequences of calls with all parameters, all orders in which hash sets are iterated", "why_tests_cant": "A test counts the triangles of a few meshes; that the count follows from the number of vertices for every polygon, however concave, and after any number of refinements is a statement about all meshes.", "anchors": ["src/planar/triangulator.rs: Triangulator::triangulate, Triangulator::insert_vertices, Triangulator::refine", "src/planar/triangulation.rs: Triangulation", "src/planar/triangulation_procedures/vertices.rs: include, solve_conflicts"]}
{"id": "C74", "title": "Triangles and quadrilaterals are always meshed completely, convex or not", "statement": "For a boundary that is a simple counterclockwise polygon with three or four sides, with or without a reflex corner, any sequence of insertions of vertices, triangulations and refinements leaves a complete mesh: no overlap, no gap, nothing outside, the Delaunay property inside. No call panics, `triangulate` always returns, and the program writes such a mesh. No condition on the shape is needed, and four is the limit: for five sides the mesh may have no triangle at all.", "quantifier": "all simple polygons with three or four sides, all accepted vertices, all sequences of calls with all parameters, all orders in which hash sets are iterated", "why_tests_cant": "The code never inserts missing sides, so a correct mesh depends on every side surviving the insertion of the other vertices in every order; tests try a few shapes and a few orders.", "anchors": ["src/planar/triangulation_procedures/boundary.rs: include", "src/planar/triangulation_procedures/vertices.rs: include, solve_conflicts", "src/planar/triangulator.rs: Triangulator::triangulate, Triangulator::insert_vertices, Triangulator::refine", "src/main.rs: main"]}
{"id": "C75", "title": "The renderer receives the mesh, and printing shows every complete record", "statement": "The positions sent for filled triangles are, three by three, the corners of the solid triangles of the mesh, each triangle once; the positions sent for lines are, two by two, the ends of the edges, each edge once in one direction. Reading positions from a list of coordinates panics exactly when their number is odd and otherwise pairs them in order. Printing triangulation data prints one point for every complete pair of coordinates and one triangle for every complete triple of indices, in order.", "quantifier": "all meshes, all iteration orders, all conversions of coordinates, all lists of coordinates and indices", "why_tests_cant": "The lists have any length and the order of the triangles is decided by hashing.", "anchors": ["src/glium_interface/vertex.rs: Vertex::from_coordinates, Vertex::triangles_from_triangulation, Vertex::edges_from_triangulation", "src/planar/triangulation_data.rs: TriangulationData"]}
{"id": "C76", "title": "The maps made of a set of edges list exactly its edges", "statement": "Edge::into_hashmap returns two maps: the first lists b for a, and the second lists a for b, exactly when the set has an edge from a to b. Every vertex has at most one entry and no entry is empty. Taking an edge out of both maps never panics and leaves the maps of the other edges.", "quantifier": "all finite sets of directed edges, all iteration orders", "why_tests_cant": "The two maps are filled and emptied edge by edge in a random order; an inconsistency shows only for some sets.", "anchors": ["src/elements/edge.rs: Edge::into_hashmap, Edge::arrange"]}
{"id": "C77", "title": "Accessors of edges and triangles return the parts they name", "statement": "With exact comparisons, for a triangle with three different corners: opposite_vertex(e) is the third corner when e is a side in the direction of the triangle and None otherwise, and opposite_edge(v) is the side facing v when v is a corner and None otherwise, so each undoes the other; the outer edges are the sides reversed; the centre of a counterclockwise triangle is strictly inside and divides it into three equal areas. The midpoint of an edge is on it, half way. A ghost triangle encircles exactly the points strictly on the left of its real edge.", "quantifier": "all triangles with different corners, all edges and vertices", "why_tests_cant": "Every rotation of a triangle and every edge, in both directions, must be treated alike.", "anchors": ["src/elements/triangle.rs: Triangle::opposite_vertex, Triangle::opposite_edge, Triangle::outer_edges, Triangle::center, Triangle::encircles", "src/elements/edge.rs: Edge::midpoint"]}
{"id": "C78", "title": "Refining again with the same parameters changes nothing", "statement": "If refine returns, a second call of refine with the same parameters returns and leaves the triangulation as it is. (False in general: the second call starts again from the sides as the user gave them and from the poor triangles the first call gave up on, and can add triangles. It holds when the first call left no triangle over the bounds and no vertex inside the circle over a side or a segment.)", "quantifier": "every triangulator, parameters, distance function, iteration orders of the hash containers in the two calls, and step counts", "why_tests_cant": "Whether a second run is a no-op depends on the whole final mesh and on the orders in which the queues are emptied; a test sees one domain and one order.", "anchors": ["src/planar/triangulator.rs: Triangulator::refine", "src/planar/refine_procedures/encroachment.rs: unencroach", "src/planar/refine_procedures/triangle_split.rs: split_irregular"]}
{"id": "C79", "title": "An input document is accepted exactly when it has the documented form", "statement": "A JSON document is accepted as input exactly when it has a name, a list of actions and refinement parameters of the documented form, each given once; a missing identifier, date, list of scalars, points or assemblies, third coordinate or maximal area takes its default. The order of the entries and entries with other names do not matter, structures can also be written as arrays in the order of their fields, and each accepted document stands for one input only.", "quantifier": "all JSON documents, of any size and nesting, and all identifiers and dates generated for missing ones", "why_tests_cant": "Documents combine present, missing, repeated, reordered and unknown entries at every level; tests check a few spellings.", "anchors": ["src/json_serializar/models/input.rs: TriangulationInput, RefineParams", "src/json_serializar/models/action.rs: Action", "src/json_serializar/models/point.rs: Point", "src/json_serializar/io.rs: read"]}
{"id": "C80", "title": "The output document carries the data of the input and can be read back", "statement": "When the program writes a document, the input file held an acceptable document; the written one has the same identifier, name and date, and reading it yields exactly the coordinates and triangles that were computed for the actions and parameters of the input, with third coordinate zero, no tetrahedra, and all indices within the list of coordinates. If the input file is missing or not acceptable, the program stops with an error and writes nothing. A document is accepted as output exactly when it has a name and a list of coordinates of the documented form, each given once, with the documented defaults for the rest, written as objects or as arrays in the order of the fields; a written document says the written data and nothing else.", "quantifier": "all input files, tolerances, distance functions, circle functions, iteration orders and step counts", "why_tests_cant": "It relates every input document to its output document through the whole program.", "anchors": ["src/main.rs: main", "src/json_serializar/models/output.rs: TriangulationOutput", "src/json_serializar/models/tesselations.rs: Triangle, Tetrahedron", "src/json_serializar/io.rs: read, write"]}
{"id": "C81", "title": "Refining loses no vertex and adds only vertices it can account for", "statement": "Every vertex of the mesh before a call of `refine` is a vertex of the mesh after it. Every vertex of the mesh after the call was a vertex before, or is the middle of a side of the boundary or of a hole or of a segment, or of a piece of one obtained by halving it repeatedly, or is the circumcentre of a solid triangle whose quality or area reaches the requested bound and whose corners are accounted for in the same way.", "quantifier": "all triangulators reached by any history of calls, refinement parameters, tolerances, hash iteration orders", "why_tests_cant": "The vertices come from an unbounded sequence of insertions, rejections and rollbacks, and the order is decided by hash tables.", "anchors": ["src/planar/triangulator.rs: Triangulator::refine", "src/planar/refine_procedures/triangle_split.rs: split_irregular, try_circumcenter_insertion", "src/planar/refine_procedures/encroachment.rs: unencroach, unencroach_segment, split_segment"]}
{"id": "C82", "title": "A call has exactly one outcome for given arguments and hash orders", "statement": "For given arguments and given iteration orders of the hash tables, each call (the methods of the triangulator, the operations on polylines and edges, the whole program) either returns one value, or panics, or never ends. How long one watches it makes no difference: an answer or a panic that is seen once is the only one.", "quantifier": "all arguments, all tolerances, all orders in which hash sets and maps are iterated, all numbers of steps", "why_tests_cant": "A test that waits a bounded time cannot tell an endless run from a slow one, and sees the outcome of a few arguments only; the statement ranges over all runs and all numbers of steps.", "anchors": ["src/planar/triangulator.rs: Triangulator::triangulate, refine, insert_vertices, insert_segments, insert_hole", "src/elements/polyline.rs: Polyline::continence, intersection, union, subtraction, arrange, triangles_hull", "src/elements/edge.rs: Edge::arrange, Edge::decompose", "src/main.rs: main"]}
{"id": "C83", "title": "Rounding changes the orientation test and the circle test only within an explicit margin", "statement": "When every operation is rounded with relative error u (below s as for the size s), the orientation test answers counterclockwise (clockwise) for every triple whose exact determinant exceeds the tolerance by more than 24 u M², where M bounds the coordinates, and answers so only if the exact determinant exceeds the tolerance less that margin; the same holds for the circle over a segment with 9 u D², where D bounds the differences of coordinates, areas are off by at most 12 u M², and midpoints by at most u M. Hence with f64 and the tolerance 1e-14 a reported orientation is never wrong for coordinates up to 1.9, and on a grid of a power of two (integers) up to 2^25 steps from the origin both tests equal those of exact arithmetic. Without such bounds they can be wrong: three points with integer coordinates near 4e8 that turn clockwise are reported counterclockwise.", "quantifier": "all rounding functions with the given error, all points with the given bounds; all f64 points of the grid", "why_tests_cant": "The wrong answers are rare and depend on the last digits; only a bound on the error over all inputs tells where there are none.", "anchors": ["src/properties/orientation.rs: orientation", "src/properties/encroachment.rs: encroach", "src/properties/midpoint.rs: midpoint", "src/properties/area.rs: area_triangle"]}
{"id": "C84", "title": "A midpoint computed with f64 lies between its endpoints", "statement": "The coordinates of the midpoint of two vertices, computed with the rounding of f64, are between the coordinates of the two vertices. It need not differ from both: the midpoint of 1 and the next number is 1.", "quantifier": "all pairs of vertices with f64 coordinates (no overflow)", "why_tests_cant": "It ranges over all pairs of numbers and depends on the rounding of each.", "anchors": ["src/properties/midpoint.rs: midpoint", "src/elements/edge.rs: Edge::midpoint"]}
{"id": "C85", "title": "insert_vertices with f64 accepts what exact arithmetic accepts, on a grid or away from the outlines", "statement": "When all coordinates are multiples of one power of two at most 2^25 steps from the origin (integers up to 33554432, say), insert_vertices computed with f64 returns exactly what exact arithmetic returns. For other coordinates it accepts and refuses the same vertices as exact arithmetic if no vertex is within the explicit margin of the line through a side of the boundary or of a hole. Without such a bound it can be wrong: with integer coordinates near 4e8 a vertex outside of the boundary is accepted.", "quantifier": "all triangulators, vertex sets, hash orders and tolerances; all roundings with bounded relative error", "why_tests_cant": "Which vertices are misjudged depends on the last digits of all coordinates; only a proof over all inputs gives a range in which there are none.", "anchors": ["src/planar/triangulator.rs: Triangulator::insert_vertices", "src/elements/polyline.rs: Polyline::contains", "src/elements/edge.rs: Edge::contains", "src/elements/vertex.rs: PartialEq for Vertex"]}
{"id": "C86", "title": "With rounding the in-circle test is right away from the circle, and unreliable on it", "statement": "The in-circle test computes a 4 by 4 determinant by elimination with row exchanges. Without rounding its answer is that of the determinant, for all points and tolerances. When every operation is rounded with relative error u, it answers inside (outside) whenever twice the signed area of the triangle times the difference of the squared distances exceeds the tolerance by more than 6400 u R^4, where R bounds the coordinates, and answers so only if that quantity exceeds the tolerance less that margin. Hence with f64 and integer coordinates up to 1000 a point strictly inside (outside) the circle is always reported inside (outside). A point exactly on the circle is not reported so: for the points (0,1), (5,1), (5,4), (1,5) of one circle each of the two triangulations has a triangle that is reported to have the fourth point strictly inside its circle, so by the test of the program they have no Delaunay triangulation.", "quantifier": "all quadruples of points, all tolerances, all roundings with bounded relative error", "why_tests_cant": "Which quadruples are misjudged depends on the last digits of intermediate results; only an error analysis covers all of them, and a test on the unit square, as in the repository, happens to be exact.", "anchors": ["src/properties/continence.rs: continence", "src/elements/triangle.rs: encircles"]}
{"id": "C87", "title": "In f64 the insertion of vertices is the exact one when no vertices are close to a circle, and can overlap when some are on one", "statement": "Vertices are inserted in a Delaunay mesh without constraints, with geometric tests that round after every operation and use a tolerance. If the vertices involved are far enough from each other, no three close to a line and no four close to a circle, compared with the rounding error, then the outcome is the same as with exact tests, triangle by triangle and for every order of the hash tables. With f64 and the tolerance 1e-14 this holds for all vertices with integer coordinates up to 1000, no four of them on a circle; hence the insertion does not panic, ends, and gives a Delaunay mesh. Triangulating a simple polygon of such vertices whose sides all appear (in particular a convex one) gives in f64 a proper triangulation of the polygon, the same for every order of the hash tables. With vertices on a circle this is false: inserting (8,9), (5,10), (10,5), (9,2), (0,5), (5,0) in the mesh of the segment from (2,1) to (10,10) can give, in f64, a mesh with a clockwise triangle.", "quantifier": "all Delaunay meshes, lists of vertices, roundings with bounded relative error, orders of the hash tables; all integer vertices up to 1000 for f64", "why_tests_cant": "One wrong answer of a rounded test is enough to break a mesh, and which answers are wrong depends on the last digits of intermediate results and on the order of the hash tables. Only an error analysis combined with an induction over the insertion covers all inputs.", "anchors": ["src/planar/triangulation_procedures/vertices.rs: include, solve_conflicts, distribute_conflicts", "src/planar/triangulation_procedures/boundary.rs: include", "src/elements/triangle.rs: encircles", "src/properties/continence.rs: continence", "src/planar/triangulator.rs: triangulate"]}
{"id": "C88", "title": "In f64 the splitting of encroached segments always ends, in pieces of positive length close to the segment", "statement": "With the test for encroachment and the midpoint computed in f64: splitting an encroached segment ends wherever the vertices are, even if they are on the segment, after at most 1 + 8 (M + 1075) n rounds for n vertices and coordinates up to 2^M. The pieces form a chain from one end of the segment to the other, have different ends, lie in the bounding box of the segment, and their ends are at most 4 (M + 1075) roundings away from it. The vertices still listed as encroaching encroach none of the pieces; a vertex given alone encroaches none of them, since in f64 no vertex encroaches both halves of a segment. The first phase of refining, which splits all the encroached segments, ends too. Unlike in exact arithmetic the pieces need not cover the segment: the computed midpoint of the side from (1,0) to (1+2^-52,2) is beside it.", "quantifier": "all segments, lists of vertices, meshes and constraints with f64 coordinates, all programs for the insertion of the midpoints, all orders of the hash tables, all tolerances", "why_tests_cant": "Whether the halving stops for ends that are neighbouring floating-point numbers, or produces a segment of length zero and goes on forever, depends on the last digits of the coordinates; no set of samples covers all of them.", "anchors": ["src/planar/refine_procedures/encroachment.rs: unencroach_segment, unencroach, split_segment", "src/elements/edge.rs: midpoint, encroach", "src/properties/encroachment.rs: encroach"]}
{"id": "C89", "title": "In f64 inner vertices are inserted only if the middles of the boundary sides are judged to be on the boundary", "statement": "Before triangulate gives up a triangle for an inner vertex it asks, in f64, whether the vertex and the triangle are in the domain, and this question looks at the computed middle of each side of the boundary. If the corners of the boundary are on a grid (for instance integers up to 16777216) or have coordinates up to 1.7, the computed middles are judged to be on the boundary. If one of them is judged outside, no triangle is given up for any vertex whose connecting segment does not cross the boundary. For ordinary decimal coordinates this happens: for the triangle (10.1,20.2), (40.3,20.7), (30.4,49.6) and the vertex (25,30), insert_vertices accepts the vertex, and triangulate returns the mesh without it and without an error, for every order of the hash tables. In exact arithmetic the vertex is always inserted.", "quantifier": "all boundaries with f64 coordinates of these kinds, all triangles and vertices, all ways to round (for the blocking), all orders of the hash tables", "why_tests_cant": "Whether a vertex is lost depends on the last digits of the coordinates of the boundary alone; tests with integer or small coordinates never show it.", "anchors": ["src/planar/triangulation_procedures/vertices.rs: include, may_insert_triangle", "src/elements/polyline.rs: continence, contains", "src/properties/midpoint.rs: midpoint", "src/planar/triangulator.rs: triangulate, insert_vertices"]}
{"id": "C90", "title": "In f64 refine may return the mesh unchanged, however large or thin its triangles are", "statement": "refine in f64 asks, before it gives up a triangle for a circumcentre, the same question about the domain as triangulate. If the computed middle of one side of the boundary is judged outside of the boundary, no constraint is encroached by a vertex of the mesh and the segments from the triangles to the circumcentres do not cross the boundary, then refine returns and the triangulation is exactly as before, whatever the quality and the area asked for, and for every order of the hash tables. The triangle (10.1,20.2), (40.3,20.7), (30.4,49.6) is such a case: its mesh is one triangle of area above 438, and no request changes it. In exact arithmetic a run with the area 300 returns smaller triangles.", "quantifier": "all ways to round, all triangulations without holes of this kind, all quality tests and areas, all orders of the hash tables", "why_tests_cant": "That nothing happens for any quality, any area and any order of the hash tables cannot be shown by samples, and whether it happens depends on the last digits of the boundary.", "anchors": ["src/planar/triangulator.rs: refine", "src/planar/refine_procedures/triangle_split.rs: split_irregular, try_circumcenter_insertion", "src/planar/triangulation_procedures/vertices.rs: may_insert_triangle", "src/properties/circumcenter.rs: circumcenter"]}
{"id": "C91", "title": "Rounding is the only difference between the results in f64 and in exact arithmetic", "statement": "insert_vertices, the domain test before a triangle is given up, triangulate for a boundary with vertices inside, refine, and the in-circle test, carried out operation by operation as in the code, give exactly the answers of the closed formulas if no operation rounds: for every input, every order of the hash tables and every step count. In particular the order of the operations, the elimination with row exchanges and the two-by-two inverses of the code change nothing but the rounding.", "quantifier": "all inputs, tolerances, orders of the hash tables and step counts", "why_tests_cant": "An order of operations that is wrong for one arrangement of the coordinates, such as a missing sign after a row exchange, passes every test that does not contain this arrangement.", "anchors": ["src/planar/triangulator.rs: insert_vertices, triangulate, refine", "src/planar/triangulation_procedures/vertices.rs: may_insert_triangle", "src/properties/intersection.rs: intersection", "src/properties/circumcenter.rs: circumcenter", "src/properties/continence.rs: continence"]}
{"id": "C92", "title": "Which symmetries of the geometric tests survive in f64", "statement": "Computed with f64, for all points: exchanging the last two points turns the answer of the orientation test around and changes the sign of the area and nothing else; three points of which the last two are the same are colinear; every edge contains its second end; the encroachment test does not depend on the direction of the segment, and the ends of a segment never encroach it. On a grid (integers up to 33554432, say) the orientation test does not depend on the point one starts with. In general it does: (8.9,1.0), (7.0,9.6), (7.95,5.3) are counterclockwise, clockwise or colinear depending on the first point; the edge from (6.1,8.2) to (1.1,5.7) does not contain its first end; and the triangle (4,1), (5,1), (6,5) has its corner (5,1) strictly inside its circle.", "quantifier": "all vertices, all tolerances that are not negative; f64 without overflow", "why_tests_cant": "The symmetries that hold must hold for every combination of rounding errors; the ones that fail do so only for some last digits, with coordinates that look harmless.", "anchors": ["src/properties/orientation.rs: orientation", "src/properties/area.rs: area_triangle", "src/properties/encroachment.rs: encroach", "src/properties/continence.rs: continence", "src/elements/edge.rs: contains", "src/elements/triangle.rs: encircles"]}
{"id": "C93", "title": "In f64 corners, points of vertical sides and points beside a polygon are judged correctly; points of horizontal sides are not", "statement": "Polyline::contains computed with f64 reports every corner of a closed polyline and every point of one of its vertical sides as on it, and every point to the left or to the right of all corners as outside. Hence insert_vertices refuses every set with a corner of the boundary or of a hole, a point of a vertical side of one of them, or a point to the left or right of the boundary, names that vertex in the error, and leaves the triangulator as it is. Points of horizontal sides are not safe: the point (1.9, 8.9) of the lower side of the rectangle from (0, 8.9) to (6, 13.9) is accepted as a vertex inside. For the rectangle from (0.9, 6.8) to (9.9, 11.8) and the point (5.4, 6.8) of its lower side, insert_vertices returns without error, triangulate returns a mesh with a triangle of area zero, and refine panics.", "quantifier": "all closed polylines, all vertices, all triangulators with closed boundary and holes, all sets of vertices, all tolerances that are not negative, all orders of the hash tables; f64 without overflow", "why_tests_cant": "The answers come from a determinant that is rounded after every operation; whether a point exactly on the outline is recognised depends on the last digits of all coordinates.", "anchors": ["src/elements/polyline.rs: contains", "src/properties/orientation.rs: orientation", "src/planar/triangulator.rs: insert_vertices", "src/planar/triangulator.rs: triangulate, refine", "src/planar/refine_procedures/triangle_split.rs: is_irregular_triangle, try_circumcenter_insertion"]}
{"id": "C94", "title": "The area and the orientation of a polygon in f64", "statement": "The area of a closed polygon of n vertices with coordinates up to M, computed with f64 by area_segments, differs from minus the signed area by at most (10 n + 2 n^2) M^2 / 2^53, for n up to 2^47. If the area is larger than that, segments_orientation gives the right orientation and does not panic. On a grid (integers up to B with 4 n B^2 at most 2^53, or multiples of a power of two) the computed area is exact. Turning every segment around changes the sign of the computed area and nothing else. For smaller areas the orientation can be wrong: the triangle (1.9,17.5), (7.3,32.5), (4.6,25.0) runs counterclockwise and is reported clockwise; for (21.0,9.7), (26.0,15.9), (23.5,12.8), which is not flat, the code panics; and (2.6,8.1), (3.0,8.5), (2.8,8.3) is clockwise or a panic depending on the first vertex.", "quantifier": "all closed polygons, of any number of vertices in the range given; f64 without overflow", "why_tests_cant": "The error of the sum grows with the number of vertices and their distance from the origin; no sample of polygons gives a bound for all.", "anchors": ["src/properties/area.rs: area_segments", "src/elements/polyline.rs: segments_orientation"]}
{"id": "C95", "title": "The intersection of segments in f64", "statement": "Computed with f64, for all segments: the point in which two segments meet, and whether they are parallel, do not depend on which segment comes first; every segment is parallel to itself and to its opposite, and the direction does not matter for this; a point that is returned lies in the bounding boxes of both segments up to twice the tolerance. On a grid (integers up to 33554432, say) segments are reported parallel exactly if they are. For integer coordinates up to B (at most 2^25) and segments that are not parallel, a point that is returned is off the exact one by at most 7 B^3 / (2^50 |D|) in each coordinate, where D is the cross product of the segments. In general an intersection can be missed: none is found for (0.5,62.4)-(44.4,62.4) and (90.3,7.9)-(0.4,80.5), which cross, and split_intersections returns them unchanged; none for (2.8,3.3)-(1.6,0.6) and (1.6,0.6)-(3.3,4.4), which have an end in common; none for (9.3,8.1)-(0.0,1.3) and itself. The point found depends on the direction of the segments.", "quantifier": "all vertices, all tolerances of at least 2^-1022; f64 without overflow", "why_tests_cant": "The point is the solution of a linear system that is rounded after every operation and then compared with a box; which intersections are found depends on the last digits of all coordinates.", "anchors": ["src/properties/intersection.rs: intersection", "src/properties/parallel.rs: parallel", "src/elements/polyline.rs: split_intersections"]}
{"id": "C96", "title": "The circumcentre in f64", "statement": "Computed with f64, for all points: the circumcentre does not depend on the order of the second and the third corner; there is none exactly if parallel reports the two sides at the first corner as parallel, in particular if two corners are the same. On a grid (integers up to 33554432, say) there is none exactly if the corners are on a line. For integer coordinates up to B (at most 2^25) the computed centre is off the point that has the same distance from the three corners by at most 9 B^3 / (2^52 |D|) in each coordinate, where D is twice the area. In general (0.3,0.5), (0.6,2.3), (0.5,1.7), which are not on a line, have a circumcentre or not depending on the first corner; (6.1,0.7), (8.8,2.8), (7.0,1.4), which are on a line, have one; and the centre of (1,8), (2,4), (3,3) depends on the first corner.", "quantifier": "all vertices; f64 without overflow", "why_tests_cant": "The centre is the solution of a linear system that is rounded after every operation; its error grows without bound as the triangle becomes flat.", "anchors": ["src/properties/circumcenter.rs: circumcenter", "src/properties/parallel.rs: parallel"]}
{"id": "C97", "title": "The quality and the area tests of refinement in f64", "statement": "Computed with f64, for every counterclockwise triangle with integer coordinates up to 33554432: the quality is defined and positive, and it is the circumradius divided by the shortest side up to a factor between 1 - 6/2^53 and 1 + 6/2^53, whichever side rounding makes the code take for the shortest. So refinement takes such a triangle for irregular whenever its true quality reaches the bound with this relative margin, and never when its true quality stays below the bound by this margin and twice the tolerance. The test on the area says large for such a triangle (of either orientation) whenever its area reaches the bound, and not large when it is below by more than twice the tolerance. Off the grid very flat triangles can be missed: (8.3,0.2), (4.45,4.45), (0.6,8.7) is counterclockwise, and reported so when its second corner comes first, and its circumradius is more than 10^10 times its shortest side; but with the first corner first its area and its quality are negative, so that it counts as regular for every bound above twice the tolerance.", "quantifier": "all counterclockwise triangles on the integer grid, all quality bounds greater than twice the tolerance; all square roots that are off by at most 2^-53 of their size; f64 without overflow", "why_tests_cant": "The quality divides a product of two rounded square roots by an area that may be tiny compared with it; that flat triangles do not spoil it is a statement on all triangles.", "anchors": ["src/elements/triangle.rs: quality", "src/properties/distance.rs: distance", "src/planar/refine_procedures/triangle_split.rs: is_irregular_triangle, is_large_triangle"]}
