{
 "claims": [
  {
   "property": "C01",
   "status": "proved",
   "theorems": [
    "Verif.Props.C01_counterclockwise_iff",
    "Verif.Props.C01_clockwise_iff",
    "Verif.Props.C01_colinear_iff",
    "Verif.Props.C01_rotate",
    "Verif.Props.C01_swap"
   ],
   "note": "Exact arithmetic over any ordered field, any tolerance >= 0."
  },
  {
   "property": "C02",
   "status": "proved",
   "theorems": [
    "Verif.Props.C02_inside",
    "Verif.Props.C02_outside",
    "Verif.Props.C02_exact"
   ],
   "note": ""
  },
  {
   "property": "C03",
   "status": "proved",
   "theorems": [
    "Verif.Props.C03_none_iff",
    "Verif.Props.C03_some"
   ],
   "note": ""
  },
  {
   "property": "C04",
   "status": "proved",
   "theorems": [
    "Verif.Props.C04_inside",
    "Verif.Props.C04_outside",
    "Verif.Props.C04_exact"
   ],
   "note": ""
  },
  {
   "property": "C05",
   "status": "proved",
   "theorems": [
    "Verif.Props.C05_none_iff",
    "Verif.Props.C05_least",
    "Verif.Props.C05_contains_iff",
    "Verif.Props.C05_intersection_none",
    "Verif.Props.C05_intersection_some",
    "Verif.Props.C05_union_least",
    "Verif.Props.C05_union_contains",
    "Verif.Props.C05_unionList_least"
   ],
   "note": ""
  },
  {
   "property": "C06",
   "status": "proved",
   "theorems": [
    "Verif.Props.C06_sound",
    "Verif.Props.C06_sound_exact",
    "Verif.Props.C06_complete"
   ],
   "note": ""
  },
  {
   "property": "C07",
   "status": "proved",
   "theorems": [
    "Verif.Props.C07_exact",
    "Verif.Props.C07_of_onSegment",
    "Verif.Props.C07_ends",
    "Verif.Props.C07_sound"
   ],
   "note": ""
  },
  {
   "property": "C08",
   "status": "proved",
   "theorems": [
    "Verif.Props.C08_winding",
    "Verif.Props.C08_boundary_exact",
    "Verif.Props.C08_opened"
   ],
   "note": "Polyline::contains against an independent winding number (Spec/Winding.lean), for every closed polyline, point and tolerance."
  },
  {
   "property": "C09",
   "status": "proved",
   "theorems": [
    "Verif.Props.C09_rotate",
    "Verif.Props.C09_reverse"
   ],
   "note": "Rotation and reversal of the vertex list."
  },
  {
   "property": "C10",
   "status": "proved",
   "theorems": [
    "Verif.Props.C10_hull_edges",
    "Verif.Props.C10_nodup"
   ],
   "note": "All iteration orders."
  },
  {
   "property": "C11",
   "status": "partial",
   "theorems": [
    "Verif.Props.C11_partial",
    "Verif.Props.C11_diverges_false",
    "Verif.Props.C11_invents_false",
    "Verif.Props.C11_panics_false"
   ],
   "note": "False of the code in general: it may loop forever, invent an edge or panic. C11_partial proves termination, exactness and completeness for edge sets in which every vertex has one edge in and one edge out. C59_endless_false shows that a triangulation can run into the endless walk."
  },
  {
   "property": "C12",
   "status": "proved",
   "theorems": [
    "Verif.Props.C12_no_crossings",
    "Verif.Props.C12_cover",
    "Verif.Props.C12_terminates",
    "Verif.Props.C12_pieces",
    "Verif.Props.C12_conserves"
   ],
   "note": "Exact arithmetic (tolerance 0), non-ghost segments."
  },
  {
   "property": "C13",
   "status": "proved",
   "theorems": [
    "Verif.Props.C13_sound",
    "Verif.Props.C13_complete",
    "Verif.Props.C13_reports",
    "Verif.Props.C13_history_needed",
    "Verif.Props.C13_triangulate",
    "Verif.Props.C13_refine",
    "Verif.Props.C13_session"
   ],
   "note": "C13_history_needed shows the no-sharing hypothesis is needed at every moment. C13_triangulate and C13_refine carry the truthfulness of the adjacency through whole runs of triangulate and refine. C13_session: after any sequence of calls on a Triangulator."
  },
  {
   "property": "C14",
   "status": "proved",
   "theorems": [
    "Verif.Props.C14_watertight",
    "Verif.Props.C14_one"
   ],
   "note": "Any table of predicate answers and any schedule. The list version assumes no directed edge is used twice when a vertex is inserted (NoPinch); the one-vertex version assumes nothing about intermediate meshes."
  },
  {
   "property": "C15",
   "status": "proved",
   "theorems": [
    "Verif.Props.C15_vertices"
   ],
   "note": "Any table, any schedule, any mesh with a sound adjacency map."
  },
  {
   "property": "C16",
   "status": "proved",
   "theorems": [
    "Verif.Props.C16_enclosed",
    "Verif.Props.C16_preserved"
   ],
   "note": ""
  },
  {
   "property": "C17",
   "status": "proved",
   "theorems": [
    "Verif.Props.C17_survives",
    "Verif.Props.C17_count"
   ],
   "note": "C17_survives has no assumption on intermediate meshes; C17_count assumes NoPinch."
  },
  {
   "property": "C18",
   "status": "proved",
   "theorems": [
    "Verif.Props.C18_terminates"
   ],
   "note": "Assumes NoPinch and that the admissibility predicate itself returns."
  },
  {
   "property": "C19",
   "status": "proved",
   "theorems": [
    "Verif.Props.C19_delaunay",
    "Verif.Props.C19_segment",
    "Verif.Props.C19_from_segment",
    "Verif.Props.C19_noPinch"
   ],
   "note": "Exact arithmetic, no boundary, holes or segments. The insertion returns normally for every schedule and the result is a Delaunay mesh (Spec.Delaunay), starting from any Delaunay mesh or from the initial segment. C19_noPinch shows that the side condition NoPinch of C14, C17, C18 and C44 holds in this setting."
  },
  {
   "property": "C20",
   "status": "partial",
   "theorems": [
    "Verif.Props.C20_false",
    "Verif.Props.C20_progress_partial",
    "Verif.Props.C20_one_partial",
    "Verif.Props.C20_one_by_one_partial",
    "Verif.Props.C20_convex_partial",
    "Verif.Props.C20_two_partial"
   ],
   "note": "The full statement is false of the code: C20_false gives six points in general position and a hash order for which include returns normally without one requested vertex. Proved instead: every call inserts at least one missing vertex, a single requested vertex always ends up in the mesh, and so do all vertices when requested by one call each; all points end up in the mesh if they and the first segment are corners of one strictly convex polygon, and if at most two vertices are requested beside the points of the first segment, not all on its line."
  },
  {
   "property": "C21",
   "status": "proved",
   "theorems": [
    "Verif.Props.C21_covering",
    "Verif.Props.C21_delaunay",
    "Verif.Props.C21_disjoint"
   ],
   "note": "C21_covering holds for every closed mesh with counterclockwise solid triangles; C21_delaunay and C21_disjoint identify the number for Delaunay meshes."
  },
  {
   "property": "C22",
   "status": "proved",
   "theorems": [
    "Verif.Props.C22_err",
    "Verif.Props.C22_ok_iff",
    "Verif.Props.C22_ok",
    "Verif.Props.C22_segments"
   ],
   "note": "All states, vertex lists, iteration orders and tolerances."
  },
  {
   "property": "C23",
   "status": "partial",
   "theorems": [
    "Verif.Props.C23_err",
    "Verif.Props.C23_ok",
    "Verif.Props.C23_nondegenerate_partial",
    "Verif.Props.C23_geometry",
    "Verif.Props.C23_inside",
    "Verif.Props.C23_terminates",
    "Verif.Props.C23_degenerate_false"
   ],
   "note": "All-or-nothing, the geometry of the pieces and termination are proved. The zero-length part is false of the code (C23_degenerate_false: a segment ending at a stored free vertex); C23_nondegenerate_partial gives the case in which it holds."
  },
  {
   "property": "C24",
   "status": "partial",
   "theorems": [
    "Verif.Props.C24_err",
    "Verif.Props.C24_ok",
    "Verif.Props.C24_terminates",
    "Verif.Props.C24_vertex_inside_false",
    "Verif.Props.C24_nested_holes"
   ],
   "note": "All-or-nothing, the stored hole and the surviving segments are proved. Removal of free vertices inside the hole is false of the code (C24_vertex_inside_false), and a hole that swallows an existing one is accepted (C24_nested_holes)."
  },
  {
   "property": "C25",
   "status": "partial",
   "theorems": [
    "Verif.Props.C25_last_partial",
    "Verif.Props.C25_single_partial",
    "Verif.Props.C25_order_false"
   ],
   "note": "False of the code with two or more holes (C25_order_false: the answer depends on which hole is visited last). Proved: only the last hole visited decides, and the claim for at most one hole."
  },
  {
   "property": "C26",
   "status": "proved",
   "theorems": [
    "Verif.Props.C26_terminates",
    "Verif.Props.C26_outside",
    "Verif.Props.C26_closed",
    "Verif.Props.C26_closed_only",
    "Verif.Props.C26_good",
    "Verif.Props.C26_area"
   ],
   "note": "For every mesh with a right adjacency map and every visiting order. C26_good: the carved mesh meets the hypotheses of the insertion theorems again."
  },
  {
   "property": "C27",
   "status": "proved",
   "theorems": [
    "Verif.Props.C27_terminates",
    "Verif.Props.C27_hole",
    "Verif.Props.C27_closed",
    "Verif.Props.C27_clockwise_false"
   ],
   "note": "Sealed says in terms of the mesh that the hole is separated from the rest. C27_clockwise_false: a closed clockwise hole whose edges are all in the mesh violates it, and the mesh is emptied; the code does not check orientation."
  },
  {
   "property": "C28",
   "status": "proved",
   "theorems": [
    "Verif.Props.C28_rollback",
    "Verif.Props.C28_inserted",
    "Verif.Props.C28_rejected"
   ],
   "note": "Assumes the circumcentre is not already a vertex of the mesh."
  },
  {
   "property": "C29",
   "status": "partial",
   "theorems": [
    "Verif.Props.C29_tiles_partial",
    "Verif.Props.C29_cover",
    "Verif.Props.C29_survivors",
    "Verif.Props.C29_single",
    "Verif.Props.C29_min_length",
    "Verif.Props.C29_iterations",
    "Verif.Props.C29_count",
    "Verif.Props.C29_false"
   ],
   "note": "Bisection, exact cover, minimal length and the bounds on the iterations (C29_count: linear in the number of vertices and in the logarithm of the length) are proved for every segment, vertex list, mesh and schedule. That no given vertex encroaches a returned piece is false of the code for two or more vertices (C29_false); it is proved for one given vertex and for the vertices still in the returned set."
  },
  {
   "property": "C30",
   "status": "partial",
   "theorems": [
    "Verif.Props.C30_partial",
    "Verif.Props.C30_splits_itself",
    "Verif.Props.C30_false"
   ],
   "note": "The statement is false of the code: C30_false gives a five-vertex domain for which triangulate and refine return and leave a poor triangle. Proved for all meshes, parameters and schedules: every poor triangle left was tried by the loop, and its attempt was rejected because of an encroached segment, or (exact arithmetic) the boundary/hole test forbids the insertion."
  },
  {
   "property": "C31",
   "status": "partial",
   "theorems": [
    "Verif.Props.C31_wrong_indices",
    "Verif.Props.C31_output_partial"
   ],
   "note": "The property is false of the code: coordinates and indices use two independent hash orders (C31_wrong_indices). Proved: it holds when the two orders agree."
  },
  {
   "property": "C32",
   "status": "partial",
   "theorems": [
    "Verif.Props.C32_panics",
    "Verif.Props.C32_reports",
    "Verif.Props.C32_content",
    "Verif.Props.C32_outline",
    "Verif.Props.C32_no_panic_partial"
   ],
   "note": "False as stated: short polylines, circles of resolution < 3 and indices out of range panic (C32_panics). Proved: other malformed actions are reported, a success yields exactly the described content, an outline is refused exactly if it has no points or two of its sides cross (C32_outline), and no panic under the complementary conditions."
  },
  {
   "property": "C33",
   "status": "partial",
   "theorems": [
    "Verif.Props.C33_merged_kept",
    "Verif.Props.C33_lost_false",
    "Verif.Props.C33_holes_partial"
   ],
   "note": "False as stated: the polygon merged into another is kept as well (C33_merged_kept), and of two disjoint removals one can get lost (C33_lost_false). Proved: every removal within the boundary is represented by itself or by a union made from it, and every hole is within the boundary and comes from a removal."
  },
  {
   "property": "C34",
   "status": "partial",
   "theorems": [
    "Verif.Props.C34_not_sorting",
    "Verif.Props.C34_sort_partial"
   ],
   "note": "False of the code: the comparison reads y instead of x."
  },
  {
   "property": "C35",
   "status": "partial",
   "theorems": [
    "Verif.Props.C35_not_transitive",
    "Verif.Props.C35_hash_mismatch",
    "Verif.Props.C35_triangle_mismatch",
    "Verif.Props.C35_order_mismatch",
    "Verif.Props.C35_equality_partial"
   ],
   "note": "False of the code for tolerant equality; exact-arithmetic part proved."
  },
  {
   "property": "C36",
   "status": "proved",
   "theorems": [
    "Verif.Props.C36_distribute",
    "Verif.Props.C36_geometric"
   ],
   "note": ""
  },
  {
   "property": "C37",
   "status": "proved",
   "theorems": [
    "Verif.Props.C37_drawn_once"
   ],
   "note": ""
  },
  {
   "property": "C38",
   "status": "proved",
   "theorems": [
    "Verif.Props.C38_ratio",
    "Verif.Props.C38_bound",
    "Verif.Props.C38_none",
    "Verif.Props.C38_rotate",
    "Verif.Props.C38_reverse"
   ],
   "note": "Over the reals with Euclidean distance. Order of vertices: rotations keep the quality, reversing the orientation negates it."
  },
  {
   "property": "C39",
   "status": "proved",
   "theorems": [
    "Verif.Props.C39_shoelace",
    "Verif.Props.C39_rotate",
    "Verif.Props.C39_reverse",
    "Verif.Props.C39_translate",
    "Verif.Props.C39_fan",
    "Verif.Props.C39_cut",
    "Verif.Props.C39_triangle",
    "Verif.Props.C39_orientation"
   ],
   "note": "All closed vertex lists, exact arithmetic."
  },
  {
   "property": "C40",
   "status": "proved",
   "theorems": [
    "Verif.Props.C40_terminates",
    "Verif.Props.C40_chain",
    "Verif.Props.C40_points",
    "Verif.Props.C40_complete"
   ],
   "note": "Termination and chain for every tolerance; exact coverage for tolerance zero; completeness when candidate edges have distinct first vertices."
  },
  {
   "property": "C41",
   "status": "proved",
   "theorems": [
    "Verif.Props.C41_closed",
    "Verif.Props.C41_opened",
    "Verif.Props.C41_constructors",
    "Verif.Props.C41_ends",
    "Verif.Props.C41_round_trip",
    "Verif.Props.C41_from_vertices",
    "Verif.Props.C41_from_coordinates"
   ],
   "note": ""
  },
  {
   "property": "C42",
   "status": "partial",
   "theorems": [
    "Verif.Props.C42_everywhere_partial",
    "Verif.Props.C42_strict_partial",
    "Verif.Props.C42_strict_false",
    "Verif.Props.C42_terminates",
    "Verif.Props.C42_no_panic",
    "Verif.Props.C42_complete",
    "Verif.Props.C42_opened"
   ],
   "note": "Every point of the second polygon is inside or on the first (respectively outside or on). Strictness is false of the code because the last vertex is not examined (C42_strict_false); C42_strict_partial covers all the other vertices. No-fold polygons for the statement about every point."
  },
  {
   "property": "C43",
   "status": "proved",
   "theorems": [
    "Verif.Props.C43_ok",
    "Verif.Props.C43_err",
    "Verif.Props.C43_empty"
   ],
   "note": ""
  },
  {
   "property": "C44",
   "status": "proved",
   "theorems": [
    "Verif.Props.C44_two_each"
   ],
   "note": "Assumes NoPinch."
  },
  {
   "property": "C45",
   "status": "proved",
   "theorems": [
    "Verif.Props.C45_locally_constant",
    "Verif.Props.C45_separation",
    "Verif.Props.C45_far"
   ],
   "note": "Exact tolerance."
  },
  {
   "property": "C46",
   "status": "proved",
   "theorems": [
    "Verif.Props.C46_terminates",
    "Verif.Props.C46_partition",
    "Verif.Props.C46_points",
    "Verif.Props.C46_maximal",
    "Verif.Props.C46_refines",
    "Verif.Props.C46_maps",
    "Verif.Props.C46_maps_exact"
   ],
   "note": "Termination and the distribution hold for every tolerance; coverage and maximality for tolerance zero. C46_refines shows that the program with the two hash maps of the code behaves as the one on a set of edges; in particular none of its unwraps fails (C46_maps)."
  },
  {
   "property": "C47",
   "status": "partial",
   "theorems": [
    "Verif.Props.C47_apart",
    "Verif.Props.C47_result",
    "Verif.Props.C47_outline",
    "Verif.Props.C47_no_extra",
    "Verif.Props.C47_terminates",
    "Verif.Props.C47_found_partial",
    "Verif.Props.C47_exact_partial",
    "Verif.Props.C47_shared_side_false",
    "Verif.Props.C47_clockwise_false",
    "Verif.Props.C47_disjoint_false"
   ],
   "note": "False as a user would read it: polygons that overlap and share part of a side have no union (C47_shared_side_false), a clockwise polygon can make it panic (C47_clockwise_false), and of two polygons without a common point whose boxes overlap one is lost (C47_disjoint_false). C47_exact_partial: in general position, when the polygons have a point in common, the union is the outer outline, a simple counterclockwise polygon, and the unused pieces include the outlines of the holes. Exact arithmetic, all hash orders."
  },
  {
   "property": "C48",
   "status": "proved",
   "theorems": [
    "Verif.Props.C48_exact",
    "Verif.Props.C48_region",
    "Verif.Props.C48_covers",
    "Verif.Props.C48_pieces",
    "Verif.Props.C48_opened",
    "Verif.Props.C48_sides",
    "Verif.Props.C08_simple",
    "Verif.Props.C48_touching_false"
   ],
   "note": "C48_exact: simple counterclockwise polygons in general position, exact arithmetic, all hash orders: the returned polygons are simple, counterclockwise and without common points, and tile the common region. C48_sides: any two polygons. C48_touching_false: two triangles that touch at a vertex, for which the call never returns, show why general position is needed."
  },
  {
   "property": "C49",
   "status": "partial",
   "theorems": [
    "Verif.Props.C49_exact_partial",
    "Verif.Props.C49_region",
    "Verif.Props.C49_pieces",
    "Verif.Props.C49_sides",
    "Verif.Props.C49_nothing",
    "Verif.Props.C49_adjacent_false",
    "Verif.Props.C49_notch_false"
   ],
   "note": "C49_exact_partial: general position, no line between the polygons and a point of the second one's sides outside the first: simple counterclockwise polygons that tile the difference. Otherwise the claim is false: nothing is returned when a line lies between the polygons or the second is strictly inside (C49_nothing), the call never returns for two squares side by side (C49_adjacent_false), and cutting a notch returns nothing (C49_notch_false)."
  },
  {
   "property": "C50",
   "status": "proved",
   "theorems": [
    "Verif.Props.C50_turn",
    "Verif.Props.C50_unique",
    "Verif.Props.C50_compare",
    "Verif.Props.C50_choice"
   ],
   "note": "Over the real numbers with zero tolerance. C50_compare ties the root-free comparison of the boolean operations to the angle; C50_choice is about the comparison functions their loop sorts with."
  },
  {
   "property": "C51",
   "status": "partial",
   "theorems": [
    "Verif.Props.C51_false",
    "Verif.Props.C51_outline_partial",
    "Verif.Props.C51_free_sides_partial",
    "Verif.Props.C51_vertices_partial",
    "Verif.Props.C51_returns_partial",
    "Verif.Props.C51_vertices_return_partial",
    "Verif.Props.C74_five_false"
   ],
   "note": "False in general: with an accepted segment and an accepted vertex the result can contain a clockwise triangle (C51_false), and the mesh of a simple pentagon alone can have no triangle (C74_five_false). Proved for domains with a boundary and any accepted vertices inside (C51_vertices_partial): the result is a partition of the polygon if all sides appear as sides of triangles when the boundary alone is triangulated. They do for strictly convex polygons (C66) and for all polygons with at most four sides (C74), and if each side has a circle through its ends with the other vertices strictly outside and no boundary vertex was lost, which can happen (C20_false). In that case triangulate returns for every order (C51_vertices_return_partial). Missing: holes and segments."
  },
  {
   "property": "C52",
   "status": "proved",
   "theorems": [
    "Verif.Props.C52_corners",
    "Verif.Props.C52_region",
    "Verif.Props.C52_returns",
    "Verif.Props.C52_opened_false"
   ],
   "note": "C52_region with tolerance 0. The property is stated for closed polylines: an opened polyline is turned into a closed one, and a straight one panics (C52_opened_false)."
  },
  {
   "property": "C53",
   "status": "partial",
   "theorems": [
    "Verif.Props.C53_accepted",
    "Verif.Props.C53_plain_partial",
    "Verif.Props.C53_removal_partial",
    "Verif.Props.C53_union_partial",
    "Verif.Props.C53_covered_false",
    "Verif.Props.C53_flush_false",
    "Verif.Props.C53_gap_false",
    "Verif.Props.C53_dropped_false"
   ],
   "note": "False as stated: removals that cover the domain or are flush with a side are ignored, gaps between included polygons are filled, included polygons can be dropped. Proved: what acceptance means for holes, segments and vertices for every input; the exact domain for one included polygon, for one included and one removed polygon, and for two included polygons, in general position."
  },
  {
   "property": "C54",
   "status": "partial",
   "theorems": [
    "Verif.Props.C54_exact_partial",
    "Verif.Props.C54_shielded",
    "Verif.Props.C54_lost_false"
   ],
   "note": "Proved: the exact set of replaced triangles, that everything else stays, and which corners the new triangles have. That the segment becomes an edge and that the covered region stays is false: C54_lost_false gives an accepted segment beside a reflex corner for which triangulate returns a mesh that misses part of the domain and does not have the segment."
  },
  {
   "property": "C55",
   "status": "proved",
   "theorems": [
    "Verif.Props.C55_refine",
    "Verif.Props.C55_constraints",
    "Verif.Props.C55_triangulate"
   ],
   "note": "For refine: exact arithmetic, and under the assumption that an attempted circumcentre is not already a vertex of the mesh. For triangulate: any tolerance, if different vertices are not within the tolerance of each other; compared with the mesh of the same domain without free vertices."
  },
  {
   "property": "C56",
   "status": "proved",
   "theorems": [
    "Verif.Props.C56_reason",
    "Verif.Props.C55_triangulate"
   ],
   "note": "C56_reason holds for arbitrary predicates and constraints; C55_triangulate contains the same for the free vertices of triangulate in geometric terms."
  },
  {
   "property": "C57",
   "status": "partial",
   "theorems": [
    "Verif.Props.C57_vertices_partial"
   ],
   "note": "Proved for domains with a boundary and any accepted vertices inside, in exact arithmetic, if all sides of the boundary appear when the boundary alone is triangulated. Missing: holes and segments (with a segment the mesh need not even be a partition, C51_false)."
  },
  {
   "property": "C58",
   "status": "partial",
   "theorems": [
    "Verif.Props.C58_false",
    "Verif.Props.C58_progress_partial",
    "Verif.Props.C58_one_partial",
    "Verif.Props.C51_vertices_return_partial"
   ],
   "note": "False of the code (C58_false): a square with five accepted vertices and an order of the hash tables such that triangulate finishes without one of them. Proved, for a boundary whose sides appear when it is triangulated alone: triangulate returns, at least one accepted vertex is in the mesh, and a single accepted vertex is always in the mesh."
  },
  {
   "property": "C59",
   "status": "partial",
   "theorems": [
    "Verif.Props.C59_convex_partial",
    "Verif.Props.C59_hole_vertices_partial",
    "Verif.Props.C59_free_sides_partial",
    "Verif.Props.C59_reflex_false",
    "Verif.Props.C59_vertex_false",
    "Verif.Props.C59_two_holes_false",
    "Verif.Props.C59_panic_false",
    "Verif.Props.C59_thin_false",
    "Verif.Props.C59_endless_false"
   ],
   "note": "Convex boundary and one hole: the vertices of the hole are inserted without panic and the mesh stays Delaunay; if the sides of the boundary and of the hole are in the mesh after that, triangulate returns a partition of the boundary without the hole, for all hash orders. False of the code in general: counterexamples with a reflex corner of the boundary, with a hole and a vertex, and with two holes (overlap and panic); and with a single thin triangular hole in a square, where triangulate panics (C59_thin_false) or, with another hole, never returns (C59_endless_false: no number of steps is enough)."
  },
  {
   "property": "C60",
   "status": "partial",
   "theorems": [
    "Verif.Props.C60_refine_partial",
    "Verif.Props.C60_covers_partial",
    "Verif.Props.C60_delaunay_partial",
    "Verif.Props.C60_hole_false",
    "Verif.Props.C60_segment_false"
   ],
   "note": "Proved for domains with a simple counterclockwise boundary and accepted vertices, all sides of which appear when the boundary alone is triangulated (without this the triangulation itself may not be a partition, C51_false). Exact arithmetic, all schedulers, all parameters. False with one hole (C60_hole_false: a square with a triangular hole that is triangulated correctly, and after refine triangles overlap and cover part of the hole) and with one segment (C60_segment_false: a clockwise triangle after refine)."
  },
  {
   "property": "C61",
   "status": "partial",
   "theorems": [
    "Verif.Props.C61_output",
    "Verif.Props.C61_partition_partial"
   ],
   "note": "C61_output covers every input; indices are right only up to the order of the coordinates (false otherwise, C31_wrong_indices). C61_partition_partial: one included polygon and vertices, all sides of which appear when the polygon alone is triangulated. Missing: several polygons, removals, segments, for which the partition is false in general (C53, C59, C51_false). Encoding to and from JSON is not modelled."
  },
  {
   "property": "C62",
   "status": "partial",
   "theorems": [
    "Verif.Props.C62_triangulate_partial",
    "Verif.Props.C62_refine_partial",
    "Verif.Props.C62_program_partial",
    "Verif.Props.C62_triangulate_false",
    "Verif.Props.C62_refine_false"
   ],
   "note": "False with segments: C62_triangulate_false and C62_refine_false give two disjoint segments inside a square and an order of the hash tables with which triangulate, or refine for all parameters, panics (with one hole see C59_thin_false, with two C59_panic_false). The partial theorems cover domains with a boundary and vertices inside, if all sides of the boundary appear when it is triangulated alone; any fuel, so running out of steps is also no panic. Missing: holes, segments, boundaries with missing sides."
  },
  {
   "property": "C63",
   "status": "proved",
   "theorems": [
    "Verif.Props.C63_kept"
   ],
   "note": "For all sessions (Model/Histories.lean), exact arithmetic, no ghost vertices among the accepted items. Example: seven calls, two of them refused."
  },
  {
   "property": "C64",
   "status": "partial",
   "theorems": [
    "Verif.Props.C64_inside_partial",
    "Verif.Props.C24_vertex_inside_false",
    "Verif.Props.C24_nested_holes"
   ],
   "note": "Segments: complete. Vertices and holes: with respect to holes accepted before them; a hole accepted later can contain a stored vertex or an earlier hole (C24_vertex_inside_false, C24_nested_holes)."
  },
  {
   "property": "C65",
   "status": "partial",
   "theorems": [
    "Verif.Props.C65_mesh_partial",
    "Verif.Props.C65_after_partial",
    "Verif.Props.C65_safe_partial",
    "Verif.Props.C60_hole_false",
    "Verif.Props.C60_segment_false"
   ],
   "note": "Proved for sessions without holes and segments, for boundaries whose sides appear when the boundary alone is triangulated (all strictly convex ones: C66); C65_after_partial needs this only for the order of the last triangulate. With a hole or a segment the statement is false (C60_hole_false, C60_segment_false)."
  },
  {
   "property": "C66",
   "status": "proved",
   "theorems": [
    "Verif.Props.C66_mesh",
    "Verif.Props.C66_safe",
    "Verif.Props.C66_returns",
    "Verif.Props.C66_program",
    "Verif.Props.C66_program_safe",
    "Verif.Props.sidesAppear_convex",
    "Verif.Props.inside_iff_left"
   ],
   "note": "Exact arithmetic, tolerance zero. inside_iff_left confirms that the notion of inside is the intersection of the half planes. C66_program_safe is for inputs the parser accepts; refused inputs make main panic by design."
  },
  {
   "property": "C67",
   "status": "proved",
   "theorems": [
    "Verif.Props.C67_regular",
    "Verif.Props.C67_resolution",
    "Verif.Props.C67_disc",
    "Verif.Props.C67_program",
    "Verif.Props.C67_finishes"
   ],
   "note": "Over the real numbers with the exact sine and cosine; the rounding of f64 is not modelled. Resolutions below 5/2 make the parser panic (C32_panics)."
  },
  {
   "property": "C68",
   "status": "proved",
   "theorems": [
    "Verif.Props.C68_unchanged"
   ],
   "note": "Tolerance zero. A side that was split by an earlier refine has a vertex in the centre of its circle and does not meet the hypothesis."
  },
  {
   "property": "C69",
   "status": "proved",
   "theorems": [
    "Verif.Props.C29_first",
    "Verif.Props.C29_union",
    "Verif.Props.C29_refine",
    "Verif.Props.C29_rejected"
   ],
   "note": "All tolerances for the cover (C29_first, C29_union, C29_refine); nonnegative tolerance for the rejected circumcentre (C29_rejected). When several segments are encroached at once the pieces may still be encroached (C29_false)."
  },
  {
   "property": "C70",
   "status": "proved",
   "theorems": [
    "Verif.Props.C70_call",
    "Verif.Props.C70_calls",
    "Verif.Props.C70_program",
    "Verif.Props.C70_polylines",
    "Verif.Props.C70_convex",
    "Verif.Props.C70_returns",
    "Verif.Props.C70_circle"
   ],
   "note": "Exact arithmetic: the theorems are about the tolerance, not about the rounding of floating point numbers. The bound depends on the input; the fixed tolerance of the code is too large for small domains (see C71)."
  },
  {
   "property": "C71",
   "status": "partial",
   "theorems": [
    "Verif.Props.C71_origin",
    "Verif.Props.C71_origin_euclid",
    "Verif.Props.C71_unit_partial",
    "Verif.Props.C71_unit_euclid_partial",
    "Verif.Props.C71_small_tolerance",
    "Verif.Props.C71_conflicts",
    "Verif.Props.UnitsExample.C71_false",
    "Verif.Props.UnitsExample.C71_vertex_lost"
   ],
   "note": "Proved for the origin with every tolerance, and for the unit when numbers are compared exactly; for each input and each unit also for all small enough tolerances. With the tolerance of the code the unit matters: C71_false shows a square that has two triangles when its side is 1 and none when its side is 1e-7, and C71_vertex_lost an accepted vertex that is missing from the mesh of a square of side 1/3000. Exact arithmetic throughout: rounding is not modelled. Ghost vertices must not be handed over."
  },
  {
   "property": "C72",
   "status": "partial",
   "theorems": [
    "Verif.Props.C72_mesh_partial",
    "Verif.Props.C72_convex_partial",
    "Verif.Props.C72_circles",
    "Verif.Props.C72_stored_partial",
    "Verif.Props.C72_polygon_partial",
    "Verif.Props.C72_one_partial",
    "Verif.Props.C72_false",
    "Verif.Props.C72_lost_false"
   ],
   "note": "The triangles are determined by the vertices of the mesh when no four of them are on a circle, for boundaries with vertices inside, after any sequence of calls that insert vertices, triangulate and refine (C72_mesh_partial; for strictly convex boundaries without a condition on the sides, C72_convex_partial). Two calls of triangulate with the same stored vertices, all of which appear, give the same triangles (C72_stored_partial); that all appear needs no assumption when no vertex or one was accepted (C72_polygon_partial, C72_one_partial). With vertices on a circle, overlapping triangles have the same circumscribed circle (C72_circles). The full claim is false of the code: with four vertices on a circle two orders of the hash tables give different triangles (C72_false), and with vertices in general position one order loses an accepted vertex that another one keeps (C72_lost_false). Not covered: holes and segments."
  },
  {
   "property": "C73",
   "status": "partial",
   "theorems": [
    "Verif.Props.C73_mesh_partial",
    "Verif.Props.C73_convex",
    "Verif.Props.C73_bounds_partial",
    "Verif.Props.C73_triangulate_partial",
    "Verif.Props.C73_lost_partial"
   ],
   "note": "Proved for boundaries with vertices inside, after any sequence of calls that insert vertices, triangulate and refine (C73_mesh_partial; for strictly convex boundaries without a condition on the sides, C73_convex). After triangulate the number of triangles tells how many accepted vertices are missing (C73_triangulate_partial, C73_lost_partial), and the example beside it has both cases. Missing: holes and segments, and boundaries whose sides do not appear when they are triangulated alone."
  },
  {
   "property": "C74",
   "status": "proved",
   "theorems": [
    "Verif.Props.C74_mesh",
    "Verif.Props.C74_safe",
    "Verif.Props.C74_returns",
    "Verif.Props.C74_number",
    "Verif.Props.C74_program",
    "Verif.Props.C74_five_false"
   ],
   "note": "Proved without a condition on the shape or the order (C74_mesh, C74_safe, C74_returns, C74_program), with the number of triangles (C74_number). The key steps are that two vertices beside the first segment are never lost (C20_two_partial) and that each side of a simple quadrilateral has a circle through its ends with the other corners outside. Four is the limit: C74_five_false gives a simple pentagon for which triangulate returns a mesh without triangles, except ghosts."
  },
  {
   "property": "C75",
   "status": "proved",
   "theorems": [
    "Verif.Props.C75_triangles",
    "Verif.Props.C75_edges",
    "Verif.Props.C75_coordinates",
    "Verif.Props.C75_printed"
   ],
   "note": "The conversion of coordinates to single precision is an arbitrary function."
  },
  {
   "property": "C76",
   "status": "proved",
   "theorems": [
    "Verif.Props.C76_maps",
    "Verif.Props.C76_remove",
    "Verif.Props.all_orders"
   ],
   "note": "all_orders shows that the schedulers of the model realise every iteration order, and nothing else."
  },
  {
   "property": "C77",
   "status": "proved",
   "theorems": [
    "Verif.Props.C77_opposite_vertex",
    "Verif.Props.C77_opposite_edge",
    "Verif.Props.C77_outer_edges",
    "Verif.Props.C77_center",
    "Verif.Props.C77_midpoint",
    "Verif.Props.C77_ghost_encircles"
   ],
   "note": "Tolerance zero for the comparisons."
  },
  {
   "property": "C78",
   "status": "partial",
   "theorems": [
    "Verif.Props.C78_partial",
    "Verif.Props.C78_false"
   ],
   "note": "The full claim is false of the code: C78_false gives a domain of five vertices where the second call adds triangles. C78_partial: when the first call left no poor triangle and no vertex inside the circle over a side or segment as given by the user, the second call returns the same triangulator, for every order and step count."
  },
  {
   "property": "C79",
   "status": "proved",
   "theorems": [
    "Verif.Props.C79_input",
    "Verif.Props.C79_order"
   ],
   "note": "At the level of JSON values, with the rules of serde's derived readers (trusted). The characters of a document, the library for identifiers and the bounds of machine integers are not modelled."
  },
  {
   "property": "C80",
   "status": "proved",
   "theorems": [
    "Verif.Props.C80_round",
    "Verif.Props.C80_read",
    "Verif.Props.C80_written",
    "Verif.Props.C80_main",
    "Verif.Props.C80_refused"
   ],
   "note": "Assumes that the library for identifiers reads back what it writes. The computed data are those of C61; which coordinate an index denotes is the subject of C31."
  },
  {
   "property": "C81",
   "status": "partial",
   "theorems": [
    "Verif.Props.C81_added",
    "Verif.Props.C81_session",
    "Verif.Props.C81_kept_partial",
    "Verif.Props.C81_polygon_partial"
   ],
   "note": "The origin of every vertex is proved for all triangulators, parameters, tolerances and orders. That no vertex is lost is proved for domains with a boundary and vertices (exact arithmetic), and for all domains if no circumcentre that is tried and rejected is already a vertex of the mesh."
  },
  {
   "property": "C82",
   "status": "proved",
   "theorems": [
    "Verif.Props.C82_methods",
    "Verif.Props.C82_operations",
    "Verif.Props.C82_program"
   ],
   "note": "Also justifies the fuel of the model: all theorems about a run with some fuel are about the only outcome of the call. The examples show a call that returns, one that panics and one that never ends."
  },
  {
   "property": "C83",
   "status": "proved",
   "theorems": [
    "Verif.Props.C83_orientation",
    "Verif.Props.C83_reliable",
    "Verif.Props.C83_encroach",
    "Verif.Props.C83_area",
    "Verif.Props.C83_midpoint",
    "Verif.Props.C83_f64",
    "Verif.Props.C83_grid",
    "Verif.Props.C83_false"
   ],
   "note": "For every rounding with a bounded relative error; `roundF64` (nearest, ties to even, subnormal numbers, no overflow) is proved to be one. C83_false: the orientation test of f64 is wrong for three integer points near 4e8. The four by four determinant of the circumcircle test is computed by a factorisation in nalgebra and is not modelled with rounding."
  },
  {
   "property": "C84",
   "status": "proved",
   "theorems": [
    "Verif.Props.C84_between",
    "Verif.Props.C84_endpoint_false"
   ],
   "note": "C84_endpoint_false shows that strictly between is false."
  },
  {
   "property": "C85",
   "status": "proved",
   "theorems": [
    "Verif.Props.C85_grid",
    "Verif.Props.C85_accepts",
    "Verif.Props.C85_false"
   ],
   "note": "`insertVerticesRounded` is insert_vertices with a rounding after each operation. C85_false: with f64 a vertex outside of a triangle with integer corners near 4e8 is accepted. Overflow is not modelled."
  },
  {
   "property": "C86",
   "status": "proved",
   "theorems": [
    "Verif.Props.C86_exact",
    "Verif.Props.C86_circle",
    "Verif.Props.C86_integers",
    "Verif.Props.C86_false"
   ],
   "note": "The order of operations is that of nalgebra's LU decomposition with partial pivoting, which is not part of the repository. Overflow is not modelled; underflow is (s in Rounds). R is at least 1. C86_exact also removes the assumption that nalgebra's determinant is the exact one from the theorems in exact arithmetic."
  },
  {
   "property": "C87",
   "status": "proved",
   "theorems": [
    "Verif.Props.C87_margin",
    "Verif.Props.C87_integers",
    "Verif.Props.C87_delaunay",
    "Verif.Props.C87_outline",
    "Verif.Props.C87_convex",
    "Verif.Props.C87_order",
    "Verif.Props.C87_false"
   ],
   "note": "The insertion without boundary and holes (may_insert_triangle always true), as in the first step of triangulate; for the insertion of inner vertices the containment tests of polylines with rounding are not modelled. C87_outline assumes, as C65, that the sides appear in the exact triangulation; C87_convex does not. C87_false is a counterexample for vertices on a circle."
  },
  {
   "property": "C88",
   "status": "proved",
   "theorems": [
    "Verif.Props.C88_ends",
    "Verif.Props.C88_tiles",
    "Verif.Props.C88_survivors",
    "Verif.Props.C88_halves",
    "Verif.Props.C88_single",
    "Verif.Props.C88_pieces",
    "Verif.Props.C88_phase",
    "Verif.Props.C88_cover_false"
   ],
   "note": "The insertion of the midpoints in the mesh is arbitrary in these theorems (any answers to the other geometric questions); that it ends is the subject of other properties. Overflow is not modelled. C88_cover_false shows that C29_cover does not hold in f64."
  },
  {
   "property": "C89",
   "status": "proved",
   "theorems": [
    "Verif.Props.C89_grid",
    "Verif.Props.C89_unit",
    "Verif.Props.C89_blocked",
    "Verif.Props.C89_false"
   ],
   "note": "`meshVerticesRounded` is the boundary step and the vertex step of triangulate with a rounding after each operation, including the intersection of segments by a 2x2 inverse. C89_false: the accepted vertex is lost in f64 for every schedule, and some run returns; in exact arithmetic it is always inserted. That all inner vertices are inserted in f64 for grid coordinates is not proved: C89_grid is the condition whose failure blocks them. Overflow is not modelled."
  },
  {
   "property": "C90",
   "status": "proved",
   "theorems": [
    "Verif.Props.C90_blocked",
    "Verif.Props.C90_false"
   ],
   "note": "`refineRounded` is refine with a rounding after each operation; the answers of the quality test, which needs a square root, are a parameter. C90_false gives the triangle, with the mesh that one run of the boundary step computes, and a run in exact arithmetic for comparison. Overflow is not modelled."
  },
  {
   "property": "C91",
   "status": "proved",
   "theorems": [
    "Verif.Props.C91_insert",
    "Verif.Props.C91_domain",
    "Verif.Props.C91_triangulate",
    "Verif.Props.C91_refine",
    "Verif.Props.C86_exact"
   ],
   "note": "The programs of C83 to C90, whose parameter is the rounding, are with the identity for it the programs of the other properties. This ties the two models together; the order of operations inside nalgebra is stated in DESIGN.md."
  },
  {
   "property": "C92",
   "status": "proved",
   "theorems": [
    "Verif.Props.C92_swap",
    "Verif.Props.C92_area",
    "Verif.Props.C92_repeated",
    "Verif.Props.C92_second_end",
    "Verif.Props.C92_encroach",
    "Verif.Props.C92_encroach_ends",
    "Verif.Props.C92_grid",
    "Verif.Props.C92_rotation_false",
    "Verif.Props.C92_first_end_false",
    "Verif.Props.C92_corner_false"
   ],
   "note": "The rounding of f64 keeps the order and the sign. The _false theorems are the counterexamples named in the statement; without rounding the symmetries hold (C01_rotate, C01_swap)."
  },
  {
   "property": "C93",
   "status": "proved",
   "theorems": [
    "Verif.Props.C93_corner",
    "Verif.Props.C93_vertical",
    "Verif.Props.C93_beside",
    "Verif.Props.C93_insert",
    "Verif.Props.C93_horizontal_false",
    "Verif.Props.C93_flat_false",
    "Verif.Props.C93_panic_false"
   ],
   "note": "C93_horizontal_false is the counterexample for horizontal sides named in the statement, for every order of the hash tables. C93_flat_false and C93_panic_false show what it leads to, for one order of the hash tables; the shape of a triangle is compared in terms of the squares of its sides. Overflow is not modelled."
  },
  {
   "property": "C94",
   "status": "proved",
   "theorems": [
    "Verif.Props.C94_error",
    "Verif.Props.C94_orientation",
    "Verif.Props.C94_f64",
    "Verif.Props.C94_grid",
    "Verif.Props.C94_swap",
    "Verif.Props.C94_exact",
    "Verif.Props.C94_false",
    "Verif.Props.C94_panic_false",
    "Verif.Props.C94_rotation_false"
   ],
   "note": "C94_error and C94_orientation hold for every rounding with a relative error u. The _false theorems are the counterexamples named in the statement. Overflow is not modelled."
  },
  {
   "property": "C95",
   "status": "proved",
   "theorems": [
    "Verif.Props.C95_symmetric",
    "Verif.Props.C95_parallel",
    "Verif.Props.C95_parallel_grid",
    "Verif.Props.C95_box",
    "Verif.Props.C95_error",
    "Verif.Props.C95_cross_false",
    "Verif.Props.C95_split_false",
    "Verif.Props.C95_end_false",
    "Verif.Props.C95_self_false",
    "Verif.Props.C95_direction_false"
   ],
   "note": "The _false theorems are the counterexamples named in the statement; without rounding the claims hold up to the tolerance (C06). The 2x2 inverse is computed as described for C89. Overflow is not modelled."
  },
  {
   "property": "C96",
   "status": "proved",
   "theorems": [
    "Verif.Props.C96_swap",
    "Verif.Props.C96_none",
    "Verif.Props.C96_grid",
    "Verif.Props.C96_error",
    "Verif.Props.C96_none_false",
    "Verif.Props.C96_flat_false",
    "Verif.Props.C96_rotation_false"
   ],
   "note": "The _false theorems are the counterexamples named in the statement; without rounding see C03. The 2x2 inverse is computed as described for C89. Overflow is not modelled."
  },
  {
   "property": "C97",
   "status": "proved",
   "theorems": [
    "Verif.Props.C97_quality",
    "Verif.Props.C97_irregular",
    "Verif.Props.C97_large",
    "Verif.Props.C97_flat_false"
   ],
   "note": "For integer coordinates up to 2^25, where the area and the squared sides are exact; rounded square roots are an argument with the hypothesis RootRounds, which rootRounds_exists shows can be met. A division by a computed area of zero, which gives an infinity in the code, cannot occur there."
  }
 ]
}