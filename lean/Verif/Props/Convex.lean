import Verif.Lemmas.ConvexPolygon
import Verif.Props.Sessions

/-!
# C20, C51, C65 and C66: points in convex position and convex domains
-/

set_option linter.unusedSectionVars false

namespace Verif.Props

open Spec

variable {K : Type*} [Field K] [LinearOrder K] [IsStrictOrderedRing K]

/-- C20, points in convex position: if all requested points and the two points of the first segment are corners of one
strictly convex polygon, all requested points end up in the mesh, whatever the order of the list and of the hash
tables. -/
theorem C20_convex_partial {f fuel : Nat} {σ : Sched} {g a b : Vertex K} {l vs : List (Vertex K)} {r : SolveState (Vertex K)}
    (hg : g.isGhost = true) (hc : StrictlyConvex l) (hreal : ∀ v ∈ l, v.isGhost = false) (ha : a ∈ l) (hb : b ∈ l)
    (hab : a ≠ b) (hn : vs.Nodup) (hvs : ∀ v ∈ vs, v ∈ l)
    (h : includeVertices (geoPreds 0 f none []) [] fuel σ (Mesh.fromInitialSegment g a b) vs = .ok r) :
    ∀ w ∈ vs, InMesh r.mesh w := by
  have h' : includeVertices (geoPreds 0 f none []) [] (max fuel (4 * vs.length + 7)) σ (Mesh.fromInitialSegment g a b) vs
      = .ok r := by
    rw [includeVertices_more (by rw [h]; simp) (le_max_left _ _)]
    exact h
  have hrem := convex_inserted hg hc hreal ha hb hab hn hvs (le_max_right _ _) h'
  obtain ⟨ins, i1, i2⟩ := C15_vertices (fromInitialSegment_sound _ _ _) h
  rw [hrem, List.append_nil] at i1
  intro w hw
  by_cases hm : w ∈ (Mesh.fromInitialSegment g a b).vertices (geoPreds (K := K) 0 f none []).ghost
  · exact (i2 w).2 (Or.inl (Verif.mem_vertices.1 hm).1)
  · exact (i2 w).2 (Or.inr (i1.mem_iff.2 (List.mem_filter.2 ⟨hw, by simpa using hm⟩)))

/-- The sides of a strictly convex polygon appear. -/
theorem sidesAppear_convex {b : Polyline (Vertex K)} (hb : b.opened = false) (hc : StrictlyConvex b.vertices)
    (h3 : 3 ≤ b.vertices.length) (hreal : ∀ v ∈ b.vertices, v.isGhost = false) : SidesAppear b := by
  intro fuel σ T0 h0
  have hs := hc.simple h3
  have ha := hc.area h3
  have hw := windsOnce hb hs ha
  obtain ⟨v1, v2, rest, hl, h⟩ := triangulate_boundary rfl rfl rfl h0
  have h12 := first_side hl
  change (v1, v2) ∈ pairs b.vertices false at h12
  change includeBoundary (geoPreds 0 fuel none []) Vertex.ghost [] fuel (σ.sub 0) (Mesh.fromInitialSegment Vertex.ghost v1 v2)
    b = .ok T0.mesh at h
  unfold includeBoundary at h
  rw [Res.bind_eq_ok] at h
  obtain ⟨r, hr, h⟩ := h
  obtain ⟨r', hr', hgood, k1, k2, ⟨s0, hs0, hsol0⟩, hvx⟩ := polygon_inserted (g := Vertex.ghost) (f := fuel)
    (fuel := max fuel (4 * b.vertices.length + 7)) (σ := (σ.sub 0).sub 0) rfl hs hw hreal (le_max_right _ _) h12
  rw [includeVertices_more (by rw [hr]; simp) (le_max_left _ _)] at hr'
  have e := hr.symm.trans hr'
  simp only [Res.ok.injEq] at e
  subst e
  obtain ⟨m1, m2⟩ := mem_pairs h12
  have h12' : v1 ≠ v2 := fun e => hs.proper _ h12 (by rw [e]; exact ⟨rfl, rfl⟩)
  have hall := C20_convex_partial rfl hc hreal m1 m2 h12' (hc.nodup h3) (fun v hv => hv) hr
  have hE : Edged r.mesh.tris b.vertices := by
    intro s hm
    obtain ⟨n1, n2⟩ := mem_pairs hm
    refine hgood.chord hs0 hsol0 hvx ⟨hall _ n1, hreal _ n1⟩ ⟨hall _ n2, hreal _ n2⟩ ?_ (hc.free h3 hm)
    intro e
    exact hs.proper s hm (by rw [e]; exact ⟨rfl, rfl⟩)
  intro s hm
  obtain ⟨t, ht, st, hside, hnr⟩ := Edged.kept_side hgood hs0 hsol0 hreal hE hs hw rfl hm
  exact ⟨t, (C26_outside k1 k2 hgood.simple hb h t).2 (Or.inl ⟨ht, hnr⟩), solid_iff.2 st, hside⟩

/-- `triangulate` returns after enough steps, if the sides of the polygon appear. -/
theorem Bare.returns {b : Polyline (Vertex K)} {T : Triangulator K} (hT : Bare b T) (hb : b.opened = false)
    (hs : SimplePolygon b.vertices) (ha : 0 < shoelace b.vertices) (hreal : ∀ v ∈ b.vertices, v.isGhost = false)
    (hin : SidesAppear b) : ∃ n, ∀ fuel, n ≤ fuel → ∀ σ, ∃ T', T.triangulate 0 fuel σ = .ok T' := by
  obtain ⟨n0, hn0⟩ := may_total (b := b) (g := Vertex.ghost) hreal (V := b.vertices ++ T.vertices) (fun v hv => by
    rcases List.mem_append.1 hv with k | k
    · exact hreal v k
    · exact (hT.inside v k).1)
  let L : List (Tri (Vertex K)) := b.vertices.flatMap fun x => b.vertices.flatMap fun y =>
    (Vertex.ghost :: b.vertices).map fun z => ⟨x, y, z⟩
  refine ⟨n0 + (6 * b.vertices.length + 7) + (2 * (L.length + 2 * T.vertices.length) + 3), fun fuel hfu σ => ?_⟩
  obtain ⟨T0, h0⟩ := C51_returns_partial (fuel := fuel) (σ := σ) (T := Triangulator.new b) rfl rfl rfl hs
    (windsOnce hb hs ha) hreal (by change 6 * b.vertices.length + 7 ≤ fuel; omega)
  obtain ⟨⟨G, hG⟩, hF, k4, k5, k6, hv, he⟩ := hT.start (σ := σ) hb hs ha hreal h0 (hin _ _ _ h0)
  obtain ⟨h1, h2, h3⟩ := hv (σ.sub 6)
  have hlen : T0.mesh.tris.length ≤ L.length := by
    refine (List.subperm_of_subset hF.simple.nodup fun t ht => ?_).length_le
    obtain ⟨o1, o2, o3⟩ := k6 t ht
    refine List.mem_flatMap.2 ⟨t.v1, o1, List.mem_flatMap.2 ⟨t.v2, o2, List.mem_map.2 ⟨t.v3, ?_, rfl⟩⟩⟩
    rcases o3 with k | k
    · exact List.mem_cons_of_mem _ k
    · rw [k]; exact List.mem_cons_self
  have hsh : (shuffle (σ.sub 6) T.vertices).length = T.vertices.length := (shuffle_perm _ _).length_eq
  obtain ⟨r, hr, -⟩ := (hG.court fuel).include_ok (walls hb) (hn0 fuel (by omega)) (σ := σ.sub 5) k4 k5 hF h1 h2 h3
    (fun t ht => by
      obtain ⟨o1, o2, o3⟩ := k6 t ht
      exact ⟨List.mem_append_left _ o1, List.mem_append_left _ o2, o3.imp_left (List.mem_append_left _)⟩)
    (fun w hw => List.mem_append_right _ (mem_shuffle.1 hw)) (fuel := fuel) (by rw [hsh]; omega)
  exact ⟨_, by rw [he, hr, Res.bind_ok]⟩

/-- A polygon is bounded. -/
theorem bounded_polygon (l : List (Vertex K)) : ∃ M, ∀ u ∈ l, |u.x| < M ∧ |u.y| < M := by
  induction l with
  | nil => exact ⟨0, by simp⟩
  | cons a l ih =>
    obtain ⟨M, h⟩ := ih
    refine ⟨max M (max |a.x| |a.y| + 1), fun u hu => ?_⟩
    have k1 := le_max_left M (max |a.x| |a.y| + 1)
    have k2 := le_max_right M (max |a.x| |a.y| + 1)
    have k3 := le_max_left |a.x| |a.y|
    have k4 := le_max_right |a.x| |a.y|
    rcases List.mem_cons.1 hu with rfl | hu
    · exact ⟨by linarith, by linarith⟩
    · obtain ⟨q1, q2⟩ := h u hu
      exact ⟨by linarith, by linarith⟩

/-- In every direction, some corner of the polygon is further than a point inside. -/
theorem inside_support {l : List (Vertex K)} {w : Vertex K} (h : InsidePolygon l w) {dx dy : K} (hd : dx ≠ 0 ∨ dy ≠ 0) :
    ∃ v ∈ l, dx * w.x + dy * w.y < dx * v.x + dy * v.y := by
  by_contra hn
  push Not at hn
  obtain ⟨hoff, hwind⟩ := h
  obtain ⟨M, hM⟩ := bounded_polygon l
  -- the points on the way out
  let o : K → Vertex K := fun k => ⟨w.x + k * dx, w.y + k * dy, false⟩
  have hlen : 0 < dx ^ 2 + dy ^ 2 := by
    rcases hd with hd | hd
    · have := sq_nonneg dy; have : 0 < dx ^ 2 := by positivity
      linarith
    · have := sq_nonneg dx; have : 0 < dy ^ 2 := by positivity
      linarith
  have hconst : ∀ k, 0 ≤ k → windingNumber (pairs l false) w = windingNumber (pairs l false) (o k) := by
    intro k hk
    refine winding_const l fun r hr p hp hq => ?_
    obtain ⟨t, t0, t1, x1, y1⟩ := hq
    simp only [o] at x1 y1
    obtain ⟨m1, m2⟩ := mem_pairs hr
    have hle : dx * p.x + dy * p.y ≤ dx * w.x + dy * w.y := by
      have c1 := hn r.1 m1
      have c2 := hn r.2 m2
      obtain ⟨u, u0, u1, x2, y2⟩ := hp
      have e : dx * p.x + dy * p.y = (1 - u) * (dx * r.1.x + dy * r.1.y) + u * (dx * r.2.x + dy * r.2.y) := by
        rw [x2, y2]; ring
      rw [e]
      have := mul_le_mul_of_nonneg_left c1 (sub_nonneg.2 u1)
      have := mul_le_mul_of_nonneg_left c2 u0
      linarith
    have hz : t * k = 0 := by
      by_contra hz
      have hpos : 0 < t * k := lt_of_le_of_ne (mul_nonneg t0 hk) (Ne.symm hz)
      have := mul_pos hpos hlen
      have e : dx * p.x + dy * p.y = dx * w.x + dy * w.y + t * k * (dx ^ 2 + dy ^ 2) := by
        rw [x1, y1]; ring
      linarith
    refine hoff r hr ?_
    obtain ⟨u, u0, u1, x2, y2⟩ := hp
    refine ⟨u, u0, u1, ?_, ?_⟩
    · rw [← x2, x1]
      linear_combination -dx * hz
    · rw [← y2, y1]
      linear_combination -dy * hz
  have far : ∃ k, 0 ≤ k ∧ (M ≤ |(o k).x| ∨ M ≤ |(o k).y|) := by
    obtain ⟨u, hu, -⟩ := (winding_box hwind).1
    have hM0 : 0 < M := lt_of_le_of_lt (abs_nonneg _) (hM u hu).1
    have key : ∀ d c : K, d ≠ 0 → M ≤ |c + (M + |c|) / |d| * d| := by
      intro d c hd
      have hd' : 0 < |d| := abs_pos.2 hd
      have e : |(M + |c|) / |d| * d| = M + |c| := by
        rw [abs_mul, abs_div, abs_abs, div_mul_cancel₀ _ hd'.ne', abs_of_pos]
        have := abs_nonneg c
        linarith
      have := abs_sub_abs_le_abs_sub ((M + |c|) / |d| * d) (-c)
      rw [e, abs_neg, sub_neg_eq_add, add_comm ((M + |c|) / |d| * d) c] at this
      linarith
    rcases hd with hd | hd
    · exact ⟨(M + |w.x|) / |dx|, by positivity, Or.inl (key _ w.x hd)⟩
    · exact ⟨(M + |w.y|) / |dy|, by positivity, Or.inr (key _ w.y hd)⟩
  obtain ⟨k, hk, hfar⟩ := far
  rw [hconst k hk] at hwind
  obtain ⟨⟨u1, i1, j1⟩, ⟨u2, i2, j2⟩, ⟨u3, i3, j3⟩, ⟨u4, i4, j4⟩⟩ := winding_box hwind
  rcases hfar with hf | hf
  · have a1 := abs_lt.1 (hM u1 i1).1
    have a2 := abs_lt.1 (hM u2 i2).1
    have : |(o k).x| < M := abs_lt.2 ⟨by linarith, by linarith⟩
    linarith
  · have a1 := abs_lt.1 (hM u3 i3).2
    have a2 := abs_lt.1 (hM u4 i4).2
    have : |(o k).y| < M := abs_lt.2 ⟨by linarith, by linarith⟩
    linarith

/-- A point that a strictly convex polygon encloses is on the left of all sides. -/
theorem inside_left {l : List (Vertex K)} (hc : StrictlyConvex l) (h3 : 3 ≤ l.length) {w : Vertex K}
    (h : InsidePolygon l w) : ∀ s ∈ pairs l false, 0 < cross s.1 s.2 w := by
  intro s hs
  by_contra hn
  push Not at hn
  have hne : ¬ SamePoint s.1 s.2 := (hc.simple h3).proper s hs
  obtain ⟨v, hv, hlt⟩ := inside_support h (dx := s.2.y - s.1.y) (dy := -(s.2.x - s.1.x)) (by
    by_contra hz
    push Not at hz
    exact hne ⟨by linarith [hz.2], by linarith [hz.1]⟩)
  have := hc.convex h3 s hs v hv
  simp only [cross] at this hn
  nlinarith

/-- The inside of a strictly convex polygon: the points on the left of all its sides. -/
theorem inside_iff_left {l : List (Vertex K)} (hc : StrictlyConvex l) (h3 : 3 ≤ l.length)
    (hreal : ∀ v ∈ l, v.isGhost = false) {w : Vertex K} :
    InsidePolygon l w ↔ ∀ s ∈ pairs l false, 0 < cross s.1 s.2 w := by
  refine ⟨inside_left hc h3, fun h => ?_⟩
  have hs := hc.simple h3
  have ha := hc.area h3
  let B : Polyline (Vertex K) := ⟨l, false, by omega⟩
  have hin := sidesAppear_convex (b := B) rfl hc h3 hreal
  -- some point is inside
  obtain ⟨z, hz⟩ : ∃ z, InsidePolygon l z := by
    obtain ⟨n, hn⟩ := (bare_new B).returns rfl hs ha hreal hin
    obtain ⟨T0, h0⟩ := hn n le_rfl Sched.first
    obtain ⟨hk, hne⟩ := (bare_new B).triangulate rfl hs ha hreal h0 (hin _ _ _ h0) h0
    have hp := hk.proper hne
    obtain ⟨v1, v2, rest, hl⟩ := two_vertices B
    obtain ⟨t, ht, hf, -⟩ := hin _ _ _ h0 _ (first_side hl)
    refine ⟨middle t, (hp.inside t ht ?_).2 _ (inner_middle (solid_iff.1 hf))⟩
    simp [HasGhost, hf.1, hf.2.1, hf.2.2.1]
  have hzl := inside_left hc h3 hz
  have hoff : ∀ x : Vertex K, (∀ s ∈ pairs l false, 0 < cross s.1 s.2 x) → ∀ s ∈ pairs l false, ¬ OnSegment s.1 s.2 x := by
    rintro x hx s hs' ⟨t, -, -, x1, y1⟩
    have := hx s hs'
    have e : cross s.1 s.2 x = 0 := by
      simp only [cross]
      rw [x1, y1]
      ring
    linarith
  refine ⟨hoff w h, ?_⟩
  have := winding_const l (v := w) (w := z) fun r hr p hp hq => by
    refine hoff p (fun s hs' => ?_) r hr hp
    obtain ⟨t, t0, t1, x1, y1⟩ := hq
    have e : cross s.1 s.2 p = (1 - t) * cross s.1 s.2 w + t * cross s.1 s.2 z := by
      simp only [cross]
      rw [x1, y1]
      ring
    rw [e]
    have c1 := h s hs'
    have c2 := hzl s hs'
    rcases eq_or_lt_of_le t0 with rfl | t0
    · simpa using c1
    · have := mul_pos t0 c2
      have := mul_nonneg (sub_nonneg.2 t1) c1.le
      linarith
  rw [this]
  exact hz.2

/-! ## C66 -/

/-- C66: in a convex domain vertices are inserted, the domain is triangulated and refined, any number of times and in any
order, with any parameters. If `triangulate` was called, the mesh is a proper triangulation of the polygon, no matter which
call was the last. -/
theorem C66_mesh {dist : Vertex K → Vertex K → K} {b : Polyline (Vertex K)} {T : Triangulator K} {l : List (Request K)}
    (hb : b.opened = false) (hc : StrictlyConvex b.vertices) (h3 : 3 ≤ b.vertices.length)
    (hreal : ∀ v ∈ b.vertices, v.isGhost = false) (h : Session 0 dist (Triangulator.new b) l T) (hl : PlainCalls l)
    (ht : Request.triangulate ∈ l) : Proper b T.mesh :=
  C65_mesh_partial hb (hc.simple h3) (hc.area h3) hreal h hl (sidesAppear_convex hb hc h3 hreal) ht

/-- C66: no further call of this kind panics. -/
theorem C66_safe {dist : Vertex K → Vertex K → K} {b : Polyline (Vertex K)} {T : Triangulator K} {l : List (Request K)}
    (hb : b.opened = false) (hc : StrictlyConvex b.vertices) (h3 : 3 ≤ b.vertices.length)
    (hreal : ∀ v ∈ b.vertices, v.isGhost = false) (h : Session 0 dist (Triangulator.new b) l T) (hl : PlainCalls l)
    (fuel : Nat) (σ : Sched) {q : Request K} (hq : PlainCalls [q]) : T.perform 0 fuel dist σ q ≠ .panic :=
  C65_safe_partial hb (hc.simple h3) (hc.area h3) hreal h hl (sidesAppear_convex hb hc h3 hreal) fuel σ hq

/-- C66: after any calls of this kind, `triangulate` returns, for every order of the hash tables, within a number of steps
that does not depend on this order. -/
theorem C66_returns {dist : Vertex K → Vertex K → K} {b : Polyline (Vertex K)} {T : Triangulator K} {l : List (Request K)}
    (hb : b.opened = false) (hc : StrictlyConvex b.vertices) (h3 : 3 ≤ b.vertices.length)
    (hreal : ∀ v ∈ b.vertices, v.isGhost = false) (h : Session 0 dist (Triangulator.new b) l T) (hl : PlainCalls l) :
    ∃ n, ∀ fuel, n ≤ fuel → ∀ σ, ∃ T', T.triangulate 0 fuel σ = .ok T' := by
  have hin := sidesAppear_convex hb hc h3 hreal
  obtain ⟨k1, -⟩ := Kept.session hb (hc.simple h3) (hc.area h3) hreal ⟨bare_new b, Or.inl rfl⟩ h hl fun _ => hin
  exact k1.bare.returns hb (hc.simple h3) (hc.area h3) hreal hin

/-- C66, the program: an input with one convex included polygon and vertices. The triangles that are written are a
partition of the polygon with the Delaunay property. -/
theorem C66_program {fuel : Nat} {F : CircleFns K} {dist : Vertex K → Vertex K → K} {σ : Sched} {i : Input K}
    {out : Output (Vertex K)} {b : List (Vertex K)}
    (hinc : (i.actions.filter fun a => decide (a.intent = "include")).filterMap (polygonOf F) = [b])
    (hrem : ∀ a ∈ i.actions, a.intent ≠ "remove") (hseg : ∀ a ∈ i.actions, a.geometry ≠ "segments")
    (hc : StrictlyConvex b) (h3 : 3 ≤ b.length) (hreal : ∀ v ∈ b, v.isGhost = false)
    (h : runProgram 0 fuel F dist σ i = .ok out) :
    ∃ order : List (Tri (Vertex K)), order.Nodup ∧ Lists out order (fun v => ∃ t ∈ order, IsCorner t v) ∧
      (∀ t ∈ order, Face t ∧ ∀ w, Inner t w → InsidePolygon b w) ∧
      (∀ w, InsidePolygon b w → ∃ t ∈ order, InOrOn t w) ∧
      (∀ s ∈ order, ∀ t ∈ order, ∀ w, Inner s w → Inner t w → s = t) ∧
      DelaunayInside b order := by
  let B : Polyline (Vertex K) := ⟨b, false, by omega⟩
  obtain ⟨-, d, T, T1, T2, order, hd, h1, h2, -⟩ := C61_output h
  obtain ⟨hvs, hdd⟩ := single_domain (b := B) hd hinc hrem hseg rfl
  rw [hdd] at h1
  obtain ⟨T0, h0⟩ := ((bare_new B).insert rfl hvs (buildTriangulator_plain h1)).alone h2
  exact C61_partition_partial (b := B) hinc hrem hseg rfl (hc.simple h3) (hc.area h3) hreal h0
    (sidesAppear_convex (b := B) rfl hc h3 hreal _ _ _ h0) h

/-- C66, the program: once such an input is accepted by the parser, the program does not panic. -/
theorem C66_program_safe {fuel : Nat} {F : CircleFns K} {dist : Vertex K → Vertex K → K} {σ : Sched} {i : Input K}
    {b : List (Vertex K)} {q : Triangulator K × RefineParams K}
    (hinc : (i.actions.filter fun a => decide (a.intent = "include")).filterMap (polygonOf F) = [b])
    (hrem : ∀ a ∈ i.actions, a.intent ≠ "remove") (hseg : ∀ a ∈ i.actions, a.geometry ≠ "segments")
    (hc : StrictlyConvex b) (h3 : 3 ≤ b.length) (hreal : ∀ v ∈ b, v.isGhost = false)
    (hp : parseInput 0 fuel F (σ.sub 0) i = .ok (.ok q)) : runProgram 0 fuel F dist σ i ≠ .panic := by
  let B : Polyline (Vertex K) := ⟨b, false, by omega⟩
  have hin := sidesAppear_convex (b := B) rfl hc h3 hreal
  have hs := hc.simple h3
  have ha := hc.area h3
  unfold runProgram
  rw [hp, Res.bind_ok]
  obtain ⟨T, p⟩ := q
  simp only
  unfold parseInput at hp
  rw [Res.bind_eq_ok] at hp
  obtain ⟨r, hr, hp⟩ := hp
  cases r with
  | err => simp at hp
  | ok d =>
    simp only [Res.bind_eq_ok] at hp
    obtain ⟨r, hB, hp⟩ := hp
    cases r with
    | err => simp at hp
    | ok T' =>
      simp only [Res.ok.injEq, Parsed.ok.injEq, Prod.mk.injEq] at hp
      obtain ⟨rfl, rfl⟩ := hp
      obtain ⟨c1, c2, c3, c4⟩ := C32_content _ hr
      obtain ⟨hvs, hdd⟩ := single_domain (b := B) ⟨c1, c2, parseActions_closed hr (by simp), c3, c4⟩ hinc hrem hseg rfl
      rw [hdd] at hB
      have hT := (bare_new B).insert rfl hvs (buildTriangulator_plain hB)
      refine Res.bind_safe (hT.triangulate_safe rfl hs ha hreal hin) fun T1 h1 => ?_
      obtain ⟨T0, h0⟩ := hT.alone h1
      obtain ⟨hk, -⟩ := hT.triangulate rfl hs ha hreal h0 (hin _ _ _ h0) h1
      refine Res.bind_safe (hk.refine_safe rfl) fun T2 _ => ?_
      obtain ⟨out, -, k, -⟩ := C31_output_partial Vertex.isGhost (σ.sub 3) T2.mesh
      rw [k]
      intro h; cases h

namespace ConvexExample

open ValidityExample HistoryExample

def pentagon : Polyline (Vertex ℚ) := ⟨[pt 0 0, pt 4 0, pt 5 3, pt 2 5, pt (-1) 3], false, by simp⟩

theorem pentagon_convex : StrictlyConvex pentagon.vertices := strictlyConvex_of_check (by decide +kernel)

/-- Vertices are inserted before and after the first triangulation, and the mesh is refined twice. -/
def requests : List (Request ℚ) :=
  [.vertices [pt 1 1, pt 3 2], .triangulate, .refine ⟨some 3, 10⟩, .vertices [pt 2 4], .refine ⟨some 2, 10⟩]

theorem requests_plain : PlainCalls requests := by
  refine ⟨by simp [requests], by simp [requests], fun vs h => ?_⟩
  simp only [requests, List.mem_cons, List.not_mem_nil, or_false, reduceCtorEq, Request.vertices.injEq, false_or] at h
  rcases h with rfl | rfl <;> decide +kernel

theorem play_sublist {fuel : Nat} {σ : Sched} {qs l : List (Request ℚ)} {T T' : Triangulator ℚ}
    (h : play fuel σ qs T = .ok (T', l)) : l.Sublist qs := by
  induction qs generalizing T l with
  | nil =>
    simp only [play, Res.ok.injEq, Prod.mk.injEq] at h
    rw [← h.2]
  | cons q qs ih =>
    simp only [play, Res.bind_eq_ok] at h
    obtain ⟨⟨T1, ok⟩, hq, ⟨T2, l2⟩, hr, h⟩ := h
    simp only [Res.ok.injEq, Prod.mk.injEq] at h
    obtain ⟨rfl, rfl⟩ := h
    have := ih hr
    cases ok
    · simpa using this.cons q
    · simpa using this

/-- C65 and C66 apply to these calls: all are accepted, and the mesh of 28 triangles is proper. -/
example : ∃ T, Session 0 blocks (Triangulator.new pentagon) requests T ∧ SidesAppear pentagon ∧ T.mesh.tris.length = 28 ∧
    Proper pentagon T.mesh := by
  have key : (match play 60 (order 2) requests (Triangulator.new pentagon) with
      | .ok r => decide (r.2.length = 5) && decide (r.1.mesh.tris.length = 28)
      | _ => false) = true := by decide +kernel
  match hp : play 60 (order 2) requests (Triangulator.new pentagon) with
  | .ok (T, l) =>
    rw [hp] at key
    simp only [Bool.and_eq_true, decide_eq_true_eq] at key
    obtain rfl : l = requests := (play_sublist hp).eq_of_length key.1
    have hS : Session 0 blocks (Triangulator.new pentagon) requests T := by
      simpa using play_session (Session.start (eps := 0) (dist := blocks)) hp
    have hr : ∀ v ∈ pentagon.vertices, v.isGhost = false := by decide +kernel
    exact ⟨T, hS, sidesAppear_convex rfl pentagon_convex (by decide) hr, key.2,
      C66_mesh rfl pentagon_convex (by decide) hr hS requests_plain (by simp [requests])⟩
  | .panic => rw [hp] at key; cases key
  | .diverged => rw [hp] at key; cases key

/-- An input with the pentagon and two vertices. -/
def pentagonInput : Input ℚ :=
  ⟨[⟨"constraint", "vertices", [], [(1, 1)], []⟩,
    ⟨"include", "polyline", [], [(0, 0), (4, 0), (5, 3), (2, 5), (-1, 3)], []⟩], ⟨some 3, 10⟩⟩

/-- C66 applies to this input. -/
example : ∃ out, runProgram 0 60 noCircles blocks (order 3) pentagonInput = .ok out ∧ 3 ≤ out.triangles.length ∧
    ∃ order : List (Tri (Vertex ℚ)), Lists out order (fun v => ∃ t ∈ order, IsCorner t v) ∧
      (∀ w, InsidePolygon pentagon.vertices w → ∃ t ∈ order, InOrOn t w) := by
  have key : (match written (order 3) pentagonInput with
      | some q => decide (3 ≤ q.2)
      | none => false) = true := by decide +kernel
  unfold written at key
  match hp : runProgram 0 60 noCircles blocks (order 3) pentagonInput with
  | .ok out =>
    rw [hp] at key
    simp only [decide_eq_true_eq] at key
    obtain ⟨order, -, k2, -, k4, -⟩ := C66_program (b := pentagon.vertices) (by decide +kernel) (by decide +kernel)
      (by decide +kernel) pentagon_convex (by decide) (by decide +kernel) hp
    exact ⟨out, rfl, key, order, k2, k4⟩
  | .panic => rw [hp] at key; cases key
  | .diverged => rw [hp] at key; cases key

/-- C20 applies to the corners of the pentagon, inserted from one of its diagonals. -/
example : ∃ r, includeVertices (geoPreds 0 60 none []) [] 60 (order 1)
      (Mesh.fromInitialSegment Vertex.ghost (pt 0 0) (pt 5 3)) [pt 2 5, pt 4 0, pt (-1) 3] = .ok r ∧
    InMesh r.mesh (pt 4 0) ∧ InMesh r.mesh (pt (-1) 3) := by
  have key : (match includeVertices (geoPreds 0 60 none []) [] 60 (order 1)
      (Mesh.fromInitialSegment Vertex.ghost (pt 0 0) (pt 5 3)) [pt 2 5, pt 4 0, pt (-1) 3] with
      | .ok _ => true
      | _ => false) = true := by decide +kernel
  match hp : includeVertices (geoPreds 0 60 none []) [] 60 (order 1)
      (Mesh.fromInitialSegment Vertex.ghost (pt 0 0) (pt 5 3)) [pt 2 5, pt 4 0, pt (-1) 3] with
  | .ok r =>
    have h := C20_convex_partial rfl pentagon_convex (by decide +kernel) (by decide +kernel) (by decide +kernel)
      (by decide +kernel) (by decide +kernel) (by decide +kernel) hp
    exact ⟨r, rfl, h _ (by simp), h _ (by simp)⟩
  | .panic => rw [hp] at key; cases key
  | .diverged => rw [hp] at key; cases key

end ConvexExample

end Verif.Props
