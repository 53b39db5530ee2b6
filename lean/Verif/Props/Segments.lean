import Verif.Lemmas.Sound
import Verif.Lemmas.Constraints
import Verif.Props.Refinement
import Verif.Props.Carve
import Verif.Lemmas.Triangulator
import Verif.Props.Insertion
import Verif.Props.Hull
import Verif.Lemmas.RegionCheck
import Verif.Spec.Delaunay
import Mathlib.Algebra.Order.Ring.Rat
import Mathlib.Algebra.Field.Rat

/-!
# Including a segment (C54), constrained edges (C55) and the reasons for removing triangles (C56)
-/

set_option linter.unusedSectionVars false

namespace Verif.Props

open Spec

section any

variable {V : Type*} [DecidableEq V]

theorem arrangeLoop_vertices {veq : V → V → Bool} {edges : List (Edge V)} {head : V} {S : V → Prop}
    (hS : ∀ e ∈ edges, S e.v2) : ∀ (n : Nat) (tail : V) (acc vs : List V), (∀ v ∈ acc, S v) →
    arrangeLoop veq (arrangeMap edges) head n tail acc = .ok vs → ∀ v ∈ vs, S v := by
  intro n
  induction n with
  | zero => intro tail acc vs _ h; simp [arrangeLoop] at h
  | succ n ih =>
    intro tail acc vs hacc h
    rw [arrangeLoop] at h
    cases hw : arrangeMap edges tail with
    | none => rw [hw] at h; simp only [Res.ok.injEq] at h; subst h; exact hacc
    | some w =>
      rw [hw] at h
      simp only [] at h
      split_ifs at h with hv
      · simp only [Res.ok.injEq] at h; subst h; exact hacc
      · refine ih w (acc ++ [w]) vs (fun v hv => ?_) h
        rcases List.mem_append.1 hv with hv | hv
        · exact hacc v hv
        · rw [List.mem_singleton.1 hv]
          unfold arrangeMap at hw
          rw [Option.map_eq_some_iff] at hw
          obtain ⟨e, he, rfl⟩ := hw
          exact hS e (List.mem_reverse.1 (List.mem_of_find?_eq_some he))

theorem arrange_vertices {veq : V → V → Bool} {σ : Sched} {fuel : Nat} {edges : List (Edge V)} {p : Polyline V}
    (h : Polyline.arrange veq σ fuel edges = .ok (some p)) : p.opened = false ∧
    ∀ v ∈ p.vertices, ∃ e ∈ edges, v = e.v1 ∨ v = e.v2 := by
  unfold Polyline.arrange at h
  simp only [] at h
  cases hc : choose (σ.sub 1) (toSet ((shuffle (σ.sub 0) edges).map (·.v1))) with
  | none => rw [hc] at h; simp at h
  | some head =>
    rw [hc] at h
    simp only [Res.bind_eq_ok] at h
    obtain ⟨vs, h1, h2⟩ := h
    split_ifs at h2 with hl
    on_goal 2 => simp at h2
    split at h2
    · simp at h2
    · rename_i q hq
      simp only [Res.ok.injEq, Option.some.injEq] at h2
      subst h2
      have hv : q.vertices = vs ∧ q.opened = false := by
        unfold Polyline.newClosed at hq
        split_ifs at hq
        simp only [Option.some.injEq] at hq
        subst hq
        exact ⟨rfl, rfl⟩
      refine ⟨hv.2, fun v hv' => ?_⟩
      rw [hv.1] at hv'
      refine arrangeLoop_vertices (S := fun v => ∃ e ∈ edges, v = e.v1 ∨ v = e.v2)
        (fun e he => ⟨e, mem_shuffle.1 he, Or.inr rfl⟩) fuel head [head] vs (fun w hw => ?_) h1 v hv'
      rw [List.mem_singleton.1 hw]
      have : head ∈ toSet ((shuffle (σ.sub 0) edges).map (·.v1)) := by
        unfold choose at hc
        exact List.mem_of_getElem? hc
      rw [mem_toSet, List.mem_map] at this
      obtain ⟨e, he, rfl⟩ := this
      exact ⟨e, mem_shuffle.1 he, Or.inl rfl⟩

theorem hullLoop_mem (rest : List (Edge V)) : ∀ acc : List (Edge V), ∀ e ∈ hullLoop rest acc, e ∈ rest ∨ e ∈ acc := by
  induction rest with
  | nil => intro acc e he; exact Or.inr he
  | cons s rest ih =>
    intro acc e he
    rw [hullLoop] at he
    split_ifs at he
    · rcases ih _ e he with h | h
      · exact Or.inl (List.mem_cons_of_mem _ h)
      · exact Or.inr (List.mem_of_mem_filter h)
    · rcases ih _ e he with h | h
      · exact Or.inl (List.mem_cons_of_mem _ h)
      · rcases List.mem_cons.1 h with rfl | h
        · exact Or.inl List.mem_cons_self
        · exact Or.inr h

theorem trianglesHull_vertices {veq : V → V → Bool} {σ : Sched} {fuel : Nat} {l : List (Tri V)} {p : Polyline V}
    (h : Polyline.trianglesHull veq σ fuel l = .ok (some p)) : p.opened = false ∧
    ∀ v ∈ p.vertices, ∃ t ∈ l, IsCorner t v := by
  obtain ⟨h1, h2⟩ := arrange_vertices h
  refine ⟨h1, fun v hv => ?_⟩
  obtain ⟨e, he, hv⟩ := h2 v hv
  have : e ∈ toSet (l.flatMap Tri.innerEdges) := by
    unfold hullEdges at he
    rcases hullLoop_mem _ _ e he with h | h
    · exact mem_shuffle.1 h
    · simp at h
  rw [mem_toSet, List.mem_flatMap] at this
  obtain ⟨t, ht, hte⟩ := this
  refine ⟨t, ht, ?_⟩
  simp only [Tri.innerEdges, List.mem_cons, List.not_mem_nil, or_false] at hte
  unfold IsCorner
  rcases hte with rfl | rfl | rfl <;> rcases hv with rfl | rfl <;> simp

theorem carveBoundary_corners {g : V} {fuel : Nat} {S : List (Edge V)} {m m' : Mesh V}
    (h : carveBoundary g fuel S m = .ok m') (x : V) (hx : InMesh m' x) :
    InMesh m x ∨ x = g ∨ ∃ e ∈ S, x = e.v1 ∨ x = e.v2 := by
  have hfirst : ∀ (l : List (Edge V)) (m : Mesh V) (p : List (Edge V)) t, t ∈ (boundaryFirst S l m p).1.tris → t ∈ m.tris := by
    intro l
    induction l with
    | nil => intro m p t ht; exact ht
    | cons e l ih =>
      intro m p t ht
      rw [boundaryFirst] at ht
      cases ha : m.adj e with
      | none => rw [ha] at ht; exact ih _ _ t ht
      | some u => rw [ha] at ht; exact (mem_del.1 (ih _ _ t ht)).1
  have hflood : ∀ (n : Nat) (l : List (Edge V)) (m m' : Mesh V), flood S n l m = .ok m' → ∀ t ∈ m'.tris, t ∈ m.tris := by
    intro n
    induction n with
    | zero =>
      intro l m m' h t ht
      cases l with
      | nil => simp only [flood, Res.ok.injEq] at h; subst h; exact ht
      | cons e l => simp [flood] at h
    | succ n ih =>
      intro l m m' h t ht
      cases l with
      | nil => simp only [flood, Res.ok.injEq] at h; subst h; exact ht
      | cons e l =>
        rw [flood] at h
        cases ha : m.adj e with
        | none => rw [ha] at h; exact ih _ _ _ h t ht
        | some u => rw [ha] at h; exact (mem_del.1 (ih _ _ _ h t ht)).1
  have hghost : ∀ (l : List (Edge V)) (m : Mesh V) t, t ∈ (addGhosts g l m).tris → t ∈ m.tris ∨ ∃ e ∈ l, t = ⟨e.v1, e.v2, g⟩ := by
    intro l
    induction l with
    | nil => intro m t ht; exact Or.inl ht
    | cons e l ih =>
      intro m t ht
      rcases ih (m.add ⟨e.v1, e.v2, g⟩) t ht with h | ⟨e', he', h⟩
      · rcases mem_add.1 h with h | h
        · exact Or.inr ⟨e, List.mem_cons_self, h⟩
        · exact Or.inl h
      · exact Or.inr ⟨e', List.mem_cons_of_mem _ he', h⟩
  simp only [carveBoundary, Res.bind_eq_ok] at h
  obtain ⟨m1, h1, h2⟩ := h
  simp only [Res.ok.injEq] at h2
  subst h2
  obtain ⟨t, ht, hc⟩ := hx
  rcases hghost _ _ t ht with h | ⟨e, he, rfl⟩
  · exact Or.inl ⟨t, hfirst _ _ _ t (hflood _ _ _ _ h1 t h), hc⟩
  · rcases hc with rfl | rfl | rfl
    · exact Or.inr (Or.inr ⟨e, he, Or.inl rfl⟩)
    · exact Or.inr (Or.inr ⟨e, he, Or.inr rfl⟩)
    · exact Or.inr (Or.inl rfl)

/-- C56: a triangle leaves the mesh during an insertion only if one of the requested vertices conflicts with it (it is
inside its circle, or on the edge of a ghost triangle) and may be connected with it, and a new triangle always has a
requested vertex that was not in the mesh as a corner. Nothing is assumed about the predicates. -/
theorem C56_reason {P : Preds V} {C : List (Edge V)} {fuel : Nat} {σ : Sched} {m : Mesh V} {vs : List V}
    {r : SolveState V} (hs : AdjSound m) (h : includeVertices P C fuel σ m vs = .ok r) :
    (∀ t ∈ m.tris, t ∉ r.mesh.tris → ∃ v ∈ vs, P.mayInsert t v = .ok true ∧
      (P.inside t v = true ∨ t.isGhost P.ghost = true ∧ P.onEdge ⟨t.v1, t.v2⟩ v = true)) ∧
      ∀ t ∈ r.mesh.tris, t ∉ m.tris → ∃ v ∈ vs, v ∉ m.vertices P.ghost ∧ IsCorner t v := by
  obtain ⟨k1, k2⟩ := include_why hs h
  refine ⟨fun t ht hn => ?_, fun t ht hn => (k2 t ht).resolve_left hn⟩
  obtain ⟨v, hv, hc, hm⟩ := k1 t ht hn
  refine ⟨v, hv, hm, ?_⟩
  simpa [conflicting] using hc

theorem outerEdges_iff {t : Tri V} {e : Edge V} : e ∈ t.outerEdges ↔ IsSide t e.opposite := by
  cases e
  simp only [Tri.outerEdges, List.mem_cons, List.not_mem_nil, or_false, IsSide, Edge.opposite, Edge.mk.injEq]
  tauto

end any

section geometry

variable {K : Type*} [Field K] [LinearOrder K] [IsStrictOrderedRing K]

/-- The segment concerns the triangle: one of its ends is in or on the circumcircle, or the segment meets the closed
triangle. -/
def Touched (eps : K) (fuel : Nat) (s : Edge (Vertex K)) (t : Tri (Vertex K)) : Prop :=
  t.encircles eps s.v1 ≠ .outside ∨ t.encircles eps s.v2 ≠ .outside ∨
    ∃ p q, t.asPolyline = some p ∧ s.asPolyline = some q ∧
      Polyline.continence eps fuel p q ≠ .ok (some (.outside, .opened))

/-- A constrained side of the triangle has an end of the segment strictly beyond its line. -/
def Shielded (eps : K) (C : List (Edge (Vertex K))) (s : Edge (Vertex K)) (t : Tri (Vertex K)) : Prop :=
  ∃ e, IsSide t e ∧ Constrained C e ∧ (eps < cross e.v2 e.v1 s.v1 ∨ eps < cross e.v2 e.v1 s.v2)

/-- A solid triangle of the mesh that the inclusion of the segment replaces. -/
def Replaced (eps : K) (fuel : Nat) (C : List (Edge (Vertex K))) (s : Edge (Vertex K)) (t : Tri (Vertex K)) : Prop :=
  t.isGhost Vertex.isGhost = false ∧ Touched eps fuel s t ∧ ¬ Shielded eps C s t

theorem segmentBlocked_iff {eps : K} (he : 0 ≤ eps) {C : List (Edge (Vertex K))} {s : Edge (Vertex K)}
    {t : Tri (Vertex K)} : segmentBlocked eps C s t = true ↔ Shielded eps C s t := by
  unfold segmentBlocked Shielded
  simp only [List.any_eq_true, List.mem_filter, Bool.or_eq_true, decide_eq_true_eq, outerEdges_iff,
    C01_counterclockwise_iff he]
  constructor
  · rintro ⟨e, ⟨h1, h2⟩, h3⟩
    refine ⟨e.opposite, h1, ?_, h3⟩
    rcases h2 with h | h
    · exact Or.inl h
    · exact Or.inr h
  · rintro ⟨e, h1, h2, h3⟩
    refine ⟨e.opposite, ⟨h1, ?_⟩, h3⟩
    rcases h2 with h | h
    · exact Or.inl h
    · exact Or.inr h

theorem segmentConflicts_iff {eps : K} (he : 0 ≤ eps) {fuel : Nat} {C : List (Edge (Vertex K))} {s : Edge (Vertex K)}
    {m : Mesh (Vertex K)} {l : List (Tri (Vertex K))} (h : segmentConflicts eps fuel C s m = .ok l) (t : Tri (Vertex K)) :
    t ∈ l ↔ t ∈ m.tris ∧ Replaced eps fuel C s t := by
  unfold segmentConflicts at h
  rw [Res.bind_eq_ok] at h
  obtain ⟨l', h1, h⟩ := h
  injection h with h
  subst h
  obtain ⟨k1, k2⟩ := filterRes_ok h1
  rw [List.mem_filter, k2, List.mem_filter, Bool.not_eq_true', Bool.not_eq_true', ← Bool.not_eq_true (segmentBlocked _ _ _ _),
    segmentBlocked_iff he]
  unfold Replaced
  constructor
  · rintro ⟨⟨⟨h1, h2⟩, h3⟩, h4⟩
    refine ⟨h1, h2, ?_, h4⟩
    unfold segmentTouches at h3
    split at h3
    · rename_i p q hp hq
      rw [Res.bind_eq_ok] at h3
      obtain ⟨c, hc, h3⟩ := h3
      simp only [Res.ok.injEq, Bool.or_eq_true, decide_eq_true_eq] at h3
      rcases h3 with (h3 | h3) | h3
      · exact Or.inl h3
      · exact Or.inr (Or.inl h3)
      · refine Or.inr (Or.inr ⟨p, q, hp, hq, ?_⟩)
        rw [hc]
        simpa using h3
    · cases h3
  · rintro ⟨h1, h2, h3, h4⟩
    refine ⟨⟨⟨h1, h2⟩, ?_⟩, h4⟩
    obtain ⟨b, hb⟩ := k1 t (List.mem_filter.2 ⟨h1, by simpa using h2⟩)
    rw [hb]
    unfold segmentTouches at hb
    split at hb
    · rename_i p q hp hq
      rw [Res.bind_eq_ok] at hb
      obtain ⟨c, hc, hb⟩ := hb
      rw [← hb]
      simp only [Res.ok.injEq, Bool.or_eq_true, decide_eq_true_eq]
      rcases h3 with h3 | h3 | ⟨p', q', hp', hq', h3⟩
      · exact Or.inl (Or.inl h3)
      · exact Or.inl (Or.inr h3)
      · right
        rw [hp] at hp'
        rw [hq] at hq'
        injection hp' with hp'
        injection hq' with hq'
        subst hp' hq'
        rw [hc] at h3
        simpa using h3
    · cases hb

/-- C54 (partial): including a segment replaces exactly the solid triangles it concerns that are not shielded by a
constrained side; everything else stays, ghosts included, and the new triangles are solid and have only corners of
replaced triangles and ends of the segment as corners. Missing: that the segment is then an edge of the mesh and that
the new triangles cover what the replaced ones covered, which is false (`C54_lost_false`). -/
theorem C54_exact_partial {eps : K} (he : 0 ≤ eps) {fuel : Nat} {σ : Sched} {C : List (Edge (Vertex K))}
    {m m' : Mesh (Vertex K)} {s : Edge (Vertex K)} (hs : AdjSound m) (h : includeSegment eps fuel σ C m s = .ok m') :
    ∃ new : List (Tri (Vertex K)),
      (∀ t, t ∈ m'.tris ↔ (t ∈ m.tris ∧ ¬ Replaced eps fuel C s t) ∨ t ∈ new) ∧
      ∀ t ∈ new, t.isGhost Vertex.isGhost = false ∧ ∀ x, IsCorner t x →
        x = s.v1 ∨ x = s.v2 ∨ ∃ u ∈ m.tris, Replaced eps fuel C s u ∧ IsCorner u x := by
  unfold includeSegment at h
  rw [Res.bind_eq_ok] at h
  obtain ⟨conf, h1, h⟩ := h
  rw [Res.bind_eq_ok] at h
  obtain ⟨hull?, h2, h⟩ := h
  rw [Res.bind_eq_ok] at h
  obtain ⟨hull, h3, h⟩ := h
  simp only at h
  rw [Res.bind_eq_ok] at h
  obtain ⟨m1, h4, h⟩ := h
  rw [Res.bind_eq_ok] at h
  obtain ⟨st, h5, h⟩ := h
  injection h with h
  subst h
  rw [Res.unwrap_eq_ok] at h3
  subst h3
  have hconf := segmentConflicts_iff he h1
  obtain ⟨a1, a2⟩ := mem_foldl_del conf m hs
  obtain ⟨b1, b2⟩ := mem_foldl_add (st.mesh.tris.filter fun t => !t.isGhost Vertex.isGhost) _ a1
  refine ⟨st.mesh.tris.filter fun t => !t.isGhost Vertex.isGhost, fun t => ?_, fun t ht => ?_⟩
  · rw [b2, a2, hconf]
    constructor
    · rintro (⟨k1, k2⟩ | k)
      · exact Or.inl ⟨k1, fun k => k2 ⟨k1, k⟩⟩
      · exact Or.inr k
    · rintro (⟨k1, k2⟩ | k)
      · exact Or.inl ⟨k1, fun k => k2 k.2⟩
      · exact Or.inr k
  · rw [List.mem_filter] at ht
    obtain ⟨ht, hg⟩ := ht
    have hg' : t.isGhost Vertex.isGhost = false := by simpa using hg
    refine ⟨hg', fun x hx => ?_⟩
    have hxg : x.isGhost = false := by
      simp only [Tri.isGhost, Bool.or_eq_false_iff] at hg'
      rcases hx with rfl | rfl | rfl
      · exact hg'.1.1
      · exact hg'.1.2
      · exact hg'.2
    have hnotghost : x ≠ Vertex.ghost := by rintro rfl; simp [Vertex.ghost] at hxg
    have hull_v : ∀ v ∈ hull.vertices, ∃ u ∈ m.tris, Replaced eps fuel C s u ∧ IsCorner u v := by
      intro v hv
      obtain ⟨u, hu, hc⟩ := (trianglesHull_vertices h2).2 v hv
      exact ⟨u, ((hconf u).1 hu).1, ((hconf u).1 hu).2, hc⟩
    unfold includeBoundary at h4
    rw [Res.bind_eq_ok] at h4
    obtain ⟨st0, h6, h7⟩ := h4
    have s0 := fromInitialSegment_sound (V := Vertex K) Vertex.ghost s.v1 s.v2
    have s1 := include_sound s0 h6
    have s2 : AdjSound m1 := includeBoundary_sound (P := geoPreds eps fuel none []) (b := hull)
      (σ := σ.sub 2) s0 (by unfold includeBoundary; rw [h6]; exact h7)
    obtain ⟨ins, p1, p2⟩ := C15_vertices s2 h5
    rcases (p2 x).1 ⟨t, ht, hx⟩ with k | k
    · rcases carveBoundary_corners h7 x k with k | k | ⟨e, he', k⟩
      · obtain ⟨ins', q1, q2⟩ := C15_vertices s0 h6
        rcases (q2 x).1 k with k | k
        · obtain ⟨u, hu, hc⟩ := k
          simp only [Mesh.fromInitialSegment, mem_add] at hu
          rcases hu with rfl | rfl | hu
          · rcases hc with rfl | rfl | rfl
            · exact Or.inr (Or.inl rfl)
            · exact Or.inl rfl
            · exact absurd rfl hnotghost
          · rcases hc with rfl | rfl | rfl
            · exact Or.inl rfl
            · exact Or.inr (Or.inl rfl)
            · exact absurd rfl hnotghost
          · simp [Mesh.empty] at hu
        · have := q1.mem_iff.1 (List.mem_append_left _ k)
          exact Or.inr (Or.inr (hull_v x (List.mem_of_mem_filter this)))
      · exact absurd k hnotghost
      · have he'' := mem_shuffle.1 he'
        unfold reversedEdges at he''
        rw [mem_toSet, List.mem_map] at he''
        obtain ⟨f, hf, rfl⟩ := he''
        have hfe := trianglesHull_vertices h2
        unfold Polyline.intoEdges at hf
        rw [List.mem_map] at hf
        obtain ⟨q, hq, rfl⟩ := hf
        rw [hfe.1] at hq
        have m1 : q.1 ∈ hull.vertices := by
          rw [← pairs_fst hull.vertices]; exact List.mem_map_of_mem hq
        have m2 : q.2 ∈ hull.vertices := (pairs_snd hull.vertices).mem_iff.1 (List.mem_map_of_mem hq)
        rcases k with k | k
        · exact Or.inr (Or.inr (hull_v x (k ▸ m2)))
        · exact Or.inr (Or.inr (hull_v x (k ▸ m1)))
    · have := p1.mem_iff.1 (List.mem_append_left _ k)
      have := mem_shuffle.1 (List.mem_of_mem_filter this)
      rw [mem_toSet, List.mem_flatMap] at this
      obtain ⟨u, hu, hc⟩ := this
      refine Or.inr (Or.inr ⟨u, ((hconf u).1 hu).1, ((hconf u).1 hu).2, ?_⟩)
      simpa [Tri.corners, IsCorner] using hc

/-- C54: triangles on the other side of a constrained edge are not touched. -/
theorem C54_shielded {eps : K} (he : 0 ≤ eps) {fuel : Nat} {σ : Sched} {C : List (Edge (Vertex K))}
    {m m' : Mesh (Vertex K)} {s e : Edge (Vertex K)} (hs : AdjSound m) (h : includeSegment eps fuel σ C m s = .ok m')
    {t : Tri (Vertex K)} (ht : t ∈ m.tris) (hside : IsSide t e) (hC : Constrained C e)
    (hb : eps < cross e.v2 e.v1 s.v1 ∨ eps < cross e.v2 e.v1 s.v2) : t ∈ m'.tris := by
  obtain ⟨new, k, -⟩ := C54_exact_partial he hs h
  exact (k t).2 (Or.inl ⟨ht, fun hr => hr.2.2 ⟨e, hside, hC, hb⟩⟩)

/-! ## C55 -/

/-- Vertices a mesh is made of: proper points, and the one ghost vertex. -/
def Plain (x : Vertex K) : Prop := x = Vertex.ghost ∨ x.isGhost = false

theorem plain_sep : SepOn (Vertex.eqv (0 : K)) Plain := by
  intro a b ha hb
  constructor
  · intro h
    unfold Vertex.eqv at h
    rcases ha with rfl | ha <;> rcases hb with rfl | hb
    · rfl
    · simp [Vertex.ghost, hb] at h
    · simp [Vertex.ghost, ha] at h
    · simp only [ha, hb, Bool.and_self, Bool.false_eq_true, if_false, beq_self_eq_true, Bool.true_and,
        Bool.and_eq_true, approxEq_zero_eps] at h
      cases a; cases b; simp_all
  · rintro rfl
    unfold Vertex.eqv
    split_ifs <;> simp [approxEq_zero_eps]

/-- A constrained edge of a triangulator: a side of the boundary or of a hole, or a segment, in one direction or the
other. -/
def IsConstraint (T : Triangulator K) (e : Edge (Vertex K)) : Prop :=
  ∃ f, (f = e ∨ f = e.opposite) ∧ (f ∈ T.boundary.intoEdges ∨ (∃ h ∈ T.holes, f ∈ h.intoEdges) ∨ f ∈ T.segments)

theorem mem_constraints {T : Triangulator K} {f : Edge (Vertex K)} :
    f ∈ T.constraints ↔ f ∈ T.boundary.intoEdges ∨ (∃ h ∈ T.holes, f ∈ h.intoEdges) ∨ f ∈ T.segments := by
  unfold Triangulator.constraints
  rw [mem_toSet, List.mem_append, List.mem_append, List.mem_flatMap]
  constructor
  · rintro ((h | h) | h)
    · exact Or.inr (Or.inl h)
    · exact Or.inl h
    · exact Or.inr (Or.inr h)
  · rintro (h | h | h)
    · exact Or.inl (Or.inr h)
    · exact Or.inl (Or.inl h)
    · exact Or.inr h

theorem isConstraint_iff {T : Triangulator K} {e : Edge (Vertex K)} : IsConstraint T e ↔ Constrained T.constraints e := by
  unfold IsConstraint Constrained
  constructor
  · rintro ⟨f, rfl | rfl, h⟩
    · exact Or.inr (mem_constraints.2 h)
    · exact Or.inl (mem_constraints.2 h)
  · rintro (h | h)
    · exact ⟨_, Or.inr rfl, mem_constraints.1 h⟩
    · exact ⟨_, Or.inl rfl, mem_constraints.1 h⟩

/-- C55: the constrained segments with which the refinement goes on after the segments encroached by vertices were
split: those that were not split in either direction, and the pieces. -/
theorem C55_constraints {C : List (Edge (Vertex K))} {split : List (Edge (Vertex K) × Edge (Vertex K))}
    (e : Edge (Vertex K)) : e ∈ Triangulator.updateConstraints C split ↔
      (e ∈ C ∧ ∀ q ∈ split, q.2 ≠ e ∧ q.2 ≠ e.opposite) ∨ ∃ q ∈ split, q.1 = e := by
  unfold Triangulator.updateConstraints
  simp only [mem_toSet, List.mem_append, List.mem_filter, Bool.and_eq_true, Bool.not_eq_true', decide_eq_false_iff_not, List.mem_map, not_exists, not_and]
  constructor
  · rintro (⟨h1, h2, h3⟩ | h)
    · exact Or.inl ⟨h1, fun q hq => ⟨h2 q hq, h3 q hq⟩⟩
    · exact Or.inr h
  · rintro (⟨h1, h2⟩ | h)
    · exact Or.inl ⟨h1, fun q hq => (h2 q hq).1, fun q hq => (h2 q hq).2⟩
    · exact Or.inr h

/-- C55: a constrained edge that is an edge of the mesh before `refine` is one afterwards, unless a vertex of the mesh
or the circumcentre of a triangle that was tried is strictly inside the circle of which it is a diameter. -/
theorem C55_refine {fuel : Nat} {dist : Vertex K → Vertex K → K} {p : RefineParams K} {σ : Sched}
    {T T' : Triangulator K} (hs : AdjSound T.mesh) (hv : ∀ x, InMesh T.mesh x → x = Vertex.ghost ∨ x.isGhost = false)
    (hC : ∀ e ∈ T.constraints, e.v1.isGhost = false ∧ e.v2.isGhost = false)
    (h : T.refine 0 fuel dist p σ = .ok T') :
    ∃ r last attempts,
      unencroach (geoRPreds 0 fuel dist p (some T.boundary) T.holes) fuel (σ.sub 0) T.constraints T.mesh = .ok r ∧
      History (geoRPreds 0 fuel dist p (some T.boundary) T.holes) fuel
        (splitInit (geoRPreds 0 fuel dist p (some T.boundary) T.holes)
          (Triangulator.updateConstraints T.constraints r.2) r.1) attempts last ∧ T'.mesh = last.mesh ∧
      ((∀ a ∈ attempts, ∀ c, a.tri.circumcenter = some c → ¬ InMesh a.before.mesh c) →
        ∀ e, IsConstraint T e → (∃ t ∈ T.mesh.tris, IsSide t e) →
        (∀ v, InMesh T.mesh v ∨ (∃ a ∈ attempts, a.tri.circumcenter = some v) →
          dist2 e.v1 e.v2 ≤ 4 * dist2 (centre e.v1 e.v2) v) →
        ∃ t ∈ T'.mesh.tris, IsSide t e) := by
  obtain ⟨r, s, h1, h2, rfl⟩ := refine_split h
  have hm : AdjSound r.1 := unencroachLoop_sound (corner_not_inside le_rfl) (fun _ => rfl) hs h1
  obtain ⟨l, k1, -⟩ := splitIrregularLoop_history (corner_not_inside le_rfl) (fun _ => rfl)
    (splitInit_queued hm) h2
  refine ⟨r, s, l, h1, k1, rfl, fun hfresh e hce hside hclear => ?_⟩
  generalize hPdef : geoRPreds (0 : K) fuel dist p (some T.boundary) T.holes = P at *
  have hP : ∀ t x, NoGhost P.ghost t → IsCorner t x → P.inside t x = false := by
    subst hPdef; exact corner_not_inside le_rfl
  have hd : SepOn P.veq Plain := by subst hPdef; exact plain_sep
  have hmid : ∀ e, Plain (P.mid e) := by subst hPdef; exact fun e => Or.inr rfl
  have hcirc : P.circumcenter = Tri.circumcenter := by subst hPdef; rfl
  have henc : ∀ e v, P.encroaches e v = false ↔ dist2 e.v1 e.v2 ≤ 4 * dist2 (centre e.v1 e.v2) v := by
    subst hPdef
    intro e v
    have := (C04_exact e.v1 e.v2 v).1
    show decide (encroach 0 e.v1 e.v2 v = .inside) = false ↔ _
    rw [decide_eq_false_iff_not, this, not_lt]
  let E : Vertex K → Prop := fun v => InMesh T.mesh v ∨ ∃ a ∈ l, a.tri.circumcenter = some v
  have hcl : Clear P E e := by
    intro v hv
    refine ⟨(henc e v).2 (hclear v hv), (henc _ v).2 ?_⟩
    have := hclear v hv
    have e1 : dist2 e.opposite.v1 e.opposite.v2 = dist2 e.v1 e.v2 := by simp only [dist2, Edge.opposite]; ring
    have e2 : dist2 (centre e.opposite.v1 e.opposite.v2) v = dist2 (centre e.v1 e.v2) v := by
      simp only [dist2, centre, Edge.opposite]; ring
    rw [e1, e2]
    exact this
  have hends : ∀ e ∈ T.constraints, Ends Plain e := fun e he => ⟨Or.inr (hC e he).1, Or.inr (hC e he).2⟩
  obtain ⟨u1, u2⟩ := unencroach_keep (E := E) hd hmid hs hv hends (fun x hx => Or.inl hx) h1
  have hcon := isConstraint_iff.1 hce
  have hside0 : e ∈ sides T.mesh.tris := mem_sides.2 hside
  have hes := ends_of_sides hv hside0
  have hside1 : e ∈ sides r.1.tris := u1.sides e ⟨hcon, hcl, hes⟩ hside0
  have hne : ∀ g ∈ r.2.map (·.2), e ≠ g ∧ e ≠ g.opposite := by
    intro g hg
    rw [List.mem_map] at hg
    obtain ⟨q, hq, rfl⟩ := hg
    exact hcl.ne (u2 q hq).2
  have hinit : SKeep P Plain e (splitInit P (Triangulator.updateConstraints T.constraints r.2) r.1) := by
    refine ⟨u1.sound, u1.dom, ?_, ?_, ?_, hside1⟩
    · intro g hg
      have hg' : g ∈ Triangulator.updateConstraints T.constraints r.2 := hg
      rcases (C55_constraints g).1 hg' with ⟨hg', -⟩ | ⟨q, hq, rfl⟩
      · exact hends g hg'
      · exact (u2 q hq).1
    · rintro t (ht | ht) x hx
      · exact ⟨t, List.mem_of_mem_filter (List.mem_of_mem_filter ht), hx⟩
      · exact ⟨t, List.mem_of_mem_filter (List.mem_of_mem_filter ht), hx⟩
    · show Constrained (Triangulator.updateConstraints T.constraints r.2) e
      have aux : ∀ g, g ∈ T.constraints → (∀ g' ∈ r.2.map (·.2), g ≠ g' ∧ g ≠ g'.opposite) →
          g ∈ Triangulator.updateConstraints T.constraints r.2 := by
        intro g hg hn
        refine (C55_constraints g).2 (Or.inl ⟨hg, fun q hq => ⟨fun hk => ?_, fun hk => ?_⟩⟩)
        · exact (hn _ (List.mem_map_of_mem hq)).1 hk.symm
        · refine (hn _ (List.mem_map_of_mem hq)).2 ?_
          rw [hk, opposite_opposite]
      rcases hcon with hc | hc
      · refine Or.inl (aux _ hc fun g hg => ⟨fun hh => (hne g hg).2 ?_, fun hh => (hne g hg).1 ?_⟩)
        · rw [← hh, opposite_opposite]
        · exact opposite_inj.1 hh
      · exact Or.inr (aux _ hc hne)
  have := history_keep (E := E) hP hd hmid hcl k1 hinit (by
    intro a ha c hc
    rw [hcirc] at hc
    refine ⟨?_, Or.inr ⟨a, ha, hc⟩, hfresh a ha c hc⟩
    unfold Tri.circumcenter at hc
    split_ifs at hc
    unfold circumcenter at hc
    simp only at hc
    split_ifs at hc
    injection hc with hc
    right
    rw [← hc]
    rfl)
  exact mem_sides.1 this.side

theorem includeHoles_constraints {eps : K} {fuel : Nat} {hs : List (Polyline (Vertex K))} : ∀ {σ : Sched}
    {m : Mesh (Vertex K)} {C : List (Edge (Vertex K))} {r : Mesh (Vertex K) × List (Edge (Vertex K))},
    Triangulator.includeHoles eps fuel σ hs m C = .ok r → ∀ e, e ∈ r.2 ↔ e ∈ C ∨ ∃ h ∈ hs, e ∈ h.intoEdges := by
  induction hs with
  | nil =>
    intro σ m C r hr e
    rw [Triangulator.includeHoles] at hr
    injection hr with hr
    subst hr
    simp
  | cons p hs ih =>
    intro σ m C r hr e
    rw [Triangulator.includeHoles, Res.bind_eq_ok] at hr
    obtain ⟨m', -, hr⟩ := hr
    rw [ih hr e, mem_setUnion]
    simp only [List.mem_cons, exists_eq_or_imp]
    tauto

theorem includeSegments_constraints {eps : K} {fuel : Nat} {ss : List (Edge (Vertex K))} : ∀ {σ : Sched}
    {m : Mesh (Vertex K)} {C : List (Edge (Vertex K))} {r : Mesh (Vertex K) × List (Edge (Vertex K))},
    Triangulator.includeSegments eps fuel σ ss m C = .ok r → ∀ e, e ∈ r.2 ↔ e ∈ C ∨ e ∈ ss := by
  induction ss with
  | nil =>
    intro σ m C r hr e
    rw [Triangulator.includeSegments] at hr
    injection hr with hr
    subst hr
    simp
  | cons s ss ih =>
    intro σ m C r hr e
    rw [Triangulator.includeSegments, Res.bind_eq_ok] at hr
    obtain ⟨m', -, hr⟩ := hr
    rw [ih hr e, mem_setInsert, List.mem_cons]
    tauto

theorem includeVertices_empty {V : Type*} [DecidableEq V] {P : Preds V} {C : List (Edge V)} {fuel : Nat} {τ : Sched}
    {m : Mesh V} : includeVertices P C fuel τ m [] = .ok ⟨m, [], [], [], []⟩ := by
  unfold includeVertices
  simp only [List.filter_nil, solveConflicts]
  have : distributeAll P (shuffle (τ.sub 0) m.tris) [] [] = .ok ([], []) := by
    cases shuffle (τ.sub 0) m.tris <;> simp [distributeAll]
  rw [this, Res.bind_ok]
  cases fuel <;> simp [solveLoop]

/-- C55, C56: what the free vertices do, by comparison with the triangulation `T0` of the same boundary, holes and
segments without them. The constrained edges of `T0` stay, a triangle of `T0` disappears only because of a free vertex that is in or on its circle
and whose triangle with it is admitted by the boundary and the holes, and every new triangle has a free vertex as a
corner. -/
theorem C55_triangulate {eps : K} (he : 0 ≤ eps) {fuel : Nat} {σ : Sched} {T T' : Triangulator K}
    (h : T.triangulate eps fuel σ = .ok T') :
    ∃ (T0 : Triangulator K) (holes : List (Polyline (Vertex K))),
      ({ T with vertices := [] } : Triangulator K).triangulate eps fuel σ = .ok T0 ∧ holes.Perm T.holes ∧
      ((∀ a b : Vertex K, (InMesh T0.mesh a ∨ a ∈ T.vertices) → (InMesh T0.mesh b ∨ b ∈ T.vertices) → a ≠ b →
          Vertex.eqv eps a b = false) →
        ∀ e, IsConstraint T e → (∃ t ∈ T0.mesh.tris, IsSide t e) → ∃ t ∈ T'.mesh.tris, IsSide t e) ∧
      (∀ t ∈ T0.mesh.tris, t ∉ T'.mesh.tris → ∃ v ∈ T.vertices,
        mayInsertTriangle eps fuel (some T.boundary) holes t v = .ok true ∧ t.encircles eps v ≠ .outside) ∧
      ∀ t ∈ T'.mesh.tris, t ∉ T0.mesh.tris → ∃ v ∈ T.vertices, IsCorner t v := by
  unfold Triangulator.triangulate at h
  split at h
  · rename_i v1 v2 rest hb
    rw [Res.bind_eq_ok] at h
    obtain ⟨m0, h0, h⟩ := h
    simp only at h
    rw [Res.bind_eq_ok] at h
    obtain ⟨r1, h1, h⟩ := h
    rw [Res.bind_eq_ok] at h
    obtain ⟨r2, h2, h⟩ := h
    rw [Res.bind_eq_ok] at h
    obtain ⟨st, h3, h⟩ := h
    injection h with h
    subst h
    have s0 := includeBoundary_sound (fromInitialSegment_sound _ _ _) h0
    have s1 := includeHoles_sound s0 h1
    have s2 := includeSegments_sound s1 h2
    have hcon : ∀ e, IsConstraint T e → Constrained r2.2 e := by
      have aux : ∀ f, f ∈ T.constraints → f ∈ r2.2 := by
        intro f hf
        rw [includeSegments_constraints h2, includeHoles_constraints h1, mem_toSet, mem_shuffle]
        rcases mem_constraints.1 hf with k | ⟨p, hp, k⟩ | k
        · exact Or.inl (Or.inl k)
        · exact Or.inl (Or.inr ⟨p, mem_shuffle.2 hp, k⟩)
        · exact Or.inr k
      intro e hce
      exact (isConstraint_iff.1 hce).imp (aux _) (aux _)
    obtain ⟨w1, w2⟩ := C56_reason s2 h3
    have e3 : (shuffle (σ.sub 6) ([] : List (Vertex K))) = [] :=
      List.eq_nil_iff_forall_not_mem.2 fun x hx => by simpa using mem_shuffle.1 hx
    have hT0 : ({ T with vertices := [] } : Triangulator K).triangulate eps fuel σ =
        .ok { T with vertices := [], mesh := r2.1 } := by
      unfold Triangulator.triangulate
      simp only [hb, h0, Res.bind_ok, h1, h2, e3, includeVertices_empty]
    refine ⟨{ T with vertices := [], mesh := r2.1 }, shuffle (σ.sub 1) T.holes, hT0, shuffle_perm _ _, fun hd e hce hm => ?_, fun t ht hn => ?_,
      fun t ht hn => ?_⟩
    · refine C17_survives s2 (fun a b ha hb => ?_) h3 e (hcon e hce) hm
      constructor
      · intro hab
        by_contra hne
        have := hd a b (ha.imp_right fun k => mem_shuffle.1 k) (hb.imp_right fun k => mem_shuffle.1 k) hne
        rw [show (geoPreds eps fuel (some T.boundary) (shuffle (σ.sub 1) T.holes)).veq a b = Vertex.eqv eps a b from rfl,
          this] at hab
        cases hab
      · rintro rfl
        show Vertex.eqv eps a a = true
        unfold Vertex.eqv
        split_ifs <;> simp [approxEq, he]
    · obtain ⟨v, hv, hm, hc⟩ := w1 t ht hn
      refine ⟨v, mem_shuffle.1 hv, hm, ?_⟩
      rcases hc with hc | ⟨hg, hc⟩
      · have : t.encircles eps v = .inside := by simpa using (show decide (t.encircles eps v = .inside) = true from hc)
        rw [this]; decide
      · have hc' : Edge.contains eps ⟨t.v1, t.v2⟩ v = true := hc
        have h0 := (C01_colinear_iff t.v1 t.v2 v).2 (C07_sound hc').1
        have hg' : t.isGhost Vertex.isGhost = true := hg
        unfold Tri.encircles
        simp [hg', h0]
    · obtain ⟨v, hv, -, hc⟩ := w2 t ht hn
      exact ⟨v, mem_shuffle.1 hv, hc⟩
  · cases h

end geometry

/-! ## Concrete cases -/

namespace SegmentsExample

def pt (x y : ℚ) : Vertex ℚ := ⟨x, y, false⟩

/-- A domain with a reflex corner. -/
def corner : Polyline (Vertex ℚ) := ⟨[pt 0 0, pt 10 0, pt 10 4, pt 4 4, pt 4 10, pt 0 10], false, by decide⟩

/-- A square. -/
def plate : Polyline (Vertex ℚ) := ⟨[pt 0 0, pt 4 0, pt 4 4, pt 0 4], false, by decide⟩

/-- The state of the triangulator after one segment was given. -/
def withOne (b : Polyline (Vertex ℚ)) (s : Edge (Vertex ℚ)) : Triangulator ℚ :=
  match (Triangulator.new b).insertSegments 0 60 Sched.first [s] with
  | .ok (.ok T) => T
  | _ => Triangulator.new b

def tris : Res (Triangulator ℚ) → List (Tri (Vertex ℚ))
  | .ok T => T.mesh.tris
  | _ => []

theorem ok_of_tris {r : Res (Triangulator ℚ)} (h : tris r ≠ []) : ∃ T, r = .ok T ∧ T.mesh.tris = tris r := by
  rcases r with T | _ | _
  · exact ⟨T, rfl, rfl⟩
  · exact absurd rfl h
  · exact absurd rfl h

/-- A square with a vertex close to one of its sides. -/
def near : Triangulator ℚ := { Triangulator.new plate with vertices := [pt 2 (1 / 2)] }

/-- The mesh of `near`. -/
def nearMesh : Triangulator ℚ :=
  match near.triangulate 0 60 Sched.first with
  | .ok T => T
  | _ => near

/-- The distance is not used in the example: only the squared distance, which gives a coarser quality. -/
def dist (a b : Vertex ℚ) : ℚ := distSq a b

end SegmentsExample

open SegmentsExample

/-- C54 is false: in a domain with a reflex corner, an accepted segment inside the domain makes `triangulate` return a
mesh with holes in it. The point `w` inside the domain is strictly outside of all its triangles, and the segment is not
an edge of the mesh, in either direction. -/
theorem C54_lost_false : ∃ (b : Polyline (Vertex ℚ)) (s : Edge (Vertex ℚ)) (w : Vertex ℚ) (T1 T2 : Triangulator ℚ),
    SimplePolygon b.vertices ∧ 0 < shoelace b.vertices ∧
    (Triangulator.new b).insertSegments 0 60 Sched.first [s] = .ok (.ok T1) ∧ T1.segments = [s] ∧
    T1.triangulate 0 60 Sched.first = .ok T2 ∧ b.contains 0 w = some .inside ∧
    (∀ t ∈ T2.mesh.tris, ¬ HasGhost t →
      cross t.v1 t.v2 w < 0 ∨ cross t.v2 t.v3 w < 0 ∨ cross t.v3 t.v1 w < 0) ∧
    ∀ t ∈ T2.mesh.tris, ¬ IsSide t s ∧ ¬ IsSide t s.opposite := by
  have h1 : (Triangulator.new corner).insertSegments 0 60 Sched.first [⟨pt 2 9, pt 5 1⟩] =
      .ok (.ok (withOne corner ⟨pt 2 9, pt 5 1⟩)) := by
    have hk : (match (Triangulator.new corner).insertSegments 0 60 Sched.first [⟨pt 2 9, pt 5 1⟩] with
      | .ok (.ok _) => true | _ => false) = true := by decide +kernel
    unfold withOne
    split at hk
    · rename_i T h; rw [h]
    · simp at hk
  obtain ⟨T2, h2, e2⟩ := ok_of_tris (r := (withOne corner ⟨pt 2 9, pt 5 1⟩).triangulate 0 60 Sched.first) (by decide +kernel)
  refine ⟨corner, ⟨pt 2 9, pt 5 1⟩, pt 1 1, _, T2, simple_of_check (by decide +kernel), by decide +kernel, h1,
    by decide +kernel, h2, by decide +kernel, ?_, ?_⟩
  · rw [e2]; decide +kernel
  · rw [e2]; unfold IsSide; decide +kernel

/-- C54: a segment in a square. The inclusion returns, it replaces triangles, and the segment becomes an edge. -/
example : ∃ (m m' : Mesh (Vertex ℚ)) (s : Edge (Vertex ℚ)), AdjSound m ∧
    includeSegment 0 60 Sched.first plate.intoEdges m s = .ok m' ∧ (∃ t ∈ m'.tris, IsSide t s) ∧
      ∃ t ∈ m.tris, t ∉ m'.tris := by
  have hk : (match (Triangulator.new plate).triangulate 0 60 Sched.first with
    | .ok T => (match includeSegment 0 60 Sched.first plate.intoEdges T.mesh ⟨pt 1 1, pt 3 2⟩ with
      | .ok m' => decide ((∃ t ∈ m'.tris, pt 1 1 = t.v1 ∧ pt 3 2 = t.v2 ∨ pt 1 1 = t.v2 ∧ pt 3 2 = t.v3 ∨
          pt 1 1 = t.v3 ∧ pt 3 2 = t.v1) ∧ ∃ t ∈ T.mesh.tris, t ∉ m'.tris)
      | _ => false)
    | _ => false) = true := by decide +kernel
  split at hk
  · rename_i T hT
    split at hk
    · rename_i m' hm
      obtain ⟨⟨t, ht, k⟩, k2⟩ := of_decide_eq_true hk
      refine ⟨T.mesh, m', _, triangulate_sound hT, hm, ⟨t, ht, ?_⟩, k2⟩
      simpa [IsSide] using k
    · simp at hk
  · simp at hk

/-- C55: the square with a vertex close to a side. `refine` changes the mesh, and the opposite side of the square has no
vertex of the mesh in its circle. -/
example : ∃ T T' : Triangulator ℚ, near.triangulate 0 60 Sched.first = .ok T ∧
    T.refine 0 60 SegmentsExample.dist ⟨none, 100⟩ Sched.first = .ok T' ∧ (∃ t ∈ T.mesh.tris, t ∉ T'.mesh.tris) ∧
    IsConstraint T ⟨pt 4 4, pt 0 4⟩ ∧ (∃ t ∈ T.mesh.tris, IsSide t ⟨pt 4 4, pt 0 4⟩) ∧
    ∀ t ∈ T.mesh.tris, ∀ v ∈ [t.v1, t.v2, t.v3], v.isGhost = false →
      dist2 (pt 4 4) (pt 0 4) ≤ 4 * dist2 (centre (pt 4 4) (pt 0 4)) v := by
  have h1 : near.triangulate 0 60 Sched.first = .ok nearMesh := by
    have hk : (match near.triangulate 0 60 Sched.first with
      | .ok _ => true | _ => false) = true := by decide +kernel
    unfold nearMesh
    split at hk
    · rename_i T h; rw [h]
    · simp at hk
  obtain ⟨T', h2, e2⟩ := ok_of_tris (r := nearMesh.refine 0 60 SegmentsExample.dist ⟨none, 100⟩ Sched.first) (by decide +kernel)
  refine ⟨nearMesh, T', h1, h2, by rw [e2]; decide +kernel, ⟨_, Or.inl rfl, Or.inl (by decide +kernel)⟩, ?_,
    by decide +kernel⟩
  unfold IsSide
  decide +kernel

end Verif.Props
