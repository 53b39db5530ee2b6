import Verif.Lemmas.SimilarCalls
import Verif.Spec.Units
import Verif.Props.Tolerance

/-!
# C71: units of length and the origin

The same input in another unit of length, or with another origin, should give the same mesh in that unit and with that
origin. Moving the origin never matters, whatever the tolerance. The unit does not matter when numbers are compared exactly,
nor, for each input, when the tolerance is small enough; with the tolerance of the code it does matter.
-/

set_option linter.unusedSectionVars false

namespace Verif.Props

open Spec

variable {K : Type*} [Field K] [LinearOrder K] [IsStrictOrderedRing K]

section bridge

variable {k a b : K} (hk : k ≠ 0)

theorem moveVertex_eq : (moveVertex k a b : Vertex K → Vertex K) = Vertex.moveEquiv k a b hk := by
  funext v
  rw [Vertex.moveEquiv_apply]
  unfold moveVertex Vertex.move Vertex.sim
  split
  · rfl
  · rename_i h
    simp only [Bool.not_eq_true] at h
    rw [h]

theorem moveEdge_eq : (moveEdge k a b : Edge (Vertex K) → _) = Edge.map (Vertex.moveEquiv k a b hk) := by
  rw [← moveVertex_eq]
  rfl

theorem moveTri_eq : (moveTri k a b : Tri (Vertex K) → _) = Tri.map (Vertex.moveEquiv k a b hk) := by
  rw [← moveVertex_eq]
  rfl

theorem moveOutline_eq : (moveOutline k a b : Polyline (Vertex K) → _) = Polyline.map (Vertex.moveEquiv k a b hk) := by
  rw [← moveVertex_eq]
  rfl

theorem moveRequest_eq : (moveRequest k a b : Request K → _) = Request.map (Vertex.moveEquiv k a b hk) k := by
  funext q
  cases q <;> simp only [moveRequest, Request.map, moveVertex_eq hk, moveEdge_eq hk, moveOutline_eq hk]
  rfl

theorem moved_map (T : Triangulator K) : Moved k a b T (T.map (Vertex.moveEquiv k a b hk)) := by
  constructor
  · rw [moveTri_eq hk]; rfl
  · intro e
    rw [moveTri_eq hk, moveEdge_eq hk]
    exact Mesh.map_adj _ T.mesh e
  · rw [moveOutline_eq hk]; rfl
  · rw [moveOutline_eq hk]; rfl
  · rw [moveVertex_eq hk]; rfl
  · rw [moveEdge_eq hk]; rfl

theorem SameOutcome.of_image {α β : Type*} {f : α → β} {S : α → Prop} {x : Res β} {y : Res α} {R : α → β → Prop}
    (h : Res.Image f S x y) (hR : ∀ r, S r → R r (f r)) : SameOutcome R y x := by
  obtain ⟨rfl, h⟩ := h
  cases y with
  | ok r => exact hR r (h r rfl)
  | panic => trivial
  | diverged => trivial

end bridge

theorem callAll_move {eps k a b : K} (h : Rescale eps k) {fuel : Nat} {dist : Vertex K → Vertex K → K}
    (hd : DistMoves k a b dist) (σ : Sched) {qs : List (Request K)} (hq : ∀ q ∈ qs, q.Real) {T : Triangulator K}
    (hT : T.Real) : Res.Image
      (Prod.map (Triangulator.map (Vertex.moveEquiv k a b h.pos.ne')) (List.map (Request.map (Vertex.moveEquiv k a b h.pos.ne') k)))
      (fun r => r.1.Real) (callAll eps fuel dist σ (qs.map (Request.map (Vertex.moveEquiv k a b h.pos.ne') k))
        (T.map (Vertex.moveEquiv k a b h.pos.ne'))) (callAll eps fuel dist σ qs T) := by
  induction qs generalizing σ T with
  | nil => exact Res.Image.ok (f := Prod.map (Triangulator.map _) (List.map _)) (r := (T, [])) hT
  | cons q qs ih =>
    simp only [List.map_cons, callAll]
    refine Res.Image.bind (Triangulator.perform_move h fuel hd (σ.sub 0) hT (hq q List.mem_cons_self)) fun r hr => ?_
    refine Res.Image.bind (ih (σ.sub 1) (fun q' h' => hq q' (List.mem_cons_of_mem _ h')) hr) fun s hs => ?_
    have := Res.Image.ok (f := Prod.map (Triangulator.map (Vertex.moveEquiv k a b h.pos.ne'))
      (List.map (Request.map (Vertex.moveEquiv k a b h.pos.ne') k))) (S := fun r => r.1.Real)
      (r := (s.1, if r.2 then q :: s.2 else s.2)) hs
    cases hr2 : r.2 <;> simp only [hr2, Prod.map, id, if_true] at this ⊢ <;> exact this

theorem new_real {bd : Polyline (Vertex K)} (hb : ∀ v ∈ bd.vertices, v.isGhost = false) : (Triangulator.new bd).Real :=
  ⟨Mesh.Proper.empty, hb, by simp [Triangulator.new], by simp [Triangulator.new], by simp [Triangulator.new]⟩

theorem new_map (φ : Vertex K ≃ Vertex K) (bd : Polyline (Vertex K)) :
    Triangulator.new (bd.map φ) = (Triangulator.new bd).map φ := rfl

theorem tangible_real {q : Request K} (hq : Tangible q) : q.Real := by
  cases q <;> exact hq

/-- Both statements at once. -/
theorem calls_move {eps k a b : K} (h : Rescale eps k) (fuel : Nat) {dist : Vertex K → Vertex K → K}
    (hd : ∀ u v : Vertex K, dist ⟨k * u.x + a, k * u.y + b, u.isGhost⟩ ⟨k * v.x + a, k * v.y + b, v.isGhost⟩ = k * dist u v)
    (σ : Sched) {bd : Polyline (Vertex K)} (hb : ∀ v ∈ bd.vertices, v.isGhost = false) {qs : List (Request K)}
    (hq : ∀ q ∈ qs, Tangible q) :
    SameOutcome (fun r s => Moved k a b r.1 s.1 ∧ s.2 = r.2.map (moveRequest k a b))
      (callAll eps fuel dist σ qs (Triangulator.new bd))
      (callAll eps fuel dist σ (qs.map (moveRequest k a b)) (Triangulator.new (moveOutline k a b bd))) := by
  rw [moveRequest_eq h.pos.ne', moveOutline_eq h.pos.ne', new_map]
  exact SameOutcome.of_image (callAll_move h hd σ (fun q h' => tangible_real (hq q h')) (new_real hb)) fun r _ =>
    ⟨moved_map h.pos.ne' r.1, rfl⟩

/-- C71, the origin: whatever the tolerance, calls with moved coordinates return, panic or run on as before, answer as
before, and lead to the moved triangulator. -/
theorem C71_origin (eps a b : K) (fuel : Nat) {dist : Vertex K → Vertex K → K}
    (hd : ∀ u v : Vertex K, dist ⟨u.x + a, u.y + b, u.isGhost⟩ ⟨v.x + a, v.y + b, v.isGhost⟩ = dist u v)
    (σ : Sched) {bd : Polyline (Vertex K)} (hb : ∀ v ∈ bd.vertices, v.isGhost = false) {qs : List (Request K)}
    (hq : ∀ q ∈ qs, Tangible q) :
    SameOutcome (fun r s => Moved 1 a b r.1 s.1 ∧ s.2 = r.2.map (moveRequest 1 a b))
      (callAll eps fuel dist σ qs (Triangulator.new bd))
      (callAll eps fuel dist σ (qs.map (moveRequest 1 a b)) (Triangulator.new (moveOutline 1 a b bd))) :=
  calls_move ⟨one_pos, Or.inl rfl⟩ fuel (fun u v => by simpa using hd u v) σ hb hq

/-- C71, the unit, without tolerance: calls with all coordinates multiplied by `k` (and moved) return, panic or run on as
before, answer as before, and lead to the triangulator in the new unit. Missing: the code compares with a fixed tolerance
(`C71_false`). -/
theorem C71_unit_partial {k : K} (hk : 0 < k) (a b : K) (fuel : Nat) {dist : Vertex K → Vertex K → K}
    (hd : ∀ u v : Vertex K, dist ⟨k * u.x + a, k * u.y + b, u.isGhost⟩ ⟨k * v.x + a, k * v.y + b, v.isGhost⟩ = k * dist u v)
    (σ : Sched) {bd : Polyline (Vertex K)} (hb : ∀ v ∈ bd.vertices, v.isGhost = false) {qs : List (Request K)}
    (hq : ∀ q ∈ qs, Tangible q) :
    SameOutcome (fun r s => Moved k a b r.1 s.1 ∧ s.2 = r.2.map (moveRequest k a b))
      (callAll 0 fuel dist σ qs (Triangulator.new bd))
      (callAll 0 fuel dist σ (qs.map (moveRequest k a b)) (Triangulator.new (moveOutline k a b bd))) :=
  calls_move ⟨hk, Or.inr rfl⟩ fuel hd σ hb hq

/-- C71, the unit, with a tolerance: for each input and each unit, the same holds for all small enough tolerances, one bound
for all iteration orders. -/
theorem C71_small_tolerance {k : K} (hk : 0 < k) (a b : K) (fuel : Nat) {dist : Vertex K → Vertex K → K}
    (hd : ∀ u v : Vertex K, dist ⟨k * u.x + a, k * u.y + b, u.isGhost⟩ ⟨k * v.x + a, k * v.y + b, v.isGhost⟩ = k * dist u v)
    {bd : Polyline (Vertex K)} (hb : ∀ v ∈ bd.vertices, v.isGhost = false) {qs : List (Request K)}
    (hq : ∀ q ∈ qs, Tangible q) :
    ∃ e0 : K, 0 < e0 ∧ ∀ eps, 0 ≤ eps → eps < e0 → ∀ σ,
      SameOutcome (fun r s => Moved k a b r.1 s.1 ∧ s.2 = r.2.map (moveRequest k a b))
        (callAll eps fuel dist σ qs (Triangulator.new bd))
        (callAll eps fuel dist σ (qs.map (moveRequest k a b)) (Triangulator.new (moveOutline k a b bd))) := by
  obtain ⟨e1, h1, k1⟩ := C70_calls fuel dist qs (Triangulator.new bd)
  obtain ⟨e2, h2, k2⟩ := C70_calls fuel dist (qs.map (moveRequest k a b)) (Triangulator.new (moveOutline k a b bd))
  refine ⟨min e1 e2, lt_min h1 h2, fun eps he hlt σ => ?_⟩
  rw [k1 eps he (lt_of_lt_of_le hlt (min_le_left _ _)), k2 eps he (lt_of_lt_of_le hlt (min_le_right _ _))]
  exact C71_unit_partial hk a b fuel hd σ hb hq

theorem euclid_moves {k : ℝ} (hk : 0 < k) (a b : ℝ) (u v : Vertex ℝ) :
    euclid ⟨k * u.x + a, k * u.y + b, u.isGhost⟩ ⟨k * v.x + a, k * v.y + b, v.isGhost⟩ = k * euclid u v := by
  have : dist2 (⟨k * u.x + a, k * u.y + b, u.isGhost⟩ : Vertex ℝ) ⟨k * v.x + a, k * v.y + b, v.isGhost⟩
      = k ^ 2 * dist2 u v := by
    simp only [dist2]
    ring
  rw [euclid, this, Real.sqrt_mul (pow_nonneg hk.le 2), Real.sqrt_sq hk.le, euclid]

/-- C71 with the distance of the code: the origin, whatever the tolerance. -/
theorem C71_origin_euclid (eps a b : ℝ) (fuel : Nat) (σ : Sched) {bd : Polyline (Vertex ℝ)}
    (hb : ∀ v ∈ bd.vertices, v.isGhost = false) {qs : List (Request ℝ)} (hq : ∀ q ∈ qs, Tangible q) :
    SameOutcome (fun r s => Moved 1 a b r.1 s.1 ∧ s.2 = r.2.map (moveRequest 1 a b))
      (callAll eps fuel euclid σ qs (Triangulator.new bd))
      (callAll eps fuel euclid σ (qs.map (moveRequest 1 a b)) (Triangulator.new (moveOutline 1 a b bd))) :=
  calls_move ⟨one_pos, Or.inl rfl⟩ fuel (euclid_moves one_pos a b) σ hb hq

/-- C71 with the distance of the code: the unit, without tolerance. -/
theorem C71_unit_euclid_partial {k : ℝ} (hk : 0 < k) (a b : ℝ) (fuel : Nat) (σ : Sched) {bd : Polyline (Vertex ℝ)}
    (hb : ∀ v ∈ bd.vertices, v.isGhost = false) {qs : List (Request ℝ)} (hq : ∀ q ∈ qs, Tangible q) :
    SameOutcome (fun r s => Moved k a b r.1 s.1 ∧ s.2 = r.2.map (moveRequest k a b))
      (callAll 0 fuel euclid σ qs (Triangulator.new bd))
      (callAll 0 fuel euclid σ (qs.map (moveRequest k a b)) (Triangulator.new (moveOutline k a b bd))) :=
  C71_unit_partial hk a b fuel (euclid_moves hk a b) σ hb hq

/-- C71, the conflicts: what the three insertions report is moved as well, after any calls. -/
theorem C71_conflicts {eps k a b : K} (hk : 0 < k) (ht : k = 1 ∨ eps = 0) {fuel : Nat} {dist : Vertex K → Vertex K → K}
    (hd : ∀ u v : Vertex K, dist ⟨k * u.x + a, k * u.y + b, u.isGhost⟩ ⟨k * v.x + a, k * v.y + b, v.isGhost⟩ = k * dist u v)
    {σ σ' : Sched} {bd : Polyline (Vertex K)} (hb : ∀ v ∈ bd.vertices, v.isGhost = false) {qs l : List (Request K)}
    (hq : ∀ q ∈ qs, Tangible q) {T : Triangulator K} (hT : callAll eps fuel dist σ qs (Triangulator.new bd) = .ok (T, l)) :
    ∃ T', callAll eps fuel dist σ (qs.map (moveRequest k a b)) (Triangulator.new (moveOutline k a b bd))
        = .ok (T', l.map (moveRequest k a b)) ∧
      (∀ vs T1 c, (∀ v ∈ vs, v.isGhost = false) → T.insertVertices eps σ' vs = .err T1 c →
        ∃ T1', Moved k a b T1 T1' ∧ T'.insertVertices eps σ' (vs.map (moveVertex k a b)) = .err T1' (c.map (moveVertex k a b))) ∧
      (∀ ss T1 c, (∀ e ∈ ss, e.v1.isGhost = false ∧ e.v2.isGhost = false) → T.insertSegments eps fuel σ' ss = .ok (.err T1 c) →
        ∃ T1', Moved k a b T1 T1' ∧
          T'.insertSegments eps fuel σ' (ss.map (moveEdge k a b)) = .ok (.err T1' (c.map (moveEdge k a b)))) ∧
      (∀ p T1 c, (∀ v ∈ p.vertices, v.isGhost = false) → T.insertHole eps fuel p = .ok (.err T1 c) →
        ∃ T1', Moved k a b T1 T1' ∧
          T'.insertHole eps fuel (moveOutline k a b p) = .ok (.err T1' (c.map (moveVertex k a b)))) := by
  have h : Rescale eps k := ⟨hk, ht⟩
  have hc := callAll_move h (a := a) (b := b) (fuel := fuel) hd σ (fun q h' => tangible_real (hq q h')) (new_real hb)
  rw [hT] at hc
  refine ⟨T.map (Vertex.moveEquiv k a b h.pos.ne'), ?_, ?_, ?_, ?_⟩
  · rw [moveRequest_eq h.pos.ne', moveOutline_eq h.pos.ne', new_map, hc.1]
    rfl
  · intro vs T1 c hv he
    refine ⟨T1.map _, moved_map h.pos.ne' T1, ?_⟩
    rw [moveVertex_eq h.pos.ne']
    refine (Triangulator.insertVertices_move h σ' hv (hc.2 _ rfl)).1.trans ?_
    rw [he]
    rfl
  · intro ss T1 c hs he
    refine ⟨T1.map _, moved_map h.pos.ne' T1, ?_⟩
    rw [moveEdge_eq h.pos.ne']
    refine (Triangulator.insertSegments_move h fuel σ' hs (hc.2 _ rfl)).1.trans ?_
    rw [he]
    rfl
  · intro p T1 c hp he
    refine ⟨T1.map _, moved_map h.pos.ne' T1, ?_⟩
    rw [moveVertex_eq h.pos.ne', moveOutline_eq h.pos.ne']
    refine (Triangulator.insertHole_move h fuel (hc.2 _ rfl) hp).1.trans ?_
    rw [he]
    rfl

namespace UnitsExample

open ValidityExample HistoryExample

/-- The unit square. -/
def unitSquare : Polyline (Vertex ℚ) := ⟨[pt 0 0, pt 1 0, pt 1 1, pt 0 1], false, by simp⟩

/-- The tolerance of the code (for instance src/elements/vertex.rs:41). -/
def codeTolerance : ℚ := 1 / 10 ^ 14

/-- C71 is false with the tolerance of the code: a square of side one is cut into two triangles, the same square of side
`1 / 10 ^ 7` has none. -/
theorem C71_false : ¬ ∀ (k : ℚ) (bd : Polyline (Vertex ℚ)) (qs : List (Request ℚ)) (σ : Sched), 0 < k →
    (∀ v ∈ bd.vertices, v.isGhost = false) → (∀ q ∈ qs, Tangible q) →
    SameOutcome (fun r s => Moved k 0 0 r.1 s.1) (callAll codeTolerance 60 blocks σ qs (Triangulator.new bd))
      (callAll codeTolerance 60 blocks σ (qs.map (moveRequest k 0 0)) (Triangulator.new (moveOutline k 0 0 bd))) := by
  intro h
  have h1 := h (1 / 10 ^ 7) unitSquare [.triangulate] Sched.first (by norm_num) (by decide +kernel) (by simp [Tangible])
  have h2 : (match callAll codeTolerance 60 blocks Sched.first [.triangulate] (Triangulator.new unitSquare) with
    | .ok r => decide (r.1.mesh.tris.length = 6) | _ => false) = true := by decide +kernel
  have h3 : (match callAll codeTolerance 60 blocks Sched.first ([Request.triangulate].map (moveRequest (1 / 10 ^ 7) 0 0))
      (Triangulator.new (moveOutline (1 / 10 ^ 7) 0 0 unitSquare)) with
    | .ok r => decide (r.1.mesh.tris.length = 4 ∧ ∀ t ∈ r.1.mesh.tris, t.isGhost Vertex.isGhost = true)
    | _ => false) = true := by decide +kernel
  revert h1 h2 h3
  cases callAll codeTolerance 60 blocks Sched.first [.triangulate] (Triangulator.new unitSquare) with
  | panic => intro _ h2; cases h2
  | diverged => intro _ h2; cases h2
  | ok r =>
    cases callAll codeTolerance 60 blocks Sched.first ([Request.triangulate].map (moveRequest (1 / 10 ^ 7) 0 0))
      (Triangulator.new (moveOutline (1 / 10 ^ 7) 0 0 unitSquare)) with
    | panic => intro _ _ h3; cases h3
    | diverged => intro _ _ h3; cases h3
    | ok s =>
      intro h1 h2 h3
      simp only [decide_eq_true_eq] at h2 h3
      have h4 : Moved (1 / 10 ^ 7) 0 0 r.1 s.1 := h1
      have := congrArg List.length h4.triangles
      rw [List.length_map, h2, h3.1] at this
      omega

/-- An accepted vertex can be lost in the same way: in a square of side `1 / 3000`, the vertex is accepted and stored, and
the mesh has no triangle with that corner. -/
theorem C71_vertex_lost : (match callAll codeTolerance 60 blocks Sched.first
      ([Request.vertices [pt (1 / 2) (1 / 3)], .triangulate].map (moveRequest (1 / 3000) 0 0))
      (Triangulator.new (moveOutline (1 / 3000) 0 0 unitSquare)) with
    | .ok r => decide (r.2.length = 2 ∧ r.1.vertices = [pt (1 / 6000) (1 / 9000)] ∧
        ∀ t ∈ r.1.mesh.tris, t.v1 ≠ pt (1 / 6000) (1 / 9000) ∧ t.v2 ≠ pt (1 / 6000) (1 / 9000) ∧ t.v3 ≠ pt (1 / 6000) (1 / 9000))
    | _ => false) = true := by decide +kernel

/-- In the unit square, the vertex is a corner of four triangles. -/
example : (match callAll codeTolerance 60 blocks Sched.first [Request.vertices [pt (1 / 2) (1 / 3)], .triangulate]
      (Triangulator.new unitSquare) with
    | .ok r => decide ((r.1.mesh.tris.filter fun t => decide (pt (1 / 2) (1 / 3) ∈ t.corners)).length = 4)
    | _ => false) = true := by decide +kernel

theorem blocks_moves {k : ℚ} (hk : 0 < k) (a b : ℚ) (u v : Vertex ℚ) :
    blocks ⟨k * u.x + a, k * u.y + b, u.isGhost⟩ ⟨k * v.x + a, k * v.y + b, v.isGhost⟩ = k * blocks u v := by
  simp only [blocks, add_sub_add_right_eq_sub, ← mul_sub, abs_mul, abs_of_pos hk, mul_add]

/-- Calls of every kind; the second and the last are refused. -/
def mixed : List (Request ℚ) :=
  [.vertices [pt 1 1, pt 3 2], .vertices [pt 9 9], .segments [⟨pt 1 3, pt 2 3⟩], .triangulate, .refine ⟨some 3, 10⟩,
    .hole ⟨[pt 0 0, pt 9 0, pt 0 9], false, by simp⟩]

/-- The statements apply to them: in another unit and with another origin, everything is as before. -/
example (σ : Sched) : SameOutcome (fun r s => Moved (3 / 7) 5 (-2) r.1 s.1 ∧ s.2 = r.2.map (moveRequest (3 / 7) 5 (-2)))
    (callAll 0 60 blocks σ mixed (Triangulator.new ConvexExample.pentagon))
    (callAll 0 60 blocks σ (mixed.map (moveRequest (3 / 7) 5 (-2)))
      (Triangulator.new (moveOutline (3 / 7) 5 (-2) ConvexExample.pentagon))) := by
  refine C71_unit_partial (by norm_num) 5 (-2) 60 (blocks_moves (by norm_num) 5 (-2)) σ (by decide +kernel) ?_
  intro q hq
  simp only [mixed, List.mem_cons, List.not_mem_nil, or_false] at hq
  rcases hq with rfl | rfl | rfl | rfl | rfl | rfl <;> simp only [Tangible] <;> decide +kernel

/-- They return, four of the six are accepted, and the mesh is not empty. -/
example : (match callAll 0 60 blocks Sched.first mixed (Triangulator.new ConvexExample.pentagon) with
    | .ok r => decide (r.2.length = 4 ∧ 8 < r.1.mesh.tris.length) | _ => false) = true := by decide +kernel

end UnitsExample

end Verif.Props
