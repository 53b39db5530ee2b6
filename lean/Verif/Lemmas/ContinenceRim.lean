import Verif.Lemmas.ContinenceGeo

/-!
# Polylines inside a polygon that touch it
-/

set_option linter.unusedSectionVars false

namespace Verif

open Spec

variable {K : Type*} [Field K] [LinearOrder K] [IsStrictOrderedRing K]

theorem continenceLoop_some {p : Polyline (Vertex K)} {c : Continence} :
    ∀ (l : List (Vertex K)) (s : Option Continence) (i : BoundaryInclusion), (s = none ∨ s = some c) →
      (∀ v ∈ l, p.contains 0 v = some .boundary ∨ p.contains 0 v = some c) →
      ∃ s', Polyline.continenceLoop 0 p l (s, i) = .ok (some s') := by
  intro l
  induction l with
  | nil => intro s i _ _; exact ⟨_, rfl⟩
  | cons v l ih =>
    intro s i hs h
    have h' : ∀ w ∈ l, p.contains 0 w = some .boundary ∨ p.contains 0 w = some c := fun w hw =>
      h w (List.mem_cons_of_mem _ hw)
    rw [Polyline.continenceLoop]
    rcases h v (by simp) with hv | hv
    · rw [hv]
      exact ih _ _ hs h'
    · rw [hv]
      cases c with
      | boundary => exact ih _ _ hs h'
      | inside =>
        rcases hs with rfl | rfl
        · exact ih _ _ (Or.inr rfl) h'
        · simp only []
          rw [if_pos trivial]
          exact ih _ _ (Or.inr rfl) h'
      | outside =>
        rcases hs with rfl | rfl
        · exact ih _ _ (Or.inr rfl) h'
        · simp only []
          rw [if_pos trivial]
          exact ih _ _ (Or.inr rfl) h'

theorem continenceSplitLoop_boundary {p : Polyline (Vertex K)} {c : Option Continence} (l : List (Edge (Vertex K)))
    (h : ∀ e ∈ l, p.contains 0 e.midpoint = some .boundary) : Polyline.continenceSplitLoop 0 p c l = .ok true := by
  induction l with
  | nil => rfl
  | cons e l ih =>
    rw [Polyline.continenceSplitLoop, h e (by simp)]
    exact ih fun f hf => h f (List.mem_cons_of_mem _ hf)

/-- A polyline that does not leave the polygon, and is on the polygon everywhere or inside it at a vertex or in the middle
of an edge, is not reported to be outside. -/
theorem continence_within {p q : Polyline (Vertex K)} (hp : ∀ v ∈ p.vertices, v.isGhost = false)
    (hq : ∀ v ∈ q.vertices, v.isGhost = false) (ho : p.opened = false)
    (h : ∀ s ∈ pairs q.vertices q.opened, ∀ x, OnSegment s.1 s.2 x →
      p.contains 0 x = some .boundary ∨ p.contains 0 x = some .inside)
    (hv : (∃ v ∈ q.criticalVertices, p.contains 0 v = some .inside) ∨
      ∀ s ∈ pairs q.vertices q.opened, ∀ x, OnSegment s.1 s.2 x → p.contains 0 x = some .boundary) {fuel : Nat}
    {r : Option (Continence × BoundaryInclusion)} (hr : Polyline.continence 0 fuel p q = .ok r) :
    ∃ c i, r = some (c, i) ∧ c ≠ .outside := by
  have hsolid : ∀ s ∈ pairs p.vertices p.opened ++ pairs q.vertices q.opened, Solid s := by
    intro s hs
    rcases List.mem_append.1 hs with hs | hs
    · exact pairs_solid hp s hs
    · exact pairs_solid hq s hs
  have hcrit : ∀ v ∈ q.criticalVertices, ∃ s ∈ pairs q.vertices q.opened, OnSegment s.1 s.2 v := by
    intro v hv
    unfold Polyline.criticalVertices Polyline.intoEdges at hv
    obtain ⟨e, he, hv⟩ := List.mem_flatMap.1 hv
    obtain ⟨s, hs, rfl⟩ := List.mem_map.1 he
    simp only [List.mem_cons, List.not_mem_nil, or_false] at hv
    rcases hv with rfl | rfl
    · exact ⟨s, hs, midpoint_onSegment (onSegment_left _ _) (onSegment_right _ _)⟩
    · exact ⟨s, hs, onSegment_left _ _⟩
  unfold Polyline.continence at hr
  rw [if_neg (by simp [ho])] at hr
  obtain ⟨s', hs'⟩ := continenceLoop_some (p := p) (c := .inside) q.criticalVertices none .opened (Or.inl rfl) (by
    intro v hv
    obtain ⟨s, hs, hx⟩ := hcrit v hv
    exact h s hs v hx)
  obtain ⟨i1, -, i3, -, i5, i6⟩ := continenceLoop_ok hs'
  rw [hs', Res.bind_ok] at hr
  obtain ⟨pc, pb⟩ := s'
  simp only at hr i1 i3 i5 i6
  rw [Res.bind_eq_ok] at hr
  obtain ⟨sp, hsp, hr⟩ := hr
  have hinv := splitIntersections_inv hsolid hsp
  have hmid : ∀ e ∈ Edge.fromVertexPairs sp, p.contains 0 e.midpoint = some .boundary ∨
      ∃ s ∈ pairs q.vertices q.opened, OnSegment s.1 s.2 e.midpoint := by
    intro e he
    obtain ⟨s, hs, rfl⟩ := List.mem_map.1 he
    obtain ⟨t, ht, h1, h2⟩ := hinv.parent s (by simpa using hs)
    have hm := midpoint_onSegment h1 h2
    rcases List.mem_append.1 ht with ht | ht
    · left
      rw [ho] at ht
      exact (Props.C08_boundary_exact p ho _).2 ⟨t, ht, hm⟩
    · exact Or.inr ⟨t, ht, hm⟩
  rcases hv with ⟨v, hv, hin⟩ | hall
  · have hpc : pc = some .inside := by
      rcases i1 v hv with k | k
      · rw [hin] at k; simp at k
      · rw [← k]; exact hin
    subst hpc
    rw [continenceSplitLoop_all, Res.bind_ok] at hr
    · simp only [Bool.not_true, Bool.false_eq_true, if_false, reduceCtorEq, and_false, Res.ok.injEq] at hr
      exact ⟨_, _, hr.symm, by simp⟩
    · intro e he
      rcases hmid e he with k | ⟨s, hs, k⟩
      · exact Or.inl k
      · exact h s hs _ k
  · have hb : ∀ v ∈ q.criticalVertices, p.contains 0 v = some .boundary := by
      intro v hv
      obtain ⟨s, hs, k⟩ := hcrit v hv
      exact hall s hs v k
    rw [continenceSplitLoop_boundary, Res.bind_ok] at hr
    · simp only [Bool.not_true, Bool.false_eq_true, if_false] at hr
      cases hpc : pc with
      | none =>
        have : pb = .closed := by
          cases hpb : pb with
          | closed => rfl
          | opened => exact absurd (i6 hpc hpb) (criticalVertices_ne_nil q)
        rw [if_pos ⟨this, hpc⟩] at hr
        simp only [Res.ok.injEq] at hr
        exact ⟨_, _, hr.symm, by simp⟩
      | some c =>
        exfalso
        cases hl : q.criticalVertices with
        | nil => exact criticalVertices_ne_nil q hl
        | cons v l =>
          rw [hl] at hs' hb
          have : ∀ (l : List (Vertex K)) (i : BoundaryInclusion) (s' : Polyline.ContState),
              (∀ v ∈ l, p.contains 0 v = some .boundary) →
              Polyline.continenceLoop 0 p l (none, i) = .ok (some s') → s'.1 = none := by
            intro l
            induction l with
            | nil =>
              intro i s' _ h
              simp only [Polyline.continenceLoop, Res.ok.injEq, Option.some.injEq] at h
              rw [← h]
            | cons v l ih =>
              intro i s' h1 h2
              rw [Polyline.continenceLoop, h1 v (by simp)] at h2
              exact ih _ _ (fun w hw => h1 w (List.mem_cons_of_mem _ hw)) h2
          have := this _ _ _ hb hs'
          rw [hpc] at this
          simp at this
    · intro e he
      rcases hmid e he with k | ⟨s, hs, k⟩
      · exact k
      · exact hall s hs _ k

end Verif
