import Verif.Lemmas.Tiling

/-!
# The ghosts of a Delaunay mesh form one ring
-/

set_option linter.unusedSectionVars false

namespace Verif

open Spec

variable {K : Type*} [Field K] [LinearOrder K] [IsStrictOrderedRing K]

/-- The middle of a triangle. -/
def middle (t : Tri (Vertex K)) : Vertex K :=
  ⟨(t.v1.x + t.v2.x + t.v3.x) / 3, (t.v1.y + t.v2.y + t.v3.y) / 3, false⟩

theorem middle_cross (t : Tri (Vertex K)) : cross t.v1 t.v2 (middle t) = cross t.v1 t.v2 t.v3 / 3 ∧
    cross t.v2 t.v3 (middle t) = cross t.v1 t.v2 t.v3 / 3 ∧ cross t.v3 t.v1 (middle t) = cross t.v1 t.v2 t.v3 / 3 := by
  simp only [cross, middle]
  refine ⟨?_, ?_, ?_⟩ <;> ring

theorem inner_middle {t : Tri (Vertex K)} (h : SolidTri t) : Inner t (middle t) := by
  obtain ⟨h1, h2, h3⟩ := middle_cross t
  have := h.ccw
  refine ⟨?_, ?_, ?_⟩ <;> linarith

theorem sum_le_zero : ∀ {l : List ℤ}, (∀ z ∈ l, z ≤ 0) → l.sum ≤ 0
  | [], _ => by simp
  | a :: l, h => by
    have h1 := h a (by simp)
    have h2 := sum_le_zero (l := l) fun z hz => h z (by simp [hz])
    rw [List.sum_cons]
    omega

section

variable {g : Vertex K} {T : List (Tri (Vertex K))}

/-- Points inside triangles are strictly inside all hull edges. -/
theorem Good.inner_right_strict (hT : Good g T) {t s : Tri (Vertex K)} (ht : t ∈ T) (hg : GhostTri g t) (hs : s ∈ T)
    (hsol : SolidTri s) {w : Vertex K} (hi : Inner s w) : cross t.v1 t.v2 w < 0 := by
  have k1 := (hT.hull t ht hg s.v1 ⟨⟨s, hs, Or.inl rfl⟩, hsol.r1⟩).1
  have k2 := (hT.hull t ht hg s.v2 ⟨⟨s, hs, Or.inr (Or.inl rfl)⟩, hsol.r2⟩).1
  have k3 := (hT.hull t ht hg s.v3 ⟨⟨s, hs, Or.inr (Or.inr rfl)⟩, hsol.r3⟩).1
  have e : cross s.v1 s.v2 s.v3 * cross t.v1 t.v2 w = cross s.v2 s.v3 w * cross t.v1 t.v2 s.v1
      + cross s.v3 s.v1 w * cross t.v1 t.v2 s.v2 + cross s.v1 s.v2 w * cross t.v1 t.v2 s.v3 := by
    simp only [cross]; ring
  obtain ⟨i1, i2, i3⟩ := hi
  have hccw := hsol.ccw
  by_contra hc
  push Not at hc
  have n1 := mul_nonneg i2.le (neg_nonneg.2 k1)
  have n2 := mul_nonneg i3.le (neg_nonneg.2 k2)
  have n3 := mul_nonneg i1.le (neg_nonneg.2 k3)
  have n4 := mul_nonneg hccw.le hc
  have z1 : cross t.v1 t.v2 s.v1 = 0 := by
    have : cross s.v2 s.v3 w * cross t.v1 t.v2 s.v1 = 0 := by linarith
    exact (mul_eq_zero.1 this).resolve_left i2.ne'
  have z2 : cross t.v1 t.v2 s.v2 = 0 := by
    have : cross s.v3 s.v1 w * cross t.v1 t.v2 s.v2 = 0 := by linarith
    exact (mul_eq_zero.1 this).resolve_left i3.ne'
  have z3 : cross t.v1 t.v2 s.v3 = 0 := by
    have : cross s.v1 s.v2 w * cross t.v1 t.v2 s.v3 = 0 := by linarith
    exact (mul_eq_zero.1 this).resolve_left i1.ne'
  have hne := real_ne hg.r1 hg.r2 hg.ne
  obtain ⟨k, kx, ky⟩ := line_param z1 hne
  obtain ⟨l, lx, ly⟩ := line_param z2 hne
  obtain ⟨m, mx, my⟩ := line_param z3 hne
  have h0 : cross s.v1 s.v2 s.v3 = 0 := by simp only [cross, kx, ky, lx, ly, mx, my]; ring
  linarith

theorem Good.prev (hT : Good g T) {t : Tri (Vertex K)} (ht : t ∈ T) (hg : GhostTri g t) :
    ∃ s ∈ T, GhostTri g s ∧ s.v2 = t.v1 := by
  obtain ⟨s, hs, hside⟩ := hT.across ht (e := ⟨t.v3, t.v1⟩) (Or.inr (Or.inr ⟨rfl, rfl⟩))
  obtain ⟨hsg, hcase⟩ := hT.side_ghost hs hside (by
    rintro ⟨-, h⟩; simp [Edge.opposite, hg.g3, hT.ghost] at h)
  refine ⟨s, hs, hsg, ?_⟩
  rcases hcase with ⟨h, -⟩ | ⟨h, -⟩
  · exact h.symm
  · exfalso
    simp only [Edge.opposite] at h
    have := hg.r1
    rw [h, hT.ghost] at this
    simp at this

/-- What passes from each ghost to the next one holds for all of them if it holds for one. -/
theorem Good.ring (hT : Good g T) {s : Tri (Vertex K)} (hs : s ∈ T) (hsol : SolidTri s) {G : Tri (Vertex K) → Prop}
    (hG : ∀ t ∈ T, GhostTri g t → G t → ∀ s ∈ T, GhostTri g s → s.v1 = t.v2 → G s) {t0 : Tri (Vertex K)}
    (ht0 : t0 ∈ T) (hg0 : GhostTri g t0) (h0 : G t0) {t : Tri (Vertex K)} (ht : t ∈ T) (hg : GhostTri g t) : G t := by
  classical
  by_contra hn
  have main : ∀ G' : Tri (Vertex K) → Prop, (∀ t, t ∈ T ∧ GhostTri g t ∧ G' t → ∃ s, (s ∈ T ∧ GhostTri g s ∧ G' s) ∧ s.v1 = t.v2) ∨
      (∀ t, t ∈ T ∧ GhostTri g t ∧ G' t → ∃ s, (s ∈ T ∧ GhostTri g s ∧ G' s) ∧ s.v2 = t.v1) →
      (∃ t ∈ T, GhostTri g t ∧ G' t) →
      ∃ t ∈ T, GhostTri g t ∧ G' t ∧ crs (middle s) 1 0 ⟨t.v1, t.v2⟩ < 0 := by
    intro G' hcl hne
    have hmem : ∀ t, t ∈ T.filter (fun t => decide (GhostTri g t ∧ G' t)) ↔ t ∈ T ∧ GhostTri g t ∧ G' t := by
      intro t; simp [List.mem_filter]
    obtain ⟨n1, n2⟩ := hT.nodup_starts (G := T.filter fun t => decide (GhostTri g t ∧ G' t)) (hT.simple.nodup.filter _)
      fun t ht => ⟨((hmem t).1 ht).1, ((hmem t).1 ht).2.1⟩
    have hsum := ghost_sum_of_subset n1 n2 (by
      rcases hcl with h | h
      · left
        intro t ht
        obtain ⟨s, h1, h2⟩ := h t ((hmem t).1 ht)
        exact ⟨s, (hmem s).2 h1, h2⟩
      · right
        intro t ht
        obtain ⟨s, h1, h2⟩ := h t ((hmem t).1 ht)
        exact ⟨s, (hmem s).2 h1, h2⟩)
    have hcyc : Cycle K ((T.filter fun t => decide (GhostTri g t ∧ G' t)).map fun t => (⟨t.v2, t.v1⟩ : Edge (Vertex K))) := by
      intro ψ
      have := hsum fun x => -ψ x
      rw [List.map_map]
      rw [← this]
      congr 1
      apply List.map_congr_left
      intro t _
      simp only [Function.comp]
      ring
    have hx := cycle_crosses (v := middle s) (ux := 1) (uy := 0) (Or.inl one_ne_zero) hcyc (by
      obtain ⟨t, h1, h2⟩ := hne
      intro he
      rw [List.map_eq_nil_iff] at he
      have := (hmem t).2 ⟨h1, h2⟩
      rw [he] at this
      simp at this) (by
      intro e he
      obtain ⟨t, ht, rfl⟩ := List.mem_map.1 he
      obtain ⟨h1, h2, -⟩ := (hmem t).1 ht
      refine ⟨⟨h2.r2, h2.r1⟩, ?_⟩
      simp only
      rw [cross_swap]
      linarith [hT.inner_right_strict h1 h2 hs hsol (inner_middle hsol)])
    by_contra hno
    push Not at hno
    have hle : ∀ z ∈ (((T.filter fun t => decide (GhostTri g t ∧ G' t)).map fun t => (⟨t.v2, t.v1⟩ : Edge (Vertex K))).map
        (crs (middle s) 1 0)), z ≤ 0 := by
      intro z hz
      rw [List.map_map] at hz
      obtain ⟨t, ht, rfl⟩ := List.mem_map.1 hz
      obtain ⟨h1, h2, h3⟩ := (hmem t).1 ht
      have := hno t h1 h2 h3
      have e := crs_opposite (middle s) 1 0 (⟨t.v1, t.v2⟩ : Edge (Vertex K))
      simp only [Edge.opposite] at e
      simp only [Function.comp, e]
      omega
    have := sum_le_zero hle
    omega
  obtain ⟨t1, a1, a2, a3, a4⟩ := main G (Or.inl (by
    rintro t ⟨h1, h2, h3⟩
    obtain ⟨s, k1, k2, k3⟩ := hT.next h1 h2
    exact ⟨s, ⟨k1, k2, hG t h1 h2 h3 s k1 k2 k3⟩, k3⟩)) ⟨t0, ht0, hg0, h0⟩
  obtain ⟨t2, b1, b2, b3, b4⟩ := main (fun t => ¬ G t) (Or.inr (by
    rintro t ⟨h1, h2, h3⟩
    obtain ⟨s, k1, k2, k3⟩ := hT.prev h1 h2
    exact ⟨s, ⟨k1, k2, fun hs => h3 (hG s k1 k2 hs t h1 h2 k3.symm)⟩, k3⟩)) ⟨t, ht, hg, hn⟩
  have := hT.hull_once a1 b1 a2 b2 a4 b4
  exact b3 (this ▸ a3)

end

end Verif
