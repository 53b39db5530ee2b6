import Verif.Lemmas.Tiling
import Verif.Lemmas.Confine

/-!
# The winding number on the two sides of a side
-/

set_option linter.unusedSectionVars false

namespace Verif

open Spec

variable {K : Type*} [Field K] [LinearOrder K] [IsStrictOrderedRing K]

/-- Two points joined by a segment that avoids a closed chain have the same winding number. -/
theorem winding_telescopes {L : List (Vertex K × Vertex K)} (hL : Telescopes L) {v w : Vertex K}
    (hmiss : ∀ s ∈ L, ∀ p, OnSegment s.1 s.2 p → ¬ OnSegment v w p) :
    windingNumber L v = windingNumber L w := by
  have main : ∀ {v w : Vertex K}, v.x < w.x →
      (∀ s ∈ L, ∀ p, OnSegment s.1 s.2 p → ¬ OnSegment v w p) →
      windingNumber L w - windingNumber L v = 0 := by
    intro v w hvw hmiss
    have h : ∀ q : List (Vertex K × Vertex K),
        (∀ s ∈ q, ∀ p, OnSegment s.1 s.2 p → ¬ OnSegment v w p) →
        windingNumber q w - windingNumber q v =
          (q.map fun s => aboveSeg v w s.2 - aboveSeg v w s.1).sum := by
      intro q
      induction q with
      | nil => intro _; simp [windingNumber]
      | cons s q ih =>
        intro hq
        have h1 := ih fun t ht => hq t (List.mem_cons_of_mem _ ht)
        have h2 := crossing_diff hvw (hq s List.mem_cons_self)
        simp only [windingNumber, List.map_cons, List.sum_cons] at h1 ⊢
        omega
    rw [h _ hmiss, hL (aboveSeg v w)]
  rcases lt_trichotomy v.x w.x with hvw | hvw | hvw
  · have := main hvw hmiss; omega
  · unfold windingNumber
    congr 1
    apply List.map_congr_left
    intro s hs
    exact (crossing_vertical hvw (hmiss s hs)).symm
  · have := main hvw (fun s hs p h1 h2 => hmiss s hs p h1 (onSegment_symm h2)); omega

theorem crossingAbove_congr {v v' a a' b b' : Vertex K} (hv : SamePoint v v') (ha : SamePoint a a') (hb : SamePoint b b') :
    crossingAbove v a b = crossingAbove v' a' b' := by
  unfold crossingAbove cross
  rw [hv.1, hv.2, ha.1, ha.2, hb.1, hb.2]

theorem cross_combo {a b p c c' : Vertex K} {j : K} (hx : p.x = c.x + j * (c'.x - c.x)) (hy : p.y = c.y + j * (c'.y - c.y)) :
    cross a b p = cross a b c + j * (cross a b c' - cross a b c) := by
  simp only [cross, hx, hy]; ring

/-- Crossing a side of a closed chain, and nothing else, from its right to its left, the winding number grows by one. -/
theorem side_jump {M1 M2 : List (Vertex K × Vertex K)} {s : Vertex K × Vertex K} (hL : Telescopes (M1 ++ s :: M2))
    {c c' q : Vertex K} (hq : StrictlyOn s.1 s.2 q) (hqc : OnSegment c c' q) (hc : cross s.1 s.2 c < 0)
    (hc' : 0 < cross s.1 s.2 c') (hmiss : ∀ t ∈ M1 ++ M2, ∀ p, OnSegment t.1 t.2 p → ¬ OnSegment c c' p) :
    windingNumber (M1 ++ s :: M2) c' = windingNumber (M1 ++ s :: M2) c + 1 := by
  obtain ⟨⟨m, m0, m1, mx, my⟩, qa, qb⟩ := hq
  obtain ⟨k, k0, k1, kx, ky⟩ := hqc
  obtain ⟨a0, b0⟩ := s
  simp only at *
  -- copies with ordinary flags
  obtain ⟨a, ha⟩ : ∃ a : Vertex K, a = ⟨a0.x, a0.y, false⟩ := ⟨_, rfl⟩
  obtain ⟨b, hb⟩ : ∃ b : Vertex K, b = ⟨b0.x, b0.y, false⟩ := ⟨_, rfl⟩
  obtain ⟨d, hd⟩ : ∃ d : Vertex K, d = ⟨2 * c.x - q.x, 2 * c.y - q.y, false⟩ := ⟨_, rfl⟩
  have hm0 : 0 < m := by
    refine lt_of_le_of_ne m0 fun h => qa ?_
    rw [← h] at mx my
    exact ⟨by linarith, by linarith⟩
  have hm1 : m < 1 := by
    refine lt_of_le_of_ne m1 fun h => qb ?_
    rw [h] at mx my
    exact ⟨by linarith, by linarith⟩
  have hq0 : cross a0 b0 q = 0 := by simp only [cross, mx, my]; ring
  have hk0 : 0 < k := by
    refine lt_of_le_of_ne k0 fun h => ?_
    have := cross_combo (a := a0) (b := b0) kx ky
    rw [← h, hq0] at this
    linarith
  -- the triangle a d b
  have e0 : cross a d b = -2 * cross a0 b0 c := by
    have : cross a d b = -(2 * cross a0 b0 c - cross a0 b0 q) := by
      rw [ha, hb, hd]; simp only [cross]; ring
    rw [this, hq0]; ring
  have hcc : 0 < cross a d b := by rw [e0]; linarith
  have hsol : SolidTri (⟨a, d, b⟩ : Tri (Vertex K)) := ⟨by rw [ha], by rw [hd], by rw [hb], hcc⟩
  have i1 : cross a d c = m / 2 * cross a d b := by
    rw [ha, hb, hd]; simp only [cross, mx, my]; ring
  have i2 : cross d b c = (1 - m) / 2 * cross a d b := by
    rw [ha, hb, hd]; simp only [cross, mx, my]; ring
  have i3 : cross b a c = -cross a0 b0 c := by
    rw [ha, hb]; simp only [cross]; ring
  have i3' : cross b a c' = -cross a0 b0 c' := by
    rw [ha, hb]; simp only [cross]; ring
  have p1 : 0 < cross a d c := by rw [i1]; positivity
  have p2 : 0 < cross d b c := by rw [i2]; exact mul_pos (by linarith) hcc
  have hin : Inner (⟨a, d, b⟩ : Tri (Vertex K)) c := ⟨p1, p2, by rw [i3]; linarith⟩
  have hout : ¬ Inner (⟨a, d, b⟩ : Tri (Vertex K)) c' := by
    intro h
    have := h.2.2
    simp only at this
    rw [i3'] at this
    linarith
  have on0 : ∀ {u v p : Vertex K}, OnSegment u v p → cross u v p = 0 := by
    rintro u v p ⟨j, -, -, jx, jy⟩
    simp only [cross, jx, jy]; ring
  have off1 : ∀ e : Edge (Vertex K), IsSide (⟨a, d, b⟩ : Tri (Vertex K)) e → ¬ OnSegment e.v1 e.v2 c := by
    rintro e he ho
    have := on0 ho
    rcases he with ⟨h1, h2⟩ | ⟨h1, h2⟩ | ⟨h1, h2⟩ <;> rw [h1, h2] at this <;> simp only at this
    · linarith
    · linarith
    · rw [i3] at this; linarith
  have off2 : ∀ e : Edge (Vertex K), IsSide (⟨a, d, b⟩ : Tri (Vertex K)) e → ¬ OnSegment e.v1 e.v2 c' := by
    rintro e he ⟨j, j0, j1, jx, jy⟩
    have hba := cross_combo (a := b) (b := a) jx jy
    have z1 : cross b a a = 0 := by simp only [cross]; ring
    have z2 : cross b a b = 0 := by simp only [cross]; ring
    have z3 : cross b a d = cross a d b := by simp only [cross]; ring
    have hj : 0 ≤ 1 - j := by linarith
    rcases he with ⟨h1, h2⟩ | ⟨h1, h2⟩ | ⟨h1, h2⟩ <;> rw [h1, h2] at hba <;> simp only at hba <;>
      simp only [z1, z2, z3, i3'] at hba
    · nlinarith [mul_nonneg j0 hcc.le]
    · nlinarith [mul_nonneg hj hcc.le]
    · linarith
  have t1 := sum_crossings_ite hsol off1
  have t2 := sum_crossings_ite hsol off2
  rw [if_pos hin] at t1
  rw [if_neg hout] at t2
  simp only at t1 t2
  -- the detour
  have sa : SamePoint a0 a := by rw [ha]; exact ⟨rfl, rfl⟩
  have sb : SamePoint b0 b := by rw [hb]; exact ⟨rfl, rfl⟩
  have hw : ∀ v, windingNumber (M1 ++ (a0, b0) :: M2) v =
      windingNumber (M1 ++ (a0, d) :: (d, b0) :: M2) v
        - (crossingAbove v a d + crossingAbove v d b + crossingAbove v b a) := by
    intro v
    have f := crossingAbove_flip v a b
    have g1 := crossingAbove_congr (v := v) (v' := v) ⟨rfl, rfl⟩ sa sb
    have g2 := crossingAbove_congr (v := v) (v' := v) (b := d) (b' := d) ⟨rfl, rfl⟩ sa ⟨rfl, rfl⟩
    have g3 := crossingAbove_congr (v := v) (v' := v) (a := d) (a' := d) ⟨rfl, rfl⟩ ⟨rfl, rfl⟩ sb
    simp only [windingNumber, List.map_append, List.map_cons, List.sum_append, List.sum_cons]
    omega
  have hL' : Telescopes (M1 ++ (a0, d) :: (d, b0) :: M2) := by
    intro h
    have := hL h
    simp only [List.map_append, List.map_cons, List.sum_append, List.sum_cons] at this ⊢
    linarith
  have hsame := winding_telescopes hL' (v := c) (w := c') (by
    intro t ht p hp hpc
    have hcases : t ∈ M1 ++ M2 ∨ t = (a0, d) ∨ t = (d, b0) := by
      simp only [List.mem_append, List.mem_cons] at ht ⊢
      tauto
    obtain ⟨j, j0, j1, jx, jy⟩ := hpc
    have ex : k * (p.x - c.x) = j * (c.x - d.x) := by
      rw [jx, hd]; simp only [kx]; ring
    have ey : k * (p.y - c.y) = j * (c.y - d.y) := by
      rw [jy, hd]; simp only [ky]; ring
    rcases hcases with h | rfl | rfl
    · exact hmiss t h p hp ⟨j, j0, j1, jx, jy⟩
    · have h0 := on0 hp
      simp only at h0
      have : k * cross a d p = (k + j) * cross a d c := by
        simp only [cross]
        linear_combination (d.x - a.x) * ey - (d.y - a.y) * ex
      have h0' : cross a d p = 0 := by rw [← h0, ha]; simp only [cross]
      rw [h0', mul_zero] at this
      have : 0 < (k + j) * cross a d c := mul_pos (by linarith) p1
      linarith
    · have h0 := on0 hp
      simp only at h0
      have : k * cross d b p = (k + j) * cross d b c := by
        simp only [cross]
        linear_combination (b.x - d.x) * ey - (b.y - d.y) * ex
      have h0' : cross d b p = 0 := by rw [← h0, hb]; simp only [cross]
      rw [h0', mul_zero] at this
      have : 0 < (k + j) * cross d b c := mul_pos (by linarith) p2
      linarith)
  rw [hw c, hw c', hsame]
  omega

end Verif
