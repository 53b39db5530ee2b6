import Verif.Lemmas.Geometry
import Verif.Model.Edge
import Mathlib.Analysis.Real.Sqrt
import Mathlib.Tactic.Linarith
import Mathlib.Tactic.FieldSimp
import Mathlib.Tactic.NormNum

/-!
# Triangle quality (C38), over the real numbers
-/

set_option linter.unusedSectionVars false

namespace Verif.Props

open Spec

/-- Euclidean distance. -/
noncomputable def euclid (a b : Vertex ℝ) : ℝ := Real.sqrt (dist2 a b)

theorem euclid_comm (a b : Vertex ℝ) : euclid a b = euclid b a := by
  unfold euclid dist2; congr 1; ring

theorem dist2_nonneg (a b : Vertex ℝ) : 0 ≤ dist2 a b := by unfold dist2; positivity

theorem euclid_sq (a b : Vertex ℝ) : euclid a b ^ 2 = dist2 a b := Real.sq_sqrt (dist2_nonneg a b)

theorem euclid_nonneg (a b : Vertex ℝ) : 0 ≤ euclid a b := Real.sqrt_nonneg _

theorem euclid_pos {a b : Vertex ℝ} (h : a.x ≠ b.x ∨ a.y ≠ b.y) : 0 < euclid a b := by
  apply Real.sqrt_pos.2
  unfold dist2
  rcases h with h | h
  · have : 0 < (a.x - b.x) ^ 2 := by
      have := sub_ne_zero.2 h
      positivity
    positivity
  · have : 0 < (a.y - b.y) ^ 2 := by
      have := sub_ne_zero.2 h
      positivity
    positivity

/-- Square of `a b c = 4 A R`. -/
theorem sides_circumradius {o a b c : Vertex ℝ} (h : Equidistant o a b c) :
    dist2 a b * dist2 b c * dist2 c a = 4 * cross a b c ^ 2 * dist2 o a := by
  obtain ⟨h1, h2⟩ := h
  unfold dist2 at h1 h2 ⊢
  unfold cross
  have e1 : 2 * ((o.x - a.x) * (b.x - a.x) + (o.y - a.y) * (b.y - a.y)) =
      (b.x - a.x) ^ 2 + (b.y - a.y) ^ 2 := by linear_combination h1
  have e2 : 2 * ((o.x - a.x) * (c.x - a.x) + (o.y - a.y) * (c.y - a.y)) =
      (c.x - a.x) ^ 2 + (c.y - a.y) ^ 2 := by linear_combination h2
  generalize o.x - a.x = ux at e1 e2 ⊢
  generalize o.y - a.y = uy at e1 e2 ⊢
  have f1 : b.x - c.x = (b.x - a.x) - (c.x - a.x) := by ring
  have f2 : b.y - c.y = (b.y - a.y) - (c.y - a.y) := by ring
  have f3 : a.x - b.x = -(b.x - a.x) := by ring
  have f4 : a.y - b.y = -(b.y - a.y) := by ring
  rw [f1, f2, f3, f4]
  generalize b.x - a.x = px at e1 e2 ⊢
  generalize b.y - a.y = py at e1 e2 ⊢
  generalize c.x - a.x = qx at e1 e2 ⊢
  generalize c.y - a.y = qy at e1 e2 ⊢
  have key : 4 * (px * qy - py * qx) ^ 2 * (ux ^ 2 + uy ^ 2) =
      (2 * (ux * px + uy * py)) ^ 2 * (qx ^ 2 + qy ^ 2) + (2 * (ux * qx + uy * qy)) ^ 2 * (px ^ 2 + py ^ 2)
        - 2 * (2 * (ux * px + uy * py)) * (2 * (ux * qx + uy * qy)) * (px * qx + py * qy) := by ring
  rw [key, e1, e2]; ring

theorem areaTriangle_eq (a b c : Vertex ℝ) : 4 * areaTriangle a b c = 2 * cross a b c := by
  rw [areaTriangle, orientDet_eq]; ring

/-- The product of the three sides. -/
theorem sides_product {o a b c : Vertex ℝ} (h : Equidistant o a b c) (hc : 0 < cross a b c) :
    euclid a b * euclid b c * euclid c a = 2 * cross a b c * euclid o a := by
  have h1 : 0 ≤ euclid a b * euclid b c * euclid c a :=
    mul_nonneg (mul_nonneg (euclid_nonneg _ _) (euclid_nonneg _ _)) (euclid_nonneg _ _)
  have h2 : 0 ≤ 2 * cross a b c * euclid o a := mul_nonneg (by linarith) (euclid_nonneg _ _)
  have h3 : (euclid a b * euclid b c * euclid c a) ^ 2 = (2 * cross a b c * euclid o a) ^ 2 := by
    rw [mul_pow, mul_pow, euclid_sq, euclid_sq, euclid_sq, mul_pow, euclid_sq, sides_circumradius h]
    ring
  exact (pow_left_inj₀ h1 h2 (by norm_num)).1 h3

/-- C38: for a counterclockwise triangle with circumcentre `o`, the quality times the length of the
shortest side is the circumradius. -/
theorem C38_ratio {t : Tri (Vertex ℝ)} {o : Vertex ℝ} (hg : t.isGhost Vertex.isGhost = false)
    (hccw : 0 < cross t.v1 t.v2 t.v3) (ho : Equidistant o t.v1 t.v2 t.v3) :
    ∃ q, t.quality euclid = some q ∧
      q * min (euclid t.v1 t.v2) (min (euclid t.v2 t.v3) (euclid t.v3 t.v1)) = euclid o t.v1 := by
  have hp := sides_product ho hccw
  have ha := areaTriangle_eq t.v1 t.v2 t.v3
  have hne : 4 * areaTriangle t.v1 t.v2 t.v3 ≠ 0 := by rw [ha]; linarith
  unfold Tri.quality
  rw [if_neg (by simp [hg])]
  simp only []
  split_ifs with h1 h2
  · refine ⟨_, rfl, ?_⟩
    rw [min_eq_left (le_min h1.1 h1.2), div_mul_eq_mul_div, div_eq_iff hne, ha]
    linarith
  · refine ⟨_, rfl, ?_⟩
    have h3 : min (euclid t.v1 t.v2) (min (euclid t.v2 t.v3) (euclid t.v3 t.v1)) = euclid t.v2 t.v3 := by
      rw [min_eq_left h2]
      apply min_eq_right
      by_contra hlt
      push Not at hlt
      exact h1 ⟨hlt.le, hlt.le.trans h2⟩
    rw [h3, div_mul_eq_mul_div, div_eq_iff hne, ha]
    linarith
  · refine ⟨_, rfl, ?_⟩
    push Not at h2
    have h3 : min (euclid t.v1 t.v2) (min (euclid t.v2 t.v3) (euclid t.v3 t.v1)) = euclid t.v3 t.v1 := by
      rw [min_eq_right h2.le]
      apply min_eq_right
      by_contra hlt
      push Not at hlt
      exact h1 ⟨(hlt.trans h2).le, hlt.le⟩
    rw [h3, div_mul_eq_mul_div, div_eq_iff hne, ha]
    linarith

theorem heron (a b c : Vertex ℝ) : 4 * cross a b c ^ 2 =
    4 * dist2 b c * dist2 c a - (dist2 b c + dist2 c a - dist2 a b) ^ 2 := by
  unfold cross dist2; ring

theorem quality_bound {x y z A : ℝ} (hx : 0 ≤ x) (hy : 0 ≤ y) (hA : 0 < A) (hz : 0 ≤ z) (h1 : z ≤ x)
    (h2 : z ≤ y) (h : (2 * A) ^ 2 = 4 * x ^ 2 * y ^ 2 - (x ^ 2 + y ^ 2 - z ^ 2) ^ 2) :
    1 / Real.sqrt 3 ≤ x * y / (2 * A) := by
  have h3 : 0 < Real.sqrt 3 := Real.sqrt_pos.2 (by norm_num)
  rw [div_le_div_iff₀ h3 (by linarith), one_mul]
  refine (pow_le_pow_iff_left₀ (by linarith) (by positivity) (two_ne_zero)).1 ?_
  rw [h, mul_pow, mul_pow, Real.sq_sqrt (by norm_num)]
  have hz1 : z ^ 2 ≤ x ^ 2 := pow_le_pow_left₀ hz h1 2
  have hz2 : z ^ 2 ≤ y ^ 2 := pow_le_pow_left₀ hz h2 2
  have e1 : 0 ≤ (x ^ 2 + y ^ 2 - z ^ 2) - x ^ 2 := by linarith
  have e2 : 0 ≤ (x ^ 2 + y ^ 2 - z ^ 2) - y ^ 2 := by linarith
  have e3 : x ^ 2 * y ^ 2 ≤ (x ^ 2 + y ^ 2 - z ^ 2) * (x ^ 2 + y ^ 2 - z ^ 2) :=
    mul_le_mul (by linarith) (by linarith) (sq_nonneg y) (by linarith [sq_nonneg x])
  linarith [sq (x ^ 2 + y ^ 2 - z ^ 2)]

/-- C38: the quality of a counterclockwise triangle is at least `1 / √3`. -/
theorem C38_bound {t : Tri (Vertex ℝ)} {q : ℝ} (hccw : 0 < cross t.v1 t.v2 t.v3)
    (hq : t.quality euclid = some q) : 1 / Real.sqrt 3 ≤ q := by
  have ha := areaTriangle_eq t.v1 t.v2 t.v3
  have hn := fun a b : Vertex ℝ => euclid_nonneg a b
  unfold Tri.quality at hq
  simp only [] at hq
  split_ifs at hq with h0 h1 h2
  all_goals
    injection hq with hq
    rw [← hq, ha]
  · refine quality_bound (hn _ _) (hn _ _) hccw (hn _ _) h1.1 h1.2 ?_
    have := heron t.v1 t.v2 t.v3
    rw [euclid_sq, euclid_sq, euclid_sq]
    linarith
  · have h3 : euclid t.v2 t.v3 ≤ euclid t.v1 t.v2 := by
      by_contra hlt
      push Not at hlt
      exact h1 ⟨hlt.le, hlt.le.trans h2⟩
    refine quality_bound (hn _ _) (hn _ _) hccw (hn _ _) h3 h2 ?_
    have := heron t.v2 t.v3 t.v1
    have hc : cross t.v2 t.v3 t.v1 = cross t.v1 t.v2 t.v3 := by unfold cross; ring
    rw [hc] at this
    rw [euclid_sq, euclid_sq, euclid_sq]
    linarith
  · push Not at h2
    have h3 : euclid t.v3 t.v1 ≤ euclid t.v1 t.v2 := by
      by_contra hlt
      push Not at hlt
      exact h1 ⟨(hlt.trans h2).le, hlt.le⟩
    refine quality_bound (hn _ _) (hn _ _) hccw (hn _ _) h3 h2.le ?_
    have := heron t.v3 t.v1 t.v2
    have hc : cross t.v3 t.v1 t.v2 = cross t.v1 t.v2 t.v3 := by unfold cross; ring
    rw [hc] at this
    rw [euclid_sq, euclid_sq, euclid_sq]
    linarith

/-- C38: no quality exactly for ghost triangles. -/
theorem C38_none (t : Tri (Vertex ℝ)) :
    t.quality euclid = none ↔ t.v1.isGhost = true ∨ t.v2.isGhost = true ∨ t.v3.isGhost = true := by
  unfold Tri.quality
  simp only []
  split_ifs with h0 h1 h2 <;> simp_all [Tri.isGhost, or_assoc]

/-- The quality in symmetric form. -/
theorem quality_eq {t : Tri (Vertex ℝ)} (hg : t.isGhost Vertex.isGhost = false)
    (hd : ¬ SamePoint t.v1 t.v2 ∧ ¬ SamePoint t.v2 t.v3 ∧ ¬ SamePoint t.v3 t.v1) :
    t.quality euclid = some (euclid t.v1 t.v2 * euclid t.v2 t.v3 * euclid t.v3 t.v1 /
      (2 * cross t.v1 t.v2 t.v3) /
        min (euclid t.v1 t.v2) (min (euclid t.v2 t.v3) (euclid t.v3 t.v1))) := by
  have ha := areaTriangle_eq t.v1 t.v2 t.v3
  have pos : ∀ {a b : Vertex ℝ}, ¬ SamePoint a b → 0 < euclid a b := fun {a b} h => euclid_pos (by
    by_contra hc
    push Not at hc
    exact h hc)
  have p1 := pos hd.1
  have p2 := pos hd.2.1
  have p3 := pos hd.2.2
  have key : ∀ p c z : ℝ, 0 < z → p / c = z * p / c / z := by
    intro p c z hz
    rw [div_div, mul_comm c z, mul_div_mul_left _ _ hz.ne']
  unfold Tri.quality
  rw [if_neg (by simp [hg])]
  simp only [ha]
  split_ifs with h1 h2
  · rw [min_eq_left (le_min h1.1 h1.2), key _ _ _ p1]
    congr 3; ring
  · have h3 : min (euclid t.v1 t.v2) (min (euclid t.v2 t.v3) (euclid t.v3 t.v1)) = euclid t.v2 t.v3 := by
      rw [min_eq_left h2]
      apply min_eq_right
      by_contra hlt
      push Not at hlt
      exact h1 ⟨hlt.le, hlt.le.trans h2⟩
    rw [h3, key _ _ _ p2]
    congr 3; ring
  · push Not at h2
    have h3 : min (euclid t.v1 t.v2) (min (euclid t.v2 t.v3) (euclid t.v3 t.v1)) = euclid t.v3 t.v1 := by
      rw [min_eq_right h2.le]
      apply min_eq_right
      by_contra hlt
      push Not at hlt
      exact h1 ⟨(hlt.trans h2).le, hlt.le⟩
    rw [h3, key _ _ _ p3]
    congr 3; ring

/-- C38: rotating the vertices does not change the quality. -/
theorem C38_rotate {t : Tri (Vertex ℝ)} (hg : t.isGhost Vertex.isGhost = false)
    (hd : ¬ SamePoint t.v1 t.v2 ∧ ¬ SamePoint t.v2 t.v3 ∧ ¬ SamePoint t.v3 t.v1) :
    (⟨t.v2, t.v3, t.v1⟩ : Tri (Vertex ℝ)).quality euclid = t.quality euclid := by
  have hg' : (⟨t.v2, t.v3, t.v1⟩ : Tri (Vertex ℝ)).isGhost Vertex.isGhost = false := by
    simp only [Tri.isGhost, Bool.or_eq_false_iff] at hg ⊢; tauto
  rw [quality_eq hg hd, quality_eq hg' ⟨hd.2.1, hd.2.2, hd.1⟩]
  have hc : cross t.v2 t.v3 t.v1 = cross t.v1 t.v2 t.v3 := by unfold cross; ring
  simp only [hc]
  congr 2
  · ring
  · rw [← min_assoc, min_comm]

/-- C38: a clockwise triangle has the opposite, negative, quality. -/
theorem C38_reverse {t : Tri (Vertex ℝ)} (hg : t.isGhost Vertex.isGhost = false)
    (hd : ¬ SamePoint t.v1 t.v2 ∧ ¬ SamePoint t.v2 t.v3 ∧ ¬ SamePoint t.v3 t.v1) :
    (⟨t.v3, t.v2, t.v1⟩ : Tri (Vertex ℝ)).quality euclid = (t.quality euclid).map (- ·) := by
  have hg' : (⟨t.v3, t.v2, t.v1⟩ : Tri (Vertex ℝ)).isGhost Vertex.isGhost = false := by
    simp only [Tri.isGhost, Bool.or_eq_false_iff] at hg ⊢; tauto
  rw [quality_eq hg hd, quality_eq hg' ⟨fun h => hd.2.1 ⟨h.1.symm, h.2.symm⟩,
    fun h => hd.1 ⟨h.1.symm, h.2.symm⟩, fun h => hd.2.2 ⟨h.1.symm, h.2.symm⟩⟩]
  have hc : cross t.v3 t.v2 t.v1 = -cross t.v1 t.v2 t.v3 := by unfold cross; ring
  simp only [hc, euclid_comm t.v3 t.v2, euclid_comm t.v2 t.v1, euclid_comm t.v1 t.v3, Option.map_some]
  congr 1
  rw [mul_neg, div_neg, neg_div]
  congr 2
  · ring
  · rw [min_comm, min_comm (euclid t.v2 t.v3), min_assoc]

/-- A right triangle with legs 3 and 4 meets the hypotheses: its circumcentre is the middle of the
hypotenuse. -/
example : let t : Tri (Vertex ℝ) := ⟨⟨0, 0, false⟩, ⟨4, 0, false⟩, ⟨0, 3, false⟩⟩
    t.isGhost Vertex.isGhost = false ∧ 0 < cross t.v1 t.v2 t.v3 ∧
      Equidistant ⟨2, 3 / 2, false⟩ t.v1 t.v2 t.v3 ∧
      ¬ SamePoint t.v1 t.v2 ∧ ¬ SamePoint t.v2 t.v3 ∧ ¬ SamePoint t.v3 t.v1 := by
  refine ⟨rfl, ?_, ?_, ?_, ?_, ?_⟩
  · norm_num [cross]
  · constructor <;> norm_num [dist2]
  all_goals norm_num [SamePoint]

end Verif.Props
