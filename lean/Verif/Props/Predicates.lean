import Verif.Lemmas.Geometry
import Mathlib.Tactic.NormNum

/-!
# C01 - C04: orientation, in-circle, circumcentre, encroachment
-/

set_option linter.unusedSectionVars false

namespace Verif.Props

open Spec

variable {K : Type*} [Field K] [LinearOrder K] [IsStrictOrderedRing K]

/-! ## C01 -/

/-- C01: `Counterclockwise` exactly when twice the signed area exceeds the tolerance. -/
theorem C01_counterclockwise_iff {eps : K} (h : 0 ≤ eps) (a b c : Vertex K) :
    orientation eps a b c = .counterclockwise ↔ eps < cross a b c := by
  rw [orientation, orientDet_eq]
  by_cases h1 : approxEq eps (cross a b c) 0 = true
  · simp only [h1, if_true, reduceCtorEq, false_iff, not_lt]
    exact (abs_le.1 (approxEq_zero_iff.1 h1)).2
  · simp only [h1, Bool.false_eq_true, if_false]
    rw [approxEq_zero_iff] at h1
    by_cases h2 : cross a b c > 0
    · simp only [h2, if_true, true_iff]
      rw [abs_of_pos h2] at h1
      exact lt_of_not_ge h1
    · simp only [h2, if_false, reduceCtorEq, false_iff, not_lt]
      exact (not_lt.1 h2).trans h

/-- C01: `Clockwise` exactly when twice the signed area is below minus the tolerance. -/
theorem C01_clockwise_iff {eps : K} (h : 0 ≤ eps) (a b c : Vertex K) :
    orientation eps a b c = .clockwise ↔ cross a b c < -eps := by
  rw [orientation, orientDet_eq]
  by_cases h1 : approxEq eps (cross a b c) 0 = true
  · simp only [h1, if_true, reduceCtorEq, false_iff, not_lt]
    exact (abs_le.1 (approxEq_zero_iff.1 h1)).1
  · simp only [h1, Bool.false_eq_true, if_false]
    rw [approxEq_zero_iff] at h1
    by_cases h2 : cross a b c > 0
    · simp only [h2, if_true, reduceCtorEq, false_iff, not_lt]
      linarith
    · simp only [h2, if_false, true_iff]
      rw [abs_of_nonpos (not_lt.1 h2)] at h1
      linarith

/-- C01: `Colinear` exactly when the absolute value of twice the signed area is within the tolerance. -/
theorem C01_colinear_iff {eps : K} (a b c : Vertex K) :
    orientation eps a b c = .colinear ↔ |cross a b c| ≤ eps := by
  rw [orientation, orientDet_eq, ← approxEq_zero_iff]
  by_cases h1 : approxEq eps (cross a b c) 0 = true
  · simp [h1]
  · simp only [h1]
    by_cases h2 : cross a b c > 0 <;> simp [h2]

/-- C01: the answer does not depend on which vertex is named first. -/
theorem C01_rotate (eps : K) (a b c : Vertex K) :
    orientation eps b c a = orientation eps a b c := by
  rw [orientation, orientation, orientDet_eq, orientDet_eq, cross_rotate]

/-- Exchange of the two directions of turn. -/
def flip : Orientation → Orientation
  | .counterclockwise => .clockwise
  | .clockwise => .counterclockwise
  | .colinear => .colinear

/-- C01: exchanging two points exchanges `Clockwise` and `Counterclockwise`. -/
theorem C01_swap {eps : K} (h : 0 ≤ eps) (a b c : Vertex K) :
    orientation eps b a c = flip (orientation eps a b c) := by
  cases ho : orientation eps a b c with
  | counterclockwise =>
    rw [C01_counterclockwise_iff h] at ho
    rw [flip, C01_clockwise_iff h, cross_swap]
    linarith
  | clockwise =>
    rw [C01_clockwise_iff h] at ho
    rw [flip, C01_counterclockwise_iff h, cross_swap]
    linarith
  | colinear =>
    rw [C01_colinear_iff] at ho
    rw [flip, C01_colinear_iff, cross_swap, abs_neg]
    exact ho

example : orientation (1 / 10 : ℚ) ⟨0, 0, false⟩ ⟨2, 0, false⟩ ⟨1, 3, false⟩ = .counterclockwise := by
  rw [C01_counterclockwise_iff (by norm_num)]; norm_num [cross]

/-! ## C02 -/

/-- C02: `Inside` only if the query point is strictly closer to the circumcentre. -/
theorem C02_inside {eps : K} {o a b c d : Vertex K} (hccw : 0 < cross a b c)
    (ho : Equidistant o a b c) (h : continence eps a b c d = .inside) :
    dist2 o d < dist2 o a := by
  rw [continence, circleDet_eq ho] at h
  split_ifs at h with h1 h2
  rcases lt_or_ge (dist2 o d) (dist2 o a) with h3 | h3
  · exact h3
  · nlinarith [mul_nonneg hccw.le (sub_nonneg.2 h3)]

/-- C02: `Outside` only if the query point is strictly farther from the circumcentre. -/
theorem C02_outside {eps : K} (he : 0 ≤ eps) {o a b c d : Vertex K} (hccw : 0 < cross a b c)
    (ho : Equidistant o a b c) (h : continence eps a b c d = .outside) :
    dist2 o a < dist2 o d := by
  rw [continence, circleDet_eq ho] at h
  split_ifs at h with h1 h2
  rcases lt_or_ge (dist2 o a) (dist2 o d) with h3 | h3
  · exact h3
  · have h4 := mul_nonneg hccw.le (sub_nonneg.2 h3)
    have h5 : cross a b c * (dist2 o a - dist2 o d) = 0 := le_antisymm (not_lt.1 h2) h4
    rw [h5] at h1
    exact absurd (approxEq_zero_iff.2 (by simpa using he)) h1

/-- C02: with zero tolerance the three answers are exactly closer / farther / equidistant. -/
theorem C02_exact {o a b c d : Vertex K} (hccw : 0 < cross a b c) (ho : Equidistant o a b c) :
    (continence 0 a b c d = .inside ↔ dist2 o d < dist2 o a) ∧
      (continence 0 a b c d = .outside ↔ dist2 o a < dist2 o d) ∧
      (continence 0 a b c d = .boundary ↔ dist2 o d = dist2 o a) := by
  rw [continence, circleDet_eq ho]
  have hz : approxEq (0 : K) (cross a b c * (dist2 o a - dist2 o d)) 0 = true ↔
      dist2 o d = dist2 o a := by
    rw [approxEq_zero_eps, mul_eq_zero, sub_eq_zero]
    constructor
    · rintro (h | h)
      · exact absurd h hccw.ne'
      · exact h.symm
    · exact fun h => Or.inr h.symm
  have hp : cross a b c * (dist2 o a - dist2 o d) > 0 ↔ dist2 o d < dist2 o a := by
    rw [gt_iff_lt, mul_pos_iff_of_pos_left hccw, sub_pos]
  by_cases h1 : dist2 o d = dist2 o a
  · rw [if_pos (hz.2 h1)]
    simp [h1]
  · rw [if_neg (fun h => h1 (hz.1 h))]
    by_cases h2 : dist2 o d < dist2 o a
    · rw [if_pos (hp.2 h2)]
      simp [h1, h2, h2.le]
    · rw [if_neg (fun h => h2 (hp.1 h))]
      have h3 : dist2 o a < dist2 o d := lt_of_le_of_ne (not_lt.1 h2) (Ne.symm h1)
      simp [h1, h2, h3]

example : ∃ o a b c : Vertex ℚ, 0 < cross a b c ∧ Equidistant o a b c :=
  ⟨⟨1, 1, false⟩, ⟨0, 0, false⟩, ⟨2, 0, false⟩, ⟨2, 2, false⟩, by norm_num [cross],
    by norm_num [Equidistant, dist2]⟩

/-! ## C03 -/

/-- C03: no circumcentre exactly for collinear points. -/
theorem C03_none_iff (a b c : Vertex K) : circumcenter a b c = none ↔ cross a b c = 0 := by
  have hd : (⟨c.x - a.x, c.y - a.y, b.x - a.x, b.y - a.y⟩ : Mat2 K).det = -cross a b c := by
    simp only [Mat2.det, cross]; ring
  simp only [circumcenter, Mat2.isInvertible, hd]
  by_cases h : cross a b c = 0 <;> simp [h]

/-- C03: the returned point is the one and only point at the same distance from all three. -/
theorem C03_some {a b c o : Vertex K} (h : circumcenter a b c = some o) :
    Equidistant o a b c ∧ ∀ q : Vertex K, Equidistant q a b c → SamePoint q o := by
  have hne : cross a b c ≠ 0 := by
    intro h0
    rw [(C03_none_iff a b c).2 h0] at h
    exact absurd h (by simp)
  have hd : (⟨c.x - a.x, c.y - a.y, b.x - a.x, b.y - a.y⟩ : Mat2 K).det = -cross a b c := by
    simp only [Mat2.det, cross]; ring
  have hd' : (c.x - a.x) * (b.y - a.y) - (c.y - a.y) * (b.x - a.x) = -cross a b c := hd
  simp only [circumcenter, Mat2.isInvertible, Mat2.invMul, hd] at h
  simp only [ne_eq, neg_eq_zero, hne, not_false_eq_true, decide_true, Bool.not_true,
    Bool.false_eq_true, if_false, Option.some.injEq, Vertex.mk'] at h
  have hne' : -cross a b c ≠ 0 := neg_ne_zero.2 hne
  set D := -cross a b c with hD
  have hx : 2 * D * o.x = (b.y - a.y) * (c.x ^ 2 - a.x ^ 2 + c.y ^ 2 - a.y ^ 2)
      - (c.y - a.y) * (b.x ^ 2 - a.x ^ 2 + b.y ^ 2 - a.y ^ 2) := by
    rw [← h]; simp only []; field_simp
  have hy : 2 * D * o.y = (c.x - a.x) * (b.x ^ 2 - a.x ^ 2 + b.y ^ 2 - a.y ^ 2)
      - (b.x - a.x) * (c.x ^ 2 - a.x ^ 2 + c.y ^ 2 - a.y ^ 2) := by
    rw [← h]; simp only []; field_simp
  have hDe : D = (c.x - a.x) * (b.y - a.y) - (c.y - a.y) * (b.x - a.x) := hd'.symm
  have key : ∀ q : Vertex K, Equidistant q a b c ↔
      (2 * (b.x - a.x) * q.x + 2 * (b.y - a.y) * q.y = b.x ^ 2 - a.x ^ 2 + b.y ^ 2 - a.y ^ 2 ∧
       2 * (c.x - a.x) * q.x + 2 * (c.y - a.y) * q.y = c.x ^ 2 - a.x ^ 2 + c.y ^ 2 - a.y ^ 2) := by
    intro q
    simp only [Equidistant, dist2]
    constructor
    · rintro ⟨h1, h2⟩
      exact ⟨by linear_combination h1, by linear_combination h2⟩
    · rintro ⟨h1, h2⟩
      exact ⟨by linear_combination h1, by linear_combination h2⟩
  constructor
  · rw [key]
    constructor
    · apply mul_left_cancel₀ hne'
      linear_combination (b.x - a.x) * hx + (b.y - a.y) * hy
        - (b.x ^ 2 - a.x ^ 2 + b.y ^ 2 - a.y ^ 2) * hDe
    · apply mul_left_cancel₀ hne'
      linear_combination (c.x - a.x) * hx + (c.y - a.y) * hy
        - (c.x ^ 2 - a.x ^ 2 + c.y ^ 2 - a.y ^ 2) * hDe
  · intro q hq
    rw [key] at hq
    obtain ⟨h1, h2⟩ := hq
    have h2D : (2 : K) * D ≠ 0 := mul_ne_zero two_ne_zero hne'
    constructor
    · apply mul_left_cancel₀ h2D
      rw [hx]
      linear_combination (2 * q.x) * hDe + (b.y - a.y) * h2 - (c.y - a.y) * h1
    · apply mul_left_cancel₀ h2D
      rw [hy]
      linear_combination (2 * q.y) * hDe + (c.x - a.x) * h1 - (b.x - a.x) * h2

example : circumcenter (⟨0, 0, false⟩ : Vertex ℚ) ⟨2, 0, false⟩ ⟨0, 4, false⟩
    = some ⟨1, 2, false⟩ := by
  norm_num [circumcenter, Mat2.isInvertible, Mat2.invMul, Mat2.det, Vertex.mk']

/-! ## C04 -/

/-- The centre of the segment `a b`, as a plain point. -/
def centre (a b : Vertex K) : Vertex K := ⟨(a.x + b.x) / 2, (a.y + b.y) / 2, false⟩

theorem encroachMeasure_centre (a b p : Vertex K) :
    4 * encroachMeasure a b p = 4 * dist2 (centre a b) p - dist2 a b := by
  simp only [encroachMeasure, dist2, centre]; field_simp; ring

/-- C04: `Inside` only if the point is strictly inside the circle with diameter `ab`: its distance to
the centre is less than half of `|ab|`. -/
theorem C04_inside {eps : K} (he : 0 ≤ eps) {a b p : Vertex K} (h : encroach eps a b p = .inside) :
    4 * dist2 (centre a b) p < dist2 a b := by
  have e := encroachMeasure_centre a b p
  rw [encroach] at h
  split_ifs at h with h1 h2
  have h3 : encroachMeasure a b p ≠ 0 := by
    intro h0
    rw [h0] at h1
    exact h1 (approxEq_zero_iff.2 (by simpa using he))
  have h4 := lt_of_le_of_ne (not_lt.1 h2) h3
  linarith

/-- C04: `Outside` only if the point is strictly outside that circle. -/
theorem C04_outside {eps : K} {a b p : Vertex K} (h : encroach eps a b p = .outside) :
    dist2 a b < 4 * dist2 (centre a b) p := by
  have e := encroachMeasure_centre a b p
  rw [encroach] at h
  split_ifs at h with h1 h2
  linarith

/-- C04: with zero tolerance the three answers are exactly inside / outside / on the circle. -/
theorem C04_exact (a b p : Vertex K) :
    (encroach 0 a b p = .inside ↔ 4 * dist2 (centre a b) p < dist2 a b) ∧
      (encroach 0 a b p = .outside ↔ dist2 a b < 4 * dist2 (centre a b) p) ∧
      (encroach 0 a b p = .boundary ↔ 4 * dist2 (centre a b) p = dist2 a b) := by
  have e := encroachMeasure_centre a b p
  rw [encroach]
  by_cases h1 : encroachMeasure a b p = 0
  · rw [if_pos (approxEq_zero_eps.2 h1)]
    have : 4 * dist2 (centre a b) p = dist2 a b := by rw [h1] at e; linarith
    simp [this]
  · rw [if_neg (fun h => h1 (approxEq_zero_eps.1 h))]
    by_cases h2 : encroachMeasure a b p > 0
    · rw [if_pos h2]
      have : dist2 a b < 4 * dist2 (centre a b) p := by linarith
      simp [this, this.le, this.ne']
    · rw [if_neg h2]
      have h3 := lt_of_le_of_ne (not_lt.1 h2) h1
      have : 4 * dist2 (centre a b) p < dist2 a b := by linarith
      simp [this, this.le, this.ne]

example : encroach (1 / 10 : ℚ) ⟨0, 0, false⟩ ⟨4, 0, false⟩ ⟨1, 1, false⟩ = .inside := by
  norm_num [encroach, encroachMeasure, approxEq]

end Verif.Props
