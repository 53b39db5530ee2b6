import Verif.Model.Angle
import Verif.Lemmas.Boolean
import Mathlib.Tactic.Linarith
import Mathlib.Tactic.FieldSimp
import Mathlib.Tactic.NormNum

/-!
# Angles (C50)

Over the real numbers, with exact arithmetic.
-/

set_option linter.unusedSectionVars false

namespace Verif.Props

open Spec

/-- The two points are at different places. -/
def Away (a b : Vertex ℝ) : Prop := a.x ≠ b.x ∨ a.y ≠ b.y

/-- Turning the direction from `b` to `c` counterclockwise by `θ` gives the direction from `b` to `a`: the unit vectors
agree, both multiplied by the lengths of `b a` and `b c`. -/
def TurnsTo (a b c : Vertex ℝ) (θ : ℝ) : Prop :=
  Real.sqrt (dist2 c b) * (a.x - b.x) =
      Real.sqrt (dist2 a b) * (Real.cos θ * (c.x - b.x) - Real.sin θ * (c.y - b.y)) ∧
    Real.sqrt (dist2 c b) * (a.y - b.y) =
      Real.sqrt (dist2 a b) * (Real.sin θ * (c.x - b.x) + Real.cos θ * (c.y - b.y))

theorem away_dist {a b : Vertex ℝ} (h : Away a b) : 0 < dist2 a b := by
  unfold dist2
  rcases h with h | h
  · have := sub_ne_zero.2 h
    positivity
  · have := sub_ne_zero.2 h
    positivity

theorem away_len {a b : Vertex ℝ} (h : Away a b) : 0 < Real.sqrt (dist2 a b) := Real.sqrt_pos.2 (away_dist h)

/-- The two numbers that determine an angle. -/
theorem turnsTo_iff {a b c : Vertex ℝ} (hc : Away c b) (θ : ℝ) :
    TurnsTo a b c θ ↔ dot b a b c = Real.sqrt (dist2 a b) * Real.sqrt (dist2 c b) * Real.cos θ ∧
      cross a b c = Real.sqrt (dist2 a b) * Real.sqrt (dist2 c b) * Real.sin θ := by
  unfold TurnsTo
  have hp := away_len hc
  have hsq : Real.sqrt (dist2 c b) ^ 2 = dist2 c b := Real.sq_sqrt (away_dist hc).le
  generalize Real.sqrt (dist2 c b) = p at *
  generalize Real.sqrt (dist2 a b) = q at *
  generalize Real.cos θ = u at *
  generalize Real.sin θ = v at *
  unfold dist2 at hsq
  unfold dot cross
  constructor
  · rintro ⟨h1, h2⟩
    constructor
    · apply mul_left_cancel₀ hp.ne'
      linear_combination (c.x - b.x) * h1 + (c.y - b.y) * h2 - q * u * hsq
    · apply mul_left_cancel₀ hp.ne'
      linear_combination -(c.y - b.y) * h1 + (c.x - b.x) * h2 - q * v * hsq
  · rintro ⟨h1, h2⟩
    constructor
    · apply mul_left_cancel₀ hp.ne'
      linear_combination (a.x - b.x) * hsq + (c.x - b.x) * h1 - (c.y - b.y) * h2
    · apply mul_left_cancel₀ hp.ne'
      linear_combination (a.y - b.y) * hsq + (c.y - b.y) * h1 + (c.x - b.x) * h2

theorem distSq_dist2 (a b : Vertex ℝ) : distSq a b = dist2 a b := rfl

/-- Lagrange's identity. -/
theorem dot_cross (a b c : Vertex ℝ) : dot b a b c ^ 2 + cross a b c ^ 2 = dist2 a b * dist2 c b := by
  unfold dot cross dist2; ring

theorem ratio_bounds {a b c : Vertex ℝ} (ha : Away a b) (hc : Away c b) :
    -1 ≤ dot b a b c / (Real.sqrt (dist2 a b) * Real.sqrt (dist2 c b)) ∧
      dot b a b c / (Real.sqrt (dist2 a b) * Real.sqrt (dist2 c b)) ≤ 1 := by
  have hm : 0 < Real.sqrt (dist2 a b) * Real.sqrt (dist2 c b) := mul_pos (away_len ha) (away_len hc)
  have hsq : (Real.sqrt (dist2 a b) * Real.sqrt (dist2 c b)) ^ 2 = dist2 a b * dist2 c b := by
    rw [mul_pow, Real.sq_sqrt (away_dist ha).le, Real.sq_sqrt (away_dist hc).le]
  have h := dot_cross a b c
  have : |dot b a b c| ≤ Real.sqrt (dist2 a b) * Real.sqrt (dist2 c b) := by
    apply abs_le_of_sq_le_sq _ hm.le
    rw [hsq]; nlinarith [sq_nonneg (cross a b c)]
  rw [abs_le] at this
  constructor
  · rw [le_div_iff₀ hm]; linarith
  · rw [div_le_iff₀ hm]; linarith

theorem clockwise_iff (a b c : Vertex ℝ) : orientation 0 a b c = .clockwise ↔ cross a b c < 0 := by
  unfold orientation
  simp only [orientDet_eq, approxEq_zero_iff, abs_nonpos_iff]
  split
  · rename_i h; simp [h]
  · split
    · rename_i h1 h2; simp; exact h2.le
    · rename_i h1 h2; simp; exact lt_of_le_of_ne (not_lt.1 h2) h1

theorem angle_eq (a b c : Vertex ℝ) : angle 0 a b c =
    if cross a b c < 0 then
      2 * Real.pi - Real.arccos (dot b a b c / (Real.sqrt (dist2 a b) * Real.sqrt (dist2 c b)))
    else Real.arccos (dot b a b c / (Real.sqrt (dist2 a b) * Real.sqrt (dist2 c b))) := by
  unfold angle
  simp only [clockwise_iff, distSq_dist2]

/-- C50: `angle(a, b, c)` is at least zero and less than a full turn, and turning the direction from `b` to `c`
counterclockwise by it gives the direction from `b` to `a`. -/
theorem C50_turn {a b c : Vertex ℝ} (ha : Away a b) (hc : Away c b) :
    0 ≤ angle 0 a b c ∧ angle 0 a b c < 2 * Real.pi ∧ TurnsTo a b c (angle 0 a b c) := by
  obtain ⟨r1, r2⟩ := ratio_bounds ha hc
  have hm : 0 < Real.sqrt (dist2 a b) * Real.sqrt (dist2 c b) := mul_pos (away_len ha) (away_len hc)
  have hsq : (Real.sqrt (dist2 a b) * Real.sqrt (dist2 c b)) ^ 2 = dist2 a b * dist2 c b := by
    rw [mul_pow, Real.sq_sqrt (away_dist ha).le, Real.sq_sqrt (away_dist hc).le]
  have h := dot_cross a b c
  have hsin : Real.sin (Real.arccos (dot b a b c / (Real.sqrt (dist2 a b) * Real.sqrt (dist2 c b)))) =
      |cross a b c| / (Real.sqrt (dist2 a b) * Real.sqrt (dist2 c b)) := by
    rw [Real.sin_arccos]
    rw [show |cross a b c| / (Real.sqrt (dist2 a b) * Real.sqrt (dist2 c b)) =
      Real.sqrt ((|cross a b c| / (Real.sqrt (dist2 a b) * Real.sqrt (dist2 c b))) ^ 2) from
      (Real.sqrt_sq (div_nonneg (abs_nonneg _) hm.le)).symm]
    congr 1
    rw [div_pow, div_pow, sq_abs, hsq]
    have : dist2 a b * dist2 c b ≠ 0 := (mul_pos (away_dist ha) (away_dist hc)).ne'
    rw [eq_div_iff this, sub_mul, div_mul_cancel₀ _ this]
    linarith
  have hcos := Real.cos_arccos r1 r2
  have hpi := Real.pi_pos
  have can : ∀ x, Real.sqrt (dist2 a b) * Real.sqrt (dist2 c b) *
      (x / (Real.sqrt (dist2 a b) * Real.sqrt (dist2 c b))) = x := fun x => by rw [mul_comm, div_mul_cancel₀ _ hm.ne']
  rw [turnsTo_iff hc]
  rw [angle_eq]
  by_cases hneg : cross a b c < 0
  · rw [if_pos hneg]
    have hpos : 0 < Real.arccos (dot b a b c / (Real.sqrt (dist2 a b) * Real.sqrt (dist2 c b))) := by
      refine lt_of_le_of_ne (Real.arccos_nonneg _) fun h0 => ?_
      rw [← h0, Real.sin_zero] at hsin
      have := (div_pos (abs_pos.2 hneg.ne) hm).ne'
      exact this hsin.symm
    refine ⟨?_, by linarith, ?_, ?_⟩
    · have := Real.arccos_le_pi (dot b a b c / (Real.sqrt (dist2 a b) * Real.sqrt (dist2 c b)))
      linarith
    · rw [Real.cos_two_pi_sub, hcos, can]
    · rw [Real.sin_two_pi_sub, hsin, abs_of_neg hneg, neg_div, neg_neg, can]
  · rw [if_neg hneg]
    refine ⟨Real.arccos_nonneg _, ?_, ?_, ?_⟩
    · have := Real.arccos_le_pi (dot b a b c / (Real.sqrt (dist2 a b) * Real.sqrt (dist2 c b)))
      linarith
    · rw [hcos, can]
    · rw [hsin, abs_of_nonneg (not_lt.1 hneg), can]

/-- C50: nothing else is the angle. -/
theorem C50_unique {a b c : Vertex ℝ} (ha : Away a b) (hc : Away c b) {θ : ℝ} (h0 : 0 ≤ θ) (h1 : θ < 2 * Real.pi)
    (h : TurnsTo a b c θ) : θ = angle 0 a b c := by
  obtain ⟨g0, g1, g⟩ := C50_turn ha hc
  rw [turnsTo_iff hc] at h g
  have hm : Real.sqrt (dist2 a b) * Real.sqrt (dist2 c b) ≠ 0 := (mul_pos (away_len ha) (away_len hc)).ne'
  have e1 := mul_left_cancel₀ hm (h.1.symm.trans g.1)
  have e2 := mul_left_cancel₀ hm (h.2.symm.trans g.2)
  have : Real.cos (θ - angle 0 a b c) = 1 := by
    rw [Real.cos_sub, e1, e2]
    have := Real.cos_sq_add_sin_sq (angle 0 a b c)
    nlinarith
  have := (Real.cos_eq_one_iff_of_lt_of_lt (by linarith) (by linarith)).1 this
  linarith

/-- For fixed `a` and `b` the key grows with the cosine. -/
theorem cosKey_lt {a b c d : Vertex ℝ} (ha : Away a b) (hc : Away c b) (hd : Away d b) :
    cosKey a b c < cosKey a b d ↔ dot b a b c / (Real.sqrt (dist2 a b) * Real.sqrt (dist2 c b)) <
      dot b a b d / (Real.sqrt (dist2 a b) * Real.sqrt (dist2 d b)) := by
  have key : ∀ {e : Vertex ℝ}, Away e b → cosKey a b e =
      dist2 a b * ((dot b a b e / (Real.sqrt (dist2 a b) * Real.sqrt (dist2 e b))) *
        |dot b a b e / (Real.sqrt (dist2 a b) * Real.sqrt (dist2 e b))|) := by
    intro e he
    have h1 := away_len ha
    have h2 := away_len he
    have q1 : Real.sqrt (dist2 a b) ^ 2 = dist2 a b := Real.sq_sqrt (away_dist ha).le
    have q2 : Real.sqrt (dist2 e b) ^ 2 = dist2 e b := Real.sq_sqrt (away_dist he).le
    unfold cosKey
    rw [show distSq b e = dist2 e b by unfold distSq dist2; ring, abs_div, abs_of_pos (mul_pos h1 h2)]
    rw [← q1, ← q2]
    rw [Real.sqrt_sq h1.le, Real.sqrt_sq h2.le]
    field_simp
  rw [key hc, key hd, mul_lt_mul_iff_right₀ (away_dist ha)]
  generalize dot b a b c / (Real.sqrt (dist2 a b) * Real.sqrt (dist2 c b)) = x
  generalize dot b a b d / (Real.sqrt (dist2 a b) * Real.sqrt (dist2 d b)) = y
  have mono : ∀ x y : ℝ, x < y → x * |x| < y * |y| := by
    intro x y h
    rcases abs_cases x with ⟨h1, h2⟩ | ⟨h1, h2⟩ <;> rcases abs_cases y with ⟨h3, h4⟩ | ⟨h3, h4⟩ <;>
      rw [h1, h3] <;> nlinarith
  constructor
  · intro h
    by_contra hc
    rcases (not_lt.1 hc).eq_or_lt with e | e
    · rw [e] at h; exact lt_irrefl _ h
    · exact absurd (mono _ _ e) (not_lt.2 h.le)
  · exact mono x y

/-- C50: the comparison the boolean operations use compares angles. -/
theorem C50_compare {a b c d : Vertex ℝ} (ha : Away a b) (hc : Away c b) (hd : Away d b) :
    angleLt 0 a b c d = true ↔ angle 0 a b c < angle 0 a b d := by
  have bc := ratio_bounds ha hc
  have bd := ratio_bounds ha hd
  have hpi := Real.pi_pos
  obtain ⟨-, gc, tc⟩ := C50_turn ha hc
  have lt_arccos : ∀ x y : ℝ, -1 ≤ x ∧ x ≤ 1 → -1 ≤ y ∧ y ≤ 1 → (Real.arccos x < Real.arccos y ↔ y < x) := by
    intro x y hx hy
    exact Real.strictAntiOn_arccos.lt_iff_gt hx hy
  rw [angle_eq, angle_eq]
  unfold angleLt
  simp only [clockwise_iff]
  by_cases h1 : cross a b c < 0 <;> by_cases h2 : cross a b d < 0
  · rw [if_pos h1, if_pos h2, if_pos h1, if_pos h2, decide_eq_true_eq, cosKey_lt ha hc hd]
    rw [sub_lt_sub_iff_left, lt_arccos _ _ bd bc]
  · rw [if_pos h1, if_neg h2, if_pos h1, if_neg h2]
    simp only [Bool.false_eq_true, false_iff, not_lt]
    have := Real.arccos_le_pi (dot b a b c / (Real.sqrt (dist2 a b) * Real.sqrt (dist2 c b)))
    have := Real.arccos_le_pi (dot b a b d / (Real.sqrt (dist2 a b) * Real.sqrt (dist2 d b)))
    linarith
  · rw [if_neg h1, if_pos h2, if_neg h1, if_pos h2]
    simp only [true_iff]
    obtain ⟨-, hd1, hd2⟩ := (C50_turn ha hd)
    have l1 := Real.arccos_le_pi (dot b a b c / (Real.sqrt (dist2 a b) * Real.sqrt (dist2 c b)))
    have l2 := Real.arccos_le_pi (dot b a b d / (Real.sqrt (dist2 a b) * Real.sqrt (dist2 d b)))
    refine lt_of_le_of_lt l1 ?_
    have : Real.arccos (dot b a b d / (Real.sqrt (dist2 a b) * Real.sqrt (dist2 d b))) ≠ Real.pi := by
      intro e
      rw [turnsTo_iff hd] at hd2
      rw [angle_eq, if_pos h2, e] at hd2
      have := hd2.2
      rw [show 2 * Real.pi - Real.pi = Real.pi by ring, Real.sin_pi, mul_zero] at this
      exact h2.ne this
    have := lt_of_le_of_ne l2 this
    linarith
  · rw [if_neg h1, if_neg h2, if_neg h1, if_neg h2, decide_eq_true_eq, cosKey_lt ha hd hc, lt_arccos _ _ bc bd]

theorem firstMin_least {α : Type*} (key : α → ℝ) (lt : α → α → Bool) : ∀ {l : List α} {s : α},
    (∀ x ∈ l, ∀ y ∈ l, lt x y = true ↔ key x < key y) → firstMin lt l = some s → s ∈ l ∧ ∀ t ∈ l, key s ≤ key t := by
  intro l
  induction l with
  | nil => intro s _ h; simp [firstMin] at h
  | cons a l ih =>
    intro s hlt h
    rw [firstMin] at h
    have hlt' : ∀ x ∈ l, ∀ y ∈ l, lt x y = true ↔ key x < key y := fun x hx y hy =>
      hlt x (List.mem_cons_of_mem _ hx) y (List.mem_cons_of_mem _ hy)
    split at h
    · rename_i e
      injection h with h
      subst h
      have : l = [] := by
        cases l with
        | nil => rfl
        | cons b l => rw [firstMin] at e; revert e; cases firstMin lt l <;> simp; split <;> simp
      subst this
      exact ⟨by simp, fun t ht => by rw [List.mem_singleton.1 ht]⟩
    · rename_i b e
      obtain ⟨hb, hmin⟩ := ih hlt' e
      have hab := hlt b (List.mem_cons_of_mem _ hb) a (by simp)
      split at h
      · rename_i hl
        injection h with h
        subst h
        refine ⟨List.mem_cons_of_mem _ hb, fun t ht => ?_⟩
        rcases List.mem_cons.1 ht with rfl | ht
        · exact (hab.1 hl).le
        · exact hmin t ht
      · rename_i hl
        injection h with h
        subst h
        refine ⟨by simp, fun t ht => ?_⟩
        rcases List.mem_cons.1 ht with rfl | ht
        · exact le_rfl
        · exact (not_lt.1 fun h => hl (hab.2 h)).trans (hmin t ht)

/-- C50: where several segments continue a chain, `intersection` and `subtraction` go on with one that makes the smallest
angle with the last segment, `union` with one that makes the largest, whatever the order they are listed in. -/
theorem C50_choice {a b : Vertex ℝ} (ha : Away a b) {next : List (Seg ℝ)} (hn : ∀ t ∈ next, Away t.2 b) (s : Seg ℝ) :
    (firstMin (fun s t => angleLt 0 a b s.2 t.2) next = some s →
      s ∈ next ∧ ∀ t ∈ next, angle 0 a b s.2 ≤ angle 0 a b t.2) ∧
    (firstMin (fun s t => angleLt 0 a b t.2 s.2) next = some s →
      s ∈ next ∧ ∀ t ∈ next, angle 0 a b t.2 ≤ angle 0 a b s.2) := by
  constructor
  · exact firstMin_least (fun t : Seg ℝ => angle 0 a b t.2) _ fun x hx y hy => C50_compare ha (hn x hx) (hn y hy)
  · intro h
    have := firstMin_least (fun t : Seg ℝ => -angle 0 a b t.2) _ (fun x hx y hy => by
      rw [C50_compare ha (hn y hy) (hn x hx), neg_lt_neg_iff]) h
    exact ⟨this.1, fun t ht => neg_le_neg_iff.1 (this.2 t ht)⟩

/-- The first assertion of the unit test (src/properties/angle.rs:36): a right angle, and its hypotheses. -/
example : Away ⟨0, 1, false⟩ ⟨0, 0, false⟩ ∧ Away ⟨1, 0, false⟩ ⟨0, 0, false⟩ ∧
    angle 0 ⟨0, 1, false⟩ ⟨0, 0, false⟩ ⟨1, 0, false⟩ = Real.pi / 2 := by
  have ha : Away ⟨0, 1, false⟩ ⟨0, 0, false⟩ := by unfold Away; norm_num
  have hc : Away ⟨1, 0, false⟩ ⟨0, 0, false⟩ := by unfold Away; norm_num
  refine ⟨ha, hc, (C50_unique ha hc ?_ ?_ ?_).symm⟩
  · have := Real.pi_pos; linarith
  · have := Real.pi_pos; linarith
  · unfold TurnsTo dist2; norm_num

/-- The third (src/properties/angle.rs:42): three right angles. -/
example : angle 0 ⟨1, 0, false⟩ ⟨0, 0, false⟩ ⟨0, 1, false⟩ = 3 * Real.pi / 2 := by
  have ha : Away ⟨0, 1, false⟩ ⟨0, 0, false⟩ := by unfold Away; norm_num
  have hc : Away ⟨1, 0, false⟩ ⟨0, 0, false⟩ := by unfold Away; norm_num
  refine (C50_unique hc ha ?_ ?_ ?_).symm
  · have := Real.pi_pos; linarith
  · have := Real.pi_pos; linarith
  · have e : 3 * Real.pi / 2 = Real.pi / 2 + Real.pi := by ring
    unfold TurnsTo dist2; rw [e, Real.cos_add_pi, Real.sin_add_pi]; norm_num

end Verif.Props
