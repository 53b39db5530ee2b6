import Verif.Spec.Rounding
import Mathlib.Tactic.Linarith
import Mathlib.Tactic.Ring
import Mathlib.Tactic.Positivity

/-!
# The rounding of `f64`
-/

namespace Verif

open Spec

theorem nearestInt_near (y : ℚ) : |(nearestInt y : ℚ) - y| ≤ 1 / 2 := by
  have h1 := Int.floor_le y
  have h2 := Int.lt_floor_add_one y
  unfold nearestInt
  split_ifs with a b c
  all_goals (rw [abs_le]; push_cast; constructor <;> linarith)

theorem nearestInt_nearest (y : ℚ) (k : ℤ) : |(nearestInt y : ℚ) - y| ≤ |(k : ℚ) - y| := by
  have h1 := Int.floor_le y
  have h2 := Int.lt_floor_add_one y
  have hk : y - ⌊y⌋ ≤ |(k : ℚ) - y| ∨ (⌊y⌋ : ℚ) + 1 - y ≤ |(k : ℚ) - y| := by
    rcases le_or_gt k ⌊y⌋ with h | h
    · left
      have : (k : ℚ) ≤ ⌊y⌋ := by exact_mod_cast h
      have := neg_le_abs ((k : ℚ) - y)
      linarith
    · right
      have : (⌊y⌋ : ℚ) + 1 ≤ k := by exact_mod_cast h
      have := le_abs_self ((k : ℚ) - y)
      linarith
  unfold nearestInt
  split_ifs with a b c
  · rw [abs_of_nonpos (by linarith)]
    rcases hk with h | h <;> linarith
  · push_cast
    rw [abs_of_nonneg (by linarith)]
    rcases hk with h | h <;> linarith
  · rw [abs_of_nonpos (by linarith)]
    rcases hk with h | h <;> linarith
  · push_cast
    rw [abs_of_nonneg (by linarith)]
    rcases hk with h | h <;> linarith

theorem spacing_pos (x : ℚ) : 0 < spacing x := by
  exact zpow_pos (by norm_num) _

/-- Half the spacing is the error of one rounding. -/
theorem spacing_le {x : ℚ} (hx : x ≠ 0) : spacing x / 2 ≤ (1 / 2 ^ 53 : ℚ) * max |x| ((2 : ℚ) ^ (-1022 : ℤ)) := by
  have key : (2 : ℚ) ^ (max (Int.log 2 |x|) (-1022)) ≤ max |x| ((2 : ℚ) ^ (-1022 : ℤ)) := by
    rcases le_total (Int.log 2 |x|) (-1022) with h | h
    · rw [max_eq_right h]
      exact le_max_right _ _
    · rw [max_eq_left h]
      exact le_trans (Int.zpow_log_le_self (by norm_num) (abs_pos.2 hx)) (le_max_left _ _)
  have : spacing x / 2 = (1 / 2 ^ 53 : ℚ) * (2 : ℚ) ^ (max (Int.log 2 |x|) (-1022)) := by
    unfold spacing
    rw [zpow_sub₀ (by norm_num)]
    norm_num
    ring
  rw [this]
  exact mul_le_mul_of_nonneg_left key (by positivity)

theorem roundF64_zero : roundF64 0 = 0 := by
  simp [roundF64, nearestInt]

theorem roundF64_sub (x : ℚ) : roundF64 x - x = (nearestInt (x / spacing x) - x / spacing x) * spacing x := by
  have h := (spacing_pos x).ne'
  unfold roundF64
  field_simp

/-- The rounding of `f64` is a rounding with `u = 2⁻⁵³` and `s = 2⁻¹⁰²²`. -/
theorem rounds_f64 : Rounds roundF64 (1 / 2 ^ 53) ((2 : ℚ) ^ (-1022 : ℤ)) where
  u_nonneg := by positivity
  s_nonneg := (zpow_pos (by norm_num) _).le
  error x := by
    rcases eq_or_ne x 0 with rfl | hx
    · rw [roundF64_zero, sub_self, abs_zero]
      exact mul_nonneg (by positivity) (le_max_of_le_left le_rfl)
    · refine le_trans ?_ (spacing_le hx)
      rw [roundF64_sub, abs_mul, abs_of_pos (spacing_pos x)]
      have := mul_le_mul_of_nonneg_right (nearestInt_near (x / spacing x)) (spacing_pos x).le
      linarith

/-- A multiple of the spacing is not nearer than the result. -/
theorem roundF64_nearest_grid (x : ℚ) (k : ℤ) : |roundF64 x - x| ≤ |k * spacing x - x| := by
  have h := spacing_pos x
  have e : k * spacing x - x = (k - x / spacing x) * spacing x := by field_simp
  rw [roundF64_sub, e, abs_mul, abs_mul]
  exact mul_le_mul_of_nonneg_right (nearestInt_nearest _ k) (abs_nonneg _)

/-- Numbers with the digits of a larger exponent are multiples of the smaller powers of two. -/
theorem grid_of_le {m e f : ℤ} (h : f ≤ e) : ∃ k : ℤ, (m : ℚ) * (2 : ℚ) ^ e = k * (2 : ℚ) ^ f := by
  refine ⟨m * 2 ^ (e - f).toNat, ?_⟩
  have e1 : (2 : ℚ) ^ e = (2 : ℚ) ^ (e - f) * (2 : ℚ) ^ f := by rw [← zpow_add₀ (by norm_num), sub_add_cancel]
  have e2 : (2 : ℚ) ^ (e - f) = (2 : ℚ) ^ (e - f).toNat := by
    rw [← zpow_natCast, Int.toNat_of_nonneg (by omega)]
  rw [e1, e2]
  push_cast
  ring

/-- No number of the format is nearer than the result of the rounding. -/
theorem roundF64_nearest (x : ℚ) {f : ℚ} (hf : IsF64 f) : |roundF64 x - x| ≤ |f - x| := by
  rcases eq_or_ne x 0 with rfl | hx
  · rw [roundF64_zero, sub_self, abs_zero]
    exact abs_nonneg _
  obtain ⟨m, e, hm, he, rfl⟩ := hf
  rcases le_or_gt (max (Int.log 2 |x|) (-1022) - 52) e with h | h
  · obtain ⟨k, hk⟩ := grid_of_le (m := m) h
    rw [hk]
    exact roundF64_nearest_grid x k
  · have hlog : max (Int.log 2 |x|) (-1022) = Int.log 2 |x| := by
      rcases le_total (Int.log 2 |x|) (-1022) with h1 | h1
      · rw [max_eq_right h1] at h
        omega
      · exact max_eq_left h1
    rw [hlog] at h
    have hx2 : (2 : ℚ) ^ (Int.log 2 |x|) ≤ |x| := Int.zpow_log_le_self (by norm_num) (abs_pos.2 hx)
    have hfx : |(m : ℚ) * (2 : ℚ) ^ e| ≤ (2 : ℚ) ^ (Int.log 2 |x|) := by
      rw [abs_mul, abs_of_pos (zpow_pos (by norm_num : (0 : ℚ) < 2) e)]
      have h1 : (|(m : ℚ)|) ≤ 2 ^ 53 := by exact_mod_cast hm.le
      have h2 : (2 : ℚ) ^ (53 : ℤ) * (2 : ℚ) ^ e ≤ (2 : ℚ) ^ (Int.log 2 |x|) := by
        rw [← zpow_add₀ (by norm_num)]
        exact zpow_le_zpow_right₀ (by norm_num) (by omega)
      exact le_trans (mul_le_mul_of_nonneg_right h1 (zpow_pos (by norm_num) e).le) (by exact_mod_cast h2)
    obtain ⟨k, hk⟩ := grid_of_le (m := 1) (e := Int.log 2 |x|) (f := Int.log 2 |x| - 52) (by omega)
    have hs : spacing x = (2 : ℚ) ^ (Int.log 2 |x| - 52) := by
      unfold spacing
      rw [hlog]
    rw [← hs] at hk
    push_cast at hk
    rw [one_mul] at hk
    set g := (2 : ℚ) ^ (Int.log 2 |x|) with hg
    obtain ⟨hf1, hf2⟩ := abs_le.1 hfx
    rcases lt_or_gt_of_ne hx with h0 | h0
    · rw [abs_of_neg h0] at hx2
      have := roundF64_nearest_grid x (-k)
      push_cast at this
      rw [neg_mul, ← hk, abs_of_nonneg (a := -g - x) (by linarith)] at this
      refine le_trans this ?_
      rw [abs_of_nonneg (by linarith)]
      linarith
    · rw [abs_of_pos h0] at hx2
      have := roundF64_nearest_grid x k
      rw [← hk, abs_of_nonpos (a := g - x) (by linarith)] at this
      refine le_trans this ?_
      rw [abs_of_nonpos (by linarith)]
      linarith

/-- The result of a rounding is a number of the format. -/
theorem roundF64_isF64 (x : ℚ) : IsF64 (roundF64 x) := by
  rcases eq_or_ne x 0 with rfl | hx
  · rw [roundF64_zero]
    exact ⟨0, 0, by norm_num, by norm_num, by norm_num⟩
  have hs := spacing_pos x
  have hlt : |x| < (2 : ℚ) ^ (max (Int.log 2 |x|) (-1022) + 1) := by
    refine lt_of_lt_of_le (Int.lt_zpow_succ_log_self (b := 2) (by norm_num) |x|) ?_
    exact zpow_le_zpow_right₀ (by norm_num) (by have := le_max_left (Int.log 2 |x|) (-1022); omega)
  have hq : |x / spacing x| < 2 ^ 53 := by
    rw [abs_div, abs_of_pos hs, div_lt_iff₀ hs]
    refine lt_of_lt_of_eq hlt ?_
    unfold spacing
    rw [← zpow_natCast, ← zpow_add₀ (by norm_num)]
    congr 1
    push_cast
    ring
  have hn : |nearestInt (x / spacing x)| ≤ 2 ^ 53 := by
    have h1 := abs_le.1 (nearestInt_nearest (x / spacing x) (2 ^ 53))
    have h2 := nearestInt_near (x / spacing x)
    have h3 := abs_add_le ((nearestInt (x / spacing x) : ℚ) - x / spacing x) (x / spacing x)
    rw [sub_add_cancel] at h3
    have h4 : |(nearestInt (x / spacing x) : ℚ)| < 2 ^ 53 + 1 := by linarith
    have h5 : |nearestInt (x / spacing x)| < 2 ^ 53 + 1 := by exact_mod_cast h4
    omega
  have he : -1074 ≤ max (Int.log 2 |x|) (-1022) - 52 := by
    have := le_max_right (Int.log 2 |x|) (-1022)
    omega
  rcases lt_or_eq_of_le hn with h | h
  · exact ⟨_, _, h, he, rfl⟩
  · obtain ⟨k, hk⟩ : ∃ k : ℤ, nearestInt (x / spacing x) = k * 2 ∧ |k| < 2 ^ 53 := by
      rcases (abs_eq (by norm_num)).1 h with h1 | h1
      · exact ⟨2 ^ 52, by rw [h1]; norm_num, by norm_num⟩
      · exact ⟨-2 ^ 52, by rw [h1]; norm_num, by norm_num⟩
    refine ⟨k, max (Int.log 2 |x|) (-1022) - 52 + 1, hk.2, by omega, ?_⟩
    unfold roundF64
    rw [hk.1, zpow_add₀ (by norm_num)]
    unfold spacing
    push_cast
    ring

/-- Numbers of the format are not changed. -/
theorem roundF64_of_isF64 {x : ℚ} (h : IsF64 x) : roundF64 x = x := by
  have := roundF64_nearest x h
  rw [sub_self, abs_zero] at this
  exact sub_eq_zero.1 (abs_nonpos_iff.1 this)

theorem _root_.Verif.Spec.IsF64.double {x : ℚ} (h : IsF64 x) : IsF64 (2 * x) := by
  obtain ⟨m, e, hm, he, rfl⟩ := h
  refine ⟨m, e + 1, hm, by omega, ?_⟩
  rw [zpow_add₀ (by norm_num)]
  ring

/-- Up to `2 ^ 53` multiples of a power of two are numbers of the format. -/
theorem isF64_grid {n e : ℤ} (hn : |n| ≤ 2 ^ 53) (he : -1074 ≤ e) : IsF64 (n * (2 : ℚ) ^ e) := by
  rcases lt_or_eq_of_le hn with h | h
  · exact ⟨n, e, h, he, rfl⟩
  · obtain ⟨k, hk⟩ : ∃ k : ℤ, n = k * 2 ∧ |k| < 2 ^ 53 := by
      rcases (abs_eq (by norm_num)).1 h with h1 | h1
      · exact ⟨2 ^ 52, by rw [h1]; norm_num, by norm_num⟩
      · exact ⟨-2 ^ 52, by rw [h1]; norm_num, by norm_num⟩
    refine ⟨k, e + 1, hk.2, by omega, ?_⟩
    rw [hk.1, zpow_add₀ (by norm_num)]
    push_cast
    ring

theorem roundF64_grid {n e : ℤ} (hn : |n| ≤ 2 ^ 53) (he : -1074 ≤ e) {x : ℚ} (hx : x = n * (2 : ℚ) ^ e) : roundF64 x = x :=
  roundF64_of_isF64 (hx ▸ isF64_grid hn he)

/-- The rounded value stays on the same side of a number of the format. -/
theorem le_roundF64 {x f : ℚ} (hf : IsF64 f) (h : f ≤ x) : f ≤ roundF64 x := by
  by_contra hlt
  rw [not_le] at hlt
  have h1 := roundF64_nearest x hf
  rw [abs_of_nonpos (by linarith), abs_of_nonpos (by linarith)] at h1
  linarith

theorem roundF64_le {x f : ℚ} (hf : IsF64 f) (h : x ≤ f) : roundF64 x ≤ f := by
  by_contra hlt
  rw [not_le] at hlt
  have h1 := roundF64_nearest x hf
  rw [abs_of_nonneg (by linarith), abs_of_nonneg (by linarith)] at h1
  linarith

end Verif
