import Verif.Lemmas.F64
import Verif.Model.RoundedSplit
import Mathlib.Tactic.Linarith
import Mathlib.Tactic.Ring
import Mathlib.Tactic.FieldSimp
import Mathlib.Tactic.NormNum
import Mathlib.Tactic.Positivity

/-!
# Halving an interval between two numbers of the format `f64`
-/

set_option linter.unusedSectionVars false

namespace Verif

open Spec

/-- The middle of two numbers as the code computes it. -/
def halfway (a b : ℚ) : ℚ := roundF64 (roundF64 (a + b) / 2)

theorem halfway_isF64 (a b : ℚ) : IsF64 (halfway a b) := roundF64_isF64 _

theorem halfway_comm (a b : ℚ) : halfway a b = halfway b a := by
  unfold halfway
  rw [add_comm]

/-- Numbers of the format are multiples of the smallest one. -/
theorem _root_.Verif.Spec.IsF64.grid {x : ℚ} (h : IsF64 x) : ∃ k : ℤ, x = k * (2 : ℚ) ^ (-1074 : ℤ) := by
  obtain ⟨m, e, -, he, rfl⟩ := h
  exact grid_of_le he

theorem _root_.Verif.Spec.IsF64.neg {x : ℚ} (h : IsF64 x) : IsF64 (-x) := by
  obtain ⟨m, e, hm, he, rfl⟩ := h
  exact ⟨-m, e, by rwa [abs_neg], he, by push_cast; ring⟩

/-- Half the rounded sum is a number of the format, or the sum was exact. -/
theorem half_sum {a b : ℚ} (ha : IsF64 a) (hb : IsF64 b) :
    IsF64 (roundF64 (a + b) / 2) ∨ roundF64 (a + b) = a + b := by
  obtain ⟨k, e, hk, he, hr⟩ := roundF64_isF64 (a + b)
  rcases lt_or_eq_of_le he with h | h
  · left
    refine ⟨k, e - 1, hk, by omega, ?_⟩
    rw [hr, zpow_sub₀ (by norm_num)]
    norm_num
    ring
  · right
    subst h
    obtain ⟨n1, h1⟩ := ha.grid
    obtain ⟨n2, h2⟩ := hb.grid
    have hs : a + b = ((n1 + n2 : ℤ) : ℚ) * (2 : ℚ) ^ (-1074 : ℤ) := by
      rw [h1, h2]
      push_cast
      ring
    have hpos : (0 : ℚ) < (2 : ℚ) ^ (-1074 : ℤ) := zpow_pos (by norm_num) _
    rcases le_or_gt |n1 + n2| (2 ^ 53) with hn | hn
    · exact roundF64_grid hn (by norm_num) hs
    · exfalso
      have top : IsF64 (((2 ^ 53 : ℤ) : ℚ) * (2 : ℚ) ^ (-1074 : ℤ)) := isF64_grid (by norm_num) (by norm_num)
      have bot : IsF64 (((-2 ^ 53 : ℤ) : ℚ) * (2 : ℚ) ^ (-1074 : ℤ)) := isF64_grid (by norm_num) (by norm_num)
      obtain ⟨hk1, hk2⟩ := abs_lt.1 hk
      rcases lt_abs.1 hn with h3 | h3
      · have h4 : ((2 ^ 53 : ℤ) : ℚ) * (2 : ℚ) ^ (-1074 : ℤ) ≤ a + b := by
          rw [hs]
          exact mul_le_mul_of_nonneg_right (by exact_mod_cast h3.le) hpos.le
        have h5 := le_roundF64 top h4
        rw [hr] at h5
        have h6 := le_of_mul_le_mul_right h5 hpos
        have h7 : (2 : ℤ) ^ 53 ≤ k := by exact_mod_cast h6
        omega
      · have h4 : a + b ≤ ((-2 ^ 53 : ℤ) : ℚ) * (2 : ℚ) ^ (-1074 : ℤ) := by
          rw [hs]
          exact mul_le_mul_of_nonneg_right (by exact_mod_cast (by omega : n1 + n2 ≤ -2 ^ 53)) hpos.le
        have h5 := roundF64_le bot h4
        rw [hr] at h5
        have h6 := le_of_mul_le_mul_right h5 hpos
        have h7 : k ≤ -2 ^ 53 := by exact_mod_cast h6
        omega

/-- No number of the format is nearer to the exact middle than the computed one. -/
theorem halfway_nearest {a b f : ℚ} (ha : IsF64 a) (hb : IsF64 b) (hf : IsF64 f) :
    |halfway a b - (a + b) / 2| ≤ |f - (a + b) / 2| := by
  unfold halfway
  rcases half_sum ha hb with h | h
  · rw [roundF64_of_isF64 h]
    have h1 := roundF64_nearest (a + b) hf.double
    have e1 : roundF64 (a + b) / 2 - (a + b) / 2 = (roundF64 (a + b) - (a + b)) / 2 := by ring
    have e2 : f - (a + b) / 2 = (2 * f - (a + b)) / 2 := by ring
    rw [e1, e2, abs_div, abs_div, abs_of_pos (by norm_num : (0 : ℚ) < 2)]
    linarith
  · rw [h]
    exact roundF64_nearest _ hf

theorem halfway_ge {a b : ℚ} (ha : IsF64 a) (hb : IsF64 b) (h : a ≤ b) : a ≤ halfway a b := by
  by_contra hlt
  rw [not_le] at hlt
  have h1 := halfway_nearest ha hb ha
  rw [abs_of_nonpos (by linarith), abs_of_nonpos (by linarith)] at h1
  linarith

theorem halfway_le {a b : ℚ} (ha : IsF64 a) (hb : IsF64 b) (h : a ≤ b) : halfway a b ≤ b := by
  by_contra hlt
  rw [not_le] at hlt
  have h1 := halfway_nearest ha hb hb
  rw [abs_of_nonneg (by linarith), abs_of_nonneg (by linarith)] at h1
  linarith

/-- There is no number of the format between the two. -/
def Adjacent (a b : ℚ) : Prop := ∀ c, IsF64 c → ¬ (min a b < c ∧ c < max a b)

theorem Adjacent.symm {a b : ℚ} (h : Adjacent a b) : Adjacent b a := by
  intro c hc
  rw [min_comm, max_comm]
  exact h c hc

theorem halfway_between {a b : ℚ} (ha : IsF64 a) (hb : IsF64 b) : min a b ≤ halfway a b ∧ halfway a b ≤ max a b := by
  rcases le_total a b with h | h
  · rw [min_eq_left h, max_eq_right h]
    exact ⟨halfway_ge ha hb h, halfway_le ha hb h⟩
  · rw [min_eq_right h, max_eq_left h, halfway_comm]
    exact ⟨halfway_ge hb ha h, halfway_le hb ha h⟩

theorem Adjacent.left {a b : ℚ} (ha : IsF64 a) (hb : IsF64 b) (h : Adjacent a b) : Adjacent a (halfway a b) := by
  obtain ⟨h1, h2⟩ := halfway_between ha hb
  intro c hc ⟨c1, c2⟩
  exact h c hc ⟨lt_of_le_of_lt (le_min (min_le_left _ _) h1) c1, lt_of_lt_of_le c2 (max_le (le_max_left _ _) h2)⟩

theorem Adjacent.right {a b : ℚ} (ha : IsF64 a) (hb : IsF64 b) (h : Adjacent a b) : Adjacent (halfway a b) b := by
  rw [halfway_comm]
  exact (h.symm.left hb ha).symm

/-- The computed middle is strictly between when there is a number of the format between. -/
theorem halfway_strict {a b : ℚ} (ha : IsF64 a) (hb : IsF64 b) (h : ¬ Adjacent a b) :
    halfway a b ≠ a ∧ halfway a b ≠ b := by
  unfold Adjacent at h
  push Not at h
  obtain ⟨c, hc, c1, c2⟩ := h
  have hn := halfway_nearest ha hb hc
  have key : |c - (a + b) / 2| < |b - a| / 2 := by
    rcases le_total a b with h | h
    · rw [min_eq_left h] at c1
      rw [max_eq_right h] at c2
      rw [abs_of_nonneg (by linarith : 0 ≤ b - a), abs_lt]
      constructor <;> linarith
    · rw [min_eq_right h] at c1
      rw [max_eq_left h] at c2
      rw [abs_of_nonpos (by linarith : b - a ≤ 0), abs_lt]
      constructor <;> linarith
  constructor
  · intro e
    rw [e, show a - (a + b) / 2 = -((b - a) / 2) by ring, abs_neg, abs_div, abs_of_pos (by norm_num : (0 : ℚ) < 2)] at hn
    linarith
  · intro e
    rw [e, show b - (a + b) / 2 = (b - a) / 2 by ring, abs_div, abs_of_pos (by norm_num : (0 : ℚ) < 2)] at hn
    linarith

/-- A number of the format close to `x` is a multiple of half the spacing there. -/
theorem near_grid {x f : ℚ} (hx : x ≠ 0) (hf : IsF64 f) (h : |f - x| ≤ 3 / 4 * spacing x) :
    ∃ k : ℤ, f = k * (spacing x / 2) := by
  rcases le_or_gt (Int.log 2 |x|) (-1022) with hl | hl
  · obtain ⟨k, hk⟩ := hf.grid
    refine ⟨2 * k, ?_⟩
    have : spacing x = (2 : ℚ) ^ (-1074 : ℤ) := by
      unfold spacing
      rw [max_eq_right hl]
      norm_num only
    rw [this, hk]
    push_cast
    ring
  · have hs : spacing x = (2 : ℚ) ^ (Int.log 2 |x| - 52) := by
      unfold spacing
      rw [max_eq_left hl.le]
    have hh : spacing x / 2 = (2 : ℚ) ^ (Int.log 2 |x| - 53) := by
      rw [hs, show Int.log 2 |x| - 53 = Int.log 2 |x| - 52 - 1 by ring, zpow_sub₀ (by norm_num : (2 : ℚ) ≠ 0) _ 1,
        zpow_one]
    have hx2 : (2 : ℚ) ^ (Int.log 2 |x|) ≤ |x| := Int.zpow_log_le_self (by norm_num) (abs_pos.2 hx)
    have h52 : (2 : ℚ) ^ (Int.log 2 |x|) = 2 ^ 52 * spacing x := by
      rw [hs, ← zpow_natCast, ← zpow_add₀ (by norm_num)]
      congr 1
      push_cast
      ring
    obtain ⟨m, e, hm, he, rfl⟩ := hf
    rcases le_or_gt (Int.log 2 |x| - 53) e with hle | hgt
    · rw [hh]
      exact grid_of_le hle
    · exfalso
      have hsp := spacing_pos x
      have h1 : |(m : ℚ) * (2 : ℚ) ^ e| ≤ 2 ^ 51 * spacing x := by
        rw [abs_mul, abs_of_pos (zpow_pos (by norm_num : (0 : ℚ) < 2) e)]
        have h2 : (2 : ℚ) ^ e ≤ (2 : ℚ) ^ (Int.log 2 |x| - 54) := zpow_le_zpow_right₀ (by norm_num) (by omega)
        have h3 : (2 : ℚ) ^ (Int.log 2 |x| - 54) = spacing x / 4 := by
          rw [hs, show Int.log 2 |x| - 54 = Int.log 2 |x| - 52 - 2 by ring, zpow_sub₀ (by norm_num : (2 : ℚ) ≠ 0) _ 2]
          norm_num
        have h4 : |(m : ℚ)| ≤ 2 ^ 53 := by exact_mod_cast hm.le
        calc |(m : ℚ)| * (2 : ℚ) ^ e ≤ 2 ^ 53 * (spacing x / 4) :=
              mul_le_mul h4 (h3 ▸ h2) (zpow_pos (by norm_num) e).le (by norm_num)
          _ = 2 ^ 51 * spacing x := by ring
      have h5 := abs_sub_abs_le_abs_sub x ((m : ℚ) * (2 : ℚ) ^ e)
      rw [abs_sub_comm] at h5
      have h6 : 2 ^ 52 * spacing x ≤ |x| := h52 ▸ hx2
      linarith

/-- The computed middle is close to the exact one, unless the two numbers are neighbours. -/
theorem halfway_error {a b : ℚ} (ha : IsF64 a) (hb : IsF64 b) (h : ¬ Adjacent a b) :
    |halfway a b - (a + b) / 2| ≤ |a - b| / 3 := by
  unfold Adjacent at h
  push Not at h
  obtain ⟨c, hc, c1, c2⟩ := h
  rcases eq_or_ne ((a + b) / 2) 0 with h0 | h0
  · have := halfway_nearest ha hb (f := 0) ⟨0, 0, by norm_num, by norm_num, by norm_num⟩
    rw [h0] at this ⊢
    simp only [sub_zero, abs_zero] at this ⊢
    linarith [abs_nonneg (a - b)]
  have hsp := spacing_pos ((a + b) / 2)
  have herr : |halfway a b - (a + b) / 2| ≤ spacing ((a + b) / 2) / 2 := by
    refine le_trans (halfway_nearest ha hb (roundF64_isF64 ((a + b) / 2))) ?_
    rw [roundF64_sub, abs_mul, abs_of_pos hsp]
    have := mul_le_mul_of_nonneg_right (nearestInt_near ((a + b) / 2 / spacing ((a + b) / 2))) hsp.le
    linarith
  rcases le_or_gt (3 / 2 * spacing ((a + b) / 2)) |a - b| with hL | hL
  · linarith
  have key : ∀ f, |f - (a + b) / 2| ≤ |a - b| / 2 → |f - (a + b) / 2| ≤ 3 / 4 * spacing ((a + b) / 2) := by
    intro f hf
    linarith
  have hca : |c - (a + b) / 2| ≤ |a - b| / 2 := by
    rw [abs_le]
    rcases le_total a b with h | h
    · rw [min_eq_left h] at c1
      rw [max_eq_right h] at c2
      rw [abs_of_nonpos (by linarith : a - b ≤ 0)]
      constructor <;> linarith
    · rw [min_eq_right h] at c1
      rw [max_eq_left h] at c2
      rw [abs_of_nonneg (by linarith : 0 ≤ a - b)]
      constructor <;> linarith
  obtain ⟨ka, hka⟩ := near_grid h0 ha (key a (by
    rw [show a - (a + b) / 2 = (a - b) / 2 by ring, abs_div, abs_of_pos (by norm_num : (0 : ℚ) < 2)]))
  obtain ⟨kb, hkb⟩ := near_grid h0 hb (key b (by
    rw [show b - (a + b) / 2 = -((a - b) / 2) by ring, abs_neg, abs_div, abs_of_pos (by norm_num : (0 : ℚ) < 2)]))
  obtain ⟨kc, hkc⟩ := near_grid h0 hc (key c hca)
  have hmid : c = (a + b) / 2 := by
    have hg : 0 < spacing ((a + b) / 2) / 2 := by linarith
    have hL' : |a - b| < 3 * (spacing ((a + b) / 2) / 2) := by linarith
    generalize spacing ((a + b) / 2) / 2 = g at hka hkb hkc hg hL'
    rcases le_total a b with h | h
    · rw [min_eq_left h, hka, hkc] at c1
      rw [max_eq_right h, hkb, hkc] at c2
      rw [abs_of_nonpos (by linarith : a - b ≤ 0), hka, hkb] at hL'
      have i1 : ka < kc := by exact_mod_cast lt_of_mul_lt_mul_right c1 hg.le
      have i2 : kc < kb := by exact_mod_cast lt_of_mul_lt_mul_right c2 hg.le
      have i3 : kb - ka < 3 := by
        have : ((kb - ka : ℤ) : ℚ) * g < 3 * g := by push_cast; linarith
        exact_mod_cast lt_of_mul_lt_mul_right this hg.le
      have e1 : kc = ka + 1 := by omega
      have e2 : kb = ka + 2 := by omega
      rw [hkc, hka, hkb, e1, e2]
      push_cast
      ring
    · rw [min_eq_right h, hkb, hkc] at c1
      rw [max_eq_left h, hka, hkc] at c2
      rw [abs_of_nonneg (by linarith : 0 ≤ a - b), hka, hkb] at hL'
      have i1 : kb < kc := by exact_mod_cast lt_of_mul_lt_mul_right c1 hg.le
      have i2 : kc < ka := by exact_mod_cast lt_of_mul_lt_mul_right c2 hg.le
      have i3 : ka - kb < 3 := by
        have : ((ka - kb : ℤ) : ℚ) * g < 3 * g := by push_cast; linarith
        exact_mod_cast lt_of_mul_lt_mul_right this hg.le
      have e1 : kc = kb + 1 := by omega
      have e2 : ka = kb + 2 := by omega
      rw [hkc, hka, hkb, e1, e2]
      push_cast
      ring
  have := halfway_nearest ha hb hc
  rw [hmid, sub_self, abs_zero] at this
  linarith [abs_nonneg (a - b)]

/-- Each interval between neighbours, or of length at most `(6/5) ^ k` times the smallest number. -/
def Depth (k : Nat) (a b : ℚ) : Prop := Adjacent a b ∨ |a - b| ≤ (6 / 5) ^ k * (2 : ℚ) ^ (-1074 : ℤ)

theorem Depth.symm {k : Nat} {a b : ℚ} (h : Depth k a b) : Depth k b a := by
  rcases h with h | h
  · exact Or.inl h.symm
  · exact Or.inr (by rwa [abs_sub_comm])

theorem Depth.zero {a b : ℚ} (ha : IsF64 a) (hb : IsF64 b) (h : Depth 0 a b) : Adjacent a b := by
  rcases h with h | h
  · exact h
  intro c hc ⟨c1, c2⟩
  have hpos : (0 : ℚ) < (2 : ℚ) ^ (-1074 : ℤ) := zpow_pos (by norm_num) _
  obtain ⟨ka, hka⟩ := ha.grid
  obtain ⟨kb, hkb⟩ := hb.grid
  obtain ⟨kc, hkc⟩ := hc.grid
  rw [pow_zero, one_mul] at h
  generalize (2 : ℚ) ^ (-1074 : ℤ) = g at *
  rcases le_total a b with hab | hab
  · rw [min_eq_left hab, hka, hkc] at c1
    rw [max_eq_right hab, hkb, hkc] at c2
    rw [abs_of_nonpos (by linarith : a - b ≤ 0), hka, hkb] at h
    have i1 : ka < kc := by exact_mod_cast lt_of_mul_lt_mul_right c1 hpos.le
    have i2 : kc < kb := by exact_mod_cast lt_of_mul_lt_mul_right c2 hpos.le
    have i3 : kb - ka ≤ 1 := by
      have : ((kb - ka : ℤ) : ℚ) * g ≤ 1 * g := by push_cast; linarith
      exact_mod_cast le_of_mul_le_mul_right this hpos
    omega
  · rw [min_eq_right hab, hkb, hkc] at c1
    rw [max_eq_left hab, hka, hkc] at c2
    rw [abs_of_nonneg (by linarith : 0 ≤ a - b), hka, hkb] at h
    have i1 : kb < kc := by exact_mod_cast lt_of_mul_lt_mul_right c1 hpos.le
    have i2 : kc < ka := by exact_mod_cast lt_of_mul_lt_mul_right c2 hpos.le
    have i3 : ka - kb ≤ 1 := by
      have : ((ka - kb : ℤ) : ℚ) * g ≤ 1 * g := by push_cast; linarith
      exact_mod_cast le_of_mul_le_mul_right this hpos
    omega

theorem Depth.left {k : Nat} {a b : ℚ} (ha : IsF64 a) (hb : IsF64 b) (h : Depth (k + 1) a b) :
    Depth k a (halfway a b) := by
  by_cases hadj : Adjacent a b
  · exact Or.inl (hadj.left ha hb)
  · rcases h with h | h
    · exact absurd h hadj
    right
    have h1 := halfway_error ha hb hadj
    have h2 : |a - halfway a b| ≤ 5 / 6 * |a - b| := by
      have e1 : a - halfway a b = (a - b) / 2 - (halfway a b - (a + b) / 2) := by ring
      rw [e1]
      refine le_trans (abs_sub _ _) ?_
      rw [abs_div, abs_of_pos (by norm_num : (0 : ℚ) < 2)]
      linarith
    rw [pow_succ] at h
    linarith

theorem Depth.right {k : Nat} {a b : ℚ} (ha : IsF64 a) (hb : IsF64 b) (h : Depth (k + 1) a b) :
    Depth k (halfway a b) b := by
  rw [halfway_comm]
  exact (h.symm.left hb ha).symm

theorem isF64_zero : IsF64 0 := ⟨0, 0, by norm_num, by norm_num, by norm_num⟩

theorem roundF64_nonneg {x : ℚ} (h : 0 ≤ x) : 0 ≤ roundF64 x := le_roundF64 isF64_zero h

theorem roundF64_nonpos {x : ℚ} (h : x ≤ 0) : roundF64 x ≤ 0 := roundF64_le isF64_zero h

theorem rounded_product_nonneg {a b c : ℚ} (h : ¬ (min a b < c ∧ c < max a b)) :
    0 ≤ roundF64 (roundF64 (c - b) * roundF64 (c - a)) := by
  apply roundF64_nonneg
  rcases le_total a b with hab | hab
  · rw [min_eq_left hab, max_eq_right hab] at h
    rcases le_or_gt c a with h1 | h1
    · exact mul_nonneg_of_nonpos_of_nonpos (roundF64_nonpos (by linarith)) (roundF64_nonpos (by linarith))
    · have : b ≤ c := by
        by_contra h2
        exact h ⟨h1, not_le.1 h2⟩
      exact mul_nonneg (roundF64_nonneg (by linarith)) (roundF64_nonneg (by linarith))
  · rw [min_eq_right hab, max_eq_left hab] at h
    rcases le_or_gt c b with h1 | h1
    · exact mul_nonneg_of_nonpos_of_nonpos (roundF64_nonpos (by linarith)) (roundF64_nonpos (by linarith))
    · have : a ≤ c := by
        by_contra h2
        exact h ⟨h1, not_le.1 h2⟩
      exact mul_nonneg (roundF64_nonneg (by linarith)) (roundF64_nonneg (by linarith))

/-- In `f64`, a vertex that encroaches a segment has one coordinate strictly between those of the ends. -/
theorem between_of_encroaches {eps : ℚ} (he : 0 ≤ eps) {a b v : Vertex ℚ}
    (h : encroachRounded roundF64 eps a b v = .inside) :
    (min a.x b.x < v.x ∧ v.x < max a.x b.x) ∨ (min a.y b.y < v.y ∧ v.y < max a.y b.y) := by
  by_contra hn
  rw [not_or] at hn
  have h1 := rounded_product_nonneg hn.1
  have h2 := rounded_product_nonneg hn.2
  have h3 : 0 ≤ encroachMeasureRounded roundF64 a b v := roundF64_nonneg (by linarith)
  unfold encroachRounded at h
  split_ifs at h with k1 k2
  · rcases lt_or_eq_of_le h3 with h4 | h4
    · exact k2 h4
    · apply k1
      rw [← h4]
      unfold approxEq
      simpa using he

end Verif
