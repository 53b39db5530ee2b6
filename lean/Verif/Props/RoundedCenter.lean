import Verif.Model.RoundedRefine
import Verif.Props.RoundedIntersection

/-!
# C96: the circumcentre in f64

`circumcenter` with a rounding after each operation.
-/

set_option linter.unusedSectionVars false

namespace Verif.Props

open Spec

section

variable {K : Type*} [Field K] [LinearOrder K] [IsStrictOrderedRing K] {rnd : K → K} {u s : K}

/-- There is no centre exactly if the two sides at the first corner are reported parallel. -/
theorem circumcenterRounded_none (hodd : ∀ x, rnd (-x) = -rnd x) (a b c : Vertex K) :
    circumcenterRounded rnd a b c = none ↔ parallelRounded rnd a c a b = true := by
  have hdet : (segMatrixRounded rnd a c a b).detRounded rnd =
      rnd (rnd (rnd (c.x - a.x) * rnd (b.y - a.y)) - rnd (rnd (b.x - a.x) * rnd (c.y - a.y))) := by
    unfold Mat2.detRounded segMatrixRounded
    simp only
    rw [neg_mul, neg_mul, hodd, hodd]
    congr 1
    rw [mul_comm (rnd (b.y - a.y)), mul_comm (rnd (c.y - a.y))]
    ring
  unfold circumcenterRounded parallelRounded Mat2.isInvertibleRounded
  rw [hdet]
  simp only [Mat2.detRounded]
  by_cases h : rnd (rnd (rnd (c.x - a.x) * rnd (b.y - a.y)) - rnd (rnd (b.x - a.x) * rnd (c.y - a.y))) = 0 <;> simp [h]

/-- Exchanging the second and the third corner changes nothing. -/
theorem circumcenterRounded_swap (hodd : ∀ x, rnd (-x) = -rnd x) (a b c : Vertex K) :
    circumcenterRounded rnd a c b = circumcenterRounded rnd a b c := by
  have hdet : rnd (rnd (rnd (b.x - a.x) * rnd (c.y - a.y)) - rnd (rnd (c.x - a.x) * rnd (b.y - a.y))) =
      -rnd (rnd (rnd (c.x - a.x) * rnd (b.y - a.y)) - rnd (rnd (b.x - a.x) * rnd (c.y - a.y))) := by
    rw [← hodd, neg_sub]
  unfold circumcenterRounded Mat2.isInvertibleRounded
  simp only [Mat2.detRounded, hdet]
  by_cases h : rnd (rnd (rnd (c.x - a.x) * rnd (b.y - a.y)) - rnd (rnd (b.x - a.x) * rnd (c.y - a.y))) = 0
  · simp [h]
  · refine (if_neg (by simpa using h)).trans (Eq.trans ?_
      (if_neg (by rw [Bool.not_eq_true, Bool.not_eq_false']; exact decide_eq_true h)).symm)
    simp only [Mat2.mulRounded, neg_div, div_neg, hodd, neg_neg, Vertex.mk']
    congr 2 <;> rw [add_comm]

/-- What the two products of the halved inverse matrix with the right-hand side are off by. -/
theorem half_solve_error (h : Rounds rnd u s) (hu : u ≤ 1 / 16) {d1 d2 b1 b2 D A C : K} (h1 : |d1| ≤ A) (h2 : |d2| ≤ A)
    (h3 : |b1| ≤ C) (h4 : |b2| ≤ C) (hs : s ≤ A / |D| / 2) (hs2 : s ≤ A / |D| / 2 * C) :
    |rnd (rnd (rnd (rnd (d1 / D) / 2) * b1) + rnd (rnd (rnd (d2 / D) / 2) * b2)) - (d1 * b1 + d2 * b2) / (2 * D)| ≤
      9 * u * (A / |D| / 2 * C) := by
  have u0 := h.u_nonneg
  have C0 : 0 ≤ C := le_trans (abs_nonneg _) h3
  have P0 : 0 ≤ A / |D| := div_nonneg (le_trans (abs_nonneg _) h1) (abs_nonneg _)
  have R0 : 0 ≤ A / |D| / 2 * C := by positivity
  have part : ∀ d b : K, |d| ≤ A → |b| ≤ C →
      |rnd (rnd (rnd (d / D) / 2) * b) - d / D / 2 * b| ≤ (3 * u + 3 * u ^ 2 + u ^ 3) * (A / |D| / 2 * C) ∧
      |d / D / 2 * b| ≤ A / |D| / 2 * C := by
    intro d b hd hb
    have q0 : |d / D| ≤ A / |D| := by rw [abs_div]; exact div_le_div_of_nonneg_right hd (abs_nonneg _)
    have e0 := h.exact q0 (by linarith)
    have q1 : |d / D / 2| ≤ A / |D| / 2 := by rw [abs_div, abs_two]; exact div_le_div_of_nonneg_right q0 (by norm_num)
    have e1 : |rnd (d / D) / 2 - d / D / 2| ≤ u * (A / |D| / 2) := by
      rw [← sub_div, abs_div, abs_two]
      linarith
    have e1' := h.near e1 q1 hs
    have e2 : |rnd (rnd (d / D) / 2) * b - d / D / 2 * b| ≤ (2 * u + u ^ 2) * (A / |D| / 2 * C) := by
      rw [← sub_mul]
      refine (abs_mul_le e1' hb).trans (le_of_eq ?_)
      ring
    have q2 := abs_mul_le q1 hb
    refine ⟨(h.near e2 q2 hs2).trans (le_of_eq ?_), q2⟩
    ring
  obtain ⟨e1, q1⟩ := part d1 b1 h1 h3
  obtain ⟨e2, q2⟩ := part d2 b2 h2 h4
  have e3 : |rnd (rnd (rnd (d1 / D) / 2) * b1) + rnd (rnd (rnd (d2 / D) / 2) * b2) - (d1 * b1 + d2 * b2) / (2 * D)| ≤
      2 * (3 * u + 3 * u ^ 2 + u ^ 3) * (A / |D| / 2 * C) := by
    rw [show rnd (rnd (rnd (d1 / D) / 2) * b1) + rnd (rnd (rnd (d2 / D) / 2) * b2) - (d1 * b1 + d2 * b2) / (2 * D) =
      (rnd (rnd (rnd (d1 / D) / 2) * b1) - d1 / D / 2 * b1) + (rnd (rnd (rnd (d2 / D) / 2) * b2) - d2 / D / 2 * b2) by
        rw [show (d1 * b1 + d2 * b2) / (2 * D) = d1 / D / 2 * b1 + d2 / D / 2 * b2 by ring]; ring]
    refine (abs_add_le _ _).trans ((add_le_add e1 e2).trans (le_of_eq ?_))
    ring
  have q3 : |(d1 * b1 + d2 * b2) / (2 * D)| ≤ 2 * (A / |D| / 2 * C) := by
    rw [show (d1 * b1 + d2 * b2) / (2 * D) = d1 / D / 2 * b1 + d2 / D / 2 * b2 by ring]
    refine (abs_add_le _ _).trans ((add_le_add q1 q2).trans (le_of_eq ?_))
    ring
  refine (h.near e3 q3 (by linarith)).trans ?_
  have uu : u ^ 2 ≤ u / 16 := by nlinarith
  have uuu : u ^ 3 ≤ u / 256 := by nlinarith
  have u4 : u ^ 4 ≤ u / 256 := by nlinarith [pow_nonneg u0 3]
  have key : 2 * (3 * u + 3 * u ^ 2 + u ^ 3) + u * (2 + 2 * (3 * u + 3 * u ^ 2 + u ^ 3)) ≤ 9 * u := by nlinarith
  have := mul_le_mul_of_nonneg_right key R0
  nlinarith

end

/-- C96: the circumcentre does not depend on the order of the second and the third corner. -/
theorem C96_swap (a b c : Vertex ℚ) : circumcenterRounded roundF64 a c b = circumcenterRounded roundF64 a b c :=
  circumcenterRounded_swap roundF64_neg a b c

/-- C96: there is no circumcentre exactly if `parallel` reports the two sides at the first corner parallel; in particular
there is none if two corners are the same. -/
theorem C96_none (a b c : Vertex ℚ) :
    (circumcenterRounded roundF64 a b c = none ↔ parallelRounded roundF64 a c a b = true) ∧
      circumcenterRounded roundF64 a b b = none ∧ circumcenterRounded roundF64 a a b = none ∧
      circumcenterRounded roundF64 a b a = none := by
  have hbb : circumcenterRounded roundF64 a b b = none :=
    (circumcenterRounded_none roundF64_neg a b b).2 (parallelRounded_self roundF64_zero a b)
  have haa : circumcenterRounded roundF64 a a b = none := by
    rw [circumcenterRounded_none roundF64_neg]
    have hdet : (segMatrixRounded roundF64 a b a a).detRounded roundF64 = 0 := by
      unfold Mat2.detRounded segMatrixRounded
      simp only
      rw [sub_self, sub_self, roundF64_zero, neg_zero, mul_zero, zero_mul, roundF64_zero, sub_self, roundF64_zero]
    simp [parallelRounded, Mat2.isInvertibleRounded, hdet]
  exact ⟨circumcenterRounded_none roundF64_neg a b c, hbb, haa, by rw [C96_swap, haa]⟩

/-- C96: on a grid there is no circumcentre exactly if the three points are on a line. -/
theorem C96_grid {e : ℤ} (he : -537 ≤ e) {a b c : Vertex ℚ} (ha : OnGrid e a.x ∧ OnGrid e a.y)
    (hb : OnGrid e b.x ∧ OnGrid e b.y) (hc : OnGrid e c.x ∧ OnGrid e c.y) :
    circumcenterRounded roundF64 a b c = none ↔ cross a b c = 0 := by
  rw [circumcenterRounded_none roundF64_neg, C95_parallel_grid he ha hc ha hb]
  unfold cross
  constructor <;> intro h <;> linarith

/-- The matrix and the right-hand sides for three corners with integer coordinates are not rounded. -/
theorem integer_center {B : ℤ} (hB : 1 ≤ B) (hB2 : B ≤ 2 ^ 25) {a b : Vertex ℚ}
    (hint : ∀ v ∈ [a, b], ∃ m n : ℤ, |m| ≤ B ∧ |n| ≤ B ∧ v.x = m ∧ v.y = n) :
    roundF64 (roundF64 (roundF64 (roundF64 (b.x * b.x) - roundF64 (a.x * a.x)) + roundF64 (b.y * b.y)) -
        roundF64 (a.y * a.y)) = b.x * b.x - a.x * a.x + b.y * b.y - a.y * a.y ∧
      |b.x * b.x - a.x * a.x + b.y * b.y - a.y * a.y| ≤ 2 * (B : ℚ) ^ 2 := by
  obtain ⟨ax, ay, kax, kay, eax, eay⟩ := hint a (by simp)
  obtain ⟨bx, by', kbx, kby, ebx, eby⟩ := hint b (by simp)
  have hBB : B ^ 2 ≤ 2 ^ 50 := by nlinarith
  have int : ∀ (n : ℤ) (x : ℚ), -(8 * B ^ 2) ≤ n → n ≤ 8 * B ^ 2 → x = n → roundF64 x = x := fun n x hn hn' hx =>
    roundF64_grid (n := n) (e := 0) ((abs_le.2 ⟨hn, hn'⟩).trans (by linarith)) (by norm_num) (by simpa using hx)
  have sq : ∀ n : ℤ, |n| ≤ B → 0 ≤ n * n ∧ n * n ≤ B ^ 2 := fun n hn =>
    ⟨mul_self_nonneg n, by have := abs_mul_le hn hn; rw [abs_of_nonneg (mul_self_nonneg n)] at this; linarith⟩
  obtain ⟨l1, g1⟩ := sq _ kax
  obtain ⟨l2, g2⟩ := sq _ kay
  obtain ⟨l3, g3⟩ := sq _ kbx
  obtain ⟨l4, g4⟩ := sq _ kby
  rw [int (bx * bx) (b.x * b.x) (by linarith) (by linarith) (by rw [ebx]; push_cast; ring),
    int (ax * ax) (a.x * a.x) (by linarith) (by linarith) (by rw [eax]; push_cast; ring),
    int (by' * by') (b.y * b.y) (by linarith) (by linarith) (by rw [eby]; push_cast; ring),
    int (ay * ay) (a.y * a.y) (by linarith) (by linarith) (by rw [eay]; push_cast; ring),
    int (bx * bx - ax * ax) (b.x * b.x - a.x * a.x) (by linarith) (by linarith) (by rw [ebx, eax]; push_cast; ring),
    int (bx * bx - ax * ax + by' * by') (b.x * b.x - a.x * a.x + b.y * b.y) (by linarith) (by linarith)
      (by rw [ebx, eax, eby]; push_cast; ring),
    int (bx * bx - ax * ax + by' * by' - ay * ay) (b.x * b.x - a.x * a.x + b.y * b.y - a.y * a.y) (by linarith) (by linarith)
      (by rw [ebx, eax, eby, eay]; push_cast; ring)]
  refine ⟨rfl, ?_⟩
  rw [ebx, eax, eby, eay]
  have : |bx * bx - ax * ax + by' * by' - ay * ay| ≤ 2 * B ^ 2 := abs_le.2 ⟨by linarith, by linarith⟩
  exact_mod_cast this

/-- C96: for corners with integer coordinates up to `B`, a centre that is returned is off the point that has the same distance
from all three corners by at most `9 B³ / (2⁵² |D|)` in both directions, where `D` is twice the area of the triangle. -/
theorem C96_error {B : ℤ} (hB : 1 ≤ B) (hB2 : B ≤ 2 ^ 25) {a b c p z : Vertex ℚ}
    (hint : ∀ v ∈ [a, b, c], ∃ m n : ℤ, |m| ≤ B ∧ |n| ≤ B ∧ v.x = m ∧ v.y = n)
    (hp : circumcenterRounded roundF64 a b c = some p) (hz1 : dist2 z a = dist2 z b) (hz2 : dist2 z a = dist2 z c) :
    |p.x - z.x| ≤ 9 * B ^ 3 / (2 ^ 52 * |cross a b c|) ∧ |p.y - z.y| ≤ 9 * B ^ 3 / (2 ^ 52 * |cross a b c|) := by
  obtain ⟨⟨r1, r2, r3, r4⟩, -, -, ⟨v1, v2, v3⟩, ⟨g1, -, -⟩, f1, f2, f3, f4⟩ :=
    integer_system (a := a) (b := c) (c := a) (d := b) hB hB2 (fun v hv => hint v (by
      simp only [List.mem_cons, List.not_mem_nil, or_false] at hv ⊢; tauto))
  obtain ⟨t1, k1⟩ := integer_center (a := a) (b := c) hB hB2 (fun v hv => hint v (by
      simp only [List.mem_cons, List.not_mem_nil, or_false] at hv ⊢; tauto))
  obtain ⟨t2, k2⟩ := integer_center (a := a) (b := b) hB hB2 (fun v hv => hint v (by
      simp only [List.mem_cons, List.not_mem_nil, or_false] at hv ⊢; tauto))
  have B1 : (1 : ℚ) ≤ B := by exact_mod_cast hB
  have B25 : (B : ℚ) ≤ 2 ^ 25 := by exact_mod_cast hB2
  have hcross : cross a b c = -((c.x - a.x) * (b.y - a.y) - (c.y - a.y) * (b.x - a.x)) := by unfold cross; ring
  rw [hcross, abs_neg]
  have hdet : roundF64 (roundF64 ((c.x - a.x) * (b.y - a.y)) - roundF64 ((b.x - a.x) * (c.y - a.y))) =
      (c.x - a.x) * (b.y - a.y) - (c.y - a.y) * (b.x - a.x) := by
    rw [← v3]
    rw [neg_mul, roundF64_neg, neg_inj] at v1 v2
    rw [mul_comm (c.x - a.x), v2, mul_comm (b.x - a.x), v1]
    congr 1
    ring
  have hD : (c.x - a.x) * (b.y - a.y) - (c.y - a.y) * (b.x - a.x) ≠ 0 := by
    intro h0
    unfold circumcenterRounded Mat2.isInvertibleRounded at hp
    simp only [Mat2.detRounded, r1, r2, r3, r4, hdet, h0] at hp
    simp at hp
  unfold dist2 at hz1 hz2
  have hx : (b.y - a.y) * (c.x * c.x - a.x * a.x + c.y * c.y - a.y * a.y) +
      -(c.y - a.y) * (b.x * b.x - a.x * a.x + b.y * b.y - a.y * a.y) =
      z.x * (2 * ((c.x - a.x) * (b.y - a.y) - (c.y - a.y) * (b.x - a.x))) := by
    linear_combination (c.y - a.y) * hz1 - (b.y - a.y) * hz2
  have hy : -(b.x - a.x) * (c.x * c.x - a.x * a.x + c.y * c.y - a.y * a.y) +
      (c.x - a.x) * (b.x * b.x - a.x * a.x + b.y * b.y - a.y * a.y) =
      z.y * (2 * ((c.x - a.x) * (b.y - a.y) - (c.y - a.y) * (b.x - a.x))) := by
    linear_combination -(c.x - a.x) * hz1 + (b.x - a.x) * hz2
  have hpv : p.x = roundF64 (roundF64 (roundF64 (roundF64 ((b.y - a.y) / ((c.x - a.x) * (b.y - a.y) - (c.y - a.y) * (b.x - a.x))) / 2) *
        (c.x * c.x - a.x * a.x + c.y * c.y - a.y * a.y)) +
      roundF64 (roundF64 (roundF64 (-(c.y - a.y) / ((c.x - a.x) * (b.y - a.y) - (c.y - a.y) * (b.x - a.x))) / 2) *
        (b.x * b.x - a.x * a.x + b.y * b.y - a.y * a.y))) ∧
      p.y = roundF64 (roundF64 (roundF64 (roundF64 (-(b.x - a.x) / ((c.x - a.x) * (b.y - a.y) - (c.y - a.y) * (b.x - a.x))) / 2) *
        (c.x * c.x - a.x * a.x + c.y * c.y - a.y * a.y)) +
      roundF64 (roundF64 (roundF64 ((c.x - a.x) / ((c.x - a.x) * (b.y - a.y) - (c.y - a.y) * (b.x - a.x))) / 2) *
        (b.x * b.x - a.x * a.x + b.y * b.y - a.y * a.y))) := by
    unfold circumcenterRounded Mat2.isInvertibleRounded at hp
    simp only [Mat2.detRounded, r1, r2, r3, r4, hdet, t1, t2] at hp
    rw [if_neg (by simpa using hD)] at hp
    cases hp
    exact ⟨rfl, rfl⟩
  rw [hpv.1, hpv.2]
  clear hpv hp hdet v1 v2 v3 t1 t2 r1 r2 r3 r4 hcross
  generalize (c.x - a.x) * (b.y - a.y) - (c.y - a.y) * (b.x - a.x) = D at *
  have D0 : 0 < |D| := abs_pos.2 hD
  have n1 : ((2 : ℚ) ^ (-1022 : ℤ)) ≤ 2 * B / |D| / 2 := by
    have k1 : ((2 : ℚ) ^ (-1022 : ℤ)) ≤ (2 : ℚ) ^ (-28 : ℤ) := zpow_le_zpow_right₀ (by norm_num) (by norm_num)
    refine k1.trans ?_
    rw [div_div, le_div_iff₀ (by positivity), show (2 : ℚ) ^ (-28 : ℤ) = 1 / 2 ^ 28 by norm_num]
    nlinarith
  have n2 : ((2 : ℚ) ^ (-1022 : ℤ)) ≤ 2 * B / |D| / 2 * (2 * (B : ℚ) ^ 2) := by
    refine n1.trans (le_mul_of_one_le_right (by positivity) ?_)
    nlinarith
  have ex := half_solve_error rounds_f64 (by norm_num) (D := D) f4 (by rw [abs_neg]; exact f2 : |-(c.y - a.y)| ≤ 2 * (B : ℚ)) k1 k2 n1 n2
  have ey := half_solve_error rounds_f64 (by norm_num) (D := D) (by rw [abs_neg]; exact f3 : |-(b.x - a.x)| ≤ 2 * (B : ℚ)) f1 k1 k2 n1 n2
  have bound : 9 * (1 / 2 ^ 53 : ℚ) * (2 * B / |D| / 2 * (2 * (B : ℚ) ^ 2)) = 9 * B ^ 3 / (2 ^ 52 * |D|) := by
    field_simp
  rw [bound] at ex ey
  rw [hx, mul_div_assoc, div_self (mul_ne_zero two_ne_zero hD), mul_one] at ex
  rw [hy, mul_div_assoc, div_self (mul_ne_zero two_ne_zero hD), mul_one] at ey
  exact ⟨ex, ey⟩

/-- A triangle may have a circumcentre or not, depending on its first corner: (0.3, 0.5), (0.6, 2.3), (0.5, 1.7), which is not
flat. -/
theorem C96_none_false : ∃ a b c : Vertex ℚ, a = hundredths 30 50 ∧ b = hundredths 60 230 ∧ c = hundredths 50 170 ∧
    cross a b c ≠ 0 ∧ circumcenterRounded roundF64 a b c = none ∧ (circumcenterRounded roundF64 b c a).isSome = true :=
  ⟨_, _, _, rfl, rfl, rfl, by decide +kernel⟩

/-- Three points on a line may have one: (6.1, 0.7), (8.8, 2.8), (7.0, 1.4). -/
theorem C96_flat_false : ∃ a b c : Vertex ℚ, a = hundredths 610 70 ∧ b = hundredths 880 280 ∧ c = hundredths 700 140 ∧
    cross a b c = 0 ∧ (circumcenterRounded roundF64 a b c).isSome = true :=
  ⟨_, _, _, rfl, rfl, rfl, by decide +kernel⟩

/-- Also for small integers the centre depends on the first corner: (1, 8), (2, 4), (3, 3). -/
theorem C96_rotation_false : ∃ a b c : Vertex ℚ, a = lattice 1 8 ∧ b = lattice 2 4 ∧ c = lattice 3 3 ∧
    (circumcenterRounded roundF64 a b c).isSome = true ∧
    circumcenterRounded roundF64 a b c ≠ circumcenterRounded roundF64 b c a :=
  ⟨_, _, _, rfl, rfl, rfl, by decide +kernel⟩

/-- The hypotheses of `C96_error` are met by the same triangle, whose centre is (37/6, 43/6). -/
example : (∀ v ∈ [lattice 1 8, lattice 2 4, lattice 3 3], |v.x| ≤ 8 ∧ |v.y| ≤ 8) ∧
    dist2 (⟨37 / 6, 43 / 6, false⟩ : Vertex ℚ) (lattice 1 8) = dist2 (⟨37 / 6, 43 / 6, false⟩ : Vertex ℚ) (lattice 2 4) ∧
    dist2 (⟨37 / 6, 43 / 6, false⟩ : Vertex ℚ) (lattice 1 8) = dist2 (⟨37 / 6, 43 / 6, false⟩ : Vertex ℚ) (lattice 3 3) ∧
    cross (lattice 1 8) (lattice 2 4) (lattice 3 3) = 3 := by decide +kernel

end Verif.Props
