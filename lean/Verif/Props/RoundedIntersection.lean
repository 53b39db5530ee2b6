import Verif.Model.RoundedContinence
import Verif.Props.Boxes
import Verif.Props.RoundedSymmetry

/-!
# C95: the intersection of segments in f64

`intersection` and `parallel` with a rounding after each operation.
-/

set_option linter.unusedSectionVars false

namespace Verif.Props

open Spec

section

variable {K : Type*} [Field K] [LinearOrder K] [IsStrictOrderedRing K] {rnd : K → K} {u s : K}

/-- The order of the two segments does not matter, for every rounding that treats both signs alike. -/
theorem intersectionRounded_comm (hodd : ∀ x, rnd (-x) = -rnd x) (eps : K) (a b c d : Vertex K) :
    intersectionRounded rnd eps a b c d = intersectionRounded rnd eps c d a b ∧
      parallelRounded rnd a b c d = parallelRounded rnd c d a b := by
  have hreg : intersectionRegion a b c d = intersectionRegion c d a b := by
    rw [intersectionRegion_eq, intersectionRegion_eq, max_comm (min a.x b.x), max_comm (min a.y b.y),
      min_comm (max a.x b.x), min_comm (max a.y b.y)]
  have hdet : (segMatrixRounded rnd c d a b).detRounded rnd = -(segMatrixRounded rnd a b c d).detRounded rnd := by
    have flip : ∀ p q : K, rnd (p - q) = -rnd (q - p) := fun p q => by rw [← hodd, neg_sub]
    exact flip _ _
  have hinv : (segMatrixRounded rnd c d a b).isInvertibleRounded rnd =
      (segMatrixRounded rnd a b c d).isInvertibleRounded rnd := by
    simp only [Mat2.isInvertibleRounded, hdet, ne_eq, neg_eq_zero]
  have hv : ∀ box, intersectionVertexRounded rnd eps a b c d box = intersectionVertexRounded rnd eps c d a b box := by
    intro box
    simp only [intersectionVertexRounded, hinv]
    split_ifs with h1 h2 h3 h4
    · rfl
    · exfalso
      simp only [Mat2.mulRounded, segMatrixRounded, Bool.and_eq_true] at h2 h3
      exact h3 ⟨h2.2, h2.1⟩
    · exfalso
      simp only [Mat2.mulRounded, segMatrixRounded, Bool.and_eq_true] at h2 h4
      exact h2 ⟨h4.2, h4.1⟩
    · rfl
    · simp only [Mat2.invMulRounded, hdet, Mat2.mulRounded]
      simp only [segMatrixRounded, neg_neg, div_neg, neg_div, hodd]
      simp only [add_comm, Vertex.mk']
  refine ⟨?_, ?_⟩
  · simp only [intersectionRounded, hreg, hv]
  · simp only [parallelRounded, hinv]

/-- Nor does the direction of a segment, for the question whether it is parallel to another one. -/
theorem parallelRounded_turn (hodd : ∀ x, rnd (-x) = -rnd x) (a b c d : Vertex K) :
    parallelRounded rnd a b d c = parallelRounded rnd a b c d := by
  have flip : ∀ p q : K, rnd (p - q) = -rnd (q - p) := fun p q => by rw [← hodd, neg_sub]
  have hdet : (segMatrixRounded rnd a b d c).detRounded rnd = -(segMatrixRounded rnd a b c d).detRounded rnd := by
    unfold Mat2.detRounded segMatrixRounded
    simp only
    rw [flip c.x d.x, flip c.y d.y, mul_neg, hodd, neg_neg, neg_mul, neg_mul, hodd, hodd, neg_neg, ← hodd]
    congr 1
    ring
  simp only [parallelRounded, Mat2.isInvertibleRounded, hdet, ne_eq, neg_eq_zero]

theorem parallelRounded_self (h0 : rnd 0 = 0) (a b : Vertex K) : parallelRounded rnd a b a b = true := by
  have hdet : (segMatrixRounded rnd a b a b).detRounded rnd = 0 := by
    unfold Mat2.detRounded segMatrixRounded
    simp only
    rw [sub_self, h0]
  simp [parallelRounded, Mat2.isInvertibleRounded, hdet]

/-- What the two products of the inverse matrix with the right-hand side are off by. -/
theorem solve_error (h : Rounds rnd u s) (hu : u ≤ 1 / 16) {d1 d2 b1 b2 D A C : K} (h1 : |d1| ≤ A) (h2 : |d2| ≤ A)
    (h3 : |b1| ≤ C) (h4 : |b2| ≤ C) (hs : s ≤ A / |D|) (hs2 : s ≤ A / |D| * C) :
    |rnd (rnd (rnd (d1 / D) * b1) + rnd (rnd (d2 / D) * b2)) - (d1 * b1 + d2 * b2) / D| ≤ 7 * u * (A / |D| * C) := by
  have u0 := h.u_nonneg
  have C0 : 0 ≤ C := le_trans (abs_nonneg _) h3
  have R0 : 0 ≤ A / |D| * C := mul_nonneg (div_nonneg (le_trans (abs_nonneg _) h1) (abs_nonneg _)) C0
  have part : ∀ d b : K, |d| ≤ A → |b| ≤ C → |rnd (rnd (d / D) * b) - d / D * b| ≤ (2 * u + u ^ 2) * (A / |D| * C) ∧
      |d / D * b| ≤ A / |D| * C := by
    intro d b hd hb
    have q1 : |d / D| ≤ A / |D| := by rw [abs_div]; exact div_le_div_of_nonneg_right hd (abs_nonneg _)
    have e1 := h.exact q1 hs
    have e2 : |rnd (d / D) * b - d / D * b| ≤ u * (A / |D| * C) := by
      rw [← sub_mul]
      refine (abs_mul_le e1 hb).trans (le_of_eq ?_)
      ring
    have q2 := abs_mul_le q1 hb
    refine ⟨(h.near e2 q2 hs2).trans (le_of_eq ?_), q2⟩
    ring
  obtain ⟨e1, q1⟩ := part d1 b1 h1 h3
  obtain ⟨e2, q2⟩ := part d2 b2 h2 h4
  have e3 : |rnd (rnd (d1 / D) * b1) + rnd (rnd (d2 / D) * b2) - (d1 * b1 + d2 * b2) / D| ≤
      2 * (2 * u + u ^ 2) * (A / |D| * C) := by
    rw [show rnd (rnd (d1 / D) * b1) + rnd (rnd (d2 / D) * b2) - (d1 * b1 + d2 * b2) / D =
      (rnd (rnd (d1 / D) * b1) - d1 / D * b1) + (rnd (rnd (d2 / D) * b2) - d2 / D * b2) by ring]
    refine (abs_add_le _ _).trans ((add_le_add e1 e2).trans (le_of_eq ?_))
    ring
  have q3 : |(d1 * b1 + d2 * b2) / D| ≤ 2 * (A / |D| * C) := by
    rw [show (d1 * b1 + d2 * b2) / D = d1 / D * b1 + d2 / D * b2 by ring]
    refine (abs_add_le _ _).trans ((add_le_add q1 q2).trans (le_of_eq ?_))
    ring
  refine (h.near e3 q3 (by linarith)).trans ?_
  have uu : u ^ 2 ≤ u / 16 := by nlinarith
  have uuu : u ^ 3 ≤ u / 256 := by nlinarith
  have key : 2 * (2 * u + u ^ 2) + u * (2 + 2 * (2 * u + u ^ 2)) ≤ 7 * u := by nlinarith
  have := mul_le_mul_of_nonneg_right key R0
  nlinarith

end

/-- C95: the intersection of two segments and whether they are parallel do not depend on which of the two comes first. -/
theorem C95_symmetric (eps : ℚ) (a b c d : Vertex ℚ) :
    intersectionRounded roundF64 eps a b c d = intersectionRounded roundF64 eps c d a b ∧
      parallelRounded roundF64 a b c d = parallelRounded roundF64 c d a b :=
  intersectionRounded_comm roundF64_neg eps a b c d

/-- C95: every segment is parallel to itself, in both directions, and the direction never matters for this question. -/
theorem C95_parallel (a b c d : Vertex ℚ) :
    parallelRounded roundF64 a b a b = true ∧ parallelRounded roundF64 a b b a = true ∧
      parallelRounded roundF64 a b d c = parallelRounded roundF64 a b c d :=
  ⟨parallelRounded_self roundF64_zero a b,
    by rw [parallelRounded_turn roundF64_neg, parallelRounded_self roundF64_zero], parallelRounded_turn roundF64_neg a b c d⟩

/-- C95: on a grid segments are reported parallel exactly if they are. -/
theorem C95_parallel_grid {e : ℤ} (he : -537 ≤ e) {a b c d : Vertex ℚ} (ha : OnGrid e a.x ∧ OnGrid e a.y)
    (hb : OnGrid e b.x ∧ OnGrid e b.y) (hc : OnGrid e c.x ∧ OnGrid e c.y) (hd : OnGrid e d.x ∧ OnGrid e d.y) :
    parallelRounded roundF64 a b c d = true ↔ (b.x - a.x) * (d.y - c.y) = (b.y - a.y) * (d.x - c.x) := by
  have diff : ∀ x y : ℚ, OnGrid e x → OnGrid e y → ∃ n : ℤ, |n| ≤ 2 ^ 26 ∧ x - y = n * (2 : ℚ) ^ e := by
    rintro x y ⟨n, hn, rfl⟩ ⟨m, hm, rfl⟩
    exact ⟨n - m, by have := abs_sub_le_add hn hm; linarith, by push_cast; ring⟩
  obtain ⟨n1, k1, e1⟩ := diff _ _ hb.1 ha.1
  obtain ⟨n2, k2, e2⟩ := diff _ _ hb.2 ha.2
  obtain ⟨n3, k3, e3⟩ := diff _ _ hd.1 hc.1
  obtain ⟨n4, k4, e4⟩ := diff _ _ hd.2 hc.2
  have one : ∀ {n : ℤ} {x : ℚ}, |n| ≤ 2 ^ 26 → x = n * (2 : ℚ) ^ e → roundF64 x = x := fun hn hx =>
    roundF64_grid (hn.trans (by norm_num)) (by linarith) hx
  have two : ∀ n m : ℤ, |n| ≤ 2 ^ 26 → |m| ≤ 2 ^ 26 → |n * m| ≤ 2 ^ 52 := fun n m hn hm => by
    have := abs_mul_le hn hm; linarith
  have sq : (2 : ℚ) ^ (2 * e) = (2 : ℚ) ^ e * (2 : ℚ) ^ e := by rw [two_mul, zpow_add₀ (by norm_num)]
  have p1 : roundF64 (-(b.y - a.y) * (d.x - c.x)) = -(b.y - a.y) * (d.x - c.x) :=
    roundF64_grid (n := -(n2 * n3)) (e := 2 * e) (by rw [abs_neg]; linarith [two n2 n3 k2 k3]) (by linarith)
      (by rw [e2, e3, sq]; push_cast; ring)
  have p2 : roundF64 (-(d.y - c.y) * (b.x - a.x)) = -(d.y - c.y) * (b.x - a.x) :=
    roundF64_grid (n := -(n4 * n1)) (e := 2 * e) (by rw [abs_neg]; linarith [two n4 n1 k4 k1]) (by linarith)
      (by rw [e4, e1, sq]; push_cast; ring)
  have p3 : roundF64 (-(b.y - a.y) * (d.x - c.x) - -(d.y - c.y) * (b.x - a.x)) =
      -(b.y - a.y) * (d.x - c.x) - -(d.y - c.y) * (b.x - a.x) :=
    roundF64_grid (n := n4 * n1 - n2 * n3) (e := 2 * e)
      (by have := abs_sub_le_add (two n4 n1 k4 k1) (two n2 n3 k2 k3); linarith) (by linarith)
      (by rw [e2, e3, e4, e1, sq]; push_cast; ring)
  simp only [parallelRounded, Mat2.isInvertibleRounded, Mat2.detRounded, segMatrixRounded, one k1 e1, one k2 e2, one k3 e3,
    one k4 e4, p1, p2, p3]
  simp only [ne_eq, decide_not, Bool.not_not, decide_eq_true_eq]
  constructor <;> intro h <;> linarith

theorem inIntervalRounded_near {eps lo hi v : ℚ} (he : (2 : ℚ) ^ (-1022 : ℤ) ≤ eps) (h : lo ≤ hi)
    (hv : inIntervalRounded roundF64 eps lo hi v = true) : lo - 2 * eps ≤ v ∧ v ≤ hi + 2 * eps := by
  have e0 : 0 ≤ eps := le_trans (zpow_nonneg (by norm_num) _) he
  have near : ∀ t : ℚ, |roundF64 (t - v)| ≤ eps → |t - v| ≤ 2 * eps := by
    intro t ht
    have r := rounds_f64.error (t - v)
    have tri := abs_sub_abs_le_abs_sub (t - v) (roundF64 (t - v))
    rw [abs_sub_comm (t - v) (roundF64 (t - v))] at tri
    rcases le_total |t - v| ((2 : ℚ) ^ (-1022 : ℤ)) with k | k
    · linarith
    · rw [max_eq_left k] at r
      have := abs_nonneg (t - v)
      linarith
  simp only [inIntervalRounded, approxEqRounded, Bool.or_eq_true, Bool.and_eq_true, decide_eq_true_eq, ge_iff_le] at hv
  rcases hv with (⟨h1, h2⟩ | h1) | h1
  · constructor <;> linarith
  all_goals
    have := abs_le.1 (near _ h1)
    constructor <;> linarith [this.1, this.2]

/-- C95: a point that is returned is in the bounding box of each of the two segments, up to twice the tolerance. -/
theorem C95_box {eps : ℚ} (he : (2 : ℚ) ^ (-1022 : ℤ) ≤ eps) {a b c d p : Vertex ℚ}
    (h : intersectionRounded roundF64 eps a b c d = some p) :
    (min a.x b.x - 2 * eps ≤ p.x ∧ p.x ≤ max a.x b.x + 2 * eps) ∧
      (min a.y b.y - 2 * eps ≤ p.y ∧ p.y ≤ max a.y b.y + 2 * eps) ∧
      (min c.x d.x - 2 * eps ≤ p.x ∧ p.x ≤ max c.x d.x + 2 * eps) ∧
      (min c.y d.y - 2 * eps ≤ p.y ∧ p.y ≤ max c.y d.y + 2 * eps) := by
  rw [intersectionRounded, intersectionRegion_eq] at h
  split_ifs at h with hb
  · simp only at h
    split at h
    · cases h
    · rename_i v hv
      split_ifs at h with hi
      cases h
      rw [Bool.and_eq_true] at hi
      obtain ⟨x1, x2⟩ := inIntervalRounded_near he hb.1 hi.1
      obtain ⟨y1, y2⟩ := inIntervalRounded_near he hb.2 hi.2
      have := le_max_left (min a.x b.x) (min c.x d.x)
      have := le_max_right (min a.x b.x) (min c.x d.x)
      have := le_max_left (min a.y b.y) (min c.y d.y)
      have := le_max_right (min a.y b.y) (min c.y d.y)
      have := min_le_left (max a.x b.x) (max c.x d.x)
      have := min_le_right (max a.x b.x) (max c.x d.x)
      have := min_le_left (max a.y b.y) (max c.y d.y)
      have := min_le_right (max a.y b.y) (max c.y d.y)
      refine ⟨⟨?_, ?_⟩, ⟨?_, ?_⟩, ⟨?_, ?_⟩, ?_, ?_⟩ <;> linarith

theorem normal_size {B D : ℚ} (h1 : 1 ≤ B) (h2 : B ≤ 2 ^ 25) (h3 : 0 < D) (h4 : D ≤ 8 * B ^ 2) :
    ((2 : ℚ) ^ (-1022 : ℤ)) ≤ 2 * B / D ∧ ((2 : ℚ) ^ (-1022 : ℤ)) ≤ 2 * B / D * (4 * B ^ 2) := by
  have k1 : ((2 : ℚ) ^ (-1022 : ℤ)) ≤ (2 : ℚ) ^ (-27 : ℤ) := zpow_le_zpow_right₀ (by norm_num) (by norm_num)
  have k2 : (2 : ℚ) ^ (-27 : ℤ) ≤ 2 * B / D := by
    rw [le_div_iff₀ h3, show (2 : ℚ) ^ (-27 : ℤ) = 1 / 2 ^ 27 by norm_num]
    nlinarith
  have k3 := k1.trans k2
  refine ⟨k3, k3.trans ?_⟩
  have p0 : 0 ≤ 2 * B / D := by positivity
  exact le_mul_of_one_le_right p0 (by nlinarith)

/-- The determinant and the right-hand sides of two segments with integer coordinates are not rounded. -/
theorem integer_system {B : ℤ} (hB : 1 ≤ B) (hB2 : B ≤ 2 ^ 25) {a b c d : Vertex ℚ}
    (hint : ∀ v ∈ [a, b, c, d], ∃ m n : ℤ, |m| ≤ B ∧ |n| ≤ B ∧ v.x = m ∧ v.y = n) :
    (roundF64 (b.x - a.x) = b.x - a.x ∧ roundF64 (b.y - a.y) = b.y - a.y ∧ roundF64 (d.x - c.x) = d.x - c.x ∧
      roundF64 (d.y - c.y) = d.y - c.y) ∧
    (roundF64 (a.y * (b.x - a.x)) = a.y * (b.x - a.x) ∧ roundF64 (a.x * (b.y - a.y)) = a.x * (b.y - a.y) ∧
      roundF64 (c.y * (d.x - c.x)) = c.y * (d.x - c.x) ∧ roundF64 (c.x * (d.y - c.y)) = c.x * (d.y - c.y)) ∧
    (roundF64 (a.y * (b.x - a.x) - a.x * (b.y - a.y)) = a.y * (b.x - a.x) - a.x * (b.y - a.y) ∧
      roundF64 (c.y * (d.x - c.x) - c.x * (d.y - c.y)) = c.y * (d.x - c.x) - c.x * (d.y - c.y)) ∧
    (roundF64 (-(b.y - a.y) * (d.x - c.x)) = -(b.y - a.y) * (d.x - c.x) ∧
      roundF64 (-(d.y - c.y) * (b.x - a.x)) = -(d.y - c.y) * (b.x - a.x) ∧
      roundF64 (-(b.y - a.y) * (d.x - c.x) - -(d.y - c.y) * (b.x - a.x)) =
        (b.x - a.x) * (d.y - c.y) - (b.y - a.y) * (d.x - c.x)) ∧
    (|(b.x - a.x) * (d.y - c.y) - (b.y - a.y) * (d.x - c.x)| ≤ 8 * (B : ℚ) ^ 2 ∧
      |a.y * (b.x - a.x) - a.x * (b.y - a.y)| ≤ 4 * (B : ℚ) ^ 2 ∧
      |c.y * (d.x - c.x) - c.x * (d.y - c.y)| ≤ 4 * (B : ℚ) ^ 2) ∧
    (|b.x - a.x| ≤ 2 * (B : ℚ) ∧ |b.y - a.y| ≤ 2 * (B : ℚ) ∧ |d.x - c.x| ≤ 2 * (B : ℚ) ∧ |d.y - c.y| ≤ 2 * (B : ℚ)) := by
  obtain ⟨ax, ay, kax, kay, eax, eay⟩ := hint a (by simp)
  obtain ⟨bx, by', kbx, kby, ebx, eby⟩ := hint b (by simp)
  obtain ⟨cx, cy, kcx, kcy, ecx, ecy⟩ := hint c (by simp)
  obtain ⟨dx, dy, kdx, kdy, edx, edy⟩ := hint d (by simp)
  have hBB : B ^ 2 ≤ 2 ^ 50 := by nlinarith
  have int : ∀ (n : ℤ) (x : ℚ), |n| ≤ 8 * B ^ 2 → x = n → roundF64 x = x := fun n x hn hx =>
    roundF64_grid (n := n) (e := 0) (hn.trans (by linarith)) (by norm_num) (by simpa using hx)
  have dif : ∀ m n : ℤ, |m| ≤ B → |n| ≤ B → |m - n| ≤ 2 * B := fun m n h1 h2 => by
    have := abs_sub_le_add h1 h2; linarith
  have small : 2 * B ≤ 8 * B ^ 2 := by nlinarith
  have prod : ∀ m n : ℤ, |m| ≤ B → |n| ≤ 2 * B → |m * n| ≤ 2 * B ^ 2 := fun m n h1 h2 => by
    have := abs_mul_le h1 h2; linarith
  have prod4 : ∀ m n : ℤ, |m| ≤ 2 * B → |n| ≤ 2 * B → |m * n| ≤ 4 * B ^ 2 := fun m n h1 h2 => by
    have := abs_mul_le h1 h2; linarith
  have B20 : 0 ≤ B ^ 2 := by positivity
  have r1 : roundF64 (b.x - a.x) = b.x - a.x := int (bx - ax) _ ((dif _ _ kbx kax).trans small) (by rw [eax, ebx]; push_cast; ring)
  have r2 : roundF64 (b.y - a.y) = b.y - a.y := int (by' - ay) _ ((dif _ _ kby kay).trans small) (by rw [eay, eby]; push_cast; ring)
  have r3 : roundF64 (d.x - c.x) = d.x - c.x := int (dx - cx) _ ((dif _ _ kdx kcx).trans small) (by rw [ecx, edx]; push_cast; ring)
  have r4 : roundF64 (d.y - c.y) = d.y - c.y := int (dy - cy) _ ((dif _ _ kdy kcy).trans small) (by rw [ecy, edy]; push_cast; ring)
  have w1 := prod _ _ kay (dif _ _ kbx kax)
  have w2 := prod _ _ kax (dif _ _ kby kay)
  have w3 := prod _ _ kcy (dif _ _ kdx kcx)
  have w4 := prod _ _ kcx (dif _ _ kdy kcy)
  have z1 := prod4 _ _ (dif _ _ kby kay) (dif _ _ kdx kcx)
  have z2 := prod4 _ _ (dif _ _ kdy kcy) (dif _ _ kbx kax)
  have s1 : roundF64 (a.y * (b.x - a.x)) = a.y * (b.x - a.x) := int (ay * (bx - ax)) _ (by linarith) (by rw [eay, ebx, eax]; push_cast; ring)
  have s2 : roundF64 (a.x * (b.y - a.y)) = a.x * (b.y - a.y) := int (ax * (by' - ay)) _ (by linarith) (by rw [eay, eby, eax]; push_cast; ring)
  have s3 : roundF64 (c.y * (d.x - c.x)) = c.y * (d.x - c.x) := int (cy * (dx - cx)) _ (by linarith) (by rw [ecy, edx, ecx]; push_cast; ring)
  have s4 : roundF64 (c.x * (d.y - c.y)) = c.x * (d.y - c.y) := int (cx * (dy - cy)) _ (by linarith) (by rw [ecy, edy, ecx]; push_cast; ring)
  have t1 : roundF64 (a.y * (b.x - a.x) - a.x * (b.y - a.y)) = a.y * (b.x - a.x) - a.x * (b.y - a.y) :=
    int (ay * (bx - ax) - ax * (by' - ay)) _ (by have := abs_sub_le_add w1 w2; linarith) (by rw [eay, ebx, eax, eby]; push_cast; ring)
  have t2 : roundF64 (c.y * (d.x - c.x) - c.x * (d.y - c.y)) = c.y * (d.x - c.x) - c.x * (d.y - c.y) :=
    int (cy * (dx - cx) - cx * (dy - cy)) _ (by have := abs_sub_le_add w3 w4; linarith) (by rw [ecy, edx, ecx, edy]; push_cast; ring)
  have v1 : roundF64 (-(b.y - a.y) * (d.x - c.x)) = -(b.y - a.y) * (d.x - c.x) :=
    int (-((by' - ay) * (dx - cx))) _ (by rw [abs_neg]; linarith) (by rw [eay, eby, edx, ecx]; push_cast; ring)
  have v2 : roundF64 (-(d.y - c.y) * (b.x - a.x)) = -(d.y - c.y) * (b.x - a.x) :=
    int (-((dy - cy) * (bx - ax))) _ (by rw [abs_neg]; linarith) (by rw [eax, ebx, edy, ecy]; push_cast; ring)
  have v3 : roundF64 (-(b.y - a.y) * (d.x - c.x) - -(d.y - c.y) * (b.x - a.x)) =
      (b.x - a.x) * (d.y - c.y) - (b.y - a.y) * (d.x - c.x) := by
    rw [int ((dy - cy) * (bx - ax) - (by' - ay) * (dx - cx)) (-(b.y - a.y) * (d.x - c.x) - -(d.y - c.y) * (b.x - a.x))
      (by have := abs_sub_le_add z2 z1; linarith) (by rw [eax, ebx, edy, ecy, eay, eby, edx, ecx]; push_cast; ring)]
    ring
  have q : ∀ (n m : ℤ), |n - m| ≤ 2 * B → |(n : ℚ) - m| ≤ 2 * B := fun n m h => by
    rw [← Int.cast_sub, ← Int.cast_abs]; exact_mod_cast h
  refine ⟨⟨r1, r2, r3, r4⟩, ⟨s1, s2, s3, s4⟩, ⟨t1, t2⟩, ⟨v1, v2, v3⟩, ⟨?_, ?_, ?_⟩, ?_, ?_, ?_, ?_⟩
  · have e : (b.x - a.x) * (d.y - c.y) - (b.y - a.y) * (d.x - c.x) =
        (((dy - cy) * (bx - ax) - (by' - ay) * (dx - cx) : ℤ) : ℚ) := by
      rw [eax, ebx, edy, ecy, eay, eby, edx, ecx]; push_cast; ring
    rw [e, ← Int.cast_abs]
    have := abs_sub_le_add z2 z1
    exact_mod_cast (by linarith : |(dy - cy) * (bx - ax) - (by' - ay) * (dx - cx)| ≤ 8 * B ^ 2)
  · have := abs_sub_le_add w1 w2
    rw [eay, ebx, eax, eby]
    exact_mod_cast (by linarith : |ay * (bx - ax) - ax * (by' - ay)| ≤ 4 * B ^ 2)
  · have := abs_sub_le_add w3 w4
    rw [ecy, edx, ecx, edy]
    exact_mod_cast (by linarith : |cy * (dx - cx) - cx * (dy - cy)| ≤ 4 * B ^ 2)
  · rw [ebx, eax]; exact q _ _ (dif _ _ kbx kax)
  · rw [eby, eay]; exact q _ _ (dif _ _ kby kay)
  · rw [edx, ecx]; exact q _ _ (dif _ _ kdx kcx)
  · rw [edy, ecy]; exact q _ _ (dif _ _ kdy kcy)

theorem intersectionRounded_vertex {eps : ℚ} {a b c d p : Vertex ℚ} (h : intersectionRounded roundF64 eps a b c d = some p) :
    ∃ box, intersectionVertexRounded roundF64 eps a b c d box = some p := by
  unfold intersectionRounded at h
  split at h
  · cases h
  · split at h
    · cases h
    · rename_i hv
      split_ifs at h
      cases h
      exact ⟨_, hv⟩

/-- C95: for segments with integer coordinates up to `B` that are not parallel, a point that is returned is off the exact
intersection of the two lines by at most `7 B³ / (2⁵⁰ |D|)` in both directions, where `D` is the cross product of the
segments. -/
theorem C95_error {eps : ℚ} {B : ℤ} (hB : 1 ≤ B) (hB2 : B ≤ 2 ^ 25) {a b c d p z : Vertex ℚ}
    (hint : ∀ v ∈ [a, b, c, d], ∃ m n : ℤ, |m| ≤ B ∧ |n| ≤ B ∧ v.x = m ∧ v.y = n)
    (hD : (b.x - a.x) * (d.y - c.y) - (b.y - a.y) * (d.x - c.x) ≠ 0)
    (hp : intersectionRounded roundF64 eps a b c d = some p) (hq1 : cross a b z = 0) (hq2 : cross c d z = 0) :
    |p.x - z.x| ≤ 7 * B ^ 3 / (2 ^ 50 * |(b.x - a.x) * (d.y - c.y) - (b.y - a.y) * (d.x - c.x)|) ∧
      |p.y - z.y| ≤ 7 * B ^ 3 / (2 ^ 50 * |(b.x - a.x) * (d.y - c.y) - (b.y - a.y) * (d.x - c.x)|) := by
  obtain ⟨⟨r1, r2, r3, r4⟩, ⟨s1, s2, s3, s4⟩, ⟨t1, t2⟩, ⟨v1, v2, v3⟩, ⟨g1, g2, g3⟩, f1, f2, f3, f4⟩ :=
    integer_system hB hB2 hint
  have B1 : (1 : ℚ) ≤ B := by exact_mod_cast hB
  have B25 : (B : ℚ) ≤ 2 ^ 25 := by exact_mod_cast hB2
  have hdet : (segMatrixRounded roundF64 a b c d).detRounded roundF64 =
      (b.x - a.x) * (d.y - c.y) - (b.y - a.y) * (d.x - c.x) := by
    unfold Mat2.detRounded segMatrixRounded
    simp only
    rw [r1, r2, r3, r4, v1, v2, v3]
  have hx : (d.x - c.x) * (a.y * (b.x - a.x) - a.x * (b.y - a.y)) + -(b.x - a.x) * (c.y * (d.x - c.x) - c.x * (d.y - c.y)) =
      z.x * ((b.x - a.x) * (d.y - c.y) - (b.y - a.y) * (d.x - c.x)) := by
    unfold cross at hq1 hq2
    linear_combination (-(d.x - c.x)) * hq1 + (b.x - a.x) * hq2
  have hy : (d.y - c.y) * (a.y * (b.x - a.x) - a.x * (b.y - a.y)) + -(b.y - a.y) * (c.y * (d.x - c.x) - c.x * (d.y - c.y)) =
      z.y * ((b.x - a.x) * (d.y - c.y) - (b.y - a.y) * (d.x - c.x)) := by
    unfold cross at hq1 hq2
    linear_combination (-(d.y - c.y)) * hq1 + (b.y - a.y) * hq2
  have hpv : p.x = roundF64 (roundF64 (roundF64 ((d.x - c.x) / ((b.x - a.x) * (d.y - c.y) - (b.y - a.y) * (d.x - c.x))) *
        (a.y * (b.x - a.x) - a.x * (b.y - a.y))) +
      roundF64 (roundF64 (-(b.x - a.x) / ((b.x - a.x) * (d.y - c.y) - (b.y - a.y) * (d.x - c.x))) *
        (c.y * (d.x - c.x) - c.x * (d.y - c.y)))) ∧
      p.y = roundF64 (roundF64 (roundF64 ((d.y - c.y) / ((b.x - a.x) * (d.y - c.y) - (b.y - a.y) * (d.x - c.x))) *
        (a.y * (b.x - a.x) - a.x * (b.y - a.y))) +
      roundF64 (roundF64 (-(b.y - a.y) / ((b.x - a.x) * (d.y - c.y) - (b.y - a.y) * (d.x - c.x))) *
        (c.y * (d.x - c.x) - c.x * (d.y - c.y)))) := by
    obtain ⟨box, hv⟩ := intersectionRounded_vertex hp
    have hinv : (segMatrixRounded roundF64 a b c d).isInvertibleRounded roundF64 = true := by
      unfold Mat2.isInvertibleRounded
      rw [hdet]
      exact decide_eq_true hD
    unfold intersectionVertexRounded at hv
    simp only [hinv, Bool.not_true, Bool.false_eq_true, if_false, Option.some.injEq] at hv
    subst hv
    unfold Mat2.invMulRounded Mat2.mulRounded
    simp only [hdet, Vertex.mk']
    unfold segMatrixRounded
    simp only [r1, r2, r3, r4, s1, s2, s3, s4, t1, t2, neg_neg]
    exact ⟨trivial, trivial⟩
  rw [hpv.1, hpv.2]
  clear hpv hp hdet
  generalize hDdef : (b.x - a.x) * (d.y - c.y) - (b.y - a.y) * (d.x - c.x) = D at *
  have D0 : 0 < |D| := abs_pos.2 hD
  obtain ⟨n1, n2⟩ := normal_size B1 B25 D0 g1
  have ex := solve_error rounds_f64 (by norm_num) (D := D) f3 (by rw [abs_neg]; exact f1 : |-(b.x - a.x)| ≤ 2 * (B : ℚ)) g2 g3 n1 n2
  have ey := solve_error rounds_f64 (by norm_num) (D := D) f4 (by rw [abs_neg]; exact f2 : |-(b.y - a.y)| ≤ 2 * (B : ℚ)) g2 g3 n1 n2
  have bound : 7 * (1 / 2 ^ 53 : ℚ) * (2 * B / |D| * (4 * (B : ℚ) ^ 2)) = 7 * B ^ 3 / (2 ^ 50 * |D|) := by
    field_simp
    norm_num
  rw [bound] at ex ey
  rw [hx, mul_div_assoc, div_self hD, mul_one] at ex
  rw [hy, mul_div_assoc, div_self hD, mul_one] at ey
  exact ⟨ex, ey⟩

/-- Crossing segments may be missed: (0.5, 62.4)-(44.4, 62.4) and (90.3, 7.9)-(0.4, 80.5) cross, each in its interior, and no
intersection is found. -/
theorem C95_cross_false : ∃ a b c d : Vertex ℚ, a = hundredths 50 6240 ∧ b = hundredths 4440 6240 ∧ c = hundredths 9030 790 ∧
    d = hundredths 40 8050 ∧ cross a b c * cross a b d < 0 ∧ cross c d a * cross c d b < 0 ∧
    intersectionRounded roundF64 (1 / 10 ^ 14) a b c d = none :=
  ⟨_, _, _, _, rfl, rfl, rfl, rfl, by decide +kernel⟩

/-- Hence the segments that `split_intersections` returns may still cross, and are those it was given. -/
theorem C95_split_false : ∃ a b c d : Vertex ℚ, a = hundredths 50 6240 ∧ b = hundredths 4440 6240 ∧ c = hundredths 9030 790 ∧
    d = hundredths 40 8050 ∧ cross a b c * cross a b d < 0 ∧ cross c d a * cross c d b < 0 ∧
    splitIntersectionsRounded roundF64 (1 / 10 ^ 14) 3 [(c, d), (a, b)] = .ok [(a, b), (c, d)] :=
  ⟨_, _, _, _, rfl, rfl, rfl, rfl, by decide +kernel⟩

/-- A common end may be missed, although the segments are not parallel: (2.8, 3.3)-(1.6, 0.6) and (1.6, 0.6)-(3.3, 4.4). -/
theorem C95_end_false : ∃ a b c : Vertex ℚ, a = hundredths 280 330 ∧ b = hundredths 160 60 ∧ c = hundredths 330 440 ∧
    cross a b c ≠ 0 ∧ parallelRounded roundF64 a b b c = false ∧ intersectionRounded roundF64 (1 / 10 ^ 14) a b b c = none :=
  ⟨_, _, _, rfl, rfl, rfl, by decide +kernel⟩

/-- A segment may have no point in common with itself: (9.3, 8.1)-(0.0, 1.3). -/
theorem C95_self_false : ∃ a b : Vertex ℚ, a = hundredths 930 810 ∧ b = hundredths 0 130 ∧
    intersectionRounded roundF64 (1 / 10 ^ 14) a b a b = none :=
  ⟨_, _, rfl, rfl, by decide +kernel⟩

/-- The point found depends on the direction of a segment: (3.7, 0)-(3.8, 4.3) or the other way round, and
(4.5, 2.1)-(0.4, 1.9). -/
theorem C95_direction_false : ∃ a b c d : Vertex ℚ, a = hundredths 370 0 ∧ b = hundredths 380 430 ∧ c = hundredths 450 210 ∧
    d = hundredths 40 190 ∧ (intersectionRounded roundF64 (1 / 10 ^ 14) a b c d).isSome = true ∧
    (intersectionRounded roundF64 (1 / 10 ^ 14) b a c d).isSome = true ∧
    intersectionRounded roundF64 (1 / 10 ^ 14) a b c d ≠ intersectionRounded roundF64 (1 / 10 ^ 14) b a c d :=
  ⟨_, _, _, _, rfl, rfl, rfl, rfl, by decide +kernel⟩

/-- The hypotheses of `C95_error` are met, with a result that is rounded: the lines meet in (6/7, 12/7). -/
example : (∀ v ∈ [lattice 0 0, lattice 2 4, lattice 0 3, lattice 4 (-3)], |v.x| ≤ 4 ∧ |v.y| ≤ 4) ∧
    cross (lattice 0 0) (lattice 2 4) (⟨6 / 7, 12 / 7, false⟩ : Vertex ℚ) = 0 ∧
    cross (lattice 0 3) (lattice 4 (-3)) (⟨6 / 7, 12 / 7, false⟩ : Vertex ℚ) = 0 ∧
    (intersectionRounded roundF64 (1 / 10 ^ 14) (lattice 0 0) (lattice 2 4) (lattice 0 3) (lattice 4 (-3))).isSome = true ∧
    intersectionRounded roundF64 (1 / 10 ^ 14) (lattice 0 0) (lattice 2 4) (lattice 0 3) (lattice 4 (-3)) ≠
      some ⟨6 / 7, 12 / 7, false⟩ := by decide +kernel

end Verif.Props
