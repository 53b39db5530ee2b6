import Verif.Model.RoundedQuality
import Verif.Spec.Root
import Verif.Props.RoundedCenter
import Mathlib.Analysis.Real.Sqrt
import Mathlib.Data.Rat.Cast.Order

/-!
# C97: the quality of a triangle in f64

`distance`, `Triangle::quality` and `is_irregular_triangle` with a rounding after each operation.
-/

set_option linter.unusedSectionVars false

namespace Verif.Props

open Spec

section

variable {K : Type*} [Field K] [LinearOrder K] [IsStrictOrderedRing K] {u : K}

/-- `y`, `z` are the computed lengths of the two sides that are not taken for the shortest one. -/
theorem product_bounds (u0 : 0 ≤ u) (u1 : u < 1) {dx dy dz m P y z : K} (hm : 0 < m) (hy : 0 ≤ dy) (hz : 0 ≤ dz)
    (hmx : m ≤ dx) (hx : (1 - u) ^ 2 * dx ≤ (1 + u) ^ 2 * m) (hP : P * m = dx * (dy * dz))
    (ly : (1 - u) ^ 2 * dy ≤ y ^ 2) (gy : y ^ 2 ≤ (1 + u) ^ 2 * dy) (lz : (1 - u) ^ 2 * dz ≤ z ^ 2)
    (gz : z ^ 2 ≤ (1 + u) ^ 2 * dz) :
    (1 - u) ^ 6 * P ≤ (1 + u) ^ 2 * (y * z) ^ 2 ∧ (y * z) ^ 2 ≤ (1 + u) ^ 4 * P := by
  have v0 : 0 ≤ 1 - u := by linarith
  have w0 : 0 ≤ 1 + u := by linarith
  have dyz : 0 ≤ dy * dz := mul_nonneg hy hz
  have lo : (1 - u) ^ 4 * (dy * dz) ≤ (y * z) ^ 2 := by
    have := mul_le_mul ly lz (by positivity) (sq_nonneg y)
    calc (1 - u) ^ 4 * (dy * dz) = (1 - u) ^ 2 * dy * ((1 - u) ^ 2 * dz) := by ring
      _ ≤ y ^ 2 * z ^ 2 := this
      _ = (y * z) ^ 2 := by ring
  have hi : (y * z) ^ 2 ≤ (1 + u) ^ 4 * (dy * dz) := by
    have := mul_le_mul gy gz (sq_nonneg z) (by positivity)
    calc (y * z) ^ 2 = y ^ 2 * z ^ 2 := by ring
      _ ≤ (1 + u) ^ 2 * dy * ((1 + u) ^ 2 * dz) := this
      _ = (1 + u) ^ 4 * (dy * dz) := by ring
  have hle : dy * dz ≤ P := by
    refine le_of_mul_le_mul_right ?_ hm
    rw [hP, mul_comm (dy * dz)]
    exact mul_le_mul_of_nonneg_right hmx dyz
  have hge : (1 - u) ^ 2 * P ≤ (1 + u) ^ 2 * (dy * dz) := by
    refine le_of_mul_le_mul_right ?_ hm
    have := mul_le_mul_of_nonneg_right hx dyz
    calc (1 - u) ^ 2 * P * m = (1 - u) ^ 2 * (P * m) := by ring
      _ = (1 - u) ^ 2 * dx * (dy * dz) := by rw [hP]; ring
      _ ≤ (1 + u) ^ 2 * m * (dy * dz) := this
      _ = (1 + u) ^ 2 * (dy * dz) * m := by ring
  constructor
  · calc (1 - u) ^ 6 * P = (1 - u) ^ 4 * ((1 - u) ^ 2 * P) := by ring
      _ ≤ (1 - u) ^ 4 * ((1 + u) ^ 2 * (dy * dz)) := mul_le_mul_of_nonneg_left hge (by positivity)
      _ = (1 + u) ^ 2 * ((1 - u) ^ 4 * (dy * dz)) := by ring
      _ ≤ (1 + u) ^ 2 * (y * z) ^ 2 := mul_le_mul_of_nonneg_left lo (by positivity)
  · exact hi.trans (mul_le_mul_of_nonneg_left hle (by positivity))

/-- Whatever sides are chosen, the product is nearly the one of the two longer sides. -/
theorem sideProduct_bounds (rnd : K → K) (u0 : 0 ≤ u) (u1 : u < 1) {da db dc a b c P : K} (ha : 0 < da) (hb : 0 < db) (hc : 0 < dc)
    (a0 : 0 ≤ a) (b0 : 0 ≤ b) (c0 : 0 ≤ c)
    (la : (1 - u) ^ 2 * da ≤ a ^ 2) (ga : a ^ 2 ≤ (1 + u) ^ 2 * da) (lb : (1 - u) ^ 2 * db ≤ b ^ 2)
    (gb : b ^ 2 ≤ (1 + u) ^ 2 * db) (lc : (1 - u) ^ 2 * dc ≤ c ^ 2) (gc : c ^ 2 ≤ (1 + u) ^ 2 * dc)
    (hP : P * min da (min db dc) = da * db * dc) :
    ∃ p, sideProductRounded rnd a b c = rnd p ∧ 0 ≤ p ∧ (1 - u) ^ 6 * P ≤ (1 + u) ^ 2 * p ^ 2 ∧ p ^ 2 ≤ (1 + u) ^ 4 * P := by
  have hm : 0 < min da (min db dc) := lt_min ha (lt_min hb hc)
  have chosen : ∀ {dx x : K}, (1 - u) ^ 2 * dx ≤ x ^ 2 → 0 ≤ x → x ≤ a → x ≤ b → x ≤ c →
      (1 - u) ^ 2 * dx ≤ (1 + u) ^ 2 * min da (min db dc) := by
    intro dx x hx x0 xa xb xc
    have e1 := (hx.trans (pow_le_pow_left₀ x0 xa 2)).trans ga
    have e2 := (hx.trans (pow_le_pow_left₀ x0 xb 2)).trans gb
    have e3 := (hx.trans (pow_le_pow_left₀ x0 xc 2)).trans gc
    rcases min_choice da (min db dc) with h | h
    · rw [h]; exact e1
    · rw [h]
      rcases min_choice db dc with k | k <;> rw [k] <;> assumption
  have m1 : min da (min db dc) ≤ da := min_le_left _ _
  have m2 : min da (min db dc) ≤ db := (min_le_right _ _).trans (min_le_left _ _)
  have m3 : min da (min db dc) ≤ dc := (min_le_right _ _).trans (min_le_right _ _)
  unfold sideProductRounded
  split_ifs with h1 h2
  · exact ⟨_, rfl, mul_nonneg b0 c0, product_bounds u0 u1 hm hb.le hc.le m1 (chosen la a0 le_rfl h1.1 h1.2)
      (by rw [hP]; ring) lb gb lc gc⟩
  · have hba : b ≤ a := by
      by_contra hlt
      rw [not_le] at hlt
      exact h1 ⟨hlt.le, hlt.le.trans h2⟩
    exact ⟨_, rfl, mul_nonneg a0 c0, product_bounds u0 u1 hm ha.le hc.le m2 (chosen lb b0 hba le_rfl h2)
      (by rw [hP]; ring) la ga lc gc⟩
  · rw [not_le] at h2
    have hca : c ≤ a := by
      by_contra hlt
      rw [not_le] at hlt
      exact h1 ⟨(hlt.trans h2).le, hlt.le⟩
    exact ⟨_, rfl, mul_nonneg a0 b0, product_bounds u0 u1 hm ha.le hb.le m3 (chosen lc c0 hca h2.le le_rfl)
      (by rw [hP]; ring) la ga lb gb⟩

/-- The square of the circumradius. -/
theorem radius_sq {a b c z : Vertex K} (h1 : dist2 z a = dist2 z b) (h2 : dist2 z a = dist2 z c) :
    dist2 z a * (2 * cross a b c) ^ 2 = dist2 a b * dist2 b c * dist2 c a := by
  have hx : (z.x - a.x) * (2 * cross a b c) = (c.y - a.y) * dist2 a b - (b.y - a.y) * dist2 c a := by
    unfold cross
    unfold dist2 at *
    linear_combination (c.y - a.y) * h1 - (b.y - a.y) * h2
  have hy : (z.y - a.y) * (2 * cross a b c) = (b.x - a.x) * dist2 c a - (c.x - a.x) * dist2 a b := by
    unfold cross
    unfold dist2 at *
    linear_combination -(c.x - a.x) * h1 + (b.x - a.x) * h2
  have : dist2 z a * (2 * cross a b c) ^ 2 =
      ((z.x - a.x) * (2 * cross a b c)) ^ 2 + ((z.y - a.y) * (2 * cross a b c)) ^ 2 := by unfold dist2; ring
  rw [this, hx, hy]
  unfold dist2
  ring

end

/-- Square roots as `f64` computes them exist. -/
theorem rootRounds_exists : ∃ root : ℚ → ℚ, RootRounds root (1 / 2 ^ 53) := by
  have key : ∀ x : ℚ, ∃ r : ℚ, 0 ≤ x → 0 ≤ r ∧ (1 - 1 / 2 ^ 53) ^ 2 * x ≤ r ^ 2 ∧ r ^ 2 ≤ (1 + 1 / 2 ^ 53) ^ 2 * x := by
    intro x
    rcases lt_trichotomy x 0 with h | rfl | h
    · exact ⟨0, fun h' => absurd h (not_lt.2 h')⟩
    · exact ⟨0, fun _ => by norm_num⟩
    · have hx : (0 : ℝ) < x := by exact_mod_cast h
      have hs : 0 < Real.sqrt x := Real.sqrt_pos.2 hx
      obtain ⟨r, h1, h2⟩ := exists_rat_btwn (show (1 - 1 / 2 ^ 53) * Real.sqrt x < (1 + 1 / 2 ^ 53) * Real.sqrt x by
        nlinarith)
      have p1 : 0 ≤ (1 - 1 / 2 ^ 53) * Real.sqrt x := by
        have : (0 : ℝ) ≤ 1 - 1 / 2 ^ 53 := by norm_num
        positivity
      have r0 : (0 : ℝ) ≤ r := p1.trans h1.le
      have e1 := pow_le_pow_left₀ p1 h1.le 2
      have e2 := pow_le_pow_left₀ r0 h2.le 2
      rw [mul_pow, Real.sq_sqrt hx.le] at e1 e2
      exact ⟨r, fun _ => ⟨by exact_mod_cast r0, (Rat.cast_le (K := ℝ)).1 (by push_cast; exact e1),
        (Rat.cast_le (K := ℝ)).1 (by push_cast; exact e2)⟩⟩
  choose f hf using key
  exact ⟨f, hf⟩

/-- Differences of integers, their squares and the sum of these are not rounded. -/
theorem distance_grid {root : ℚ → ℚ} {a b : Vertex ℚ} (ha : OnGrid 0 a.x ∧ OnGrid 0 a.y) (hb : OnGrid 0 b.x ∧ OnGrid 0 b.y) :
    distanceRounded roundF64 root a b = root (dist2 a b) ∧ (dist2 a b ≠ 0 → 1 ≤ dist2 a b) := by
  obtain ⟨⟨ax, kax, eax⟩, ay, kay, eay⟩ := ha
  obtain ⟨⟨bx, kbx, ebx⟩, by', kby, eby⟩ := hb
  rw [zpow_zero, mul_one] at eax eay ebx eby
  have int : ∀ (n : ℤ) (x : ℚ), |n| ≤ 2 ^ 53 → x = n → roundF64 x = x := fun n x hn hx =>
    roundF64_grid (n := n) (e := 0) hn (by norm_num) (by simpa using hx)
  have d1 : |ax - bx| ≤ 2 ^ 26 := by have := abs_sub_le_add kax kbx; linarith
  have d2 : |ay - by'| ≤ 2 ^ 26 := by have := abs_sub_le_add kay kby; linarith
  have s1 : |(ax - bx) * (ax - bx)| ≤ 2 ^ 52 := by have := abs_mul_le d1 d1; linarith
  have s2 : |(ay - by') * (ay - by')| ≤ 2 ^ 52 := by have := abs_mul_le d2 d2; linarith
  have s3 : |(ax - bx) * (ax - bx) + (ay - by') * (ay - by')| ≤ 2 ^ 53 := (abs_add_le _ _).trans (by linarith)
  have hd : dist2 a b = (((ax - bx) * (ax - bx) + (ay - by') * (ay - by') : ℤ) : ℚ) := by
    unfold dist2; rw [eax, eay, ebx, eby]; push_cast; ring
  constructor
  · unfold distanceRounded
    rw [int (ax - bx) (a.x - b.x) (by linarith) (by rw [eax, ebx]; push_cast; ring),
      int (ay - by') (a.y - b.y) (by linarith) (by rw [eay, eby]; push_cast; ring),
      int ((ax - bx) * (ax - bx)) ((a.x - b.x) * (a.x - b.x)) (by linarith) (by rw [eax, ebx]; push_cast; ring),
      int ((ay - by') * (ay - by')) ((a.y - b.y) * (a.y - b.y)) (by linarith) (by rw [eay, eby]; push_cast; ring),
      int _ ((a.x - b.x) * (a.x - b.x) + (a.y - b.y) * (a.y - b.y)) s3 (by rw [eax, ebx, eay, eby]; push_cast; ring)]
    congr 1
    unfold dist2
    ring
  · intro hne
    rw [hd] at hne ⊢
    have h0 : 0 ≤ (ax - bx) * (ax - bx) + (ay - by') * (ay - by') := add_nonneg (mul_self_nonneg _) (mul_self_nonneg _)
    have : (ax - bx) * (ax - bx) + (ay - by') * (ay - by') ≠ 0 := fun h => hne (by rw [h]; norm_num)
    have : 1 ≤ (ax - bx) * (ax - bx) + (ay - by') * (ay - by') := by omega
    exact_mod_cast this

/-- Four times the area of a triangle with integer corners is not rounded. -/
theorem area_grid {t : Tri (Vertex ℚ)} (hg : t.isGhost Vertex.isGhost = false) (h1 : OnGrid 0 t.v1.x ∧ OnGrid 0 t.v1.y)
    (h2 : OnGrid 0 t.v2.x ∧ OnGrid 0 t.v2.y) (h3 : OnGrid 0 t.v3.x ∧ OnGrid 0 t.v3.y) :
    ∃ area, t.areaRounded roundF64 = some area ∧ area = cross t.v1 t.v2 t.v3 / 2 ∧
      roundF64 (4 * area) = 2 * cross t.v1 t.v2 t.v3 ∧
      |2 * cross t.v1 t.v2 t.v3| ≤ 2 ^ 54 := by
  have hdet : orientDetRounded roundF64 t.v1 t.v2 t.v3 = cross t.v1 t.v2 t.v3 := by
    rw [orientDet_grid (by norm_num) h1 h2 h3, orientDet_eq]
  obtain ⟨⟨ax, kax, eax⟩, ay, kay, eay⟩ := h1
  obtain ⟨⟨bx, kbx, ebx⟩, by', kby, eby⟩ := h2
  obtain ⟨⟨cx, kcx, ecx⟩, cy, kcy, ecy⟩ := h3
  rw [zpow_zero, mul_one] at eax eay ebx eby ecx ecy
  have hc : cross t.v1 t.v2 t.v3 = (((bx - ax) * (cy - ay) - (by' - ay) * (cx - ax) : ℤ) : ℚ) := by
    unfold cross; rw [eax, eay, ebx, eby, ecx, ecy]; push_cast; ring
  have dif : ∀ m n : ℤ, |m| ≤ 2 ^ 25 → |n| ≤ 2 ^ 25 → |m - n| ≤ 2 ^ 26 := fun m n k1 k2 => by
    have := abs_sub_le_add k1 k2; linarith
  have hn : |(bx - ax) * (cy - ay) - (by' - ay) * (cx - ax)| ≤ 2 ^ 53 := by
    have p1 := abs_mul_le (dif _ _ kbx kax) (dif _ _ kcy kay)
    have p2 := abs_mul_le (dif _ _ kby kay) (dif _ _ kcx kax)
    have := abs_sub_le_add p1 p2
    linarith
  have r1 : roundF64 (cross t.v1 t.v2 t.v3 / 2) = cross t.v1 t.v2 t.v3 / 2 :=
    roundF64_grid (e := -1) hn (by norm_num) (by rw [hc, zpow_neg_one]; ring)
  have r2 : roundF64 (2 * cross t.v1 t.v2 t.v3) = 2 * cross t.v1 t.v2 t.v3 :=
    roundF64_grid (e := 1) hn (by norm_num) (by rw [hc, zpow_one]; ring)
  refine ⟨cross t.v1 t.v2 t.v3 / 2, ?_, rfl, ?_, ?_⟩
  · unfold Tri.areaRounded areaTriangleRounded
    rw [hg, hdet, r1]
    rfl
  · rw [show 4 * (cross t.v1 t.v2 t.v3 / 2) = 2 * cross t.v1 t.v2 t.v3 by ring, r2]
  · rw [abs_mul, abs_two, hc, ← Int.cast_abs]
    have : ((|(bx - ax) * (cy - ay) - (by' - ay) * (cx - ax)| : ℤ) : ℚ) ≤ 2 ^ 53 := by exact_mod_cast hn
    linarith

/-- Two more roundings, of a product and of a quotient. -/
theorem quotient_bounds {p F : ℚ} (hp : 1 / 4 ≤ p) (hF : 0 < F) (hF2 : F ≤ 2 ^ 54) :
    (1 - 1 / 2 ^ 53) ^ 2 * (p / F) ≤ roundF64 (roundF64 p / F) ∧ roundF64 (roundF64 p / F) ≤ (1 + 1 / 2 ^ 53) ^ 2 * (p / F) := by
  have big : ∀ x : ℚ, (2 : ℚ) ^ (-1022 : ℤ) ≤ x →
      (1 - 1 / 2 ^ 53) * x ≤ roundF64 x ∧ roundF64 x ≤ (1 + 1 / 2 ^ 53) * x := by
    intro x hx
    have x0 : 0 ≤ x := le_trans (zpow_nonneg (by norm_num) _) hx
    have r := rounds_f64.error x
    rw [abs_of_nonneg x0, max_eq_left hx] at r
    have := abs_le.1 r
    constructor <;> linarith [this.1, this.2]
  have s1 : (2 : ℚ) ^ (-1022 : ℤ) ≤ 1 / 2 ^ 60 := by
    have : (2 : ℚ) ^ (-1022 : ℤ) ≤ (2 : ℚ) ^ (-60 : ℤ) := zpow_le_zpow_right₀ (by norm_num) (by norm_num)
    refine this.trans (le_of_eq ?_)
    norm_num
  obtain ⟨l1, g1⟩ := big p (s1.trans (le_trans (by norm_num) hp))
  have p1 : 1 / 8 ≤ roundF64 p := le_trans (by linarith) l1
  have q1 : 1 / 2 ^ 60 ≤ roundF64 p / F := by
    rw [le_div_iff₀ hF]
    refine le_trans ?_ p1
    refine (mul_le_mul_of_nonneg_left hF2 (by norm_num)).trans (by norm_num)
  obtain ⟨l2, g2⟩ := big _ (s1.trans q1)
  constructor
  · refine le_trans (le_of_eq_of_le ?_ (mul_le_mul_of_nonneg_left (div_le_div_of_nonneg_right l1 hF.le)
      (by norm_num : (0 : ℚ) ≤ 1 - 1 / 2 ^ 53))) l2
    ring
  · refine le_trans g2 (le_of_le_of_eq (mul_le_mul_of_nonneg_left (div_le_div_of_nonneg_right g1 hF.le)
      (by norm_num : (0 : ℚ) ≤ 1 + 1 / 2 ^ 53)) ?_)
    ring

/-- C97: for a counterclockwise triangle with integer coordinates up to 33554432, the computed quality is the circumradius
divided by the shortest side, up to the factor `1 ± 6 · 2⁻⁵³`. Both are squared here; `z` is the point with the same distance
from all corners. -/
theorem C97_quality {root : ℚ → ℚ} (hroot : RootRounds root (1 / 2 ^ 53)) {t : Tri (Vertex ℚ)} {z : Vertex ℚ}
    (hg : t.isGhost Vertex.isGhost = false) (h1 : OnGrid 0 t.v1.x ∧ OnGrid 0 t.v1.y)
    (h2 : OnGrid 0 t.v2.x ∧ OnGrid 0 t.v2.y) (h3 : OnGrid 0 t.v3.x ∧ OnGrid 0 t.v3.y) (hccw : 0 < cross t.v1 t.v2 t.v3)
    (hz1 : dist2 z t.v1 = dist2 z t.v2) (hz2 : dist2 z t.v1 = dist2 z t.v3) :
    ∃ q, t.qualityRounded roundF64 root = some q ∧ 0 < q ∧
      (1 - 6 / 2 ^ 53) ^ 2 * (dist2 z t.v1 / min (dist2 t.v1 t.v2) (min (dist2 t.v2 t.v3) (dist2 t.v3 t.v1))) ≤ q ^ 2 ∧
      q ^ 2 ≤ (1 + 6 / 2 ^ 53) ^ 2 * (dist2 z t.v1 / min (dist2 t.v1 t.v2) (min (dist2 t.v2 t.v3) (dist2 t.v3 t.v1))) := by
  obtain ⟨area, ha, -, hF, hF2⟩ := area_grid hg h1 h2 h3
  obtain ⟨e12, n12⟩ := distance_grid (root := root) h1 h2
  obtain ⟨e23, n23⟩ := distance_grid (root := root) h2 h3
  obtain ⟨e31, n31⟩ := distance_grid (root := root) h3 h1
  have hR := radius_sq hz1 hz2
  have F0 : 0 < 2 * cross t.v1 t.v2 t.v3 := by linarith
  rw [abs_of_pos F0] at hF2
  have nz : ∀ a b : Vertex ℚ, dist2 a b = 0 → a.x = b.x ∧ a.y = b.y := by
    intro a b h
    unfold dist2 at h
    have h1 : (a.x - b.x) ^ 2 = 0 := by nlinarith [sq_nonneg (a.x - b.x), sq_nonneg (a.y - b.y)]
    have h2 : (a.y - b.y) ^ 2 = 0 := by nlinarith [sq_nonneg (a.x - b.x), sq_nonneg (a.y - b.y)]
    exact ⟨sub_eq_zero.1 (pow_eq_zero_iff two_ne_zero |>.1 h1), sub_eq_zero.1 (pow_eq_zero_iff two_ne_zero |>.1 h2)⟩
  have d12 : 1 ≤ dist2 t.v1 t.v2 := n12 fun h => by
    obtain ⟨k1, k2⟩ := nz _ _ h; unfold cross at hccw; rw [k1, k2] at hccw; linarith
  have d23 : 1 ≤ dist2 t.v2 t.v3 := n23 fun h => by
    obtain ⟨k1, k2⟩ := nz _ _ h; unfold cross at hccw; rw [k1, k2] at hccw; linarith
  have d31 : 1 ≤ dist2 t.v3 t.v1 := n31 fun h => by
    obtain ⟨k1, k2⟩ := nz _ _ h; unfold cross at hccw; rw [k1, k2] at hccw; linarith
  obtain ⟨r12, l12, g12⟩ := hroot (dist2 t.v1 t.v2) (by linarith)
  obtain ⟨r23, l23, g23⟩ := hroot (dist2 t.v2 t.v3) (by linarith)
  obtain ⟨r31, l31, g31⟩ := hroot (dist2 t.v3 t.v1) (by linarith)
  have m1 : 1 ≤ min (dist2 t.v1 t.v2) (min (dist2 t.v2 t.v3) (dist2 t.v3 t.v1)) := le_min d12 (le_min d23 d31)
  have mle : min (dist2 t.v1 t.v2) (min (dist2 t.v2 t.v3) (dist2 t.v3 t.v1)) ≤ dist2 t.v1 t.v2 := min_le_left _ _
  unfold Tri.qualityRounded
  rw [ha, e12, e23, e31]
  simp only [hF, Option.some.injEq, exists_eq_left']
  have hP : dist2 t.v1 t.v2 * dist2 t.v2 t.v3 * dist2 t.v3 t.v1 /
      min (dist2 t.v1 t.v2) (min (dist2 t.v2 t.v3) (dist2 t.v3 t.v1)) *
      min (dist2 t.v1 t.v2) (min (dist2 t.v2 t.v3) (dist2 t.v3 t.v1)) = dist2 t.v1 t.v2 * dist2 t.v2 t.v3 * dist2 t.v3 t.v1 :=
    div_mul_cancel₀ _ (by linarith)
  obtain ⟨p, hp, p0, pl, pg⟩ := sideProduct_bounds roundF64 (u := (1 / 2 ^ 53 : ℚ)) (by norm_num) (by norm_num)
    (by linarith) (by linarith) (by linarith) r12 r23 r31 l12 g12 l23 g23 l31 g31 hP
  rw [hp]
  have hPeq : dist2 t.v1 t.v2 * dist2 t.v2 t.v3 * dist2 t.v3 t.v1 /
      min (dist2 t.v1 t.v2) (min (dist2 t.v2 t.v3) (dist2 t.v3 t.v1)) = dist2 z t.v1 /
      min (dist2 t.v1 t.v2) (min (dist2 t.v2 t.v3) (dist2 t.v3 t.v1)) * (2 * cross t.v1 t.v2 t.v3) ^ 2 := by
    rw [← hR]; ring
  have hP1 : 1 ≤ dist2 t.v1 t.v2 * dist2 t.v2 t.v3 * dist2 t.v3 t.v1 /
      min (dist2 t.v1 t.v2) (min (dist2 t.v2 t.v3) (dist2 t.v3 t.v1)) := by
    rw [le_div_iff₀ (by linarith), one_mul]
    refine mle.trans ?_
    have : 1 ≤ dist2 t.v2 t.v3 * dist2 t.v3 t.v1 := by nlinarith
    rw [mul_assoc]
    exact le_mul_of_one_le_right (by linarith) this
  rw [hPeq] at pl pg hP1
  generalize dist2 z t.v1 / min (dist2 t.v1 t.v2) (min (dist2 t.v2 t.v3) (dist2 t.v3 t.v1)) = Q at *
  generalize 2 * cross t.v1 t.v2 t.v3 = F at *
  clear hp hP hPeq hR
  have pbig : 1 / 4 ≤ p := by
    by_contra hlt
    rw [not_le] at hlt
    have : p ^ 2 ≤ (1 / 4) ^ 2 := pow_le_pow_left₀ p0 hlt.le 2
    have k1 : (1 - 1 / 2 ^ 53 : ℚ) ^ 6 * 1 ≤ (1 - 1 / 2 ^ 53) ^ 6 * (Q * F ^ 2) := mul_le_mul_of_nonneg_left hP1 (by norm_num)
    have k2 : (1 + 1 / 2 ^ 53 : ℚ) ^ 2 * p ^ 2 ≤ (1 + 1 / 2 ^ 53) ^ 2 * (1 / 4) ^ 2 := mul_le_mul_of_nonneg_left this (by norm_num)
    have k3 := (k1.trans pl).trans k2
    norm_num at k3
  obtain ⟨ql, qg⟩ := quotient_bounds pbig F0 hF2
  have pF : 0 < p / F := div_pos (by linarith) F0
  have ql0 : 0 < (1 - 1 / 2 ^ 53 : ℚ) ^ 2 * (p / F) := by positivity
  have q0 := ql0.trans_le ql
  refine ⟨q0, ?_, ?_⟩
  · have e := pow_le_pow_left₀ ql0.le ql 2
    refine le_trans ?_ e
    have F2 : 0 < F ^ 2 := by positivity
    have Q0 : 0 ≤ Q * F ^ 2 := by linarith
    rw [show ((1 - 1 / 2 ^ 53 : ℚ) ^ 2 * (p / F)) ^ 2 = (1 - 1 / 2 ^ 53) ^ 4 * p ^ 2 / F ^ 2 by ring, le_div_iff₀ F2]
    have num : (1 - 6 / 2 ^ 53 : ℚ) ^ 2 * (1 + 1 / 2 ^ 53) ^ 2 ≤ (1 - 1 / 2 ^ 53) ^ 4 * (1 - 1 / 2 ^ 53) ^ 6 := by norm_num
    have k1 := mul_le_mul_of_nonneg_right num Q0
    have k2 := mul_le_mul_of_nonneg_left pl (by norm_num : (0 : ℚ) ≤ (1 - 1 / 2 ^ 53) ^ 4)
    refine le_of_mul_le_mul_left (a := (1 + 1 / 2 ^ 53 : ℚ) ^ 2) ?_ (by norm_num)
    calc (1 + 1 / 2 ^ 53 : ℚ) ^ 2 * ((1 - 6 / 2 ^ 53) ^ 2 * Q * F ^ 2) =
        (1 - 6 / 2 ^ 53) ^ 2 * (1 + 1 / 2 ^ 53) ^ 2 * (Q * F ^ 2) := by ring
      _ ≤ (1 - 1 / 2 ^ 53) ^ 4 * (1 - 1 / 2 ^ 53) ^ 6 * (Q * F ^ 2) := k1
      _ = (1 - 1 / 2 ^ 53) ^ 4 * ((1 - 1 / 2 ^ 53) ^ 6 * (Q * F ^ 2)) := by ring
      _ ≤ (1 - 1 / 2 ^ 53) ^ 4 * ((1 + 1 / 2 ^ 53) ^ 2 * p ^ 2) := k2
      _ = (1 + 1 / 2 ^ 53) ^ 2 * ((1 - 1 / 2 ^ 53) ^ 4 * p ^ 2) := by ring
  · have e := pow_le_pow_left₀ q0.le qg 2
    refine e.trans ?_
    have F2 : 0 < F ^ 2 := by positivity
    have Q0 : 0 ≤ Q * F ^ 2 := by linarith
    rw [show ((1 + 1 / 2 ^ 53 : ℚ) ^ 2 * (p / F)) ^ 2 = (1 + 1 / 2 ^ 53) ^ 4 * p ^ 2 / F ^ 2 by ring, div_le_iff₀ F2]
    have num : (1 + 1 / 2 ^ 53 : ℚ) ^ 4 * (1 + 1 / 2 ^ 53) ^ 4 ≤ (1 + 6 / 2 ^ 53) ^ 2 := by norm_num
    have k1 := mul_le_mul_of_nonneg_right num Q0
    have k2 := mul_le_mul_of_nonneg_left pg (by norm_num : (0 : ℚ) ≤ (1 + 1 / 2 ^ 53) ^ 4)
    calc (1 + 1 / 2 ^ 53 : ℚ) ^ 4 * p ^ 2 ≤ (1 + 1 / 2 ^ 53) ^ 4 * ((1 + 1 / 2 ^ 53) ^ 4 * (Q * F ^ 2)) := k2
      _ = (1 + 1 / 2 ^ 53) ^ 4 * (1 + 1 / 2 ^ 53) ^ 4 * (Q * F ^ 2) := by ring
      _ ≤ (1 + 6 / 2 ^ 53) ^ 2 * (Q * F ^ 2) := k1
      _ = (1 + 6 / 2 ^ 53) ^ 2 * Q * F ^ 2 := by ring

/-- C97: hence refinement takes such a triangle for irregular if its quality reaches the bound by a margin of `6 · 2⁻⁵³` in
relative terms, and does not if it stays below by this and twice the tolerance. -/
theorem C97_irregular {root : ℚ → ℚ} (hroot : RootRounds root (1 / 2 ^ 53)) {t : Tri (Vertex ℚ)} {z : Vertex ℚ}
    {eps ratio : ℚ} (he : (2 : ℚ) ^ (-1022 : ℤ) ≤ eps) (hr : 2 * eps < ratio)
    (hg : t.isGhost Vertex.isGhost = false) (h1 : OnGrid 0 t.v1.x ∧ OnGrid 0 t.v1.y)
    (h2 : OnGrid 0 t.v2.x ∧ OnGrid 0 t.v2.y) (h3 : OnGrid 0 t.v3.x ∧ OnGrid 0 t.v3.y) (hccw : 0 < cross t.v1 t.v2 t.v3)
    (hz1 : dist2 z t.v1 = dist2 z t.v2) (hz2 : dist2 z t.v1 = dist2 z t.v3) :
    (ratio ^ 2 ≤ (1 - 6 / 2 ^ 53) ^ 2 * (dist2 z t.v1 / min (dist2 t.v1 t.v2) (min (dist2 t.v2 t.v3) (dist2 t.v3 t.v1))) →
      isIrregularRounded roundF64 root eps ratio t = true) ∧
    ((1 + 6 / 2 ^ 53) ^ 2 * (dist2 z t.v1 / min (dist2 t.v1 t.v2) (min (dist2 t.v2 t.v3) (dist2 t.v3 t.v1))) <
        (ratio - 2 * eps) ^ 2 →
      isIrregularRounded roundF64 root eps ratio t = false) := by
  obtain ⟨q, hq, q0, ql, qg⟩ := C97_quality hroot hg h1 h2 h3 hccw hz1 hz2
  have e0 : 0 ≤ eps := le_trans (zpow_nonneg (by norm_num) _) he
  unfold isIrregularRounded
  rw [hq]
  constructor
  · intro h
    have : ratio ≤ q := by
      refine (pow_le_pow_iff_left₀ (by linarith) q0.le two_ne_zero).1 (h.trans ql)
    simp [this]
  · intro h
    have hlt : q < ratio - 2 * eps := (pow_lt_pow_iff_left₀ q0.le (by linarith) two_ne_zero).1 (lt_of_le_of_lt qg h)
    rw [Bool.or_eq_false_iff]
    constructor
    · by_contra hne
      have hin : inIntervalRounded roundF64 eps q q ratio = true := by
        rw [Bool.not_eq_false] at hne
        simp [inIntervalRounded, hne]
      have := inIntervalRounded_near he le_rfl hin
      linarith [this.2]
    · simp only [ge_iff_le, decide_eq_false_iff_not, not_le]
      linarith

/-- C97: the test on the area is off by at most twice the tolerance; half the cross product is the area. -/
theorem C97_large {t : Tri (Vertex ℚ)} {eps bound : ℚ} (he : (2 : ℚ) ^ (-1022 : ℤ) ≤ eps)
    (hg : t.isGhost Vertex.isGhost = false) (h1 : OnGrid 0 t.v1.x ∧ OnGrid 0 t.v1.y)
    (h2 : OnGrid 0 t.v2.x ∧ OnGrid 0 t.v2.y) (h3 : OnGrid 0 t.v3.x ∧ OnGrid 0 t.v3.y) :
    (bound ≤ cross t.v1 t.v2 t.v3 / 2 → isLargeRounded roundF64 eps (some bound) t = true) ∧
    (cross t.v1 t.v2 t.v3 / 2 < bound - 2 * eps → isLargeRounded roundF64 eps (some bound) t = false) ∧
    isLargeRounded roundF64 eps none t = false := by
  obtain ⟨area, ha, hv, -, -⟩ := area_grid hg h1 h2 h3
  have e0 : 0 ≤ eps := le_trans (zpow_nonneg (by norm_num) _) he
  unfold isLargeRounded
  rw [ha, ← hv]
  refine ⟨fun h => ?_, fun h => ?_, rfl⟩
  · simp [h]
  · simp only
    rw [Bool.or_eq_false_iff]
    constructor
    · by_contra hne
      have hin : inIntervalRounded roundF64 eps area area bound = true := by
        rw [Bool.not_eq_false] at hne
        simp [inIntervalRounded, hne]
      have := inIntervalRounded_near he le_rfl hin
      linarith [this.2]
    · simp only [ge_iff_le, decide_eq_false_iff_not, not_le]
      linarith

theorem distance_nonneg {root : ℚ → ℚ} {u : ℚ} (hroot : RootRounds root u) (a b : Vertex ℚ) :
    0 ≤ distanceRounded roundF64 root a b := by
  have up : ∀ {x : ℚ}, 0 ≤ x → 0 ≤ roundF64 x := fun h => roundF64_zero ▸ roundF64_mono h
  exact (hroot _ (up (add_nonneg (up (mul_self_nonneg _)) (up (mul_self_nonneg _))))).1

/-- Off the grid the flattest triangles can be missed: (8.3, 0.2), (4.45, 4.45), (0.6, 8.7) is counterclockwise, and
reported so from its second corner; its circumradius is more than ten billion times its shortest side. From its first
corner its area is negative, hence its quality is, and it is regular for every bound above twice the tolerance. -/
theorem C97_flat_false : ∃ t : Tri (Vertex ℚ), t = ⟨hundredths 830 20, hundredths 445 445, hundredths 60 870⟩ ∧
    0 < cross t.v1 t.v2 t.v3 ∧ orientationRounded roundF64 (1 / 10 ^ 14) t.v2 t.v3 t.v1 = .counterclockwise ∧
    (∃ area, t.areaRounded roundF64 = some area ∧ area < 0) ∧
    (∀ z, dist2 z t.v1 = dist2 z t.v2 → dist2 z t.v1 = dist2 z t.v3 →
      (10 ^ 10) ^ 2 < dist2 z t.v1 / min (dist2 t.v1 t.v2) (min (dist2 t.v2 t.v3) (dist2 t.v3 t.v1))) ∧
    ∀ root : ℚ → ℚ, RootRounds root (1 / 2 ^ 53) → ∀ ratio : ℚ, 2 * (1 / 10 ^ 14) < ratio →
      isIrregularRounded roundF64 root (1 / 10 ^ 14) ratio t = false := by
  refine ⟨_, rfl, by decide +kernel, by decide +kernel, ⟨_, rfl, by decide +kernel⟩, fun z h1 h2 => ?_, fun root hroot ratio hr => ?_⟩
  · have hR := radius_sq h1 h2
    have c0 : 0 < (2 * cross (hundredths 830 20) (hundredths 445 445) (hundredths 60 870)) ^ 2 := by decide +kernel
    have m0 : 0 < min (dist2 (hundredths 830 20) (hundredths 445 445)) (min (dist2 (hundredths 445 445) (hundredths 60 870))
      (dist2 (hundredths 60 870) (hundredths 830 20))) := by decide +kernel
    have k : (10 ^ 10) ^ 2 * min (dist2 (hundredths 830 20) (hundredths 445 445)) (min (dist2 (hundredths 445 445)
      (hundredths 60 870)) (dist2 (hundredths 60 870) (hundredths 830 20))) *
      (2 * cross (hundredths 830 20) (hundredths 445 445) (hundredths 60 870)) ^ 2 <
      dist2 (hundredths 830 20) (hundredths 445 445) * dist2 (hundredths 445 445) (hundredths 60 870) *
      dist2 (hundredths 60 870) (hundredths 830 20) := by decide +kernel
    rw [lt_div_iff₀ m0]
    exact lt_of_mul_lt_mul_right (lt_of_lt_of_eq k hR.symm) c0.le
  · have hF : ∃ F, (Tri.mk (hundredths 830 20) (hundredths 445 445) (hundredths 60 870)).areaRounded roundF64 = some F ∧
        roundF64 (4 * F) < 0 := ⟨_, rfl, by decide +kernel⟩
    obtain ⟨F, hF, hF0⟩ := hF
    have up : ∀ {x : ℚ}, 0 ≤ x → 0 ≤ roundF64 x := fun h => roundF64_zero ▸ roundF64_mono h
    have side : ∀ {a b c : ℚ}, 0 ≤ a → 0 ≤ b → 0 ≤ c → 0 ≤ sideProductRounded roundF64 a b c := by
      intro a b c ha hb hc
      unfold sideProductRounded
      split_ifs
      · exact up (mul_nonneg hb hc)
      · exact up (mul_nonneg ha hc)
      · exact up (mul_nonneg ha hb)
    unfold isIrregularRounded Tri.qualityRounded
    rw [hF]
    have hq := roundF64_mono (div_nonpos_of_nonneg_of_nonpos (side
      (distance_nonneg hroot (hundredths 830 20) (hundredths 445 445))
      (distance_nonneg hroot (hundredths 445 445) (hundredths 60 870))
      (distance_nonneg hroot (hundredths 60 870) (hundredths 830 20))) hF0.le)
    rw [roundF64_zero] at hq
    simp only
    generalize roundF64 (_ / roundF64 (4 * F)) = q at hq ⊢
    rw [Bool.or_eq_false_iff]
    constructor
    · by_contra hne
      have hin : inIntervalRounded roundF64 (1 / 10 ^ 14) q q ratio = true := by
        rw [Bool.not_eq_false] at hne
        simp only [inIntervalRounded, hne, Bool.or_true]
      have := inIntervalRounded_near (by
        have : (2 : ℚ) ^ (-1022 : ℤ) ≤ (2 : ℚ) ^ (-60 : ℤ) := zpow_le_zpow_right₀ (by norm_num) (by norm_num)
        exact this.trans (by norm_num)) le_rfl hin
      linarith [this.2]
    · simp only [ge_iff_le, decide_eq_false_iff_not, not_le]
      linarith

/-- The hypotheses are met, for instance by the triangle (0, 0), (4, 0), (0, 3), of circumradius 5/2 and shortest side 3. -/
example : (⟨lattice 0 0, lattice 4 0, lattice 0 3⟩ : Tri (Vertex ℚ)).isGhost Vertex.isGhost = false ∧
    0 < cross (lattice 0 0) (lattice 4 0) (lattice 0 3) ∧
    dist2 (⟨2, 3 / 2, false⟩ : Vertex ℚ) (lattice 0 0) = dist2 (⟨2, 3 / 2, false⟩ : Vertex ℚ) (lattice 4 0) ∧
    dist2 (⟨2, 3 / 2, false⟩ : Vertex ℚ) (lattice 0 0) = dist2 (⟨2, 3 / 2, false⟩ : Vertex ℚ) (lattice 0 3) ∧
    dist2 (⟨2, 3 / 2, false⟩ : Vertex ℚ) (lattice 0 0) / min (dist2 (lattice 0 0) (lattice 4 0))
      (min (dist2 (lattice 4 0) (lattice 0 3)) (dist2 (lattice 0 3) (lattice 0 0))) = (5 / 2) ^ 2 / 3 ^ 2 := by decide +kernel

end Verif.Props
