import Verif.Model.RoundedArea
import Verif.Props.Shoelace
import Verif.Props.Arrange
import Verif.Props.RoundedSymmetry

/-!
# C94: the area and the orientation of a polygon in f64

`area_segments` and `segments_orientation` with a rounding after each operation.
-/

set_option linter.unusedSectionVars false

namespace Verif.Props

open Spec

section

variable {K : Type*} [Field K] [LinearOrder K] [IsStrictOrderedRing K] {rnd : K → K} {u s M : K}

/-- The contribution of one segment is off by at most `9 u M²`. -/
theorem areaTerm_error (h : Rounds rnd u s) (hu : u ≤ 1 / 64) (hs : s ≤ 2 * M) (hs2 : s ≤ 2 * M ^ 2) {a b : Vertex K}
    (ha : |a.x| ≤ M ∧ |a.y| ≤ M) (hb : |b.x| ≤ M ∧ |b.y| ≤ M) :
    |areaTermRounded rnd (a, b) - (b.x - a.x) * (b.y + a.y) / 2| ≤ 9 * u * M ^ 2 ∧
      |(b.x - a.x) * (b.y + a.y) / 2| ≤ 2 * M ^ 2 := by
  have u0 := h.u_nonneg
  have M0 : 0 ≤ M := le_trans (abs_nonneg _) ha.1
  have M2 : 0 ≤ M ^ 2 := by positivity
  have hd : |b.x - a.x| ≤ 2 * M := by have := abs_sub_le_add hb.1 ha.1; linarith
  have hy : |b.y + a.y| ≤ 2 * M := by have := abs_add_le b.y a.y; linarith [ha.2, hb.2]
  have ed := h.exact hd hs
  have ey := h.exact hy hs
  have hp : |(b.x - a.x) * (b.y + a.y)| ≤ 4 * M ^ 2 := by
    have := abs_mul_le hd hy
    linarith [this, show 2 * M * (2 * M) = 4 * M ^ 2 by ring]
  have hq : |(b.x - a.x) * (b.y + a.y) / 2| ≤ 2 * M ^ 2 := by
    rw [abs_div, abs_two]; linarith
  refine ⟨?_, hq⟩
  have e1 : |rnd (b.x - a.x) * rnd (b.y + a.y) - (b.x - a.x) * (b.y + a.y)| ≤ (8 * u + 4 * u ^ 2) * M ^ 2 := by
    have p1 := abs_mul_le ed ey
    have p2 := abs_mul_le hd ey
    have p3 := abs_mul_le ed hy
    have e : rnd (b.x - a.x) * rnd (b.y + a.y) - (b.x - a.x) * (b.y + a.y) =
        (rnd (b.x - a.x) - (b.x - a.x)) * (rnd (b.y + a.y) - (b.y + a.y)) +
          (b.x - a.x) * (rnd (b.y + a.y) - (b.y + a.y)) + (rnd (b.x - a.x) - (b.x - a.x)) * (b.y + a.y) := by ring
    rw [e]
    refine (abs_add_three _ _ _).trans ?_
    refine (add_le_add (add_le_add p1 p2) p3).trans (le_of_eq ?_)
    ring
  have uu : u ^ 2 ≤ u / 64 := by nlinarith
  have uM : 0 ≤ u * M ^ 2 := by positivity
  have uuM : u ^ 2 * M ^ 2 ≤ u / 64 * M ^ 2 := mul_le_mul_of_nonneg_right uu M2
  have e1' : |rnd (b.x - a.x) * rnd (b.y + a.y) - (b.x - a.x) * (b.y + a.y)| ≤ 9 * u * M ^ 2 := by
    refine e1.trans ?_
    nlinarith
  have e2 := h.near e1' hp (by linarith)
  have e2' : |rnd (rnd (b.x - a.x) * rnd (b.y + a.y)) / 2 - (b.x - a.x) * (b.y + a.y) / 2| ≤
      (13 * u + 9 * u ^ 2) / 2 * M ^ 2 := by
    rw [← sub_div, abs_div, abs_two]
    have : 9 * u * M ^ 2 + u * (4 * M ^ 2 + 9 * u * M ^ 2) = (13 * u + 9 * u ^ 2) * M ^ 2 := by ring
    rw [this] at e2
    linarith
  have e3' : |rnd (rnd (b.x - a.x) * rnd (b.y + a.y)) / 2 - (b.x - a.x) * (b.y + a.y) / 2| ≤ 67 / 10 * u * M ^ 2 := by
    refine e2'.trans ?_
    nlinarith
  have e3 := h.near e3' hq hs2
  refine e3.trans ?_
  nlinarith

theorem areaFold_error (h : Rounds rnd u s) (hs : s ≤ 2 * M) (hs2 : s ≤ 2 * M ^ 2) (N : K) (hN : N * u ≤ 1 / 64)
    (N1 : 1 ≤ N) :
    ∀ (l : List (Vertex K × Vertex K)) (k : ℕ) (acc x : K),
      (∀ p ∈ l, (|p.1.x| ≤ M ∧ |p.1.y| ≤ M) ∧ |p.2.x| ≤ M ∧ |p.2.y| ≤ M) → (k + l.length : K) ≤ N →
      |x| ≤ 2 * k * M ^ 2 → |acc - x| ≤ (10 * k + 2 * k ^ 2) * u * M ^ 2 →
      |l.foldl (fun acc p => rnd (acc + areaTermRounded rnd p)) acc -
          (x + (l.map fun p => (p.2.x - p.1.x) * (p.2.y + p.1.y) / 2).sum)| ≤
        (10 * (k + l.length : K) + 2 * (k + l.length : K) ^ 2) * u * M ^ 2 := by
  intro l
  induction l with
  | nil => intro k acc x _ _ _ he; simpa using he
  | cons p l ih =>
    intro k acc x hl hk hx he
    obtain ⟨a, b⟩ := p
    have u0 := h.u_nonneg
    have hu : u ≤ 1 / 64 := by nlinarith
    obtain ⟨ha, hb⟩ := hl _ List.mem_cons_self
    obtain ⟨et, ht⟩ := areaTerm_error h hu hs hs2 ha hb
    have M2 : 0 ≤ M ^ 2 := by positivity
    have k0 : (0 : K) ≤ k := Nat.cast_nonneg k
    rw [List.length_cons] at hk ⊢
    push_cast at hk ⊢
    have l0 : (0 : K) ≤ l.length := Nat.cast_nonneg _
    have ku : (k : K) * u ≤ 1 / 64 := le_trans (mul_le_mul_of_nonneg_right (by linarith) u0) hN
    have hsum : |acc + areaTermRounded rnd (a, b) - (x + (b.x - a.x) * (b.y + a.y) / 2)| ≤
        (10 * k + 2 * k ^ 2) * u * M ^ 2 + 9 * u * M ^ 2 := by
      rw [show acc + areaTermRounded rnd (a, b) - (x + (b.x - a.x) * (b.y + a.y) / 2) =
        (acc - x) + (areaTermRounded rnd (a, b) - (b.x - a.x) * (b.y + a.y) / 2) by ring]
      exact (abs_add_le _ _).trans (add_le_add he et)
    have hx' : |x + (b.x - a.x) * (b.y + a.y) / 2| ≤ 2 * (k + 1 : ℕ) * M ^ 2 := by
      refine (abs_add_le _ _).trans ((add_le_add hx ht).trans (le_of_eq ?_))
      push_cast; ring
    have step := h.near hsum hx' (by
      push_cast
      nlinarith)
    have := ih (k + 1) (rnd (acc + areaTermRounded rnd (a, b))) (x + (b.x - a.x) * (b.y + a.y) / 2)
      (fun q hq => hl q (List.mem_cons_of_mem _ hq)) (by push_cast; linarith) hx' (by
        refine step.trans ?_
        push_cast
        have key : (10 * k + 2 * k ^ 2 + 9) * u ≤ 1 / 64 * (10 + 2 * k + 9) := by
          have : (k : K) * ((k : K) * u) ≤ k * (1 / 64) := mul_le_mul_of_nonneg_left ku k0
          nlinarith
        have um : 0 ≤ u * M ^ 2 := by positivity
        have := mul_le_mul_of_nonneg_right key um
        nlinarith [mul_nonneg k0 um])
    rw [List.foldl_cons, List.map_cons, List.sum_cons]
    push_cast at this
    rw [show (k : K) + (l.length + 1) = k + 1 + l.length by ring,
      show x + ((b.x - a.x) * (b.y + a.y) / 2 + (l.map fun p => (p.2.x - p.1.x) * (p.2.y + p.1.y) / 2).sum) =
        x + (b.x - a.x) * (b.y + a.y) / 2 + (l.map fun p => (p.2.x - p.1.x) * (p.2.y + p.1.y) / 2).sum by ring]
    exact this

/-- C94: the computed area of a closed polygon with `n` vertices, with coordinates up to `M`, is off by at most
`(10 n + 2 n²) u M²`. -/
theorem C94_error (h : Rounds rnd u s) (hs : s ≤ 2 * M) (hs2 : s ≤ 2 * M ^ 2) {l : List (Vertex K)}
    (hl : ∀ v ∈ l, |v.x| ≤ M ∧ |v.y| ≤ M) (hn : (l.length : K) * u ≤ 1 / 64) :
    |areaSegmentsRounded rnd (pairs l false) + shoelace l| ≤ (10 * l.length + 2 * (l.length : K) ^ 2) * u * M ^ 2 := by
  rcases eq_or_ne l [] with rfl | hne
  · simp [areaSegmentsRounded, pairs, consecutivePairs, shoelace]
  · have hlen := pairs_length l hne
    have := areaFold_error h hs hs2 (l.length : K) hn
      (by exact_mod_cast List.length_pos_iff.2 hne) (pairs l false) 0 0 0
      (fun p hp => ⟨hl _ (mem_pairs hp).1, hl _ (mem_pairs hp).2⟩) (by simp [hlen]) (by simp) (by simp)
    rw [zero_add, ← areaSegments_sum, C39_shoelace, sub_neg_eq_add, hlen] at this
    simpa [areaSegmentsRounded] using this

/-- C94: when the area is larger than the error bound, the computed orientation is right and nothing panics. -/
theorem C94_orientation (h : Rounds rnd u s) (hs : s ≤ 2 * M) (hs2 : s ≤ 2 * M ^ 2) {l : List (Vertex K)}
    (hl : ∀ v ∈ l, |v.x| ≤ M ∧ |v.y| ≤ M) (hn : (l.length : K) * u ≤ 1 / 64)
    (hbig : (10 * l.length + 2 * (l.length : K) ^ 2) * u * M ^ 2 < |shoelace l|) :
    segmentsOrientationRounded rnd (pairs l false) =
      .ok (if 0 < shoelace l then Orientation.counterclockwise else .clockwise) := by
  have he := abs_le.1 (C94_error h hs hs2 hl hn)
  unfold segmentsOrientationRounded
  rcases lt_or_ge 0 (shoelace l) with h0 | h0
  · rw [abs_of_pos h0] at hbig
    rw [if_pos (by linarith [he.2]), if_pos h0]
  · rw [abs_of_nonpos h0] at hbig
    rw [if_neg (by linarith [he.1]), if_pos (by linarith [he.1]), if_neg (not_lt.2 h0)]

/-- C94: rounding is the only difference to the exact area. -/
theorem C94_exact (l : List (Vertex K × Vertex K)) :
    areaSegmentsRounded id l = areaSegments l ∧ segmentsOrientationRounded id l = segmentsOrientation l :=
  ⟨rfl, rfl⟩

end

/-- C94: with the numbers of `f64`, for up to `2 ^ 47` vertices and coordinates up to `M`, where `M` is at least one. -/
theorem C94_f64 {l : List (Vertex ℚ)} {M : ℚ} (hM : 1 ≤ M) (hl : ∀ v ∈ l, |v.x| ≤ M ∧ |v.y| ≤ M)
    (hn : l.length ≤ 2 ^ 47) (hbig : (10 * l.length + 2 * (l.length : ℚ) ^ 2) * M ^ 2 / 2 ^ 53 < |shoelace l|) :
    segmentsOrientationRounded roundF64 (pairs l false) =
      .ok (if 0 < shoelace l then Orientation.counterclockwise else .clockwise) := by
  have hs1 : ((2 : ℚ) ^ (-1022 : ℤ)) ≤ 1 := zpow_le_one_of_nonpos₀ (by norm_num) (by norm_num)
  have hn' : (l.length : ℚ) ≤ 2 ^ 47 := by exact_mod_cast hn
  refine C94_orientation (M := M) rounds_f64 (by linarith) (by nlinarith) hl ?_ ?_
  · have : (l.length : ℚ) * (1 / 2 ^ 53) ≤ 2 ^ 47 * (1 / 2 ^ 53) := mul_le_mul_of_nonneg_right hn' (by norm_num)
    refine this.trans (by norm_num)
  · refine lt_of_eq_of_lt ?_ hbig
    ring

theorem areaFold_grid {B e : ℤ} (he : -536 ≤ e) :
    ∀ (l : List (Vertex ℚ × Vertex ℚ)) (k : ℕ) (m : ℤ),
      (∀ p ∈ l, ∃ a b c d : ℤ, |a| ≤ B ∧ |b| ≤ B ∧ |c| ≤ B ∧ |d| ≤ B ∧ p.1.x = a * (2 : ℚ) ^ e ∧ p.1.y = b * (2 : ℚ) ^ e ∧
        p.2.x = c * (2 : ℚ) ^ e ∧ p.2.y = d * (2 : ℚ) ^ e) →
      4 * (k + l.length : ℤ) * B ^ 2 ≤ 2 ^ 53 → 2 * B ≤ 2 ^ 53 → |m| ≤ 4 * k * B ^ 2 →
      l.foldl (fun acc p => roundF64 (acc + areaTermRounded roundF64 p)) (m * (2 : ℚ) ^ (2 * e - 1)) =
        l.foldl (fun acc p => acc + (p.2.x - p.1.x) * (p.2.y + p.1.y) / 2) (m * (2 : ℚ) ^ (2 * e - 1)) := by
  intro l
  induction l with
  | nil => intros; rfl
  | cons p l ih =>
    intro k m hl hB hB1 hm
    obtain ⟨a, b, c, d, ha, hb, hc, hd, h1, h2, h3, h4⟩ := hl _ List.mem_cons_self
    have B0 : 0 ≤ B := le_trans (abs_nonneg _) ha
    have k0 : (0 : ℤ) ≤ k := Int.natCast_nonneg k
    have l0 : (0 : ℤ) ≤ l.length := Int.natCast_nonneg _
    rw [List.length_cons] at hB
    push_cast at hB
    have hB2 : 4 * B ^ 2 ≤ 2 ^ 53 := by nlinarith [sq_nonneg B, mul_nonneg k0 (sq_nonneg B), mul_nonneg l0 (sq_nonneg B)]
    have hx : |c - a| ≤ 2 * B := by have := abs_sub_le_add hc ha; linarith
    have hy : |d + b| ≤ 2 * B := by have := abs_add_le d b; linarith
    have hp : |(c - a) * (d + b)| ≤ 4 * B ^ 2 := by have := abs_mul_le hx hy; linarith
    have e2 : (2 : ℚ) ^ (2 * e - 1) = (2 : ℚ) ^ e * (2 : ℚ) ^ e / 2 := by
      rw [zpow_sub_one₀ (by norm_num), two_mul, zpow_add₀ (by norm_num)]; ring
    have r1 : roundF64 (p.2.x - p.1.x) = p.2.x - p.1.x :=
      roundF64_grid (n := c - a) (e := e) (hx.trans hB1) (by linarith) (by rw [h1, h3]; push_cast; ring)
    have r2 : roundF64 (p.2.y + p.1.y) = p.2.y + p.1.y :=
      roundF64_grid (n := d + b) (e := e) (hy.trans hB1) (by linarith) (by rw [h2, h4]; push_cast; ring)
    have v : (p.2.x - p.1.x) * (p.2.y + p.1.y) / 2 = ((c - a) * (d + b) : ℤ) * (2 : ℚ) ^ (2 * e - 1) := by
      rw [e2, h1, h2, h3, h4]; push_cast; ring
    have r3 : roundF64 ((p.2.x - p.1.x) * (p.2.y + p.1.y)) = (p.2.x - p.1.x) * (p.2.y + p.1.y) :=
      roundF64_grid (n := (c - a) * (d + b)) (e := 2 * e) (hp.trans hB2) (by linarith) (by
        rw [two_mul, zpow_add₀ (by norm_num), h1, h2, h3, h4]; push_cast; ring)
    have r4 : areaTermRounded roundF64 p = (p.2.x - p.1.x) * (p.2.y + p.1.y) / 2 := by
      unfold areaTermRounded
      rw [r1, r2, r3]
      exact roundF64_grid (n := (c - a) * (d + b)) (e := 2 * e - 1) (hp.trans hB2) (by linarith) v
    have hm' : |m + (c - a) * (d + b)| ≤ 4 * (k + 1 : ℕ) * B ^ 2 := by
      have := abs_add_le m ((c - a) * (d + b))
      push_cast
      linarith
    have vs : (m : ℚ) * (2 : ℚ) ^ (2 * e - 1) + (p.2.x - p.1.x) * (p.2.y + p.1.y) / 2 =
        ((m + (c - a) * (d + b) : ℤ) : ℚ) * (2 : ℚ) ^ (2 * e - 1) := by rw [v]; push_cast; ring
    have r5 := roundF64_grid (n := m + (c - a) * (d + b)) (e := 2 * e - 1)
      (hm'.trans (by push_cast; nlinarith [mul_nonneg l0 (sq_nonneg B)])) (by linarith) vs
    rw [List.foldl_cons, List.foldl_cons, r4, r5, vs]
    exact ih (k + 1) _ (fun q hq => hl q (List.mem_cons_of_mem _ hq)) (by push_cast; linarith) hB1 hm'

/-- C94: on a grid nothing is rounded. For a polygon of `n` vertices whose coordinates are integers up to `B`, or the same
multiples of a power of two, the computed area is exact if `4 n B² ≤ 2 ^ 53`. -/
theorem C94_grid {l : List (Vertex ℚ)} {B e : ℤ} (he : -536 ≤ e) (hB : 4 * (l.length : ℤ) * B ^ 2 ≤ 2 ^ 53)
    (hl : ∀ v ∈ l, ∃ a b : ℤ, |a| ≤ B ∧ |b| ≤ B ∧ v.x = a * (2 : ℚ) ^ e ∧ v.y = b * (2 : ℚ) ^ e) :
    areaSegmentsRounded roundF64 (pairs l false) = -shoelace l ∧
      segmentsOrientationRounded roundF64 (pairs l false) = segmentsOrientation (pairs l false) := by
  have key : areaSegmentsRounded roundF64 (pairs l false) = areaSegments (pairs l false) := by
    rcases eq_or_ne l [] with rfl | hne
    · rfl
    · have hlen := pairs_length l hne
      have n1 : (1 : ℤ) ≤ l.length := by exact_mod_cast List.length_pos_iff.2 hne
      have hB2 : 4 * B ^ 2 ≤ 2 ^ 53 := by nlinarith [sq_nonneg B]
      have hB1 : 2 * B ≤ 2 ^ 53 := by nlinarith [sq_nonneg (B - 1)]
      have := areaFold_grid (B := B) he (pairs l false) 0 0 (fun p hp => by
        obtain ⟨a, b, ha, hb, h1, h2⟩ := hl _ (mem_pairs hp).1
        obtain ⟨c, d, hc, hd, h3, h4⟩ := hl _ (mem_pairs hp).2
        exact ⟨a, b, c, d, ha, hb, hc, hd, h1, h2, h3, h4⟩) (by rw [hlen]; simpa using hB) hB1 (by simp)
      simpa [areaSegmentsRounded, areaSegments] using this
  refine ⟨by rw [key, C39_shoelace], ?_⟩
  unfold segmentsOrientationRounded segmentsOrientation
  rw [key]

theorem areaTerm_swap (p : Vertex ℚ × Vertex ℚ) : areaTermRounded roundF64 p.swap = -areaTermRounded roundF64 p := by
  unfold areaTermRounded
  rw [Prod.fst_swap, Prod.snd_swap, show p.1.x - p.2.x = -(p.2.x - p.1.x) by ring, roundF64_neg, add_comm p.1.y,
    neg_mul, roundF64_neg, neg_div, roundF64_neg]

/-- C94: turning every segment around changes the sign of the computed area and nothing else, so the orientation is turned
around. -/
theorem C94_swap (l : List (Vertex ℚ × Vertex ℚ)) :
    areaSegmentsRounded roundF64 (l.map Prod.swap) = -areaSegmentsRounded roundF64 l ∧
      (segmentsOrientationRounded roundF64 (l.map Prod.swap) = .ok .clockwise ↔
        segmentsOrientationRounded roundF64 l = .ok .counterclockwise) ∧
      (segmentsOrientationRounded roundF64 (l.map Prod.swap) = .panic ↔ segmentsOrientationRounded roundF64 l = .panic) := by
  have gen : ∀ (l : List (Vertex ℚ × Vertex ℚ)) (c : ℚ),
      (l.map Prod.swap).foldl (fun acc p => roundF64 (acc + areaTermRounded roundF64 p)) (-c) =
        -l.foldl (fun acc p => roundF64 (acc + areaTermRounded roundF64 p)) c := by
    intro l
    induction l with
    | nil => intro c; rfl
    | cons p l ih =>
      intro c
      rw [List.map_cons, List.foldl_cons, List.foldl_cons, areaTerm_swap,
        show -c + -areaTermRounded roundF64 p = -(c + areaTermRounded roundF64 p) by ring, roundF64_neg, ih]
  have key : areaSegmentsRounded roundF64 (l.map Prod.swap) = -areaSegmentsRounded roundF64 l := by
    have := gen l 0
    rwa [neg_zero] at this
  refine ⟨key, ?_⟩
  unfold segmentsOrientationRounded
  rw [key]
  rcases lt_trichotomy (areaSegmentsRounded roundF64 l) 0 with h | h | h
  · rw [if_neg (by linarith), if_pos (by linarith), if_pos h]
    simp
  · simp [h]
  · rw [if_pos (by linarith), if_neg (by linarith), if_pos h]
    simp

/-- In general the sign may be wrong: the triangle (1.9, 17.5), (7.3, 32.5), (4.6, 25.0), whose corners as they are read run
counterclockwise, is reported clockwise. -/
theorem C94_false : ∃ a b c : Vertex ℚ, a = hundredths 190 1750 ∧ b = hundredths 730 3250 ∧ c = hundredths 460 2500 ∧
    0 < shoelace [a, b, c] ∧ segmentsOrientationRounded roundF64 (pairs [a, b, c] false) = .ok .clockwise :=
  ⟨_, _, _, rfl, rfl, rfl, by decide +kernel⟩

/-- Nor is there always an answer: for the triangle (21.0, 9.7), (26.0, 15.9), (23.5, 12.8), which is not flat, the code
panics. -/
theorem C94_panic_false : ∃ a b c : Vertex ℚ, a = hundredths 2100 970 ∧ b = hundredths 2600 1590 ∧ c = hundredths 2350 1280 ∧
    0 < shoelace [a, b, c] ∧ segmentsOrientationRounded roundF64 (pairs [a, b, c] false) = .panic :=
  ⟨_, _, _, rfl, rfl, rfl, by decide +kernel⟩

/-- And the answer depends on the vertex one starts with, other than in exact arithmetic (`C39_rotate`): the triangle (2.6, 8.1),
(3.0, 8.5), (2.8, 8.3) is reported clockwise, and the code panics on (3.0, 8.5), (2.8, 8.3), (2.6, 8.1). -/
theorem C94_rotation_false : ∃ a b c : Vertex ℚ, a = hundredths 260 810 ∧ b = hundredths 300 850 ∧ c = hundredths 280 830 ∧
    segmentsOrientationRounded roundF64 (pairs [a, b, c] false) = .ok .clockwise ∧
    segmentsOrientationRounded roundF64 (pairs [b, c, a] false) = .panic :=
  ⟨_, _, _, rfl, rfl, rfl, by decide +kernel⟩

/-- A quadrilateral that meets the hypotheses of `C94_f64`. -/
example : segmentsOrientationRounded roundF64 (pairs [hundredths 10 20, hundredths 470 30, hundredths 450 690, hundredths 20 610]
    false) = .ok .counterclockwise ∧
    (∀ v ∈ [hundredths 10 20, hundredths 470 30, hundredths 450 690, hundredths 20 610], |v.x| ≤ 10 ∧ |v.y| ≤ 10) ∧
    (10 * 4 + 2 * 4 ^ 2) * 10 ^ 2 / 2 ^ 53 <
      |shoelace [hundredths 10 20, hundredths 470 30, hundredths 450 690, hundredths 20 610]| := by decide +kernel

/-- A polygon on a grid. -/
example : (∀ v ∈ [lattice 0 0, lattice 1000003 7, lattice 7 1000003], |v.x| ≤ 1000003 ∧ |v.y| ≤ 1000003) ∧
    4 * 3 * (1000003 : ℤ) ^ 2 ≤ 2 ^ 53 ∧
    areaSegmentsRounded roundF64 (pairs [lattice 0 0, lattice 1000003 7, lattice 7 1000003] false) =
      -((1000003 ^ 2 - 49) / 2) := by decide +kernel

end Verif.Props
