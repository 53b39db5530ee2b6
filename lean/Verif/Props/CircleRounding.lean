import Verif.Lemmas.Elimination

/-!
# C86: the circle test with rounding
-/

set_option linter.unusedSectionVars false

namespace Verif.Props

open Spec

section

variable {K : Type*} [Field K] [LinearOrder K] [IsStrictOrderedRing K] {rnd : K → K} {u s : K}

theorem pert_mul {x x' y y' η X Y m k : K} (h1 : |x' - x| ≤ η * X) (h2 : |x'| ≤ X) (h3 : |y' - y| ≤ k * η * Y)
    (h4 : |y| ≤ m * Y) : |x' * y' - x * y| ≤ (m + k) * η * (X * Y) := by
  have e : x' * y' - x * y = (x' - x) * y + x' * (y' - y) := by ring
  rw [e]
  have k1 := abs_add_le ((x' - x) * y) (x' * (y' - y))
  have k2 := abs_mul_le h1 h4
  have k3 := abs_mul_le h2 h3
  have : η * X * (m * Y) + X * (k * η * Y) = (m + k) * η * (X * Y) := by ring
  linarith

theorem det3_size {X Y Z a b c d e f g h i : K} (r1 : |a| ≤ X ∧ |b| ≤ Y ∧ |c| ≤ Z) (r2 : |d| ≤ X ∧ |e| ≤ Y ∧ |f| ≤ Z)
    (r3 : |g| ≤ X ∧ |h| ≤ Y ∧ |i| ≤ Z) : |det3 a b c d e f g h i| ≤ 6 * (X * (Y * Z)) := by
  unfold det3
  have k1 := abs_mul_le r1.1 (abs_sub_le_add (abs_mul_le r2.2.1 r3.2.2) (abs_mul_le r2.2.2 r3.2.1))
  have k2 := abs_mul_le r1.2.1 (abs_sub_le_add (abs_mul_le r2.1 r3.2.2) (abs_mul_le r2.2.2 r3.1))
  have k3 := abs_mul_le r1.2.2 (abs_sub_le_add (abs_mul_le r2.1 r3.2.1) (abs_mul_le r2.2.1 r3.1))
  have k4 := abs_sub_le_add k1 k2
  have k5 := abs_add_le (a * (e * i - f * h) - b * (d * i - f * g)) (c * (d * h - e * g))
  have : X * (Y * Z + Z * Y) + Y * (X * Z + Z * X) + Z * (X * Y + Y * X) = 6 * (X * (Y * Z)) := by ring
  linarith

/-- Entries that differ by at most `η` times the size of their column. -/
def Pert (η X x x' : K) : Prop := |x' - x| ≤ η * X ∧ |x'| ≤ X ∧ |x| ≤ X

theorem pert_minor {η X Y a b c d a' b' c' d' : K} (ha : Pert η X a a') (hb : Pert η Y b b') (hc : Pert η X c c')
    (hd : Pert η Y d d') : |a' * d' - b' * c' - (a * d - b * c)| ≤ 4 * η * (X * Y) := by
  have k1 := pert_mul (m := 1) (k := 1) (y := d) (y' := d') (Y := Y) ha.1 ha.2.1 (by linarith [hd.1]) (by linarith [hd.2.2])
  have k2 := pert_mul (m := 1) (k := 1) (y := c) (y' := c') (Y := X) hb.1 hb.2.1 (by linarith [hc.1]) (by linarith [hc.2.2])
  have e : a' * d' - b' * c' - (a * d - b * c) = (a' * d' - a * d) - (b' * c' - b * c) := by ring
  rw [e]
  have := abs_sub_le_add k1 k2
  linarith

theorem pert_det3 {η X Y Z a b c d e f g h i a' b' c' d' e' f' g' h' i' : K}
    (ha : Pert η X a a') (hb : Pert η Y b b') (hc : Pert η Z c c')
    (hd : Pert η X d d') (he : Pert η Y e e') (hf : Pert η Z f f')
    (hg : Pert η X g g') (hh : Pert η Y h h') (hi : Pert η Z i i') :
    |det3 a' b' c' d' e' f' g' h' i' - det3 a b c d e f g h i| ≤ 18 * η * (X * (Y * Z)) := by
  have k1 := pert_mul (m := 2) (k := 4) (Y := Y * Z) ha.1 ha.2.1 (y := e * i - f * h) (y' := e' * i' - f' * h')
    (pert_minor he hf hh hi) (by
      have := abs_sub_le_add (abs_mul_le he.2.2 hi.2.2) (abs_mul_le hf.2.2 hh.2.2)
      linarith)
  have k2 := pert_mul (m := 2) (k := 4) (Y := X * Z) hb.1 hb.2.1 (y := d * i - f * g) (y' := d' * i' - f' * g')
    (pert_minor hd hf hg hi) (by
      have := abs_sub_le_add (abs_mul_le hd.2.2 hi.2.2) (abs_mul_le hf.2.2 hg.2.2)
      linarith)
  have k3 := pert_mul (m := 2) (k := 4) (Y := X * Y) hc.1 hc.2.1 (y := d * h - e * g) (y' := d' * h' - e' * g')
    (pert_minor hd he hg hh) (by
      have := abs_sub_le_add (abs_mul_le hd.2.2 hh.2.2) (abs_mul_le he.2.2 hg.2.2)
      linarith)
  have k4 := abs_sub_le_add k1 k2
  have k5 := (abs_add_le _ _).trans (add_le_add k4 k3)
  have e1 : det3 a' b' c' d' e' f' g' h' i' - det3 a b c d e f g h i =
      a' * (e' * i' - f' * h') - a * (e * i - f * h) - (b' * (d' * i' - f' * g') - b * (d * i - f * g)) +
        (c' * (d' * h' - e' * g') - c * (d * h - e * g)) := by
    unfold det3
    ring
  rw [e1]
  refine k5.trans (le_of_eq ?_)
  ring

theorem pert_det4 {η X Y Z W a b c d e f g h i j k l m n o p a' b' c' d' e' f' g' h' i' j' k' l' m' n' o' p' : K}
    (ha : Pert η X a a') (hb : Pert η Y b b') (hc : Pert η Z c c') (hd : Pert η W d d')
    (he : Pert η X e e') (hf : Pert η Y f f') (hg : Pert η Z g g') (hh : Pert η W h h')
    (hi : Pert η X i i') (hj : Pert η Y j j') (hk : Pert η Z k k') (hl : Pert η W l l')
    (hm : Pert η X m m') (hn : Pert η Y n n') (ho : Pert η Z o o') (hp : Pert η W p p') :
    |det4 a' b' c' d' e' f' g' h' i' j' k' l' m' n' o' p' - det4 a b c d e f g h i j k l m n o p| ≤
      96 * η * (X * (Y * (Z * W))) := by
  have k1 := pert_mul (m := 6) (k := 18) ha.1 ha.2.1 (pert_det3 hf hg hh hj hk hl hn ho hp)
    (det3_size ⟨hf.2.2, hg.2.2, hh.2.2⟩ ⟨hj.2.2, hk.2.2, hl.2.2⟩ ⟨hn.2.2, ho.2.2, hp.2.2⟩)
  have k2 := pert_mul (m := 6) (k := 18) hb.1 hb.2.1 (pert_det3 he hg hh hi hk hl hm ho hp)
    (det3_size ⟨he.2.2, hg.2.2, hh.2.2⟩ ⟨hi.2.2, hk.2.2, hl.2.2⟩ ⟨hm.2.2, ho.2.2, hp.2.2⟩)
  have k3 := pert_mul (m := 6) (k := 18) hc.1 hc.2.1 (pert_det3 he hf hh hi hj hl hm hn hp)
    (det3_size ⟨he.2.2, hf.2.2, hh.2.2⟩ ⟨hi.2.2, hj.2.2, hl.2.2⟩ ⟨hm.2.2, hn.2.2, hp.2.2⟩)
  have k4 := pert_mul (m := 6) (k := 18) hd.1 hd.2.1 (pert_det3 he hf hg hi hj hk hm hn ho)
    (det3_size ⟨he.2.2, hf.2.2, hg.2.2⟩ ⟨hi.2.2, hj.2.2, hk.2.2⟩ ⟨hm.2.2, hn.2.2, ho.2.2⟩)
  have k5 := abs_sub_le_add ((abs_add_le _ _).trans (add_le_add (abs_sub_le_add k1 k2) k3)) k4
  have e1 : det4 a' b' c' d' e' f' g' h' i' j' k' l' m' n' o' p' - det4 a b c d e f g h i j k l m n o p =
      a' * det3 f' g' h' j' k' l' n' o' p' - a * det3 f g h j k l n o p -
        (b' * det3 e' g' h' i' k' l' m' o' p' - b * det3 e g h i k l m o p) +
        (c' * det3 e' f' h' i' j' l' m' n' p' - c * det3 e f h i j l m n p) -
        (d' * det3 e' f' g' i' j' k' m' n' o' - d * det3 e f g i j k m n o) := by
    unfold det4
    ring
  rw [e1]
  refine k5.trans (le_of_eq ?_)
  ring

/-- The product of the diagonal, rounded after each multiplication. -/
theorem product_error (h : Rounds rnd u s) (hu : u ≤ 1 / 1000) {d0 d1 d2 d3 A B C D : K} (h0 : |d0| ≤ A) (h1 : |d1| ≤ B)
    (h2 : |d2| ≤ C) (h3 : |d3| ≤ D) (s0 : s ≤ A) (s1 : s ≤ A * B) (s2 : s ≤ A * B * C) (s3 : s ≤ A * B * C * D) :
    |[d0, d1, d2, d3].foldl (fun r d => rnd (r * d)) 1 - d0 * d1 * d2 * d3| ≤ 41 / 10 * u * (A * B * C * D) := by
  have u0 := h.u_nonneg
  have A0 : 0 ≤ A := le_trans (abs_nonneg _) h0
  have B0 : 0 ≤ B := le_trans (abs_nonneg _) h1
  have C0 : 0 ≤ C := le_trans (abs_nonneg _) h2
  have D0 : 0 ≤ D := le_trans (abs_nonneg _) h3
  simp only [List.foldl, one_mul]
  have step : ∀ {r x d E X Y : K}, |r - x| ≤ E * X → |x| ≤ X → |d| ≤ Y → s ≤ X * Y →
      |rnd (r * d) - x * d| ≤ (E + u * (1 + E)) * (X * Y) := by
    intro r x d E X Y hr hx hd hs
    have e : r * d - x * d = (r - x) * d := by ring
    have k1 : |r * d - x * d| ≤ E * X * Y := by
      rw [e]
      exact abs_mul_le hr hd
    refine (h.near k1 (abs_mul_le hx hd) hs).trans (le_of_eq ?_)
    ring
  have k0 : |rnd d0 - d0| ≤ u * A := h.exact h0 s0
  have k1 := step k0 h0 h1 s1
  have k2 := step k1 (abs_mul_le h0 h1) h2 s2
  have k3 := step k2 (abs_mul_le (abs_mul_le h0 h1) h2) h3 s3
  refine k3.trans (mul_le_mul_of_nonneg_right ?_ (by positivity))
  have u2 : u ^ 2 ≤ 1 / 1000 * u := by nlinarith
  have u3 : u ^ 3 ≤ 1 / 1000 * u := by nlinarith [mul_nonneg u0 u0]
  have u4 : u ^ 4 ≤ 1 / 1000 * u := by nlinarith [mul_nonneg u0 u0, mul_nonneg u0 (mul_nonneg u0 u0)]
  have e : u + u * (1 + u) + u * (1 + (u + u * (1 + u))) + u * (1 + (u + u * (1 + u) + u * (1 + (u + u * (1 + u))))) =
      4 * u + 6 * u ^ 2 + 4 * u ^ 3 + u ^ 4 := by ring
  rw [e]
  linarith

/-- The third entry of a row. -/
theorem lift_error (h : Rounds rnd u s) (hu : u ≤ 1 / 1000) {R x y : K} (hs : s ≤ R ^ 2) (hx : |x| ≤ R) (hy : |y| ≤ R) :
    |rnd (rnd (x ^ 2) + rnd (y ^ 2)) - (x ^ 2 + y ^ 2)| ≤ 41 / 10 * u * R ^ 2 ∧ |x ^ 2 + y ^ 2| ≤ 2 * R ^ 2 := by
  have u0 := h.u_nonneg
  have Q0 : 0 ≤ R ^ 2 := by positivity
  have sq : ∀ {z : K}, |z| ≤ R → |z ^ 2| ≤ R ^ 2 := fun hz => by
    rw [abs_pow]
    exact pow_le_pow_left₀ (abs_nonneg _) hz 2
  have k1 : |rnd (x ^ 2) - x ^ 2| ≤ u * R ^ 2 := h.exact (sq hx) hs
  have k2 : |rnd (y ^ 2) - y ^ 2| ≤ u * R ^ 2 := h.exact (sq hy) hs
  have k3 : |x ^ 2 + y ^ 2| ≤ 2 * R ^ 2 := by
    have := abs_add_le (x ^ 2) (y ^ 2)
    linarith [sq hx, sq hy]
  have k4 : |rnd (x ^ 2) + rnd (y ^ 2) - (x ^ 2 + y ^ 2)| ≤ 2 * (u * R ^ 2) := by
    rw [add_sub_add_comm]
    have := abs_add_le (rnd (x ^ 2) - x ^ 2) (rnd (y ^ 2) - y ^ 2)
    linarith
  have k5 := h.near k4 k3 (by linarith)
  refine ⟨k5.trans ?_, k3⟩
  have uq : u * (u * R ^ 2) ≤ 1 / 1000 * (u * R ^ 2) := mul_le_mul_of_nonneg_right hu (by positivity)
  have : 2 * (u * R ^ 2) + u * (2 * R ^ 2 + 2 * (u * R ^ 2)) = 4 * (u * R ^ 2) + 2 * (u * (u * R ^ 2)) := by ring
  rw [this]
  have : 0 ≤ u * R ^ 2 := by positivity
  linarith

theorem pert_of (u0 : 0 ≤ u) (hu : u ≤ 1 / 1000) {x x' B : K} (B0 : 0 ≤ B) (h1 : |x' - x| ≤ 23281 / 1000 * u * B) (h2 : |x| ≤ B) :
    Pert (253 / 10 * u) (1026 / 1000 * B) x x' := by
  have uB : u * B ≤ 1 / 1000 * B := mul_le_mul_of_nonneg_right hu B0
  have uB0 : 0 ≤ u * B := by positivity
  have := abs_add_le (x' - x) x
  rw [sub_add_cancel] at this
  exact ⟨by linarith, by linarith, by linarith⟩

theorem pert_lift (u0 : 0 ≤ u) (hu : u ≤ 1 / 1000) {x t x' Q : K} (Q0 : 0 ≤ Q)
    (h1 : |x' - t| ≤ 23281 / 1000 * u * (21 / 10 * Q)) (h2 : |t - x| ≤ 41 / 10 * u * Q) (h3 : |x| ≤ 2 * Q) :
    Pert (253 / 10 * u) (1026 / 1000 * (21 / 10 * Q)) x x' := by
  have uB : u * Q ≤ 1 / 1000 * Q := mul_le_mul_of_nonneg_right hu Q0
  have uB0 : 0 ≤ u * Q := by positivity
  have k1 := abs_add_le (x' - t) (t - x)
  rw [sub_add_sub_cancel] at k1
  have k2 := abs_add_le (x' - x) x
  rw [sub_add_cancel] at k2
  exact ⟨by linarith, by linarith, by linarith⟩

theorem lift_size (hu : u ≤ 1 / 1000) {t v Q : K} (Q0 : 0 ≤ Q) (h1 : |t - v| ≤ 41 / 10 * u * Q) (h2 : |v| ≤ 2 * Q) :
    |t| ≤ 21 / 10 * Q := by
  have uB : u * Q ≤ 1 / 1000 * Q := mul_le_mul_of_nonneg_right hu Q0
  have := abs_add_le (t - v) v
  rw [sub_add_cancel] at this
  linarith

theorem error_total (u0 : 0 ≤ u) {R : K} : 41 / 10 * u * (R * (21 / 10 * R) * (441 / 100 * (21 / 10 * R ^ 2)) * (9261 / 1000 * 1)) +
    96 * (253 / 10 * u) * (1026 / 1000 * R * (1026 / 1000 * R * (1026 / 1000 * (21 / 10 * R ^ 2) * (1026 / 1000 * 1)))) ≤
    6400 * u * R ^ 4 := by
  have uR4 : 0 ≤ u * R ^ 4 := by positivity
  have e2 : 41 / 10 * u * (R * (21 / 10 * R) * (441 / 100 * (21 / 10 * R ^ 2)) * (9261 / 1000 * 1)) =
      (41 / 10 * (21 / 10) * (441 / 100) * (21 / 10) * (9261 / 1000)) * (u * R ^ 4) := by ring
  have e3 : 96 * (253 / 10 * u) * (1026 / 1000 * R * (1026 / 1000 * R * (1026 / 1000 * (21 / 10 * R ^ 2) * (1026 / 1000 * 1)))) =
      (96 * (253 / 10) * (1026 / 1000) ^ 4 * (21 / 10)) * (u * R ^ 4) := by ring
  have e4 : 6400 * u * R ^ 4 = 6400 * (u * R ^ 4) := by ring
  rw [e2, e3, e4, ← add_mul]
  exact mul_le_mul_of_nonneg_right (by norm_num) uR4

/-- How far the product of the diagonal is from the determinant of a matrix with these columns. -/
theorem back4_error (h : Rounds rnd u s) (hu : u ≤ 1 / 1000) {R : K} (hR : 1 ≤ R) (hs : s ≤ 1) {out : List K × K}
    {a b c d e f g i j k l m c' g' l' q' : K} (ha : |a| ≤ R ∧ |b| ≤ R) (hb : |d| ≤ R ∧ |e| ≤ R) (hc : |i| ≤ R ∧ |j| ≤ R)
    (hd : |l| ≤ R ∧ |m| ≤ R) (ma : |c| ≤ 2 * R ^ 2) (mb : |f| ≤ 2 * R ^ 2) (mc : |g| ≤ 2 * R ^ 2) (md : |k| ≤ 2 * R ^ 2)
    (la : |c' - c| ≤ 41 / 10 * u * R ^ 2) (lb : |g' - f| ≤ 41 / 10 * u * R ^ 2) (lc : |l' - g| ≤ 41 / 10 * u * R ^ 2)
    (ld : |q' - k| ≤ 41 / 10 * u * R ^ 2)
    (H : Back4 (23281 / 1000 * u) R R (21 / 10 * R ^ 2) 1 a b c' 1 d e g' 1 i j l' 1 l m q' 1 out) :
    |out.1.foldl (fun r d => rnd (r * d)) 1 * out.2 - det4 a b c 1 d e f 1 i j g 1 l m k 1| ≤ 6400 * u * R ^ 4 := by
  have u0 := h.u_nonneg
  have R0 : 0 ≤ R := by linarith
  have Q0 : 0 ≤ R ^ 2 := by positivity
  have R1 : 1 ≤ R ^ 2 := one_le_pow₀ hR
  have one1 : |(1 : K)| ≤ 1 := abs_one.le
  obtain ⟨d0, d1, d2, d3, _, _, _, _, _, _, _, _, _, _, _, _, _, _, _, _, E1, E2, D0, D1, D2, D3,
    ⟨A1, A2, A3, A4⟩, ⟨B1, B2, B3, B4⟩, ⟨C1, C2, C3, C4⟩, ⟨G1, G2, G3, G4⟩, E9⟩ := H
  have P := pert_det4 (pert_of u0 hu R0 A1 ha.1) (pert_of u0 hu R0 A2 ha.2) (pert_lift u0 hu Q0 A3 la ma)
    (pert_of u0 hu zero_le_one A4 one1)
    (pert_of u0 hu R0 B1 hb.1) (pert_of u0 hu R0 B2 hb.2) (pert_lift u0 hu Q0 B3 lb mb) (pert_of u0 hu zero_le_one B4 one1)
    (pert_of u0 hu R0 C1 hc.1) (pert_of u0 hu R0 C2 hc.2) (pert_lift u0 hu Q0 C3 lc mc) (pert_of u0 hu zero_le_one C4 one1)
    (pert_of u0 hu R0 G1 hd.1) (pert_of u0 hu R0 G2 hd.2) (pert_lift u0 hu Q0 G3 ld md) (pert_of u0 hu zero_le_one G4 one1)
  have one_mul_le : ∀ {x y : K}, 1 ≤ x → 1 ≤ y → 1 ≤ x * y := fun hx hy => by
    have := mul_le_mul hx hy zero_le_one (by linarith)
    linarith
  have s1 : 1 ≤ R * (21 / 10 * R) := one_mul_le hR (by linarith)
  have s2 : 1 ≤ R * (21 / 10 * R) * (441 / 100 * (21 / 10 * R ^ 2)) := one_mul_le s1 (by linarith)
  have s3 : 1 ≤ R * (21 / 10 * R) * (441 / 100 * (21 / 10 * R ^ 2)) * (9261 / 1000 * 1) := one_mul_le s2 (by norm_num)
  have Q := product_error h hu D0 D1 D2 D3 (hs.trans hR) (hs.trans s1) (hs.trans s2) (hs.trans s3)
  rw [E1]
  have e1 : ∀ F s' D : K, F * s' - D = (F - d0 * d1 * d2 * d3) * s' + (d0 * d1 * d2 * d3 * s' - D) := fun F s' D => by ring
  rw [e1, E9]
  refine (abs_add_le _ _).trans ?_
  rw [abs_mul, E2, mul_one]
  exact (add_le_add Q P).trans (error_total u0)

/-- How far the determinant of `continence` can be off. -/
theorem circleDet_error (h : Rounds rnd u s) (hu : u ≤ 1 / 1000) {R : K} (hR : 1 ≤ R) (hs : s ≤ 1) (hsR : s * R ^ 2 ≤ 1 / 10)
    {a b c d : Vertex K} (ha : |a.x| ≤ R ∧ |a.y| ≤ R) (hb : |b.x| ≤ R ∧ |b.y| ≤ R) (hc : |c.x| ≤ R ∧ |c.y| ≤ R)
    (hd : |d.x| ≤ R ∧ |d.y| ≤ R) : |circleDetRounded rnd a b c d - circleDet a b c d| ≤ 6400 * u * R ^ 4 := by
  have s0 := h.s_nonneg
  have R2 : R ≤ R ^ 2 := by nlinarith
  have Q0 : 0 ≤ R ^ 2 := by positivity
  have hs2 : s ≤ R ^ 2 := by linarith
  have sR : s * R ≤ s * R ^ 2 := mul_le_mul_of_nonneg_left R2 s0
  obtain ⟨la, ma⟩ := lift_error h hu hs2 ha.1 ha.2
  obtain ⟨lb, mb⟩ := lift_error h hu hs2 hb.1 hb.2
  obtain ⟨lc, mc⟩ := lift_error h hu hs2 hc.1 hc.2
  obtain ⟨ld, md⟩ := lift_error h hu hs2 hd.1 hd.2
  have one1 : |(1 : K)| ≤ 1 := abs_one.le
  exact back4_error h hu hR hs ha hb hc hd ma mb mc md la lb lc ld
    (eliminate_back4 h hu hs (by linarith) (by linarith) (by linarith) (by linarith) (by linarith) hs
      ⟨ha.1, ha.2, lift_size hu Q0 la ma, one1⟩ ⟨hb.1, hb.2, lift_size hu Q0 lb mb, one1⟩
      ⟨hc.1, hc.2, lift_size hu Q0 lc mc, one1⟩ ⟨hd.1, hd.2, lift_size hu Q0 ld md, one1⟩)

/-- C86: without rounding, the elimination of the code gives the answer of the determinant, for all points and tolerances. -/
theorem C86_exact (eps : K) (a b c d : Vertex K) : continenceRounded id eps a b c d = continence eps a b c d := by
  have h : Rounds (id : K → K) 0 0 := ⟨le_rfl, le_rfl, fun x => by simp⟩
  obtain ⟨R, hR, h1, h2, h3, h4, h5, h6, h7, h8⟩ : ∃ R : K, 1 ≤ R ∧ |a.x| ≤ R ∧ |a.y| ≤ R ∧ |b.x| ≤ R ∧ |b.y| ≤ R ∧
      |c.x| ≤ R ∧ |c.y| ≤ R ∧ |d.x| ≤ R ∧ |d.y| ≤ R :=
    ⟨1 + |a.x| + |a.y| + |b.x| + |b.y| + |c.x| + |c.y| + |d.x| + |d.y|, by
      have := abs_nonneg a.x
      have := abs_nonneg a.y
      have := abs_nonneg b.x
      have := abs_nonneg b.y
      have := abs_nonneg c.x
      have := abs_nonneg c.y
      have := abs_nonneg d.x
      have := abs_nonneg d.y
      refine ⟨?_, ?_, ?_, ?_, ?_, ?_, ?_, ?_, ?_⟩ <;> linarith⟩
  have e := circleDet_error h (by norm_num) hR zero_le_one (by norm_num) ⟨h1, h2⟩ ⟨h3, h4⟩ ⟨h5, h6⟩ ⟨h7, h8⟩
  have e' : circleDetRounded id a b c d = circleDet a b c d := by
    rw [mul_zero, zero_mul] at e
    exact sub_eq_zero.1 (abs_nonpos_iff.1 e)
  unfold continenceRounded continence
  rw [e']

/-- C86: with rounding, a point is reported inside (outside) the circle through `a`, `b` and `c` if it clearly is, and only if
it nearly is. Twice the area of the triangle times the difference of the squared distances decides, up to an error that
grows with the fourth power of the coordinates. -/
theorem C86_circle (h : Rounds rnd u s) (hu : u ≤ 1 / 1000) {eps R : K} (he : 0 ≤ eps) (hR : 1 ≤ R) (hs : s ≤ 1)
    (hsR : s * R ^ 2 ≤ 1 / 10) {o a b c d : Vertex K} (ha : |a.x| ≤ R ∧ |a.y| ≤ R) (hb : |b.x| ≤ R ∧ |b.y| ≤ R)
    (hc : |c.x| ≤ R ∧ |c.y| ≤ R) (hd : |d.x| ≤ R ∧ |d.y| ≤ R) (ho : Equidistant o a b c) :
    (eps + 6400 * u * R ^ 4 < cross a b c * (dist2 o a - dist2 o d) → continenceRounded rnd eps a b c d = .inside) ∧
    (cross a b c * (dist2 o a - dist2 o d) < -(eps + 6400 * u * R ^ 4) → continenceRounded rnd eps a b c d = .outside) ∧
    (continenceRounded rnd eps a b c d = .inside → eps - 6400 * u * R ^ 4 < cross a b c * (dist2 o a - dist2 o d)) ∧
    (continenceRounded rnd eps a b c d = .outside → cross a b c * (dist2 o a - dist2 o d) < -(eps - 6400 * u * R ^ 4)) ∧
    (continenceRounded rnd eps a b c d = .boundary → |cross a b c * (dist2 o a - dist2 o d)| ≤ eps + 6400 * u * R ^ 4) := by
  have herr := abs_le.1 (circleDet_error h hu hR hs hsR ha hb hc hd)
  rw [circleDet_eq ho] at herr
  set x := circleDetRounded rnd a b c d with hx
  have hval : continenceRounded rnd eps a b c d =
      if |x| ≤ eps then .boundary else if 0 < x then .inside else .outside := by
    unfold continenceRounded approxEq
    rw [← hx]
    simp
  rw [hval]
  refine ⟨fun hy => ?_, fun hy => ?_, fun hy => ?_, fun hy => ?_, fun hy => ?_⟩
  · have h1 : eps < x := by linarith [herr.1]
    rw [if_neg (not_le.2 (lt_of_lt_of_le h1 (le_abs_self x))), if_pos (lt_of_le_of_lt he h1)]
  · have h1 : x < -eps := by linarith [herr.2]
    rw [if_neg (not_le.2 (by have := neg_le_abs x; linarith)), if_neg (by linarith)]
  · split_ifs at hy with h1 h2
    rw [abs_of_pos h2] at h1
    linarith [herr.2]
  · split_ifs at hy with h1 h2
    rw [abs_of_nonpos (not_lt.1 h2)] at h1
    linarith [herr.1]
  · split_ifs at hy with h1
    have := abs_le.1 h1
    exact abs_le.2 ⟨by linarith [herr.2], by linarith [herr.1]⟩

end

/-! ## The format `f64` -/

theorem lattice_size {x y : ℤ} (hx : |x| ≤ 1000) (hy : |y| ≤ 1000) : |(lattice x y).x| ≤ 1000 ∧ |(lattice x y).y| ≤ 1000 := by
  simp only [lattice, Vertex.mk']
  exact ⟨by exact_mod_cast hx, by exact_mod_cast hy⟩

theorem circleDet_lattice (x y : Fin 4 → ℤ) :
    ∃ n : ℤ, circleDet (lattice (x 0) (y 0)) (lattice (x 1) (y 1)) (lattice (x 2) (y 2)) (lattice (x 3) (y 3)) = n := by
  let minor (a b c d e f : ℤ) : ℤ := (a - e) * (d - f) - (b - f) * (c - e)
  refine ⟨(x 0 ^ 2 + y 0 ^ 2) * minor (x 1) (y 1) (x 2) (y 2) (x 3) (y 3) - (x 1 ^ 2 + y 1 ^ 2) * minor (x 0) (y 0) (x 2) (y 2) (x 3) (y 3)
    + (x 2 ^ 2 + y 2 ^ 2) * minor (x 0) (y 0) (x 1) (y 1) (x 3) (y 3) - (x 3 ^ 2 + y 3 ^ 2) * minor (x 0) (y 0) (x 1) (y 1) (x 2) (y 2), ?_⟩
  simp only [circleDet, det4, det3, lattice, Vertex.mk', minor]
  push_cast
  ring

/-- C86 for the numbers of the program: for points with integer coordinates up to 1000 and a triangle in counterclockwise
order, `f64` never mistakes a point inside the circle for one outside or on it, nor a point outside for one inside or on
it. -/
theorem C86_integers {x y : Fin 4 → ℤ} (hp : ∀ i, |x i| ≤ 1000 ∧ |y i| ≤ 1000) {o a b c d : Vertex ℚ}
    (ea : a = lattice (x 0) (y 0)) (eb : b = lattice (x 1) (y 1)) (ec : c = lattice (x 2) (y 2)) (ed : d = lattice (x 3) (y 3))
    (hccw : 0 < cross a b c) (ho : Equidistant o a b c) :
    (dist2 o d < dist2 o a → continenceRounded roundF64 (1 / 10 ^ 14) a b c d = .inside) ∧
    (dist2 o a < dist2 o d → continenceRounded roundF64 (1 / 10 ^ 14) a b c d = .outside) := by
  have hs : (2 : ℚ) ^ (-1022 : ℤ) ≤ 2 ^ (-53 : ℤ) := zpow_le_zpow_right₀ (by norm_num) (by norm_num)
  have sz : ∀ i : Fin 4, |(lattice (x i) (y i)).x| ≤ 1000 ∧ |(lattice (x i) (y i)).y| ≤ 1000 :=
    fun i => lattice_size (hp i).1 (hp i).2
  have hs1 : (2 : ℚ) ^ (-1022 : ℤ) ≤ 1 := hs.trans (by norm_num)
  have hs2 : (2 : ℚ) ^ (-1022 : ℤ) * 1000 ^ 2 ≤ 1 / 10 := (mul_le_mul_of_nonneg_right hs (by norm_num)).trans (by norm_num)
  obtain ⟨h1, h2, -⟩ := C86_circle (eps := 1 / 10 ^ 14) rounds_f64 (by norm_num) (by norm_num) (R := 1000) (by norm_num) hs1 hs2
    (ea ▸ sz 0) (eb ▸ sz 1) (ec ▸ sz 2) (ed ▸ sz 3) ho
  obtain ⟨n, hn⟩ := circleDet_lattice x y
  rw [← ea, ← eb, ← ec, ← ed, circleDet_eq ho] at hn
  rw [hn] at h1 h2
  constructor
  · intro hlt
    refine h1 ?_
    have hpos : (0 : ℚ) < n := by rw [← hn]; exact mul_pos hccw (sub_pos.2 hlt)
    have : (1 : ℚ) ≤ n := by exact_mod_cast (by exact_mod_cast hpos : (0 : ℤ) < n)
    exact lt_of_lt_of_le (by norm_num) this
  · intro hlt
    refine h2 ?_
    have hneg : (n : ℚ) < 0 := by rw [← hn]; exact mul_neg_of_pos_of_neg hccw (sub_neg.2 hlt)
    have : (n : ℚ) ≤ -1 := by exact_mod_cast Int.le_sub_one_of_lt (by exact_mod_cast hneg : n < (0 : ℤ))
    refine lt_of_le_of_lt this (neg_lt_neg (by norm_num))

/-- C86 fails on the circle: four points with small integer coordinates on a common circle, in convex position, such that
whichever diagonal is taken, one of its two triangles is reported to have the opposite point strictly inside its circle, in
all three notations of that triangle. So by the test of the program these points have no Delaunay triangulation at all. -/
theorem C86_false : ∃ a b c d o : Vertex ℚ,
    a = lattice 0 1 ∧ b = lattice 5 1 ∧ c = lattice 5 4 ∧ d = lattice 1 5 ∧
    (0 < cross a b c ∧ 0 < cross b c d ∧ 0 < cross c d a ∧ 0 < cross d a b) ∧
    (Equidistant o a b c ∧ dist2 o a = dist2 o d) ∧
    (∀ t ∈ [(c, d, a), (d, a, c), (a, c, d)], continenceRounded roundF64 (1 / 10 ^ 14) t.1 t.2.1 t.2.2 b = .inside) ∧
    (∀ t ∈ [(d, a, b), (a, b, d), (b, d, a)], continenceRounded roundF64 (1 / 10 ^ 14) t.1 t.2.1 t.2.2 c = .inside) := by
  refine ⟨_, _, _, _, Vertex.mk' (5 / 2) (5 / 2), rfl, rfl, rfl, rfl, ?_⟩
  unfold Equidistant
  decide +kernel

/-- The hypotheses of `C86_circle` and `C86_integers` are met by a triangle whose circle has its centre at (497, 497), a point
inside and a point outside close to the circle; the computed determinant is not the exact one. -/
example : 0 < cross (lattice 0 3) (lattice 994 3) (lattice 0 991) ∧
    Equidistant (lattice 497 497) (lattice 0 3) (lattice 994 3) (lattice 0 991) ∧
    dist2 (lattice 497 497) (lattice 993 991) < dist2 (lattice 497 497) (lattice 0 3) ∧
    dist2 (lattice 497 497) (lattice 0 3) < dist2 (lattice 497 497) (lattice 995 991) ∧
    continenceRounded roundF64 (1 / 10 ^ 14) (lattice 0 3) (lattice 994 3) (lattice 0 991) (lattice 993 991) = .inside ∧
    continenceRounded roundF64 (1 / 10 ^ 14) (lattice 0 3) (lattice 994 3) (lattice 0 991) (lattice 995 991) = .outside ∧
    circleDetRounded roundF64 (lattice 0 3) (lattice 994 3) (lattice 0 991) (lattice 993 991) ≠
      circleDet (lattice 0 3) (lattice 994 3) (lattice 0 991) (lattice 993 991) := by
  unfold Equidistant
  decide +kernel

end Verif.Props
