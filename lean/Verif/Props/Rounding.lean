import Verif.Model.Rounded
import Verif.Spec.Rounding
import Verif.Spec.Geometry
import Verif.Lemmas.Geometry
import Verif.Lemmas.F64
import Verif.Props.Predicates
import Verif.Props.Validity

/-!
# C83: the orientation test, the circle over a segment and midpoints with rounding
-/

set_option linter.unusedSectionVars false

namespace Verif.Props

open Spec

theorem abs_mul_le {R : Type*} [Ring R] [LinearOrder R] [IsStrictOrderedRing R] {a b A B : R} (ha : |a| ≤ A) (hb : |b| ≤ B) : |a * b| ≤ A * B := by
  rw [abs_mul]
  exact mul_le_mul ha hb (abs_nonneg _) (le_trans (abs_nonneg _) ha)

theorem abs_sub_le_add {R : Type*} [Ring R] [LinearOrder R] [IsStrictOrderedRing R] {a b A B : R} (ha : |a| ≤ A) (hb : |b| ≤ B) : |a - b| ≤ A + B :=
  le_trans (abs_sub a b) (add_le_add ha hb)

section

variable {K : Type*} [Field K] [LinearOrder K] [IsStrictOrderedRing K] {rnd : K → K} {u s : K}

/-- Rounding a number that is already off by `E`. -/
theorem _root_.Verif.Spec.Rounds.near (h : Rounds rnd u s) {x y B E : K} (hE : |y - x| ≤ E) (hB : |x| ≤ B) (hs : s ≤ B) :
    |rnd y - x| ≤ E + u * (B + E) := by
  have e0 : 0 ≤ E := le_trans (abs_nonneg _) hE
  have hy : |y| ≤ B + E := by
    have := abs_add_le (y - x) x
    rw [sub_add_cancel] at this
    linarith
  have h1 : |rnd y - y| ≤ u * (B + E) :=
    le_trans (h.error y) (mul_le_mul_of_nonneg_left (max_le hy (by linarith)) h.u_nonneg)
  have := abs_add_le (rnd y - y) (y - x)
  rw [sub_add_sub_cancel] at this
  linarith

theorem _root_.Verif.Spec.Rounds.exact (h : Rounds rnd u s) {x B : K} (hB : |x| ≤ B) (hs : s ≤ B) : |rnd x - x| ≤ u * B := by
  have := h.near (x := x) (y := x) (E := 0) (by simp) hB hs
  simpa using this

theorem powers_small {u : K} (u0 : 0 ≤ u) (hu : u ≤ 1 / 16) : u ^ 2 ≤ 1 / 256 ∧ u ^ 3 ≤ 1 / 4096 := by
  have h2 := pow_le_pow_left₀ u0 hu 2
  have h3 := pow_le_pow_left₀ u0 hu 3
  norm_num at h2 h3
  norm_num
  exact ⟨h2, h3⟩

theorem poly_orient {u : K} (u0 : 0 ≤ u) (hu : u ≤ 1 / 16) :
    16 + 14 * u + 4 * u ^ 2 + (6 + u * (16 + 14 * u + 4 * u ^ 2)) ≤ 24 := by
  obtain ⟨h2, h3⟩ := powers_small u0 hu
  have : u * (16 + 14 * u + 4 * u ^ 2) = 16 * u + 14 * u ^ 2 + 4 * u ^ 3 := by ring
  rw [this]
  linarith

theorem poly_encroach {u : K} (u0 : 0 ≤ u) (hu : u ≤ 1 / 16) : 8 + 12 * u + 8 * u ^ 2 + 2 * u ^ 3 ≤ 9 := by
  obtain ⟨h2, h3⟩ := powers_small u0 hu
  linarith

/-- How far the determinant of `orientation` can be off. -/
theorem orientDet_error (h : Rounds rnd u s) (hu : u ≤ 1 / 16) {M : K} (hs : s ≤ M) (hs2 : s ≤ M ^ 2) {a b c : Vertex K}
    (ha : |a.x| ≤ M ∧ |a.y| ≤ M) (hb : |b.x| ≤ M ∧ |b.y| ≤ M) (hc : |c.x| ≤ M ∧ |c.y| ≤ M) :
    |orientDetRounded rnd a b c - cross a b c| ≤ 24 * u * M ^ 2 := by
  have u0 := h.u_nonneg
  have M0 : 0 ≤ M := le_trans (abs_nonneg _) ha.1
  have Q0 : 0 ≤ M ^ 2 := by positivity
  have m1 : |rnd (b.y - c.y) - (b.y - c.y)| ≤ u * (2 * M) :=
    h.exact (by have := abs_sub_le_add hb.2 hc.2; linarith) (by linarith)
  have m2 : |rnd (b.x - c.x) - (b.x - c.x)| ≤ u * (2 * M) :=
    h.exact (by have := abs_sub_le_add hb.1 hc.1; linarith) (by linarith)
  have prod : ∀ {p d e : K}, |p| ≤ M → |e - d| ≤ u * (2 * M) → |d| ≤ 2 * M →
      |rnd (p * e) - p * d| ≤ u * M ^ 2 * (4 + 2 * u) := by
    intro p d e hp he hd
    have h1 : |p * e - p * d| ≤ M * (u * (2 * M)) := by
      rw [← mul_sub]
      exact abs_mul_le hp he
    have h2 : |p * d| ≤ 2 * M ^ 2 := le_trans (abs_mul_le hp hd) (le_of_eq (by ring))
    refine le_trans (h.near h1 h2 (by linarith)) (le_of_eq (by ring))
  have p1 := prod ha.1 m1 (by have := abs_sub_le_add hb.2 hc.2; linarith)
  have p2 := prod ha.2 m2 (by have := abs_sub_le_add hb.1 hc.1; linarith)
  have b1 : |a.x * (b.y - c.y)| ≤ 2 * M ^ 2 :=
    le_trans (abs_mul_le ha.1 (abs_sub_le_add hb.2 hc.2)) (le_of_eq (by ring))
  have b2 : |a.y * (b.x - c.x)| ≤ 2 * M ^ 2 :=
    le_trans (abs_mul_le ha.2 (abs_sub_le_add hb.1 hc.1)) (le_of_eq (by ring))
  have d12 : |rnd (rnd (a.x * rnd (b.y - c.y)) - rnd (a.y * rnd (b.x - c.x))) -
      (a.x * (b.y - c.y) - a.y * (b.x - c.x))| ≤ u * M ^ 2 * (12 + 12 * u + 4 * u ^ 2) := by
    have h1 : |rnd (a.x * rnd (b.y - c.y)) - rnd (a.y * rnd (b.x - c.x)) -
        (a.x * (b.y - c.y) - a.y * (b.x - c.x))| ≤ 2 * (u * M ^ 2 * (4 + 2 * u)) := by
      have := abs_sub_le_add p1 p2
      rw [sub_sub_sub_comm] at this
      linarith
    have h2 : |a.x * (b.y - c.y) - a.y * (b.x - c.x)| ≤ 4 * M ^ 2 := by
      have := abs_sub_le_add b1 b2
      linarith
    refine le_trans (h.near h1 h2 (by linarith)) (le_of_eq (by ring))
  have q1 : |rnd (b.x * c.y) - b.x * c.y| ≤ u * M ^ 2 :=
    h.exact (le_trans (abs_mul_le hb.1 hc.2) (le_of_eq (by ring))) hs2
  have q2 : |rnd (c.x * b.y) - c.x * b.y| ≤ u * M ^ 2 :=
    h.exact (le_trans (abs_mul_le hc.1 hb.2) (le_of_eq (by ring))) hs2
  have b3 : |b.x * c.y - c.x * b.y| ≤ 2 * M ^ 2 := by
    have := abs_sub_le_add (abs_mul_le hb.1 hc.2) (abs_mul_le hc.1 hb.2)
    nlinarith
  have d3 : |rnd (rnd (b.x * c.y) - rnd (c.x * b.y)) - (b.x * c.y - c.x * b.y)| ≤ u * M ^ 2 * (4 + 2 * u) := by
    have h1 : |rnd (b.x * c.y) - rnd (c.x * b.y) - (b.x * c.y - c.x * b.y)| ≤ 2 * (u * M ^ 2) := by
      have := abs_sub_le_add q1 q2
      rw [sub_sub_sub_comm] at this
      linarith
    refine le_trans (h.near h1 b3 (by linarith)) (le_of_eq (by ring))
  have hx : cross a b c = a.x * (b.y - c.y) - a.y * (b.x - c.x) + (b.x * c.y - c.x * b.y) := by
    unfold cross
    ring
  rw [hx]
  unfold orientDetRounded
  have h1 := abs_add_le (rnd (rnd (a.x * rnd (b.y - c.y)) - rnd (a.y * rnd (b.x - c.x))) -
      (a.x * (b.y - c.y) - a.y * (b.x - c.x))) (rnd (rnd (b.x * c.y) - rnd (c.x * b.y)) - (b.x * c.y - c.x * b.y))
  rw [← add_sub_add_comm] at h1
  have h2 : |a.x * (b.y - c.y) - a.y * (b.x - c.x) + (b.x * c.y - c.x * b.y)| ≤ 6 * M ^ 2 := by
    have h4 := abs_sub_le_add b1 b2
    have h5 := abs_add_le (a.x * (b.y - c.y) - a.y * (b.x - c.x)) (b.x * c.y - c.x * b.y)
    linarith
  have h3 := h.near (le_trans h1 (add_le_add d12 d3)) h2 (by linarith)
  refine le_trans h3 ?_
  have hpoly := poly_orient u0 hu
  have huM : 0 ≤ u * M ^ 2 := by positivity
  calc u * M ^ 2 * (12 + 12 * u + 4 * u ^ 2) + u * M ^ 2 * (4 + 2 * u) +
        u * (6 * M ^ 2 + (u * M ^ 2 * (12 + 12 * u + 4 * u ^ 2) + u * M ^ 2 * (4 + 2 * u)))
      = u * M ^ 2 * (16 + 14 * u + 4 * u ^ 2 + (6 + u * (16 + 14 * u + 4 * u ^ 2))) := by ring
    _ ≤ u * M ^ 2 * 24 := mul_le_mul_of_nonneg_left hpoly huM
    _ = 24 * u * M ^ 2 := by ring

/-- How far the quantity of `encroach` can be off; `D` bounds the differences of coordinates. -/
theorem encroach_error (h : Rounds rnd u s) (hu : u ≤ 1 / 16) {D : K} (hs : s ≤ D) (hs2 : s ≤ D ^ 2) {p q v : Vertex K}
    (hp : |v.x - p.x| ≤ D ∧ |v.y - p.y| ≤ D) (hq : |v.x - q.x| ≤ D ∧ |v.y - q.y| ≤ D) :
    |encroachMeasureRounded rnd p q v - encroachMeasure p q v| ≤ 9 * u * D ^ 2 := by
  have u0 := h.u_nonneg
  have D0 : 0 ≤ D := le_trans (abs_nonneg _) hp.1
  have Q0 : 0 ≤ D ^ 2 := by positivity
  have prod : ∀ {d e : K}, |d| ≤ D → |e| ≤ D → |rnd (rnd d * rnd e) - d * e| ≤ u * D ^ 2 * (3 + 3 * u + u ^ 2) := by
    intro d e hd he
    have h1 : |rnd d - d| ≤ u * D := h.exact hd hs
    have h2 : |rnd e - e| ≤ u * D := h.exact he hs
    have h3 : |rnd d * rnd e - d * e| ≤ u * D ^ 2 * (2 + u) := by
      have e1 : rnd d * rnd e - d * e = (rnd d - d) * (rnd e - e) + ((rnd d - d) * e + d * (rnd e - e)) := by ring
      rw [e1]
      have k1 := abs_add_le ((rnd d - d) * (rnd e - e)) ((rnd d - d) * e + d * (rnd e - e))
      have k2 := abs_add_le ((rnd d - d) * e) (d * (rnd e - e))
      have k3 := abs_mul_le h1 h2
      have k4 := abs_mul_le h1 he
      have k5 := abs_mul_le hd h2
      have : u * D * (u * D) + (u * D * D + D * (u * D)) = u * D ^ 2 * (2 + u) := by ring
      linarith
    have h4 : |d * e| ≤ D ^ 2 := le_trans (abs_mul_le hd he) (le_of_eq (by ring))
    refine le_trans (h.near h3 h4 hs2) (le_of_eq (by ring))
  have p1 := prod hq.1 hp.1
  have p2 := prod hq.2 hp.2
  unfold encroachMeasureRounded encroachMeasure
  have h1 := abs_add_le (rnd (rnd (v.x - q.x) * rnd (v.x - p.x)) - (v.x - q.x) * (v.x - p.x))
    (rnd (rnd (v.y - q.y) * rnd (v.y - p.y)) - (v.y - q.y) * (v.y - p.y))
  rw [← add_sub_add_comm] at h1
  have h2 : |(v.x - q.x) * (v.x - p.x) + (v.y - q.y) * (v.y - p.y)| ≤ 2 * D ^ 2 := by
    have k1 := abs_add_le ((v.x - q.x) * (v.x - p.x)) ((v.y - q.y) * (v.y - p.y))
    have k2 := abs_mul_le hq.1 hp.1
    have k3 := abs_mul_le hq.2 hp.2
    nlinarith
  have h3 := h.near (le_trans h1 (add_le_add p1 p2)) h2 (by linarith)
  refine le_trans h3 ?_
  have hpoly := poly_encroach u0 hu
  have huD : 0 ≤ u * D ^ 2 := by positivity
  calc u * D ^ 2 * (3 + 3 * u + u ^ 2) + u * D ^ 2 * (3 + 3 * u + u ^ 2) +
        u * (2 * D ^ 2 + (u * D ^ 2 * (3 + 3 * u + u ^ 2) + u * D ^ 2 * (3 + 3 * u + u ^ 2)))
      = u * D ^ 2 * (8 + 12 * u + 8 * u ^ 2 + 2 * u ^ 3) := by ring
    _ ≤ u * D ^ 2 * 9 := mul_le_mul_of_nonneg_left hpoly huD
    _ = 9 * u * D ^ 2 := by ring

/-- C83: with rounding, the orientation test tells the true orientation of three points, up to an explicit error that grows
with the square of the coordinates: it is right for triangles that are clearly no line, and what it reports is never
further from the truth than that. -/
theorem C83_orientation (h : Rounds rnd u s) (hu : u ≤ 1 / 16) {eps M : K} (he : 0 ≤ eps) (hs : s ≤ M) (hs2 : s ≤ M ^ 2)
    {a b c : Vertex K} (ha : |a.x| ≤ M ∧ |a.y| ≤ M) (hb : |b.x| ≤ M ∧ |b.y| ≤ M) (hc : |c.x| ≤ M ∧ |c.y| ≤ M) :
    (eps + 24 * u * M ^ 2 < cross a b c → orientationRounded rnd eps a b c = .counterclockwise) ∧
    (cross a b c < -(eps + 24 * u * M ^ 2) → orientationRounded rnd eps a b c = .clockwise) ∧
    (orientationRounded rnd eps a b c = .counterclockwise → eps - 24 * u * M ^ 2 < cross a b c) ∧
    (orientationRounded rnd eps a b c = .clockwise → cross a b c < -(eps - 24 * u * M ^ 2)) ∧
    (orientationRounded rnd eps a b c = .colinear → |cross a b c| ≤ eps + 24 * u * M ^ 2) := by
  have herr := abs_le.1 (orientDet_error h hu hs hs2 ha hb hc)
  set d := orientDetRounded rnd a b c with hd
  have hval : orientationRounded rnd eps a b c =
      if |d| ≤ eps then .colinear else if 0 < d then .counterclockwise else .clockwise := by
    unfold orientationRounded approxEq
    rw [← hd]
    simp
  rw [hval]
  refine ⟨fun hx => ?_, fun hx => ?_, fun hx => ?_, fun hx => ?_, fun hx => ?_⟩
  · have h1 : eps < d := by linarith [herr.1]
    rw [if_neg (not_le.2 (lt_of_lt_of_le h1 (le_abs_self d))), if_pos (lt_of_le_of_lt he h1)]
  · have h1 : d < -eps := by linarith [herr.2]
    rw [if_neg (not_le.2 (by have := neg_le_abs d; linarith)), if_neg (by linarith)]
  · split_ifs at hx with h1 h2
    rw [abs_of_pos h2] at h1
    linarith [herr.2]
  · split_ifs at hx with h1 h2
    rw [abs_of_nonpos (not_lt.1 h2)] at h1
    linarith [herr.1]
  · split_ifs at hx with h1
    have := abs_le.1 h1
    exact abs_le.2 ⟨by linarith [herr.2], by linarith [herr.1]⟩

/-- C83: when the tolerance is not smaller than the rounding error, a reported orientation is the true one. For the tolerance
`1e-14` of the code and `f64` this means coordinates of size up to 1.9. -/
theorem C83_reliable (h : Rounds rnd u s) (hu : u ≤ 1 / 16) {eps M : K} (he : 0 ≤ eps) (hs : s ≤ M) (hs2 : s ≤ M ^ 2)
    (hM : 24 * u * M ^ 2 ≤ eps) {a b c : Vertex K} (ha : |a.x| ≤ M ∧ |a.y| ≤ M) (hb : |b.x| ≤ M ∧ |b.y| ≤ M)
    (hc : |c.x| ≤ M ∧ |c.y| ≤ M) :
    (orientationRounded rnd eps a b c = .counterclockwise → 0 < cross a b c) ∧
    (orientationRounded rnd eps a b c = .clockwise → cross a b c < 0) := by
  obtain ⟨-, -, h1, h2, -⟩ := C83_orientation h hu he hs hs2 ha hb hc
  exact ⟨fun hx => by linarith [h1 hx], fun hx => by linarith [h2 hx]⟩

/-- C83 for `encroach`: with rounding, a point is reported inside (outside) the circle over a segment if it clearly is, and
only if it nearly is. The error depends on the distances only, not on the place. -/
theorem C83_encroach (h : Rounds rnd u s) (hu : u ≤ 1 / 16) {eps D : K} (he : 0 ≤ eps) (hs : s ≤ D) (hs2 : s ≤ D ^ 2)
    {p q v : Vertex K} (hp : |v.x - p.x| ≤ D ∧ |v.y - p.y| ≤ D) (hq : |v.x - q.x| ≤ D ∧ |v.y - q.y| ≤ D) :
    (dist2 (centre p q) v < dist2 p q / 4 - (eps + 9 * u * D ^ 2) → encroachRounded rnd eps p q v = .inside) ∧
    (dist2 p q / 4 + (eps + 9 * u * D ^ 2) < dist2 (centre p q) v → encroachRounded rnd eps p q v = .outside) ∧
    (encroachRounded rnd eps p q v = .inside → dist2 (centre p q) v < dist2 p q / 4 - (eps - 9 * u * D ^ 2)) ∧
    (encroachRounded rnd eps p q v = .outside → dist2 p q / 4 + (eps - 9 * u * D ^ 2) < dist2 (centre p q) v) ∧
    (encroachRounded rnd eps p q v = .boundary →
      |dist2 (centre p q) v - dist2 p q / 4| ≤ eps + 9 * u * D ^ 2) := by
  have hm := encroachMeasure_centre p q v
  have herr := abs_le.1 (encroach_error h hu hs hs2 hp hq)
  set d := encroachMeasureRounded rnd p q v with hd
  have hval : encroachRounded rnd eps p q v =
      if |d| ≤ eps then .boundary else if 0 < d then .outside else .inside := by
    unfold encroachRounded approxEq
    rw [← hd]
    simp
  rw [hval]
  refine ⟨fun hx => ?_, fun hx => ?_, fun hx => ?_, fun hx => ?_, fun hx => ?_⟩
  · have h1 : d < -eps := by linarith [herr.2]
    rw [if_neg (not_le.2 (by have := neg_le_abs d; linarith)), if_neg (by linarith)]
  · have h1 : eps < d := by linarith [herr.1]
    rw [if_neg (not_le.2 (lt_of_lt_of_le h1 (le_abs_self d))), if_pos (lt_of_le_of_lt he h1)]
  · split_ifs at hx with h1 h2
    rw [abs_of_nonpos (not_lt.1 h2)] at h1
    linarith [herr.1]
  · split_ifs at hx with h1 h2
    rw [abs_of_pos h2] at h1
    linarith [herr.2]
  · split_ifs at hx with h1
    have := abs_le.1 h1
    exact abs_le.2 ⟨by linarith [herr.2], by linarith [herr.1]⟩

/-- C83 for `area_triangle`: the signed area, half the determinant, is off by at most half of the margin of the orientation
test. -/
theorem C83_area (h : Rounds rnd u s) (hu : u ≤ 1 / 16) {M : K} (hs : s ≤ M) (hs2 : s ≤ M ^ 2) {a b c : Vertex K}
    (ha : |a.x| ≤ M ∧ |a.y| ≤ M) (hb : |b.x| ≤ M ∧ |b.y| ≤ M) (hc : |c.x| ≤ M ∧ |c.y| ≤ M) :
    |areaTriangleRounded rnd a b c - cross a b c / 2| ≤ 12 * u * M ^ 2 := by
  have h1 := orientDet_error h hu hs hs2 ha hb hc
  unfold areaTriangleRounded
  rw [← sub_div, abs_div, abs_of_pos (by norm_num : (0 : K) < 2)]
  linarith

/-- C83 for `midpoint`: each coordinate is off by at most `u` times the size of the coordinates. -/
theorem C83_midpoint (h : Rounds rnd u s) {M : K} (hs : s ≤ 2 * M) {p q : Vertex K} (gp : p.isGhost = false)
    (gq : q.isGhost = false) (hp : |p.x| ≤ M ∧ |p.y| ≤ M) (hq : |q.x| ≤ M ∧ |q.y| ≤ M) :
    |(midpointRounded rnd p q).x - (p.x + q.x) / 2| ≤ u * M ∧
    |(midpointRounded rnd p q).y - (p.y + q.y) / 2| ≤ u * M := by
  have half : ∀ {a b : K}, |a| ≤ M → |b| ≤ M → |rnd (a + b) / 2 - (a + b) / 2| ≤ u * M := by
    intro a b ha hb
    have h1 : |rnd (a + b) - (a + b)| ≤ u * (2 * M) :=
      h.exact (by have := abs_add_le a b; linarith) hs
    rw [← sub_div, abs_div, abs_of_pos (by norm_num : (0 : K) < 2)]
    linarith
  simp only [midpointRounded, gp, gq, Bool.or_self, Bool.false_eq_true, if_false, Vertex.mk']
  exact ⟨half hp.1 hq.1, half hp.2 hq.2⟩

end

/-! ## The format `f64` -/

/-- A point of the plane with integer coordinates. -/
def lattice (x y : ℤ) : Vertex ℚ := Vertex.mk' x y

/-- C83 for the numbers of the program: with the tolerance `1e-14` of the code and the rounding of `f64`, a reported
orientation is the true one for coordinates of size up to 1.9. -/
theorem C83_f64 {a b c : Vertex ℚ} (ha : |a.x| ≤ 19 / 10 ∧ |a.y| ≤ 19 / 10) (hb : |b.x| ≤ 19 / 10 ∧ |b.y| ≤ 19 / 10)
    (hc : |c.x| ≤ 19 / 10 ∧ |c.y| ≤ 19 / 10) :
    (orientationRounded roundF64 (1 / 10 ^ 14) a b c = .counterclockwise → 0 < cross a b c) ∧
    (orientationRounded roundF64 (1 / 10 ^ 14) a b c = .clockwise → cross a b c < 0) := by
  have hs : (2 : ℚ) ^ (-1022 : ℤ) ≤ 1 := zpow_le_one_of_nonpos₀ (by norm_num) (by norm_num)
  exact C83_reliable rounds_f64 (by norm_num) (by norm_num) (by linarith) (hs.trans (by norm_num)) (by norm_num) ha hb hc

/-- C83 fails for large coordinates: with the rounding of `f64` three points with integer coordinates that turn clockwise
are reported counterclockwise. -/
theorem C83_false : ∃ a b c : Vertex ℚ, a = lattice 367892902 487990804 ∧ b = lattice 367893319 488006651 ∧
    c = lattice 367892912 487991184 ∧ cross a b c < 0 ∧
    orientationRounded roundF64 (1 / 10 ^ 14) a b c = .counterclockwise :=
  ⟨_, _, _, rfl, rfl, rfl, by decide +kernel, by decide +kernel⟩

theorem orientDet_grid {e : ℤ} (he : -537 ≤ e) {a b c : Vertex ℚ} (ha : OnGrid e a.x ∧ OnGrid e a.y)
    (hb : OnGrid e b.x ∧ OnGrid e b.y) (hc : OnGrid e c.x ∧ OnGrid e c.y) :
    orientDetRounded roundF64 a b c = orientDet a b c := by
  obtain ⟨⟨ax, hax, eax⟩, ay, hay, eay⟩ := ha
  obtain ⟨⟨bx, hbx, ebx⟩, «by», hby, eby⟩ := hb
  obtain ⟨⟨cx, hcx, ecx⟩, cy, hcy, ecy⟩ := hc
  have pw : (2 : ℚ) ^ (e + e) = (2 : ℚ) ^ e * (2 : ℚ) ^ e := zpow_add₀ (by norm_num) _ _
  have h1074 : -1074 ≤ e + e := by omega
  have h1074' : -1074 ≤ e := by omega
  obtain ⟨g, hg⟩ : ∃ g, (2 : ℚ) ^ e = g := ⟨_, rfl⟩
  rw [hg] at eax eay ebx eby ecx ecy pw
  clear he
  have b1 := abs_sub_le_add hby hcy
  have b2 := abs_sub_le_add hbx hcx
  have p1 := abs_mul_le hax b1
  have p2 := abs_mul_le hay b2
  have p3 := abs_mul_le hbx hcy
  have p4 := abs_mul_le hcx hby
  have p5 := abs_sub_le_add p3 p4
  have p6 := abs_sub_le_add p1 p2
  have p7 := (abs_add_le _ _).trans (add_le_add p6 p5)
  have r1 : roundF64 (b.y - c.y) = b.y - c.y :=
    roundF64_grid (n := «by» - cy) (b1.trans (by norm_num)) h1074' (by rw [hg, eby, ecy]; push_cast; ring)
  have r2 : roundF64 (b.x - c.x) = b.x - c.x :=
    roundF64_grid (n := bx - cx) (b2.trans (by norm_num)) h1074' (by rw [hg, ebx, ecx]; push_cast; ring)
  have r3 : roundF64 (b.x * c.y) = b.x * c.y :=
    roundF64_grid (n := bx * cy) (p3.trans (by norm_num)) h1074 (by rw [ebx, ecy, pw]; push_cast; ring)
  have r4 : roundF64 (c.x * b.y) = c.x * b.y :=
    roundF64_grid (n := cx * «by») (p4.trans (by norm_num)) h1074 (by rw [ecx, eby, pw]; push_cast; ring)
  have r5 : roundF64 (b.x * c.y - c.x * b.y) = b.x * c.y - c.x * b.y :=
    roundF64_grid (n := bx * cy - cx * «by») (p5.trans (by norm_num)) h1074 (by rw [ecx, eby, ebx, ecy, pw]; push_cast; ring)
  have r6 : roundF64 (a.x * (b.y - c.y)) = a.x * (b.y - c.y) :=
    roundF64_grid (n := ax * («by» - cy)) (p1.trans (by norm_num)) h1074 (by rw [eax, eby, ecy, pw]; push_cast; ring)
  have r7 : roundF64 (a.y * (b.x - c.x)) = a.y * (b.x - c.x) :=
    roundF64_grid (n := ay * (bx - cx)) (p2.trans (by norm_num)) h1074 (by rw [eay, ebx, ecx, pw]; push_cast; ring)
  have r8 : roundF64 (a.x * (b.y - c.y) - a.y * (b.x - c.x)) = a.x * (b.y - c.y) - a.y * (b.x - c.x) :=
    roundF64_grid (n := ax * («by» - cy) - ay * (bx - cx)) (p6.trans (by norm_num)) h1074
      (by rw [eax, eay, eby, ecy, ebx, ecx, pw]; push_cast; ring)
  have r9 : roundF64 (a.x * (b.y - c.y) - a.y * (b.x - c.x) + (b.x * c.y - c.x * b.y)) =
      a.x * (b.y - c.y) - a.y * (b.x - c.x) + (b.x * c.y - c.x * b.y) :=
    roundF64_grid (n := ax * («by» - cy) - ay * (bx - cx) + (bx * cy - cx * «by»)) (p7.trans (by norm_num)) h1074
      (by rw [eax, eay, eby, ecy, ebx, ecx, pw]; push_cast; ring)
  simp only [orientDetRounded, r1, r2, r3, r4, r5, r6, r7, r8, r9]
  simp only [orientDet, det3]
  ring

theorem encroachMeasure_grid {e : ℤ} (he : -537 ≤ e) {a b c : Vertex ℚ} (ha : OnGrid e a.x ∧ OnGrid e a.y)
    (hb : OnGrid e b.x ∧ OnGrid e b.y) (hc : OnGrid e c.x ∧ OnGrid e c.y) :
    encroachMeasureRounded roundF64 a b c = encroachMeasure a b c := by
  obtain ⟨⟨ax, hax, eax⟩, ay, hay, eay⟩ := ha
  obtain ⟨⟨bx, hbx, ebx⟩, «by», hby, eby⟩ := hb
  obtain ⟨⟨cx, hcx, ecx⟩, cy, hcy, ecy⟩ := hc
  have pw : (2 : ℚ) ^ (e + e) = (2 : ℚ) ^ e * (2 : ℚ) ^ e := zpow_add₀ (by norm_num) _ _
  have h1074 : -1074 ≤ e + e := by omega
  have h1074' : -1074 ≤ e := by omega
  obtain ⟨g, hg⟩ : ∃ g, (2 : ℚ) ^ e = g := ⟨_, rfl⟩
  rw [hg] at eax eay ebx eby ecx ecy pw
  clear he
  have q1 := abs_sub_le_add hcx hbx
  have q2 := abs_sub_le_add hcx hax
  have q3 := abs_sub_le_add hcy hby
  have q4 := abs_sub_le_add hcy hay
  have q5 := abs_mul_le q1 q2
  have q6 := abs_mul_le q3 q4
  have q7 := (abs_add_le _ _).trans (add_le_add q5 q6)
  have r1 : roundF64 (c.x - b.x) = c.x - b.x :=
    roundF64_grid (n := cx - bx) (q1.trans (by norm_num)) h1074' (by rw [hg, ebx, ecx]; push_cast; ring)
  have r2 : roundF64 (c.x - a.x) = c.x - a.x :=
    roundF64_grid (n := cx - ax) (q2.trans (by norm_num)) h1074' (by rw [hg, eax, ecx]; push_cast; ring)
  have r3 : roundF64 (c.y - b.y) = c.y - b.y :=
    roundF64_grid (n := cy - «by») (q3.trans (by norm_num)) h1074' (by rw [hg, eby, ecy]; push_cast; ring)
  have r4 : roundF64 (c.y - a.y) = c.y - a.y :=
    roundF64_grid (n := cy - ay) (q4.trans (by norm_num)) h1074' (by rw [hg, eay, ecy]; push_cast; ring)
  have r5 : roundF64 ((c.x - b.x) * (c.x - a.x)) = (c.x - b.x) * (c.x - a.x) :=
    roundF64_grid (n := (cx - bx) * (cx - ax)) (q5.trans (by norm_num)) h1074 (by rw [eax, ebx, ecx, pw]; push_cast; ring)
  have r6 : roundF64 ((c.y - b.y) * (c.y - a.y)) = (c.y - b.y) * (c.y - a.y) :=
    roundF64_grid (n := (cy - «by») * (cy - ay)) (q6.trans (by norm_num)) h1074 (by rw [eay, eby, ecy, pw]; push_cast; ring)
  have r7 : roundF64 ((c.x - b.x) * (c.x - a.x) + (c.y - b.y) * (c.y - a.y)) =
      (c.x - b.x) * (c.x - a.x) + (c.y - b.y) * (c.y - a.y) :=
    roundF64_grid (n := (cx - bx) * (cx - ax) + (cy - «by») * (cy - ay)) (q7.trans (by norm_num)) h1074
      (by rw [eax, ebx, ecx, eay, eby, ecy, pw]; push_cast; ring)
  simp only [encroachMeasureRounded, encroachMeasure, r1, r2, r3, r4, r5, r6, r7]

/-- C83 on a grid: for points of a grid of width `2 ^ e` (integers for `e = 0`) up to `2 ^ 25` steps from the origin, the
orientation test and the circle test of `f64` give the answers of exact arithmetic. -/
theorem C83_grid {e : ℤ} (he : -537 ≤ e) {eps : ℚ} {a b c : Vertex ℚ} (ha : OnGrid e a.x ∧ OnGrid e a.y)
    (hb : OnGrid e b.x ∧ OnGrid e b.y) (hc : OnGrid e c.x ∧ OnGrid e c.y) :
    orientationRounded roundF64 eps a b c = orientation eps a b c ∧
    encroachRounded roundF64 eps a b c = encroach eps a b c := by
  exact ⟨by simp only [orientationRounded, orientation, orientDet_grid he ha hb hc],
    by simp only [encroachRounded, encroach, encroachMeasure_grid he ha hb hc]⟩

/-- The hypotheses of `C83_grid` and of `C83_f64` are met: a triangle of integers, and one of the unit square whose answer
needs rounding (a tenth is no number of the format). -/
example : (OnGrid 0 (lattice 0 0).x ∧ OnGrid 0 (lattice 1000003 7).x) ∧
    orientationRounded roundF64 (1 / 10 ^ 14) (lattice 0 0) (lattice 1000003 7) (lattice 7 1000003) = .counterclockwise ∧
    orientationRounded roundF64 (1 / 10 ^ 14) (Vertex.mk' (roundF64 (1 / 10)) 0) (Vertex.mk' 1 (roundF64 (1 / 3)))
      (Vertex.mk' 0 1) = .counterclockwise ∧
    orientDetRounded roundF64 (Vertex.mk' (roundF64 (1 / 10)) 0) (Vertex.mk' 1 (roundF64 (1 / 3))) (Vertex.mk' 0 1) ≠
      cross (Vertex.mk' (roundF64 (1 / 10)) 0) (Vertex.mk' 1 (roundF64 (1 / 3))) (Vertex.mk' 0 1) := by
  refine ⟨⟨⟨0, by norm_num, by simp [lattice, Vertex.mk']⟩, ⟨1000003, by norm_num, by simp [lattice, Vertex.mk']⟩⟩, ?_⟩
  decide +kernel

/-- The hypotheses of `C83_orientation`, `C83_encroach`, `C83_area` and `C83_midpoint` are met by `f64` and points in a box of size 12. -/
example {a b c : Vertex ℚ} (ga : a.isGhost = false) (gb : b.isGhost = false) (ha : |a.x| ≤ 12 ∧ |a.y| ≤ 12)
    (hb : |b.x| ≤ 12 ∧ |b.y| ≤ 12) (hc : |c.x| ≤ 12 ∧ |c.y| ≤ 12) :
    (1 / 10 ^ 12 < cross a b c → orientationRounded roundF64 (1 / 10 ^ 14) a b c = .counterclockwise) ∧
    (dist2 (centre a b) c < dist2 a b / 4 - 1 / 10 ^ 12 → encroachRounded roundF64 (1 / 10 ^ 14) a b c = .inside) ∧
    |areaTriangleRounded roundF64 a b c - cross a b c / 2| ≤ 1 / 10 ^ 12 ∧
    |(midpointRounded roundF64 a b).x - (a.x + b.x) / 2| ≤ 1 / 10 ^ 14 := by
  have hs : (2 : ℚ) ^ (-1022 : ℤ) ≤ 1 := zpow_le_one_of_nonpos₀ (by norm_num) (by norm_num)
  have hd : ∀ {x y : ℚ}, |x| ≤ 12 → |y| ≤ 12 → |x - y| ≤ 24 := fun hx hy => by
    have := abs_sub_le_add hx hy
    linarith
  refine ⟨fun h => ?_, fun h => ?_, ?_, ?_⟩
  · exact (C83_orientation rounds_f64 (by norm_num) (by norm_num) (by linarith) (hs.trans (by norm_num)) ha hb hc).1
      (lt_of_le_of_lt (by norm_num) h)
  · exact (C83_encroach rounds_f64 (by norm_num) (by norm_num) (by linarith) (hs.trans (by norm_num))
      ⟨hd hc.1 ha.1, hd hc.2 ha.2⟩ ⟨hd hc.1 hb.1, hd hc.2 hb.2⟩).1
      (lt_of_lt_of_le h (sub_le_sub_left (by norm_num) _))
  · exact le_trans (C83_area rounds_f64 (by norm_num) (by linarith) (hs.trans (by norm_num)) ha hb hc) (by norm_num)
  · exact le_trans (C83_midpoint rounds_f64 (by linarith) ga gb ha hb).1 (by norm_num)

/-! ## C84: midpoints of `f64` -/

/-- C84: the midpoint of a segment computed with `f64` has coordinates between those of the endpoints, so a side that is
cut gives two parts inside its box. -/
theorem C84_between {p q : Vertex ℚ} (gp : p.isGhost = false) (gq : q.isGhost = false)
    (hp : IsF64 p.x ∧ IsF64 p.y) (hq : IsF64 q.x ∧ IsF64 q.y) :
    min p.x q.x ≤ (midpointRounded roundF64 p q).x ∧ (midpointRounded roundF64 p q).x ≤ max p.x q.x ∧
    min p.y q.y ≤ (midpointRounded roundF64 p q).y ∧ (midpointRounded roundF64 p q).y ≤ max p.y q.y := by
  have half : ∀ {a b : ℚ}, IsF64 a → IsF64 b → min a b ≤ roundF64 (a + b) / 2 ∧ roundF64 (a + b) / 2 ≤ max a b := by
    intro a b ha hb
    rcases le_total a b with h | h
    · have h1 := le_roundF64 (x := a + b) ha.double (by linarith)
      have h2 := roundF64_le (x := a + b) hb.double (by linarith)
      rw [min_eq_left h, max_eq_right h]
      constructor <;> linarith
    · have h1 := le_roundF64 (x := a + b) hb.double (by linarith)
      have h2 := roundF64_le (x := a + b) ha.double (by linarith)
      rw [min_eq_right h, max_eq_left h]
      constructor <;> linarith
  simp only [midpointRounded, gp, gq, Bool.or_self, Bool.false_eq_true, if_false, Vertex.mk']
  exact ⟨(half hp.1 hq.1).1, (half hp.1 hq.1).2, (half hp.2 hq.2).1, (half hp.2 hq.2).2⟩

/-- C84 fails strictly: the computed midpoint of two different vertices can be one of them. -/
theorem C84_endpoint_false : ∃ p q : Vertex ℚ, p = Vertex.mk' 1 0 ∧ q = Vertex.mk' (1 + 1 / 2 ^ 52) 0 ∧
    (IsF64 p.x ∧ IsF64 q.x) ∧ p ≠ q ∧ midpointRounded roundF64 p q = p := by
  refine ⟨_, _, rfl, rfl, ⟨⟨1, 0, by norm_num, by norm_num, by simp [Vertex.mk']⟩,
    ⟨2 ^ 52 + 1, -52, by norm_num, by norm_num, by simp [Vertex.mk']; norm_num⟩⟩, by decide +kernel, by decide +kernel⟩

end Verif.Props
