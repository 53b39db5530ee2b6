import Verif.Lemmas.RoundedDomain
import Verif.Lemmas.F64Split
import Verif.Props.RoundedInsert
import Verif.Props.Interior

/-!
# C89: inner vertices and the middles of the sides, in `f64`

`may_insert_triangle` asks where a segment lies in the boundary. The answer looks at the middle of every side of the boundary
too, and expects it to be on the boundary. Middles are rounded.
-/

set_option linter.unusedSectionVars false

namespace Verif.Props

open Spec Triangulator

/-! ## Where the middles of the sides are judged on the boundary -/

theorem midpointRounded_coords (e : Edge (Vertex ℚ)) :
    e.midpointRounded roundF64 = Vertex.mk' (halfway e.v1.x e.v2.x) (halfway e.v1.y e.v2.y) := rfl

theorem side_judged {b : Polyline (Vertex ℚ)} {eps : ℚ} (hb : b.opened = false) {s : Vertex ℚ × Vertex ℚ}
    (hs : s ∈ pairs b.vertices false) (h1 : IsF64 s.1.x ∧ IsF64 s.1.y) (h2 : IsF64 s.2.x ∧ IsF64 s.2.y)
    (h : s.1.x ≠ s.2.x →
      orientationRounded roundF64 eps s.1 s.2 (Edge.midpointRounded roundF64 ⟨s.1, s.2⟩) = .colinear) :
    b.containsRounded roundF64 eps (Edge.midpointRounded roundF64 ⟨s.1, s.2⟩) = some .boundary := by
  unfold Polyline.containsRounded
  rw [hb]
  simp only [Bool.false_eq_true, if_false, Option.some.injEq]
  refine containsLoopRounded_hit hs ?_ 0
  obtain ⟨x1, x2⟩ := halfway_between h1.1 h2.1
  by_cases hx : s.1.x = s.2.x
  · left
    refine ⟨hx, ?_, halfway_between h1.2 h2.2⟩
    rw [midpointRounded_coords]
    simp only [Vertex.mk']
    rw [hx] at x1 x2 ⊢
    simp only [min_self, max_self] at x1 x2
    exact le_antisymm x1 x2
  · exact Or.inr ⟨hx, x1, x2, h hx⟩

/-- The coordinate is an integer of size up to `2 ^ 24` times `2 ^ e`. For `e = 0` these are the integers up to 16777216. -/
def Coarse (e : ℤ) (x : ℚ) : Prop := ∃ n : ℤ, |n| ≤ 2 ^ 24 ∧ x = n * (2 : ℚ) ^ e

theorem Coarse.half {e : ℤ} {x : ℚ} (h : Coarse e x) : OnGrid (e - 1) x := by
  obtain ⟨n, hn, rfl⟩ := h
  refine ⟨2 * n, by rw [abs_mul, abs_two]; linarith, ?_⟩
  rw [zpow_sub₀ (by norm_num)]
  push_cast
  ring

theorem Coarse.isF64 {e : ℤ} (he : -536 ≤ e) {x : ℚ} (h : Coarse e x) : IsF64 x := by
  obtain ⟨n, hn, rfl⟩ := h
  exact ⟨n, e, lt_of_le_of_lt hn (by norm_num), by omega, rfl⟩

theorem Coarse.middle {e : ℤ} (he : -536 ≤ e) {x y : ℚ} (hx : Coarse e x) (hy : Coarse e y) :
    halfway x y = (x + y) / 2 ∧ OnGrid (e - 1) ((x + y) / 2) := by
  obtain ⟨n, hn, rfl⟩ := hx
  obtain ⟨k, hk, rfl⟩ := hy
  have hs : |n + k| ≤ 2 ^ 25 := le_trans (abs_add_le n k) (by linarith)
  have e1 : (n : ℚ) * 2 ^ e + k * 2 ^ e = ((n + k : ℤ) : ℚ) * 2 ^ e := by push_cast; ring
  have e2 : ((n + k : ℤ) : ℚ) * 2 ^ e / 2 = ((n + k : ℤ) : ℚ) * 2 ^ (e - 1) := by
    rw [zpow_sub₀ (by norm_num)]
    ring
  rw [e1]
  refine ⟨?_, n + k, hs, e2⟩
  unfold halfway
  rw [e1, roundF64_of_isF64 ⟨n + k, e, lt_of_le_of_lt hs (by norm_num), by omega, rfl⟩, e2,
    roundF64_of_isF64 ⟨n + k, e - 1, lt_of_le_of_lt hs (by norm_num), by omega, rfl⟩]

/-- C89: when the corners of the boundary are on a grid, for instance integers up to 16777216, then in `f64` the computed
middle of every side is judged to be on the boundary, as it is. -/
theorem C89_grid {e : ℤ} (he : -536 ≤ e) {eps : ℚ} (h0 : 0 ≤ eps) {b : Polyline (Vertex ℚ)} (hb : b.opened = false)
    (hv : ∀ v ∈ b.vertices, Coarse e v.x ∧ Coarse e v.y) {s : Vertex ℚ × Vertex ℚ} (hs : s ∈ pairs b.vertices false) :
    b.containsRounded roundF64 eps (Edge.midpointRounded roundF64 ⟨s.1, s.2⟩) = some .boundary := by
  obtain ⟨m1, m2⟩ := mem_pairs hs
  have k1 := hv _ m1
  have k2 := hv _ m2
  refine side_judged hb hs ⟨k1.1.isF64 he, k1.2.isF64 he⟩ ⟨k2.1.isF64 he, k2.2.isF64 he⟩ fun _ => ?_
  obtain ⟨x1, x2⟩ := Coarse.middle he k1.1 k2.1
  obtain ⟨y1, y2⟩ := Coarse.middle he k1.2 k2.2
  rw [midpointRounded_coords, VertexOnGrid.orientation (e := e - 1) (by omega) ⟨k1.1.half, k1.2.half⟩
    ⟨k2.1.half, k2.2.half⟩]
  · simp only [x1, y1]
    unfold orientation
    rw [if_pos]
    rw [orientDet_eq]
    unfold approxEq
    rw [decide_eq_true_iff]
    have : cross s.1 s.2 (Vertex.mk' ((s.1.x + s.2.x) / 2) ((s.1.y + s.2.y) / 2)) = 0 := by
      simp only [cross, Vertex.mk']
      ring
    rw [this]
    simpa using h0
  · exact ⟨by simpa [Vertex.mk', x1] using x2, by simpa [Vertex.mk', y1] using y2⟩

/-- The triangle (0,0), (1000000,1), (3,777777) meets the hypotheses. -/
example : let b : Polyline (Vertex ℚ) :=
      ⟨[Vertex.mk' 0 0, Vertex.mk' 1000000 1, Vertex.mk' 3 777777], false, by simp⟩
    ∀ s ∈ pairs b.vertices false,
      b.containsRounded roundF64 (1 / 10 ^ 14) (Edge.midpointRounded roundF64 ⟨s.1, s.2⟩) = some .boundary := by
  intro b s hs
  refine C89_grid (e := 0) (by norm_num) (by norm_num) rfl ?_ hs
  intro v hv
  simp only [b, List.mem_cons, List.not_mem_nil, or_false] at hv
  rcases hv with rfl | rfl | rfl
  · exact ⟨⟨0, by norm_num, by norm_num [Vertex.mk']⟩, 0, by norm_num, by norm_num [Vertex.mk']⟩
  · exact ⟨⟨1000000, by norm_num, by norm_num [Vertex.mk']⟩, 1, by norm_num, by norm_num [Vertex.mk']⟩
  · exact ⟨⟨3, by norm_num, by norm_num [Vertex.mk']⟩, 777777, by norm_num, by norm_num [Vertex.mk']⟩

/-- C89: the same for any coordinates of `f64` of size up to 1.7, with the tolerance `1e-14` of the code. -/
theorem C89_unit {b : Polyline (Vertex ℚ)} (hb : b.opened = false)
    (hv : ∀ v ∈ b.vertices, IsF64 v.x ∧ IsF64 v.y ∧ |v.x| ≤ 17 / 10 ∧ |v.y| ≤ 17 / 10) {s : Vertex ℚ × Vertex ℚ}
    (hs : s ∈ pairs b.vertices false) :
    b.containsRounded roundF64 (1 / 10 ^ 14) (Edge.midpointRounded roundF64 ⟨s.1, s.2⟩) = some .boundary := by
  obtain ⟨m1, m2⟩ := mem_pairs hs
  obtain ⟨fx, fy, bx, by'⟩ := hv _ m1
  obtain ⟨gx, gy, cx, cy⟩ := hv _ m2
  refine side_judged hb hs ⟨fx, fy⟩ ⟨gx, gy⟩ fun _ => ?_
  have hsm : (2 : ℚ) ^ (-1022 : ℤ) ≤ 1 := zpow_le_one_of_nonpos₀ (by norm_num) (by norm_num)
  have near : ∀ {x y : ℚ}, IsF64 x → IsF64 y → |x| ≤ 17 / 10 → |y| ≤ 17 / 10 →
      |halfway x y - (x + y) / 2| ≤ 17 / 10 / 2 ^ 53 := by
    intro x y hx hy kx ky
    have hsum : |(x + y) / 2| ≤ 17 / 10 := by
      rw [abs_div, abs_two]
      have := abs_add_le x y
      linarith
    have h1 := rounds_f64.error ((x + y) / 2)
    have h2 : max |(x + y) / 2| ((2 : ℚ) ^ (-1022 : ℤ)) ≤ 17 / 10 := max_le hsum (by linarith)
    have h3 := halfway_nearest hx hy (roundF64_isF64 ((x + y) / 2))
    have h4 : (1 / 2 ^ 53 : ℚ) * max |(x + y) / 2| ((2 : ℚ) ^ (-1022 : ℤ)) ≤ 1 / 2 ^ 53 * (17 / 10) :=
      mul_le_mul_of_nonneg_left h2 (by norm_num)
    linarith
  have small : ∀ {x y : ℚ}, IsF64 x → IsF64 y → |x| ≤ 17 / 10 → |y| ≤ 17 / 10 → |halfway x y| ≤ 17 / 10 := by
    intro x y hx hy kx ky
    obtain ⟨h1, h2⟩ := halfway_between hx hy
    rw [abs_le] at kx ky ⊢
    exact ⟨le_trans (le_min kx.1 ky.1) h1, le_trans h2 (max_le kx.2 ky.2)⟩
  have nx := near fx gx bx cx
  have ny := near fy gy by' cy
  rw [midpointRounded_coords]
  set p := halfway s.1.x s.2.x with hp
  set q := halfway s.1.y s.2.y with hq
  have herr := orientDet_error rounds_f64 (by norm_num) (M := 17 / 10) (by linarith) (hsm.trans (by norm_num)) ⟨bx, by'⟩
    ⟨cx, cy⟩ (c := Vertex.mk' p q) ⟨small fx gx bx cx, small fy gy by' cy⟩
  have hc : |cross s.1 s.2 (Vertex.mk' p q)| ≤ 4 * (17 / 10) * (17 / 10 / 2 ^ 53) := by
    have e1 : cross s.1 s.2 (Vertex.mk' p q) =
        (s.2.x - s.1.x) * (q - (s.1.y + s.2.y) / 2) - (s.2.y - s.1.y) * (p - (s.1.x + s.2.x) / 2) := by
      simp only [cross, Vertex.mk']
      ring
    have d1 : |s.2.x - s.1.x| ≤ 2 * (17 / 10) := le_trans (abs_sub _ _) (by linarith)
    have d2 : |s.2.y - s.1.y| ≤ 2 * (17 / 10) := le_trans (abs_sub _ _) (by linarith)
    rw [e1]
    refine le_trans (abs_sub _ _) ?_
    rw [abs_mul, abs_mul]
    have k1 := mul_le_mul d1 ny (abs_nonneg _) (by norm_num)
    have k2 := mul_le_mul d2 nx (abs_nonneg _) (by norm_num)
    linarith
  unfold orientationRounded approxEq
  rw [if_pos]
  rw [decide_eq_true_iff, sub_zero]
  have := abs_le.1 herr
  have := abs_le.1 hc
  rw [abs_le]
  constructor <;> norm_num at * <;> linarith

/-- A triangle with the corner (0.1, 0.2) of `f64` meets the hypotheses. -/
example : let b : Polyline (Vertex ℚ) :=
      ⟨[Vertex.mk' (roundF64 (1 / 10)) (roundF64 (2 / 10)), Vertex.mk' 1 0, Vertex.mk' (roundF64 (7 / 10)) (3 / 2)], false,
        by simp⟩
    ∀ s ∈ pairs b.vertices false,
      b.containsRounded roundF64 (1 / 10 ^ 14) (Edge.midpointRounded roundF64 ⟨s.1, s.2⟩) = some .boundary := by
  intro b s hs
  refine C89_unit rfl ?_ hs
  intro v hv
  simp only [b, List.mem_cons, List.not_mem_nil, or_false] at hv
  rcases hv with rfl | rfl | rfl
  · exact ⟨roundF64_isF64 _, roundF64_isF64 _, by decide +kernel, by decide +kernel⟩
  · exact ⟨⟨1, 0, by norm_num, by norm_num, by norm_num [Vertex.mk']⟩,
      ⟨0, 0, by norm_num, by norm_num, by norm_num [Vertex.mk']⟩, by decide +kernel, by decide +kernel⟩
  · exact ⟨roundF64_isF64 _, ⟨3, -1, by norm_num, by norm_num, by norm_num [Vertex.mk']⟩, by decide +kernel,
      by decide +kernel⟩

/-! ## What happens when they are not -/

/-- C89: when the computed middle of some side of the boundary is judged outside of it, no triangle is given up for a vertex,
as long as the sides and the segment from the triangle to the vertex do not cut each other. The vertex plays no other role:
it may be well inside. This holds for any way to round. -/
theorem C89_blocked {K : Type*} [Field K] [LinearOrder K] {rnd : K → K} {eps : K} {fuel : Nat} {b : Polyline (Vertex K)}
    {t : Tri (Vertex K)} {v : Vertex K} (hb : b.opened = false)
    (hn : (pairs b.vertices false ++ pairs (probeRounded rnd t v).vertices (probeRounded rnd t v).opened).Pairwise
      fun s t => crossesRounded rnd eps s.1 s.2 t.1 t.2 = false) (hf : b.vertices.length + 3 ≤ fuel)
    {s : Vertex K × Vertex K} (hs : s ∈ pairs b.vertices false)
    (h : b.containsRounded rnd eps (Edge.midpointRounded rnd ⟨s.1, s.2⟩) = some .outside) :
    mayInsertTriangleRounded rnd eps fuel (some b) [] t v = .ok false := by
  have hlen : (pairs b.vertices false ++ pairs (probeRounded rnd t v).vertices (probeRounded rnd t v).opened).length ≤
      fuel := by
    refine le_trans ?_ hf
    rw [List.length_append]
    have h1 : (pairs b.vertices false).length ≤ b.vertices.length := by
      have := (C41_closed b hb (by have := b.two_le; omega)).1
      rw [← this]
      simp [Polyline.intoEdges, hb]
    have h2 : (pairs (probeRounded rnd t v).vertices (probeRounded rnd t v).opened).length ≤ 3 := by
      unfold probeRounded
      split_ifs <;> simp [pairs, consecutivePairs]
    omega
  unfold mayInsertTriangleRounded
  simp only [outsideHolesRounded]
  rcases continenceRounded_blocked hb hn hlen hs h with k | ⟨c, k⟩
  · rw [k]; rfl
  · rw [k]; rfl

end Verif.Props
