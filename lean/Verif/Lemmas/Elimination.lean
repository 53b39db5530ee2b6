import Verif.Model.Elimination
import Verif.Props.Rounding

/-!
# The error of elimination with row exchanges

The product of the computed diagonal is the exact determinant of a matrix close to the given one: column by column, the
entries differ by a small multiple of the size of the column.
-/

set_option linter.unusedSectionVars false

namespace Verif.Props

open Spec

variable {K : Type*} [Field K] [LinearOrder K] [IsStrictOrderedRing K] {rnd : K → K} {u s : K}

/-- The coefficient of a row. -/
theorem reduce_coeff (h : Rounds rnd u s) (hu : u ≤ 1 / 1000) {M d x : K} (d0 : d ≠ 0) (hx : |x| ≤ |d|) (hd : |d| ≤ M)
    (hs : s ≤ 1) (hsM : s * M ≤ 1) :
    |rnd (x * rnd (1 / d)) * d - x| ≤ 31 / 10 * u * M ∧ |rnd (x * rnd (1 / d))| ≤ 101 / 100 := by
  have u0 := h.u_nonneg
  have dp : 0 < |d| := abs_pos.2 d0
  have hq : |x / d| ≤ 1 := by
    rw [abs_div]
    exact (div_le_one dp).2 hx
  have hinv : |rnd (1 / d) - 1 / d| ≤ u * (1 / |d|) := by
    refine h.exact (by rw [abs_div, abs_one]) ?_
    rw [le_div_iff₀ dp]
    exact le_trans (mul_le_mul_of_nonneg_left hd h.s_nonneg) hsM
  have h1 : |x * rnd (1 / d) - x / d| ≤ u := by
    have e : x * rnd (1 / d) - x / d = x * (rnd (1 / d) - 1 / d) := by ring
    rw [e]
    refine le_trans (abs_mul_le hx hinv) (le_of_eq ?_)
    field_simp
  have h2 := h.near h1 hq hs
  have h3 : u + u * (1 + u) ≤ 31 / 10 * u := by nlinarith
  constructor
  · have e : rnd (x * rnd (1 / d)) * d - x = (rnd (x * rnd (1 / d)) - x / d) * d := by
      field_simp
    rw [e]
    exact abs_mul_le (le_trans h2 h3) hd
  · have := abs_add_le (rnd (x * rnd (1 / d)) - x / d) (x / d)
    rw [sub_add_cancel] at this
    linarith

/-- An entry of the reduced matrix. -/
theorem reduce_entry (h : Rounds rnd u s) (hu : u ≤ 1 / 1000) {M c p y : K} (hc : |c| ≤ 101 / 100) (hp : |p| ≤ M)
    (hy : |y| ≤ M) (hs : s ≤ M) :
    |rnd (rnd (-p * c) + y) - (y - c * p)| ≤ 31 / 10 * u * M ∧ |rnd (rnd (-p * c) + y)| ≤ 21 / 10 * M := by
  have u0 := h.u_nonneg
  have M0 : 0 ≤ M := le_trans (abs_nonneg _) hp
  have uM : 0 ≤ u * M := by positivity
  have uM2 : u * (u * M) ≤ 1 / 1000 * (u * M) := mul_le_mul_of_nonneg_right hu uM
  have uM3 : u * M ≤ 1 / 1000 * M := mul_le_mul_of_nonneg_right hu M0
  have hp' : |-p| ≤ M := by rwa [abs_neg]
  have h0 : |-p * c| ≤ 101 / 100 * M := by
    have := abs_mul_le hp' hc
    linarith
  have h1 : |rnd (-p * c) - -p * c| ≤ u * (101 / 100 * M) := h.exact h0 (by linarith)
  have h2 : |rnd (-p * c) + y - (y - c * p)| ≤ u * (101 / 100 * M) := by
    have e : rnd (-p * c) + y - (y - c * p) = rnd (-p * c) - -p * c := by ring
    rwa [e]
  have h3 : |y - c * p| ≤ 201 / 100 * M := by
    have e : y - c * p = y + -p * c := by ring
    rw [e]
    have := abs_add_le y (-p * c)
    linarith
  have h4 := h.near h2 h3 (by linarith)
  have h5 : |rnd (rnd (-p * c) + y) - (y - c * p)| ≤ 31 / 10 * u * M := by
    refine le_trans h4 ?_
    have : u * (101 / 100 * M) + u * (201 / 100 * M + u * (101 / 100 * M)) =
        302 / 100 * (u * M) + 101 / 100 * (u * (u * M)) := by ring
    rw [this]
    linarith
  refine ⟨h5, ?_⟩
  have := abs_add_le (rnd (rnd (-p * c) + y) - (y - c * p)) (y - c * p)
  rw [sub_add_cancel] at this
  linarith

/-! ## Exchanges -/

theorem eliminate_skip {n : Nat} {rows : List (List K)} {top : List K} {rest : List (List K)}
    (hx : exchangeRow rows (pivotRow rows) = top :: rest) (h0 : top.headD 0 = 0) :
    eliminate rnd (n + 1) rows =
      (0 :: (eliminate rnd n (rest.map List.tail)).1, (eliminate rnd n (rest.map List.tail)).2) := by
  rw [eliminate]
  simp only [hx, h0, if_true]

theorem eliminate_step {n : Nat} {rows : List (List K)} {top : List K} {rest : List (List K)}
    (hx : exchangeRow rows (pivotRow rows) = top :: rest) (h0 : top.headD 0 ≠ 0) :
    eliminate rnd (n + 1) rows =
      (top.headD 0 :: (eliminate rnd n (rest.map (reduceRow rnd (rnd (1 / top.headD 0)) top.tail))).1,
       if pivotRow rows = 0 then (eliminate rnd n (rest.map (reduceRow rnd (rnd (1 / top.headD 0)) top.tail))).2
       else -(eliminate rnd n (rest.map (reduceRow rnd (rnd (1 / top.headD 0)) top.tail))).2) := by
  rw [eliminate]
  simp only [hx, h0, if_false]

theorem pivot2 (a c : K) (p q : List K) : (pivotRow [a :: p, c :: q] = 0 ∧ |c| ≤ |a|) ∨
    (pivotRow [a :: p, c :: q] = 1 ∧ |a| ≤ |c|) := by
  simp only [pivotRow, pivotLoop, List.map, List.headD_cons]
  split_ifs with h1
  · exact Or.inr ⟨rfl, h1.le⟩
  · exact Or.inl ⟨rfl, not_lt.1 h1⟩

theorem pivot3 (a b c : K) (p q r : List K) :
    (pivotRow [a :: p, b :: q, c :: r] = 0 ∧ |b| ≤ |a| ∧ |c| ≤ |a|) ∨
    (pivotRow [a :: p, b :: q, c :: r] = 1 ∧ |a| ≤ |b| ∧ |c| ≤ |b|) ∨
    (pivotRow [a :: p, b :: q, c :: r] = 2 ∧ |b| ≤ |c| ∧ |a| ≤ |c|) := by
  simp only [pivotRow, pivotLoop, List.map, List.headD_cons, gt_iff_lt]
  split_ifs with h1 h2 h2
  · exact Or.inr (Or.inr ⟨rfl, h2.le, (h1.trans h2).le⟩)
  · exact Or.inr (Or.inl ⟨rfl, h1.le, not_lt.1 h2⟩)
  · exact Or.inr (Or.inr ⟨rfl, (not_lt.1 h1).trans h2.le, h2.le⟩)
  · exact Or.inl ⟨rfl, not_lt.1 h1, not_lt.1 h2⟩

theorem pivot4 (a b c d : K) (p q r t : List K) :
    (pivotRow [a :: p, b :: q, c :: r, d :: t] = 0 ∧ |b| ≤ |a| ∧ |c| ≤ |a| ∧ |d| ≤ |a|) ∨
    (pivotRow [a :: p, b :: q, c :: r, d :: t] = 1 ∧ |a| ≤ |b| ∧ |c| ≤ |b| ∧ |d| ≤ |b|) ∨
    (pivotRow [a :: p, b :: q, c :: r, d :: t] = 2 ∧ |b| ≤ |c| ∧ |a| ≤ |c| ∧ |d| ≤ |c|) ∨
    (pivotRow [a :: p, b :: q, c :: r, d :: t] = 3 ∧ |b| ≤ |d| ∧ |c| ≤ |d| ∧ |a| ≤ |d|) := by
  simp only [pivotRow, pivotLoop, List.map, List.headD_cons, gt_iff_lt]
  generalize |a| = A
  generalize |b| = B
  generalize |c| = C
  generalize |d| = D
  split_ifs with h1 h2 h3 h3 h2 h3 h3
  · exact Or.inr (Or.inr (Or.inr ⟨rfl, by linarith, by linarith, by linarith⟩))
  · exact Or.inr (Or.inr (Or.inl ⟨rfl, by linarith, by linarith, by linarith⟩))
  · exact Or.inr (Or.inr (Or.inr ⟨rfl, by linarith, by linarith, by linarith⟩))
  · exact Or.inr (Or.inl ⟨rfl, by linarith, by linarith, by linarith⟩)
  · exact Or.inr (Or.inr (Or.inr ⟨rfl, by linarith, by linarith, by linarith⟩))
  · exact Or.inr (Or.inr (Or.inl ⟨rfl, by linarith, by linarith, by linarith⟩))
  · exact Or.inr (Or.inr (Or.inr ⟨rfl, by linarith, by linarith, by linarith⟩))
  · exact Or.inl ⟨rfl, by linarith, by linarith, by linarith⟩

/-! ## Two, three and four rows -/

/-- The product of the diagonal is the determinant of a matrix whose columns are off by `η` times their size. -/
def Back2 (η M N a b c d : K) (out : List K × K) : Prop :=
  ∃ d0 d1 a' b' c' d', out.1 = [d0, d1] ∧ |out.2| = 1 ∧ |d0| ≤ M ∧ |d1| ≤ 21 / 10 * N ∧
    |a' - a| ≤ η * M ∧ |b' - b| ≤ η * N ∧ |c' - c| ≤ η * M ∧ |d' - d| ≤ η * N ∧
    d0 * d1 * out.2 = a' * d' - b' * c'

def Back3 (η M N O a b c d e f g h i : K) (out : List K × K) : Prop :=
  ∃ d0 d1 d2 a' b' c' d' e' f' g' h' i', out.1 = [d0, d1, d2] ∧ |out.2| = 1 ∧ |d0| ≤ M ∧ |d1| ≤ 21 / 10 * N ∧
    |d2| ≤ 441 / 100 * O ∧
    (|a' - a| ≤ η * M ∧ |b' - b| ≤ η * N ∧ |c' - c| ≤ η * O) ∧
    (|d' - d| ≤ η * M ∧ |e' - e| ≤ η * N ∧ |f' - f| ≤ η * O) ∧
    (|g' - g| ≤ η * M ∧ |h' - h| ≤ η * N ∧ |i' - i| ≤ η * O) ∧
    d0 * d1 * d2 * out.2 = det3 a' b' c' d' e' f' g' h' i'

def Back4 (η M N O P a b c d e f g h i j k l m n o p : K) (out : List K × K) : Prop :=
  ∃ d0 d1 d2 d3 a' b' c' d' e' f' g' h' i' j' k' l' m' n' o' p', out.1 = [d0, d1, d2, d3] ∧ |out.2| = 1 ∧ |d0| ≤ M ∧
    |d1| ≤ 21 / 10 * N ∧ |d2| ≤ 441 / 100 * O ∧ |d3| ≤ 9261 / 1000 * P ∧
    (|a' - a| ≤ η * M ∧ |b' - b| ≤ η * N ∧ |c' - c| ≤ η * O ∧ |d' - d| ≤ η * P) ∧
    (|e' - e| ≤ η * M ∧ |f' - f| ≤ η * N ∧ |g' - g| ≤ η * O ∧ |h' - h| ≤ η * P) ∧
    (|i' - i| ≤ η * M ∧ |j' - j| ≤ η * N ∧ |k' - k| ≤ η * O ∧ |l' - l| ≤ η * P) ∧
    (|m' - m| ≤ η * M ∧ |n' - n| ≤ η * N ∧ |o' - o| ≤ η * O ∧ |p' - p| ≤ η * P) ∧
    d0 * d1 * d2 * d3 * out.2 = det4 a' b' c' d' e' f' g' h' i' j' k' l' m' n' o' p'

theorem Back2.swap {η M N a b c d : K} {out : List K × K} (H : Back2 η M N c d a b out) :
    Back2 η M N a b c d (out.1, -out.2) := by
  obtain ⟨d0, d1, a', b', c', d', h1, h2, h3, h4, h5, h6, h7, h8, h9⟩ := H
  refine ⟨d0, d1, c', d', a', b', h1, by simpa using h2, h3, h4, h7, h8, h5, h6, ?_⟩
  linear_combination -h9

theorem Back3.swap1 {η M N O a b c d e f g h i : K} {out : List K × K} (H : Back3 η M N O d e f a b c g h i out) :
    Back3 η M N O a b c d e f g h i (out.1, -out.2) := by
  obtain ⟨d0, d1, d2, a', b', c', d', e', f', g', h', i', h1, h2, h3, h4, h5, r1, r2, r3, h9⟩ := H
  refine ⟨d0, d1, d2, d', e', f', a', b', c', g', h', i', h1, by simpa using h2, h3, h4, h5, r2, r1, r3, ?_⟩
  simp only [det3] at h9 ⊢
  linear_combination -h9

theorem Back3.swap2 {η M N O a b c d e f g h i : K} {out : List K × K} (H : Back3 η M N O g h i d e f a b c out) :
    Back3 η M N O a b c d e f g h i (out.1, -out.2) := by
  obtain ⟨d0, d1, d2, a', b', c', d', e', f', g', h', i', h1, h2, h3, h4, h5, r1, r2, r3, h9⟩ := H
  refine ⟨d0, d1, d2, g', h', i', d', e', f', a', b', c', h1, by simpa using h2, h3, h4, h5, r3, r2, r1, ?_⟩
  simp only [det3] at h9 ⊢
  linear_combination -h9

theorem Back4.swap1 {η M N O P a b c d e f g h i j k l m n o p : K} {out : List K × K}
    (H : Back4 η M N O P e f g h a b c d i j k l m n o p out) :
    Back4 η M N O P a b c d e f g h i j k l m n o p (out.1, -out.2) := by
  obtain ⟨d0, d1, d2, d3, a', b', c', d', e', f', g', h', i', j', k', l', m', n', o', p', h1, h2, h3, h4, h5, h6, r1, r2, r3, r4,
    h9⟩ := H
  refine ⟨d0, d1, d2, d3, e', f', g', h', a', b', c', d', i', j', k', l', m', n', o', p', h1, by simpa using h2, h3, h4, h5, h6,
    r2, r1, r3, r4, ?_⟩
  simp only [det4, det3] at h9 ⊢
  linear_combination -h9

theorem Back4.swap2 {η M N O P a b c d e f g h i j k l m n o p : K} {out : List K × K}
    (H : Back4 η M N O P i j k l e f g h a b c d m n o p out) :
    Back4 η M N O P a b c d e f g h i j k l m n o p (out.1, -out.2) := by
  obtain ⟨d0, d1, d2, d3, a', b', c', d', e', f', g', h', i', j', k', l', m', n', o', p', h1, h2, h3, h4, h5, h6, r1, r2, r3, r4,
    h9⟩ := H
  refine ⟨d0, d1, d2, d3, i', j', k', l', e', f', g', h', a', b', c', d', m', n', o', p', h1, by simpa using h2, h3, h4, h5, h6,
    r3, r2, r1, r4, ?_⟩
  simp only [det4, det3] at h9 ⊢
  linear_combination -h9

theorem Back4.swap3 {η M N O P a b c d e f g h i j k l m n o p : K} {out : List K × K}
    (H : Back4 η M N O P m n o p e f g h i j k l a b c d out) :
    Back4 η M N O P a b c d e f g h i j k l m n o p (out.1, -out.2) := by
  obtain ⟨d0, d1, d2, d3, a', b', c', d', e', f', g', h', i', j', k', l', m', n', o', p', h1, h2, h3, h4, h5, h6, r1, r2, r3, r4,
    h9⟩ := H
  refine ⟨d0, d1, d2, d3, m', n', o', p', e', f', g', h', i', j', k', l', a', b', c', d', h1, by simpa using h2, h3, h4, h5, h6,
    r4, r2, r3, r1, ?_⟩
  simp only [det4, det3] at h9 ⊢
  linear_combination -h9

theorem eliminate1 (a : K) : eliminate rnd 1 [[a]] = ([a], 1) := by
  by_cases h : a = 0
  · simp [eliminate, pivotRow, pivotLoop, exchangeRow, h]
  · simp [eliminate, pivotRow, pivotLoop, exchangeRow, h]

/-- One entry of the matrix whose determinant the diagonal gives. -/
theorem back_entry {x S y c p η θ M : K} (hx : |x - S| ≤ η * (21 / 10 * M)) (hS : |S - (y - c * p)| ≤ 31 / 10 * u * M)
    (hθ : 31 / 10 * u + 21 / 10 * η = θ) : |c * p + x - y| ≤ θ * M := by
  have e : c * p + x - y = (x - S) + (S - (y - c * p)) := by ring
  rw [e, ← hθ]
  have := abs_add_le (x - S) (S - (y - c * p))
  linarith

theorem back2_core (h : Rounds rnd u s) (hu : u ≤ 1 / 1000) (hs : s ≤ 1) {M N a b c d : K} (hsM : s * M ≤ 1) (hN : s ≤ N)
    (a0 : a ≠ 0) (hca : |c| ≤ |a|) (ha : |a| ≤ M) (hb : |b| ≤ N) (hd : |d| ≤ N) :
    Back2 (31 / 10 * u) M N a b c d
      (a :: (eliminate rnd 1 [reduceRow rnd (rnd (1 / a)) [b] [c, d]]).1,
       (eliminate rnd 1 [reduceRow rnd (rnd (1 / a)) [b] [c, d]]).2) := by
  obtain ⟨k1, k2⟩ := reduce_coeff h hu a0 hca ha hs hsM
  obtain ⟨e1, e2⟩ := reduce_entry h hu k2 hb hd hN
  have M0 : 0 ≤ M := le_trans (abs_nonneg _) ha
  have N0 : 0 ≤ N := le_trans (abs_nonneg _) hb
  have u0 := h.u_nonneg
  simp only [reduceRow, List.headD_cons, List.tail_cons, List.zipWith_cons_cons, List.zipWith_nil_right, eliminate1]
  set k := rnd (c * rnd (1 / a))
  set S := rnd (rnd (-b * k) + d)
  refine ⟨a, S, a, b, k * a, k * b + S, rfl, abs_one, ha, e2, ?_, ?_, k1, ?_, by ring⟩
  · rw [sub_self, abs_zero]; positivity
  · rw [sub_self, abs_zero]; positivity
  · have : k * b + S - d = S - (d - k * b) := by ring
    rwa [this]

theorem eliminate_back2 (h : Rounds rnd u s) (hu : u ≤ 1 / 1000) (hs : s ≤ 1) {M N a b c d : K} (hsM : s * M ≤ 1) (hN : s ≤ N)
    (ha : |a| ≤ M) (hb : |b| ≤ N) (hc : |c| ≤ M) (hd : |d| ≤ N) :
    Back2 (31 / 10 * u) M N a b c d (eliminate rnd 2 [[a, b], [c, d]]) := by
  have M0 : 0 ≤ M := le_trans (abs_nonneg _) ha
  have N0 : 0 ≤ N := le_trans (abs_nonneg _) hb
  have u0 := h.u_nonneg
  have z1 : 0 ≤ 31 / 10 * u * M := by positivity
  have z2 : 0 ≤ 31 / 10 * u * N := by positivity
  rcases pivot2 a c [b] [d] with ⟨hk, hp⟩ | ⟨hk, hp⟩
  · have hx : exchangeRow [[a, b], [c, d]] (pivotRow [[a, b], [c, d]]) = [a, b] :: [[c, d]] := by rw [hk]; rfl
    by_cases a0 : a = 0
    · subst a0
      have c0 : c = 0 := by simpa using hp
      subst c0
      rw [eliminate_skip hx rfl]
      simp only [List.map, List.tail_cons, eliminate1]
      refine ⟨0, d, 0, b, 0, d, rfl, abs_one, ha, by linarith, ?_, ?_, ?_, ?_, by ring⟩ <;> simpa
    · rw [eliminate_step hx a0, if_pos hk]
      exact back2_core h hu hs hsM hN a0 hp ha hb hd
  · have hx : exchangeRow [[a, b], [c, d]] (pivotRow [[a, b], [c, d]]) = [c, d] :: [[a, b]] := by rw [hk]; rfl
    by_cases c0 : c = 0
    · subst c0
      have a0 : a = 0 := by simpa using hp
      subst a0
      rw [eliminate_skip hx rfl]
      simp only [List.map, List.tail_cons, eliminate1]
      refine ⟨0, b, 0, b, 0, d, rfl, abs_one, ha, by linarith, ?_, ?_, ?_, ?_, by ring⟩ <;> simpa
    · rw [eliminate_step hx c0, if_neg (by omega)]
      exact (back2_core h hu hs hsM hN c0 hp hc hd hb).swap

theorem grow {x M : K} (hx : |x| ≤ M) : |x| ≤ 21 / 10 * M := by
  have := abs_nonneg x
  linarith

theorem back3_core (h : Rounds rnd u s) (hu : u ≤ 1 / 1000) (hs : s ≤ 1) {M N O a b c d e f g i j : K} (hsM : s * M ≤ 1)
    (hsN : s * (21 / 10 * N) ≤ 1) (hN : s ≤ N) (hO : s ≤ O) (a0 : a ≠ 0) (hda : |d| ≤ |a|) (hga : |g| ≤ |a|)
    (r1 : |a| ≤ M ∧ |b| ≤ N ∧ |c| ≤ O) (r2 : |e| ≤ N ∧ |f| ≤ O) (r3 : |i| ≤ N ∧ |j| ≤ O) :
    Back3 (961 / 100 * u) M N O a b c d e f g i j
      (a :: (eliminate rnd 2 [reduceRow rnd (rnd (1 / a)) [b, c] [d, e, f], reduceRow rnd (rnd (1 / a)) [b, c] [g, i, j]]).1,
       (eliminate rnd 2 [reduceRow rnd (rnd (1 / a)) [b, c] [d, e, f], reduceRow rnd (rnd (1 / a)) [b, c] [g, i, j]]).2) := by
  obtain ⟨k1, k2⟩ := reduce_coeff h hu a0 hda r1.1 hs hsM
  obtain ⟨l1, l2⟩ := reduce_coeff h hu a0 hga r1.1 hs hsM
  obtain ⟨e1, e2⟩ := reduce_entry h hu k2 r1.2.1 r2.1 hN
  obtain ⟨f1, f2⟩ := reduce_entry h hu k2 r1.2.2 r2.2 hO
  obtain ⟨g1, g2⟩ := reduce_entry h hu l2 r1.2.1 r3.1 hN
  obtain ⟨j1, j2⟩ := reduce_entry h hu l2 r1.2.2 r3.2 hO
  have M0 : 0 ≤ M := le_trans (abs_nonneg _) r1.1
  have N0 : 0 ≤ N := le_trans (abs_nonneg _) r1.2.1
  have O0 : 0 ≤ O := le_trans (abs_nonneg _) r1.2.2
  have u0 := h.u_nonneg
  have zM : 0 ≤ u * M := by positivity
  have zN : 0 ≤ 961 / 100 * u * N := by positivity
  have zO : 0 ≤ 961 / 100 * u * O := by positivity
  have hθ : 31 / 10 * u + 21 / 10 * (31 / 10 * u) = 961 / 100 * u := by ring
  simp only [reduceRow, List.headD_cons, List.tail_cons, List.zipWith_cons_cons, List.zipWith_nil_right]
  set k := rnd (d * rnd (1 / a))
  set l := rnd (g * rnd (1 / a))
  obtain ⟨d0, d1, w, x, y, z, h1, h2, h3, h4, hw, hx, hy, hz, h9⟩ :=
    eliminate_back2 h hu hs (N := 21 / 10 * O) hsN (by linarith) e2 f2 g2 j2
  refine ⟨a, d0, d1, a, b, c, k * a, k * b + w, k * c + x, l * a, l * b + y, l * c + z, by rw [h1], h2, r1.1, h3, by linarith,
    ⟨?_, ?_, ?_⟩, ⟨by linarith, back_entry hw e1 hθ, back_entry hx f1 hθ⟩,
    ⟨by linarith, back_entry hy g1 hθ, back_entry hz j1 hθ⟩, ?_⟩
  · rw [sub_self, abs_zero]; positivity
  · rwa [sub_self, abs_zero]
  · rwa [sub_self, abs_zero]
  · simp only [det3]
    linear_combination a * h9

theorem eliminate_back3 (h : Rounds rnd u s) (hu : u ≤ 1 / 1000) (hs : s ≤ 1) {M N O a b c d e f g i j : K} (hsM : s * M ≤ 1)
    (hsN : s * (21 / 10 * N) ≤ 1) (hN : s ≤ N) (hO : s ≤ O)
    (r1 : |a| ≤ M ∧ |b| ≤ N ∧ |c| ≤ O) (r2 : |d| ≤ M ∧ |e| ≤ N ∧ |f| ≤ O) (r3 : |g| ≤ M ∧ |i| ≤ N ∧ |j| ≤ O) :
    Back3 (961 / 100 * u) M N O a b c d e f g i j (eliminate rnd 3 [[a, b, c], [d, e, f], [g, i, j]]) := by
  have M0 : 0 ≤ M := le_trans (abs_nonneg _) r1.1
  have N0 : 0 ≤ N := le_trans (abs_nonneg _) r1.2.1
  have O0 : 0 ≤ O := le_trans (abs_nonneg _) r1.2.2
  have u0 := h.u_nonneg
  have zM : 0 ≤ 961 / 100 * u * M := by positivity
  have zN : 0 ≤ 961 / 100 * u * N := by positivity
  have zO : 0 ≤ 961 / 100 * u * O := by positivity
  have skip : ∀ {p q v w : K}, |p| ≤ N → |q| ≤ O → |v| ≤ N → |w| ≤ O → a = 0 → d = 0 → g = 0 →
      Back3 (961 / 100 * u) M N O a b c d e f g i j
        (0 :: (eliminate rnd 2 [[p, q], [v, w]]).1, (eliminate rnd 2 [[p, q], [v, w]]).2) := by
    intro p q v w hp hq hv hw ea ed eg
    obtain ⟨d0, d1, _, _, _, _, h1, h2, h3, h4, -⟩ :=
      eliminate_back2 h hu hs (N := 21 / 10 * O) hsN (by linarith) (grow hp) (grow hq) (grow hv) (grow hw)
    subst ea ed eg
    refine ⟨0, d0, d1, 0, b, c, 0, e, f, 0, i, j, by rw [h1], h2, r1.1, h3, by linarith, ⟨?_, ?_, ?_⟩, ⟨?_, ?_, ?_⟩,
      ⟨?_, ?_, ?_⟩, by simp only [det3]; ring⟩ <;> rwa [sub_self, abs_zero]
  rcases pivot3 a d g [b, c] [e, f] [i, j] with ⟨hk, p1, p2⟩ | ⟨hk, p1, p2⟩ | ⟨hk, p1, p2⟩
  · have hx : exchangeRow [[a, b, c], [d, e, f], [g, i, j]] (pivotRow [[a, b, c], [d, e, f], [g, i, j]]) =
        [a, b, c] :: [[d, e, f], [g, i, j]] := by rw [hk]; rfl
    by_cases a0 : a = 0
    · rw [eliminate_skip hx a0]
      rw [a0, abs_zero] at p1 p2
      exact skip r2.2.1 r2.2.2 r3.2.1 r3.2.2 a0 (abs_nonpos_iff.1 p1) (abs_nonpos_iff.1 p2)
    · rw [eliminate_step hx a0, if_pos hk]
      exact back3_core h hu hs hsM hsN hN hO a0 p1 p2 r1 r2.2 r3.2
  · have hx : exchangeRow [[a, b, c], [d, e, f], [g, i, j]] (pivotRow [[a, b, c], [d, e, f], [g, i, j]]) =
        [d, e, f] :: [[a, b, c], [g, i, j]] := by rw [hk]; rfl
    by_cases a0 : d = 0
    · rw [eliminate_skip hx a0]
      rw [a0, abs_zero] at p1 p2
      exact skip r1.2.1 r1.2.2 r3.2.1 r3.2.2 (abs_nonpos_iff.1 p1) a0 (abs_nonpos_iff.1 p2)
    · rw [eliminate_step hx a0, if_neg (by omega)]
      exact (back3_core h hu hs hsM hsN hN hO a0 p1 p2 r2 r1.2 r3.2).swap1
  · have hx : exchangeRow [[a, b, c], [d, e, f], [g, i, j]] (pivotRow [[a, b, c], [d, e, f], [g, i, j]]) =
        [g, i, j] :: [[d, e, f], [a, b, c]] := by rw [hk]; rfl
    by_cases a0 : g = 0
    · rw [eliminate_skip hx a0]
      rw [a0, abs_zero] at p1 p2
      exact skip r2.2.1 r2.2.2 r1.2.1 r1.2.2 (abs_nonpos_iff.1 p2) (abs_nonpos_iff.1 p1) a0
    · rw [eliminate_step hx a0, if_neg (by omega)]
      exact (back3_core h hu hs hsM hsN hN hO a0 p1 p2 r3 r2.2 r1.2).swap2

theorem back4_core (h : Rounds rnd u s) (hu : u ≤ 1 / 1000) (hs : s ≤ 1) {M N O P a b c d e f g i j k l m n o p q : K}
    (hsM : s * M ≤ 1) (hsN : s * (21 / 10 * N) ≤ 1) (hsO : s * (441 / 100 * O) ≤ 1) (hN : s ≤ N) (hO : s ≤ O) (hP : s ≤ P)
    (a0 : a ≠ 0) (hea : |e| ≤ |a|) (hja : |j| ≤ |a|) (hna : |n| ≤ |a|)
    (r1 : |a| ≤ M ∧ |b| ≤ N ∧ |c| ≤ O ∧ |d| ≤ P) (r2 : |f| ≤ N ∧ |g| ≤ O ∧ |i| ≤ P) (r3 : |k| ≤ N ∧ |l| ≤ O ∧ |m| ≤ P)
    (r4 : |o| ≤ N ∧ |p| ≤ O ∧ |q| ≤ P) :
    Back4 (23281 / 1000 * u) M N O P a b c d e f g i j k l m n o p q
      (a :: (eliminate rnd 3 [reduceRow rnd (rnd (1 / a)) [b, c, d] [e, f, g, i],
          reduceRow rnd (rnd (1 / a)) [b, c, d] [j, k, l, m], reduceRow rnd (rnd (1 / a)) [b, c, d] [n, o, p, q]]).1,
       (eliminate rnd 3 [reduceRow rnd (rnd (1 / a)) [b, c, d] [e, f, g, i],
          reduceRow rnd (rnd (1 / a)) [b, c, d] [j, k, l, m], reduceRow rnd (rnd (1 / a)) [b, c, d] [n, o, p, q]]).2) := by
  obtain ⟨k1, k2⟩ := reduce_coeff h hu a0 hea r1.1 hs hsM
  obtain ⟨l1, l2⟩ := reduce_coeff h hu a0 hja r1.1 hs hsM
  obtain ⟨m1, m2⟩ := reduce_coeff h hu a0 hna r1.1 hs hsM
  obtain ⟨A1, A2⟩ := reduce_entry h hu k2 r1.2.1 r2.1 hN
  obtain ⟨B1, B2⟩ := reduce_entry h hu k2 r1.2.2.1 r2.2.1 hO
  obtain ⟨C1, C2⟩ := reduce_entry h hu k2 r1.2.2.2 r2.2.2 hP
  obtain ⟨D1, D2⟩ := reduce_entry h hu l2 r1.2.1 r3.1 hN
  obtain ⟨E1, E2⟩ := reduce_entry h hu l2 r1.2.2.1 r3.2.1 hO
  obtain ⟨F1, F2⟩ := reduce_entry h hu l2 r1.2.2.2 r3.2.2 hP
  obtain ⟨G1, G2⟩ := reduce_entry h hu m2 r1.2.1 r4.1 hN
  obtain ⟨H1, H2⟩ := reduce_entry h hu m2 r1.2.2.1 r4.2.1 hO
  obtain ⟨I1, I2⟩ := reduce_entry h hu m2 r1.2.2.2 r4.2.2 hP
  have M0 : 0 ≤ M := le_trans (abs_nonneg _) r1.1
  have N0 : 0 ≤ N := le_trans (abs_nonneg _) r1.2.1
  have O0 : 0 ≤ O := le_trans (abs_nonneg _) r1.2.2.1
  have P0 : 0 ≤ P := le_trans (abs_nonneg _) r1.2.2.2
  have u0 := h.u_nonneg
  have zM : 0 ≤ u * M := by positivity
  have zM' : 0 ≤ 23281 / 1000 * u * M := by positivity
  have zN : 0 ≤ 23281 / 1000 * u * N := by positivity
  have zO : 0 ≤ 23281 / 1000 * u * O := by positivity
  have zP : 0 ≤ 23281 / 1000 * u * P := by positivity
  have hθ : 31 / 10 * u + 21 / 10 * (961 / 100 * u) = 23281 / 1000 * u := by ring
  simp only [reduceRow, List.headD_cons, List.tail_cons, List.zipWith_cons_cons, List.zipWith_nil_right]
  set x := rnd (e * rnd (1 / a))
  set y := rnd (j * rnd (1 / a))
  set z := rnd (n * rnd (1 / a))
  obtain ⟨d0, d1, d2, A, B, C, D, E, F, G, H, I, h1, h2, h3, h4, h5, ⟨hA, hB, hC⟩, ⟨hD, hE, hF⟩, ⟨hG, hH, hI⟩, h9⟩ :=
    eliminate_back3 h hu hs (N := 21 / 10 * O) (O := 21 / 10 * P) hsN (by linarith) (by linarith) (by linarith)
      ⟨A2, B2, C2⟩ ⟨D2, E2, F2⟩ ⟨G2, H2, I2⟩
  refine ⟨a, d0, d1, d2, a, b, c, d, x * a, x * b + A, x * c + B, x * d + C, y * a, y * b + D, y * c + E, y * d + F,
    z * a, z * b + G, z * c + H, z * d + I, by rw [h1], h2, r1.1, h3, by linarith, by linarith,
    ⟨?_, ?_, ?_, ?_⟩, ⟨by linarith, back_entry hA A1 hθ, back_entry hB B1 hθ, back_entry hC C1 hθ⟩,
    ⟨by linarith, back_entry hD D1 hθ, back_entry hE E1 hθ, back_entry hF F1 hθ⟩,
    ⟨by linarith, back_entry hG G1 hθ, back_entry hH H1 hθ, back_entry hI I1 hθ⟩, ?_⟩
  · rwa [sub_self, abs_zero]
  · rwa [sub_self, abs_zero]
  · rwa [sub_self, abs_zero]
  · rwa [sub_self, abs_zero]
  · simp only [det3, det4] at h9 ⊢
    linear_combination a * h9

theorem eliminate_back4 (h : Rounds rnd u s) (hu : u ≤ 1 / 1000) (hs : s ≤ 1) {M N O P a b c d e f g i j k l m n o p q : K}
    (hsM : s * M ≤ 1) (hsN : s * (21 / 10 * N) ≤ 1) (hsO : s * (441 / 100 * O) ≤ 1) (hN : s ≤ N) (hO : s ≤ O) (hP : s ≤ P)
    (r1 : |a| ≤ M ∧ |b| ≤ N ∧ |c| ≤ O ∧ |d| ≤ P) (r2 : |e| ≤ M ∧ |f| ≤ N ∧ |g| ≤ O ∧ |i| ≤ P)
    (r3 : |j| ≤ M ∧ |k| ≤ N ∧ |l| ≤ O ∧ |m| ≤ P) (r4 : |n| ≤ M ∧ |o| ≤ N ∧ |p| ≤ O ∧ |q| ≤ P) :
    Back4 (23281 / 1000 * u) M N O P a b c d e f g i j k l m n o p q
      (eliminate rnd 4 [[a, b, c, d], [e, f, g, i], [j, k, l, m], [n, o, p, q]]) := by
  have M0 : 0 ≤ M := le_trans (abs_nonneg _) r1.1
  have N0 : 0 ≤ N := le_trans (abs_nonneg _) r1.2.1
  have O0 : 0 ≤ O := le_trans (abs_nonneg _) r1.2.2.1
  have P0 : 0 ≤ P := le_trans (abs_nonneg _) r1.2.2.2
  have u0 := h.u_nonneg
  have zM : 0 ≤ 23281 / 1000 * u * M := by positivity
  have zN : 0 ≤ 23281 / 1000 * u * N := by positivity
  have zO : 0 ≤ 23281 / 1000 * u * O := by positivity
  have zP : 0 ≤ 23281 / 1000 * u * P := by positivity
  have skip : ∀ {A B C D E F G H I : K}, (|A| ≤ N ∧ |B| ≤ O ∧ |C| ≤ P) → (|D| ≤ N ∧ |E| ≤ O ∧ |F| ≤ P) →
      (|G| ≤ N ∧ |H| ≤ O ∧ |I| ≤ P) → a = 0 → e = 0 → j = 0 → n = 0 →
      Back4 (23281 / 1000 * u) M N O P a b c d e f g i j k l m n o p q
        (0 :: (eliminate rnd 3 [[A, B, C], [D, E, F], [G, H, I]]).1,
          (eliminate rnd 3 [[A, B, C], [D, E, F], [G, H, I]]).2) := by
    intro A B C D E F G H I q1 q2 q3 ea ee ej en
    obtain ⟨d0, d1, d2, _, _, _, _, _, _, _, _, _, h1, h2, h3, h4, h5, -⟩ :=
      eliminate_back3 h hu hs (N := 21 / 10 * O) (O := 21 / 10 * P) hsN (by linarith) (by linarith) (by linarith)
        ⟨grow q1.1, grow q1.2.1, grow q1.2.2⟩ ⟨grow q2.1, grow q2.2.1, grow q2.2.2⟩ ⟨grow q3.1, grow q3.2.1, grow q3.2.2⟩
    subst ea ee ej en
    refine ⟨0, d0, d1, d2, 0, b, c, d, 0, f, g, i, 0, k, l, m, 0, o, p, q, by rw [h1], h2, r1.1, h3, by linarith, by linarith,
      ⟨?_, ?_, ?_, ?_⟩, ⟨?_, ?_, ?_, ?_⟩, ⟨?_, ?_, ?_, ?_⟩, ⟨?_, ?_, ?_, ?_⟩, by simp only [det3, det4]; ring⟩ <;>
      rwa [sub_self, abs_zero]
  rcases pivot4 a e j n [b, c, d] [f, g, i] [k, l, m] [o, p, q] with
    ⟨hk, p1, p2, p3⟩ | ⟨hk, p1, p2, p3⟩ | ⟨hk, p1, p2, p3⟩ | ⟨hk, p1, p2, p3⟩
  · have hx : exchangeRow [[a, b, c, d], [e, f, g, i], [j, k, l, m], [n, o, p, q]]
        (pivotRow [[a, b, c, d], [e, f, g, i], [j, k, l, m], [n, o, p, q]]) =
        [a, b, c, d] :: [[e, f, g, i], [j, k, l, m], [n, o, p, q]] := by rw [hk]; rfl
    by_cases a0 : a = 0
    · rw [eliminate_skip hx a0]
      rw [a0, abs_zero] at p1 p2 p3
      exact skip r2.2 r3.2 r4.2 a0 (abs_nonpos_iff.1 p1) (abs_nonpos_iff.1 p2) (abs_nonpos_iff.1 p3)
    · rw [eliminate_step hx a0, if_pos hk]
      exact back4_core h hu hs hsM hsN hsO hN hO hP a0 p1 p2 p3 r1 r2.2 r3.2 r4.2
  · have hx : exchangeRow [[a, b, c, d], [e, f, g, i], [j, k, l, m], [n, o, p, q]]
        (pivotRow [[a, b, c, d], [e, f, g, i], [j, k, l, m], [n, o, p, q]]) =
        [e, f, g, i] :: [[a, b, c, d], [j, k, l, m], [n, o, p, q]] := by rw [hk]; rfl
    by_cases a0 : e = 0
    · rw [eliminate_skip hx a0]
      rw [a0, abs_zero] at p1 p2 p3
      exact skip r1.2 r3.2 r4.2 (abs_nonpos_iff.1 p1) a0 (abs_nonpos_iff.1 p2) (abs_nonpos_iff.1 p3)
    · rw [eliminate_step hx a0, if_neg (by omega)]
      exact (back4_core h hu hs hsM hsN hsO hN hO hP a0 p1 p2 p3 r2 r1.2 r3.2 r4.2).swap1
  · have hx : exchangeRow [[a, b, c, d], [e, f, g, i], [j, k, l, m], [n, o, p, q]]
        (pivotRow [[a, b, c, d], [e, f, g, i], [j, k, l, m], [n, o, p, q]]) =
        [j, k, l, m] :: [[e, f, g, i], [a, b, c, d], [n, o, p, q]] := by rw [hk]; rfl
    by_cases a0 : j = 0
    · rw [eliminate_skip hx a0]
      rw [a0, abs_zero] at p1 p2 p3
      exact skip r2.2 r1.2 r4.2 (abs_nonpos_iff.1 p2) (abs_nonpos_iff.1 p1) a0 (abs_nonpos_iff.1 p3)
    · rw [eliminate_step hx a0, if_neg (by omega)]
      exact (back4_core h hu hs hsM hsN hsO hN hO hP a0 p1 p2 p3 r3 r2.2 r1.2 r4.2).swap2
  · have hx : exchangeRow [[a, b, c, d], [e, f, g, i], [j, k, l, m], [n, o, p, q]]
        (pivotRow [[a, b, c, d], [e, f, g, i], [j, k, l, m], [n, o, p, q]]) =
        [n, o, p, q] :: [[e, f, g, i], [j, k, l, m], [a, b, c, d]] := by rw [hk]; rfl
    by_cases a0 : n = 0
    · rw [eliminate_skip hx a0]
      rw [a0, abs_zero] at p1 p2 p3
      exact skip r2.2 r3.2 r1.2 (abs_nonpos_iff.1 p3) (abs_nonpos_iff.1 p1) (abs_nonpos_iff.1 p2) a0
    · rw [eliminate_step hx a0, if_neg (by omega)]
      exact (back4_core h hu hs hsM hsN hsO hN hO hP a0 p1 p2 p3 r4 r2.2 r3.2 r1.2).swap3

end Verif.Props
