import Verif.Lemmas.Bisection
import Verif.Lemmas.F64Split

/-!
# One vertex and the two halves of a segment, in f64

The rounding of `f64` preserves the order and the sign. A number of the format is never on the wrong side of the computed
middle of two others, so no vertex encroaches both halves of a segment.
-/

set_option linter.unusedSectionVars false

namespace Verif

open Spec

variable {V : Type*} [DecidableEq V]

/-- `unencLoop_single`, for segments with a property that the two halves inherit. -/
theorem unencLoop_single_of {P : RPreds V} {C : List (Edge V)} {fuel n : Nat} {v : V} {A : Edge V → Prop}
    (hA : ∀ e, A e → A ⟨e.v1, P.mid e⟩ ∧ A ⟨P.mid e, e.v2⟩)
    (hd : ∀ e : Edge V, A e → P.encroaches ⟨e.v1, P.mid e⟩ v = true → P.encroaches ⟨P.mid e, e.v2⟩ v = false) :
    ∀ {σ : Sched} {e : Edge V} {s s' : UnencState V}, A e → s.vertices = [v] →
    unencLoop P C fuel n σ [e] s = .ok s' →
    ∀ h ∈ s'.newEdges, h ∈ s.newEdges ∨ P.encroaches h v = false := by
  induction n with
  | zero => intro σ e s s' _ _ h; rw [unencLoop] at h; cases h
  | succ n ih =>
    intro σ e s s' hAe hv h
    rw [unencLoop, Res.bind_eq_ok] at h
    obtain ⟨r, hr, h⟩ := h
    rw [unencStep, Res.bind_eq_ok] at hr
    obtain ⟨st, -, hr⟩ := hr
    injection hr with hr
    subst hr
    simp only [hv, List.any_cons, List.any_nil, Bool.or_false, List.append_nil] at h
    cases b1 : P.encroaches ⟨e.v1, P.mid e⟩ v <;> cases b2 : P.encroaches ⟨P.mid e, e.v2⟩ v
    · simp only [b1, b2, Bool.false_eq_true, if_false, List.append_nil] at h
      cases n <;> (rw [unencLoop] at h; injection h with h; subst h; intro x hx)
      all_goals
        simp only [mem_setInsert] at hx
        rcases hx with rfl | rfl | hx
        · exact Or.inr b2
        · exact Or.inr b1
        · exact Or.inl hx
    · simp only [b1, b2, Bool.false_eq_true, if_false, if_true, List.append_nil] at h
      intro x hx
      rcases ih (hA e hAe).2 (by simp [b1, b2]) h x hx with k | k
      · rcases mem_setInsert.1 k with rfl | k
        · exact Or.inr b1
        · exact Or.inl k
      · exact Or.inr k
    · simp only [b1, b2, Bool.false_eq_true, if_false, if_true, List.nil_append] at h
      intro x hx
      rcases ih (hA e hAe).1 (by simp [b1]) h x hx with k | k
      · rcases mem_setInsert.1 k with rfl | k
        · exact Or.inr b2
        · exact Or.inl k
      · exact Or.inr k
    · rw [hd e hAe b1] at b2; cases b2

theorem roundF64_mono {x y : ℚ} (h : x ≤ y) : roundF64 x ≤ roundF64 y := by
  rcases eq_or_lt_of_le h with rfl | hlt
  · exact le_refl _
  by_contra hn
  rw [not_le] at hn
  have h1 := roundF64_nearest x (roundF64_isF64 y)
  have h2 := roundF64_nearest y (roundF64_isF64 x)
  rw [← sq_le_sq] at h1 h2
  nlinarith

theorem nearestInt_neg (y : ℚ) : nearestInt (-y) = -nearestInt y := by
  by_cases hi : y = ⌊y⌋
  · have h1 : ⌊-y⌋ = -⌊y⌋ := by
      rw [Int.floor_eq_iff]; push_cast; constructor <;> linarith
    have h2 : nearestInt y = ⌊y⌋ := by
      unfold nearestInt; rw [if_pos (by linarith)]
    unfold nearestInt
    rw [h1] 
    rw [if_pos (by push_cast; linarith), if_pos (by linarith)]
  · have hf := Int.floor_le y
    have hc := Int.lt_floor_add_one y
    have hf' : (⌊y⌋ : ℚ) < y := lt_of_le_of_ne hf (fun k => hi k.symm)
    have h1 : ⌊-y⌋ = -⌊y⌋ - 1 := by
      rw [Int.floor_eq_iff]; push_cast; constructor <;> linarith
    unfold nearestInt
    rw [h1]
    push_cast
    split_ifs <;> first | omega | (exfalso; linarith)

theorem roundF64_neg (x : ℚ) : roundF64 (-x) = -roundF64 x := by
  have hs : spacing (-x) = spacing x := by unfold spacing; rw [abs_neg]
  unfold roundF64
  rw [hs, neg_div, nearestInt_neg]
  push_cast
  ring

/-- Numbers of the format are on the correct side of the computed middle of two others. -/
theorem halfway_side {a b v : ℚ} (ha : IsF64 a) (hb : IsF64 b) (hv : IsF64 v) :
    0 ≤ roundF64 (v - halfway a b) * (roundF64 (v - a) + roundF64 (v - b)) := by
  have hn := halfway_nearest ha hb hv
  rcases lt_trichotomy v (halfway a b) with h | h | h
  · apply mul_nonneg_of_nonpos_of_nonpos (roundF64_nonpos (by linarith))
    have : v - a ≤ -(v - b) := by
      rw [← sq_le_sq] at hn
      nlinarith
    have := roundF64_mono this
    rw [roundF64_neg] at this
    linarith
  · rw [h, sub_self, roundF64_zero, zero_mul]
  · apply mul_nonneg (roundF64_nonneg (by linarith))
    have : -(v - b) ≤ v - a := by
      rw [← sq_le_sq] at hn
      nlinarith
    have := roundF64_mono this
    rw [roundF64_neg] at this
    linarith

/-- A rounded sum of two rounded numbers is not negative if the exact sum is not. -/
theorem rounded_sum_nonneg {x y : ℚ} (h : 0 ≤ x + y) : 0 ≤ roundF64 (roundF64 x + roundF64 y) := by
  apply roundF64_nonneg
  have : roundF64 (-y) ≤ roundF64 x := roundF64_mono (by linarith)
  rw [roundF64_neg] at this
  linarith

theorem exact_of_encroaches {eps : ℚ} (he : 0 ≤ eps) {a b v : Vertex ℚ}
    (h : encroachRounded roundF64 eps a b v = .inside) :
    roundF64 (v.x - b.x) * roundF64 (v.x - a.x) + roundF64 (v.y - b.y) * roundF64 (v.y - a.y) < 0 := by
  by_contra hn
  rw [not_lt] at hn
  have h3 : 0 ≤ encroachMeasureRounded roundF64 a b v := rounded_sum_nonneg hn
  unfold encroachRounded at h
  split_ifs at h with k1 k2
  · rcases lt_or_eq_of_le h3 with h4 | h4
    · exact k2 h4
    · apply k1
      rw [← h4]
      unfold approxEq
      simpa using he

/-- In `f64`, no vertex encroaches both halves of a segment. -/
theorem encroachRounded_halves {eps : ℚ} (he : 0 ≤ eps) {e : Edge (Vertex ℚ)} {v : Vertex ℚ}
    (h1 : IsF64 e.v1.x ∧ IsF64 e.v1.y) (h2 : IsF64 e.v2.x ∧ IsF64 e.v2.y) (hv : IsF64 v.x ∧ IsF64 v.y)
    (k1 : encroachRounded roundF64 eps e.v1 (e.midpointRounded roundF64) v = .inside) :
    encroachRounded roundF64 eps (e.midpointRounded roundF64) e.v2 v ≠ .inside := by
  intro k2
  have j1 := exact_of_encroaches he k1
  have j2 := exact_of_encroaches he k2
  have sx := halfway_side h1.1 h2.1 hv.1
  have sy := halfway_side h1.2 h2.2 hv.2
  have ex : (e.midpointRounded roundF64).x = halfway e.v1.x e.v2.x := rfl
  have ey : (e.midpointRounded roundF64).y = halfway e.v1.y e.v2.y := rfl
  rw [ex, ey] at j1 j2
  linarith

end Verif
