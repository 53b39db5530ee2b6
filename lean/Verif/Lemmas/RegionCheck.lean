import Verif.Lemmas.Regions

/-!
# Lemmas: checks for concrete polygons
-/

namespace Verif

open Spec

variable {K : Type*} [Field K] [LinearOrder K] [IsStrictOrderedRing K]

set_option linter.unusedSectionVars false

/-- Both ends of `t` are strictly on one side of the line through `s`. -/
def besideCheck (s t : Vertex K × Vertex K) : Bool := decide (0 < Spec.cross s.1 s.2 t.1 * Spec.cross s.1 s.2 t.2)

/-- A sufficient test for two segments without a common point. -/
def apartCheck (s t : Vertex K × Vertex K) : Bool :=
  besideCheck s t || besideCheck t s ||
    decide (max s.1.x s.2.x < min t.1.x t.2.x) || decide (max t.1.x t.2.x < min s.1.x s.2.x) ||
    decide (max s.1.y s.2.y < min t.1.y t.2.y) || decide (max t.1.y t.2.y < min s.1.y s.2.y)

/-- A sufficient test for two segments of which one starts where the other ends, without another common point. -/
def adjoinCheck (s t : Vertex K × Vertex K) : Bool :=
  decide (s.2.x = t.1.x) && decide (s.2.y = t.1.y) && (decide (Spec.cross s.1 s.2 t.2 ≠ 0) ||
    decide (0 < (s.2.x - s.1.x) * (t.2.x - t.1.x) + (s.2.y - s.1.y) * (t.2.y - t.1.y)))

theorem beside_of_check {s t : Vertex K × Vertex K} (h : besideCheck s t = true) {q : Vertex K}
    (hs : OnSegment s.1 s.2 q) (ht : OnSegment t.1 t.2 q) : False := by
  unfold besideCheck at h
  rw [decide_eq_true_eq] at h
  obtain ⟨a, a0, a1, ax, ay⟩ := hs
  obtain ⟨b, b0, b1, bx, byy⟩ := ht
  have e : (1 - b) * Spec.cross s.1 s.2 t.1 + b * Spec.cross s.1 s.2 t.2 = 0 := by
    have e1 : Spec.cross s.1 s.2 q = 0 := by unfold Spec.cross; rw [ax, ay]; ring
    have e2 : Spec.cross s.1 s.2 q = (1 - b) * Spec.cross s.1 s.2 t.1 + b * Spec.cross s.1 s.2 t.2 := by
      unfold Spec.cross; rw [bx, byy]; ring
    rw [← e2, e1]
  rcases b0.eq_or_lt with hb | hb
  · rw [← hb] at e
    have : Spec.cross s.1 s.2 t.1 = 0 := by linarith
    rw [this] at h; simp at h
  · have e3 : (1 - b) * (Spec.cross s.1 s.2 t.1 * Spec.cross s.1 s.2 t.2) +
        b * (Spec.cross s.1 s.2 t.2 * Spec.cross s.1 s.2 t.2) = 0 := by
      linear_combination Spec.cross s.1 s.2 t.2 * e
    have h2 : Spec.cross s.1 s.2 t.2 ≠ 0 := fun h0 => by rw [h0] at h; simp at h
    have := mul_nonneg (sub_nonneg.2 b1) h.le
    have := mul_pos hb (mul_self_pos.2 h2)
    linarith

theorem apart_of_check {s t : Vertex K × Vertex K} (h : apartCheck s t = true) {q : Vertex K}
    (hs : OnSegment s.1 s.2 q) (ht : OnSegment t.1 t.2 q) : False := by
  unfold apartCheck at h
  simp only [Bool.or_eq_true, decide_eq_true_eq] at h
  obtain ⟨⟨a1, a2⟩, a3, a4⟩ := onSegment_box hs
  obtain ⟨⟨b1, b2⟩, b3, b4⟩ := onSegment_box ht
  rcases h with ((((h | h) | h) | h) | h) | h
  · exact beside_of_check h hs ht
  · exact beside_of_check h ht hs
  all_goals linarith

theorem adjoin_of_check {s t : Vertex K × Vertex K} (h : adjoinCheck s t = true) {q : Vertex K}
    (hs : OnSegment s.1 s.2 q) (ht : OnSegment t.1 t.2 q) : SamePoint q s.2 ∧ SamePoint q t.1 := by
  unfold adjoinCheck at h
  simp only [Bool.and_eq_true, Bool.or_eq_true, decide_eq_true_eq] at h
  obtain ⟨⟨hx, hy⟩, hc⟩ := h
  obtain ⟨a, a0, a1, ax, ay⟩ := hs
  obtain ⟨b, b0, b1, bx, byy⟩ := ht
  have e : b * Spec.cross s.1 s.2 t.2 = 0 := by
    have e1 : Spec.cross s.1 s.2 q = 0 := by unfold Spec.cross; rw [ax, ay]; ring
    have e2 : Spec.cross s.1 s.2 q = b * Spec.cross s.1 s.2 t.2 := by
      unfold Spec.cross; rw [bx, byy, ← hx, ← hy]; ring
    rw [← e2, e1]
  have hb : b = 0 := by
    rcases hc with hc | hc
    · exact (mul_eq_zero.1 e).resolve_right hc
    · have e1 : b * ((s.2.x - s.1.x) * (t.2.x - t.1.x) + (s.2.y - s.1.y) * (t.2.y - t.1.y)) =
          (a - 1) * ((s.2.x - s.1.x) * (s.2.x - s.1.x) + (s.2.y - s.1.y) * (s.2.y - s.1.y)) := by
        linear_combination (s.2.x - s.1.x) * (ax - bx + hx) + (s.2.y - s.1.y) * (ay - byy + hy)
      have e2 : (a - 1) * ((s.2.x - s.1.x) * (s.2.x - s.1.x) + (s.2.y - s.1.y) * (s.2.y - s.1.y)) ≤ 0 :=
        mul_nonpos_of_nonpos_of_nonneg (by linarith)
          (add_nonneg (mul_self_nonneg _) (mul_self_nonneg _))
      by_contra hb
      have : 0 < b := lt_of_le_of_ne b0 (Ne.symm hb)
      linarith [mul_pos this hc]
  rw [hb] at bx byy
  have ex : q.x = t.1.x := by linarith
  have ey : q.y = t.1.y := by linarith
  exact ⟨⟨ex.trans hx.symm, ey.trans hy.symm⟩, ex, ey⟩

/-- A sufficient test for a simple polygon. -/
def simpleCheck (l : List (Vertex K)) : Bool :=
  decide (∀ s ∈ pairs l false, ¬ (s.1.x = s.2.x ∧ s.1.y = s.2.y)) &&
    decide ((pairs l false).Pairwise fun s t => apartCheck s t || adjoinCheck s t || adjoinCheck t s)

theorem simple_of_check {l : List (Vertex K)} (h : simpleCheck l = true) : SimplePolygon l := by
  unfold simpleCheck at h
  simp only [Bool.and_eq_true, decide_eq_true_eq] at h
  refine ⟨h.1, List.Pairwise.imp ?_ h.2⟩
  intro s t hst q hs ht
  simp only [Bool.or_eq_true] at hst
  rcases hst with (hst | hst) | hst
  · exact (apart_of_check hst hs ht).elim
  · exact Or.inl (adjoin_of_check hst hs ht)
  · exact Or.inr (adjoin_of_check hst ht hs).symm

/-- A sufficient test for polygons that touch only crosswise. -/
def crosswiseCheck (l m : List (Vertex K)) : Bool :=
  decide (∀ s ∈ pairs l false, ∀ t ∈ pairs m false, apartCheck s t = true ∨
    (s.2.x - s.1.x) * (t.2.y - t.1.y) - (s.2.y - s.1.y) * (t.2.x - t.1.x) ≠ 0)

theorem crosswise_of_check {l m : List (Vertex K)} (h : crosswiseCheck l m = true) : Crosswise l m := by
  unfold crosswiseCheck at h
  rw [decide_eq_true_eq] at h
  intro s hs t ht q hq hq' hp
  rcases h s hs t ht with h | h
  · exact apart_of_check h hq hq'
  · refine h ?_
    unfold Parallel at hp
    linear_combination hp

end Verif
