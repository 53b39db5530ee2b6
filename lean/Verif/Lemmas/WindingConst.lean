import Verif.Lemmas.Winding
import Mathlib.Tactic.FieldSimp
import Mathlib.Tactic.LinearCombination

/-!
# The winding number does not change along a segment that avoids the polyline
-/

set_option linter.unusedSectionVars false

namespace Verif

open Spec

variable {K : Type*} [Field K] [LinearOrder K] [IsStrictOrderedRing K]

/-- Ordinate of the line `a b` over `x`. -/
def heightAt (a b : Vertex K) (x : K) : K := a.y + (x - a.x) * ((b.y - a.y) / (b.x - a.x))

theorem cross_height {a b : Vertex K} (h : a.x < b.x) (v : Vertex K) :
    cross a b v = (b.x - a.x) * (v.y - heightAt a b v.x) := by
  have : b.x - a.x ≠ 0 := (sub_pos.2 h).ne'
  unfold cross heightAt
  field_simp
  ring

theorem cross_neg_iff {a b v : Vertex K} (h : a.x < b.x) :
    cross a b v < 0 ↔ v.y < heightAt a b v.x := by
  rw [cross_height h]
  have h' := sub_pos.2 h
  constructor
  · intro hc
    by_contra hn
    have := mul_nonneg h'.le (sub_nonneg.2 (not_lt.1 hn))
    linarith
  · intro hc
    exact mul_neg_of_pos_of_neg h' (sub_neg.2 hc)

theorem cross_pos_iff {a b v : Vertex K} (h : a.x < b.x) :
    0 < cross a b v ↔ heightAt a b v.x < v.y := by
  rw [cross_height h]
  have h' := sub_pos.2 h
  rw [mul_pos_iff_of_pos_left h', sub_pos]

theorem heightAt_left (a b : Vertex K) : heightAt a b a.x = a.y := by
  unfold heightAt; ring

theorem heightAt_right {a b : Vertex K} (h : a.x < b.x) : heightAt a b b.x = b.y := by
  have : b.x - a.x ≠ 0 := (sub_pos.2 h).ne'
  unfold heightAt; field_simp; ring

theorem onSegment_height {a b : Vertex K} (h : a.x < b.x) {x : K} (h1 : a.x ≤ x) (h2 : x ≤ b.x) :
    OnSegment a b ⟨x, heightAt a b x, false⟩ := by
  have h' := sub_pos.2 h
  refine ⟨(x - a.x) / (b.x - a.x), div_nonneg (by linarith) h'.le, (div_le_one h').2 (by linarith), ?_, ?_⟩
  · simp only []; field_simp; ring
  · simp only [heightAt]; ring

/-- Two segments that are graphs over `[x0, x1]` and have no common point keep their order. -/
theorem height_order {a b c d : Vertex K} (hab : a.x < b.x) (hcd : c.x < d.x)
    (hmiss : ∀ p, OnSegment a b p → ¬ OnSegment c d p) {x0 x1 : K} (h01 : x0 ≤ x1)
    (ha : a.x ≤ x0) (hb : x1 ≤ b.x) (hc : c.x ≤ x0) (hd : x1 ≤ d.x) :
    heightAt a b x0 < heightAt c d x0 ↔ heightAt a b x1 < heightAt c d x1 := by
  have hne : ∀ x, x0 ≤ x → x ≤ x1 → heightAt a b x ≠ heightAt c d x := by
    intro x hx0 hx1 he
    refine hmiss ⟨x, heightAt a b x, false⟩ (onSegment_height hab (ha.trans hx0) (hx1.trans hb)) ?_
    rw [he]
    exact onSegment_height hcd (hc.trans hx0) (hx1.trans hd)
  -- a sign change would give a common point
  have key : ∀ {a b c d : Vertex K}, (∀ x, x0 ≤ x → x ≤ x1 → heightAt a b x ≠ heightAt c d x) →
      heightAt a b x0 < heightAt c d x0 → heightAt c d x1 ≤ heightAt a b x1 → False := by
    intro a b c d hne h0 h1
    have hD : 0 < (heightAt c d x0 - heightAt a b x0) + (heightAt a b x1 - heightAt c d x1) := by linarith
    set D := (heightAt c d x0 - heightAt a b x0) + (heightAt a b x1 - heightAt c d x1) with hDdef
    set t := (heightAt c d x0 - heightAt a b x0) / D with ht
    have ht0 : 0 ≤ t := div_nonneg (by linarith) hD.le
    have ht1 : t ≤ 1 := (div_le_one hD).2 (by linarith)
    have htD : t * D = heightAt c d x0 - heightAt a b x0 := div_mul_cancel₀ _ hD.ne'
    refine hne (x0 + t * (x1 - x0)) (by nlinarith) (by nlinarith) ?_
    clear_value t
    rw [hDdef] at htD
    clear_value D
    simp only [heightAt] at htD ⊢
    linear_combination htD
  constructor
  · intro h0
    by_contra h1
    exact key hne h0 (not_lt.1 h1)
  · intro h1
    by_contra h0
    rcases (not_lt.1 h0).lt_or_eq with h0 | h0
    · exact key (fun x hx hx' he => hne x hx hx' he.symm) h0 h1.le
    · exact hne x0 le_rfl h01 h0.symm

theorem crossingAbove_swap (v a b : Vertex K) : crossingAbove v b a = -crossingAbove v a b := by
  unfold crossingAbove
  rw [cross_swap a b v]
  by_cases h1 : b.x ≤ v.x ∧ v.x < a.x ∧ 0 < cross a b v
  · have h2 : ¬ (a.x ≤ v.x ∧ v.x < b.x ∧ 0 < -cross a b v) := fun h => by linarith [h.2.2, h1.2.2]
    have h3 : b.x ≤ v.x ∧ v.x < a.x ∧ -cross a b v < 0 := ⟨h1.1, h1.2.1, by linarith [h1.2.2]⟩
    rw [if_pos h1, if_neg h2, if_pos h3]
  · rw [if_neg h1]
    have h3 : ¬ (b.x ≤ v.x ∧ v.x < a.x ∧ -cross a b v < 0) := fun h =>
      h1 ⟨h.1, h.2.1, by linarith [h.2.2]⟩
    rw [if_neg h3]
    by_cases h2 : a.x ≤ v.x ∧ v.x < b.x ∧ cross a b v < 0
    · have h2' : a.x ≤ v.x ∧ v.x < b.x ∧ 0 < -cross a b v := ⟨h2.1, h2.2.1, by linarith [h2.2.2]⟩
      rw [if_pos h2, if_pos h2']; rfl
    · have h2' : ¬ (a.x ≤ v.x ∧ v.x < b.x ∧ 0 < -cross a b v) := fun h =>
        h2 ⟨h.1, h.2.1, by linarith [h.2.2]⟩
      rw [if_neg h2, if_neg h2']; rfl

/-- Above the segment `v w`, in its half-open slab. -/
def aboveSeg (v w a : Vertex K) : ℤ :=
  if v.x < a.x ∧ a.x ≤ w.x ∧ heightAt v w a.x < a.y then 1 else 0

theorem crossing_diff_lt {v w a b : Vertex K} (hvw : v.x < w.x) (hab : a.x < b.x)
    (hmiss : ∀ p, OnSegment a b p → ¬ OnSegment v w p) :
    crossingAbove w a b - crossingAbove v a b = aboveSeg v w b - aboveSeg v w a := by
  have e : ∀ z : Vertex K, crossingAbove z a b =
      if a.x ≤ z.x ∧ z.x < b.x ∧ z.y < heightAt a b z.x then -1 else 0 := by
    intro z
    unfold crossingAbove
    rw [if_neg (fun h => by linarith [h.1, h.2.1])]
    simp only [cross_neg_iff hab]
  have hmiss' : ∀ p, OnSegment v w p → ¬ OnSegment a b p := fun p h1 h2 => hmiss p h2 h1
  have hord := fun {x0 x1 : K} => height_order hvw hab hmiss' (x0 := x0) (x1 := x1)
  have lv : heightAt v w v.x = v.y := heightAt_left v w
  have lw : heightAt v w w.x = w.y := heightAt_right hvw
  have la : heightAt a b a.x = a.y := heightAt_left a b
  have lb : heightAt a b b.x = b.y := heightAt_right hab
  rw [e, e]
  unfold aboveSeg
  rcases le_or_gt a.x v.x with ha | ha
  · -- a left of the slab
    have na : ¬ (v.x < a.x ∧ a.x ≤ w.x ∧ heightAt v w a.x < a.y) := fun h => absurd h.1 (not_lt.2 ha)
    rw [if_neg na]
    rcases le_or_gt b.x v.x with hb | hb
    · rw [if_neg (fun h => absurd h.2.1 (not_lt.2 (hb.trans hvw.le))),
        if_neg (fun h => absurd h.2.1 (not_lt.2 hb)), if_neg (fun h => absurd h.1 (not_lt.2 hb))]
    · rcases le_or_gt b.x w.x with hb' | hb'
      · rw [if_neg (fun h => absurd h.2.1 (not_lt.2 hb'))]
        have := hord hb.le le_rfl hb' ha le_rfl
        rw [lv, lb] at this
        by_cases hc : v.y < heightAt a b v.x
        · rw [if_pos ⟨ha, hb, hc⟩, if_pos ⟨hb, hb', this.1 hc⟩]; rfl
        · rw [if_neg (fun h => hc h.2.2), if_neg (fun h => hc (this.2 h.2.2))]
      · rw [if_neg (fun h : v.x < b.x ∧ b.x ≤ w.x ∧ heightAt v w b.x < b.y =>
          absurd h.2.1 (not_le.2 hb'))]
        have := hord hvw.le le_rfl le_rfl ha hb'.le
        rw [lv, lw] at this
        by_cases hc : v.y < heightAt a b v.x
        · rw [if_pos ⟨ha.trans hvw.le, hb', this.1 hc⟩, if_pos ⟨ha, hb, hc⟩]; rfl
        · rw [if_neg (fun h => hc (this.2 h.2.2)), if_neg (fun h => hc h.2.2)]
  · rcases le_or_gt a.x w.x with ha' | ha'
    · -- a in the slab
      have hb : v.x < b.x := ha.trans hab
      rw [if_neg (fun h : a.x ≤ v.x ∧ v.x < b.x ∧ v.y < heightAt a b v.x => absurd h.1 (not_le.2 ha))]
      rcases le_or_gt b.x w.x with hb' | hb'
      · rw [if_neg (fun h => absurd h.2.1 (not_lt.2 hb'))]
        have := hord hab.le ha.le hb' le_rfl le_rfl
        rw [la, lb] at this
        by_cases hc : heightAt v w a.x < a.y
        · rw [if_pos ⟨hb, hb', this.1 hc⟩, if_pos ⟨ha, ha', hc⟩]; rfl
        · rw [if_neg (fun h => hc (this.2 h.2.2)), if_neg (fun h => hc h.2.2)]
      · rw [if_neg (fun h : v.x < b.x ∧ b.x ≤ w.x ∧ heightAt v w b.x < b.y =>
          absurd h.2.1 (not_le.2 hb'))]
        have := hord ha' ha.le le_rfl le_rfl hb'.le
        rw [la, lw] at this
        by_cases hc : heightAt v w a.x < a.y
        · rw [if_pos ⟨ha', hb', this.1 hc⟩, if_pos ⟨ha, ha', hc⟩]; rfl
        · rw [if_neg (fun h => hc (this.2 h.2.2)), if_neg (fun h => hc h.2.2)]
    · rw [if_neg (fun h => absurd h.1 (not_le.2 ha')),
        if_neg (fun h : a.x ≤ v.x ∧ v.x < b.x ∧ v.y < heightAt a b v.x => absurd h.1 (not_le.2 ha)),
        if_neg (fun h => absurd h.2.1 (not_le.2 (ha'.trans hab))),
        if_neg (fun h => absurd h.2.1 (not_le.2 ha'))]

/-- The difference of the crossings of the two rays telescopes. -/
theorem crossing_diff {v w a b : Vertex K} (hvw : v.x < w.x)
    (hmiss : ∀ p, OnSegment a b p → ¬ OnSegment v w p) :
    crossingAbove w a b - crossingAbove v a b = aboveSeg v w b - aboveSeg v w a := by
  rcases lt_trichotomy a.x b.x with h | h | h
  · exact crossing_diff_lt hvw h hmiss
  · have e : ∀ z : Vertex K, crossingAbove z a b = 0 := by
      intro z
      unfold crossingAbove
      rw [if_neg (fun h' => by linarith [h'.1, h'.2.1]), if_neg (fun h' => by linarith [h'.1, h'.2.1])]
    rw [e, e, sub_self]
    unfold aboveSeg
    rw [← h]
    by_cases hs : v.x < a.x ∧ a.x ≤ w.x
    · have key : ∀ {a b : Vertex K}, a.x = b.x → v.x < a.x ∧ a.x ≤ w.x →
          (∀ p, OnSegment a b p → ¬ OnSegment v w p) →
          heightAt v w a.x < a.y → heightAt v w a.x < b.y := by
        intro a b h hs hmiss hl
        by_contra hg
        refine hmiss ⟨a.x, heightAt v w a.x, false⟩ ?_ (onSegment_height hvw hs.1.le hs.2)
        exact (vertical_onSegment h).2 ⟨rfl, Or.inr ⟨not_lt.1 hg, hl.le⟩⟩
      by_cases hc : heightAt v w a.x < a.y
      · rw [if_pos ⟨hs.1, hs.2, key h hs hmiss hc⟩, if_pos ⟨hs.1, hs.2, hc⟩, sub_self]
      · have hc' : ¬ heightAt v w a.x < b.y := fun h' => hc (by
          have := key h.symm (h ▸ hs) (fun p hp => hmiss p (onSegment_symm hp)) (h ▸ h')
          rwa [← h] at this)
        rw [if_neg (fun h => hc' h.2.2), if_neg (fun h => hc h.2.2), sub_self]
    · rw [if_neg (fun h => hs ⟨h.1, h.2.1⟩), if_neg (fun h => hs ⟨h.1, h.2.1⟩), sub_self]
  · have := crossing_diff_lt hvw h (fun p hp => hmiss p (onSegment_symm hp))
    rw [crossingAbove_swap w a b, crossingAbove_swap v a b] at this
    omega

theorem crossing_vertical {v w a b : Vertex K} (hvw : v.x = w.x)
    (hmiss : ∀ p, OnSegment a b p → ¬ OnSegment v w p) : crossingAbove w a b = crossingAbove v a b := by
  have lt : ∀ {a b : Vertex K}, a.x < b.x → (∀ p, OnSegment a b p → ¬ OnSegment v w p) →
      crossingAbove w a b = crossingAbove v a b := by
    intro a b hab hmiss
    have e : ∀ z : Vertex K, crossingAbove z a b =
        if a.x ≤ z.x ∧ z.x < b.x ∧ z.y < heightAt a b z.x then -1 else 0 := by
      intro z
      unfold crossingAbove
      rw [if_neg (fun h => by linarith [h.1, h.2.1])]
      simp only [cross_neg_iff hab]
    rw [e, e, ← hvw]
    by_cases hs : a.x ≤ v.x ∧ v.x < b.x
    · have hon := onSegment_height hab hs.1 hs.2.le
      have hno := hmiss _ hon
      rw [vertical_onSegment hvw] at hno
      simp only [true_and] at hno
      have : w.y < heightAt a b v.x ↔ v.y < heightAt a b v.x := by
        constructor
        · intro h; by_contra hc; exact hno (Or.inr ⟨h.le, not_lt.1 hc⟩)
        · intro h; by_contra hc; exact hno (Or.inl ⟨h.le, not_lt.1 hc⟩)
      simp only [this]
    · rw [if_neg (fun h => hs ⟨h.1, h.2.1⟩), if_neg (fun h => hs ⟨h.1, h.2.1⟩)]
  rcases lt_trichotomy a.x b.x with h | h | h
  · exact lt h hmiss
  · have e : ∀ z : Vertex K, crossingAbove z a b = 0 := by
      intro z
      unfold crossingAbove
      rw [if_neg (fun h' => by linarith [h'.1, h'.2.1]), if_neg (fun h' => by linarith [h'.1, h'.2.1])]
    rw [e, e]
  · have := lt h (fun p hp => hmiss p (onSegment_symm hp))
    rw [crossingAbove_swap w a b, crossingAbove_swap v a b] at this
    omega

/-- Two points joined by a segment that avoids the closed polyline have the same winding number. -/
theorem winding_const (l : List (Vertex K)) {v w : Vertex K}
    (hmiss : ∀ s ∈ pairs l false, ∀ p, OnSegment s.1 s.2 p → ¬ OnSegment v w p) :
    windingNumber (pairs l false) v = windingNumber (pairs l false) w := by
  have main : ∀ {v w : Vertex K}, v.x < w.x →
      (∀ s ∈ pairs l false, ∀ p, OnSegment s.1 s.2 p → ¬ OnSegment v w p) →
      windingNumber (pairs l false) w - windingNumber (pairs l false) v = 0 := by
    intro v w hvw hmiss
    have h : ∀ q : List (Vertex K × Vertex K),
        (∀ s ∈ q, ∀ p, OnSegment s.1 s.2 p → ¬ OnSegment v w p) →
        windingNumber q w - windingNumber q v =
          (q.map fun s => aboveSeg v w s.2 - aboveSeg v w s.1).sum := by
      intro q
      induction q with
      | nil => intro _; simp [windingNumber]
      | cons s q ih =>
        intro hq
        have h1 := ih fun t ht => hq t (List.mem_cons_of_mem _ ht)
        have h2 := crossing_diff hvw (hq s List.mem_cons_self)
        simp only [windingNumber, List.map_cons, List.sum_cons] at h1 ⊢
        omega
    rw [h _ hmiss, sum_pairs_closed (aboveSeg v w)]
  rcases lt_trichotomy v.x w.x with hvw | hvw | hvw
  · have := main hvw hmiss; omega
  · unfold windingNumber
    congr 1
    apply List.map_congr_left
    intro s hs
    exact (crossing_vertical hvw (hmiss s hs)).symm
  · have := main hvw (fun s hs p h1 h2 => hmiss s hs p h1 (onSegment_symm h2)); omega

end Verif
