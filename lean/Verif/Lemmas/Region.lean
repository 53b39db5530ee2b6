import Verif.Lemmas.Pieces
import Mathlib.Algebra.BigOperators.Ring.List

/-!
# Counting crossings of two arrangements of segments on the same ray
-/

set_option linter.unusedSectionVars false

namespace Verif

open Spec

variable {K : Type*} [Field K] [LinearOrder K] [IsStrictOrderedRing K]

/-- How the segment `a b` passes over the abscissa `x`. -/
def span (a b : Vertex K) (x : K) : ℤ :=
  if b.x ≤ x ∧ x < a.x then 1 else if a.x ≤ x ∧ x < b.x then -1 else 0

theorem cross_height' {a b : Vertex K} (h : a.x ≠ b.x) (v : Vertex K) :
    cross a b v = (b.x - a.x) * (v.y - heightAt a b v.x) := by
  have : b.x - a.x ≠ 0 := sub_ne_zero.2 h.symm
  unfold cross heightAt
  field_simp
  ring

theorem crossing_eq (v a b : Vertex K) :
    crossingAbove v a b = if v.y < heightAt a b v.x then span a b v.x else 0 := by
  unfold crossingAbove span
  rcases lt_trichotomy a.x b.x with h | h | h
  · rw [if_neg (fun h' => by linarith [h'.1, h'.2.1]), if_neg (c := b.x ≤ v.x ∧ v.x < a.x)
      (fun h' => by linarith [h'.1, h'.2])]
    simp only [cross_neg_iff h]
    by_cases h1 : v.y < heightAt a b v.x
    · simp [h1]
    · simp [h1]
  · rw [if_neg (fun h' => by linarith [h'.1, h'.2.1]), if_neg (fun h' => by linarith [h'.1, h'.2.1]),
      if_neg (c := b.x ≤ v.x ∧ v.x < a.x) (fun h' => by linarith [h'.1, h'.2]),
      if_neg (c := a.x ≤ v.x ∧ v.x < b.x) (fun h' => by linarith [h'.1, h'.2])]
    simp
  · rw [if_neg (c := a.x ≤ v.x ∧ v.x < b.x) (fun h' => by linarith [h'.1, h'.2]),
      if_neg (c := a.x ≤ v.x ∧ v.x < b.x ∧ cross a b v < 0) (fun h' => by linarith [h'.1, h'.2.1])]
    have : 0 < cross a b v ↔ v.y < heightAt a b v.x := by
      rw [cross_height' h.ne']
      have h' : b.x - a.x < 0 := sub_neg.2 h
      constructor
      · intro hc
        by_contra hn
        have := mul_nonpos_of_nonpos_of_nonneg h'.le (sub_nonneg.2 (not_lt.1 hn))
        linarith
      · intro hc
        exact mul_pos_of_neg_of_neg h' (sub_neg.2 hc)
    simp only [this]
    by_cases h1 : v.y < heightAt a b v.x
    · simp [h1]
    · simp [h1]

theorem onSegment_heightAt {a b : Vertex K} {x : K} (h : span a b x ≠ 0) :
    OnSegment a b ⟨x, heightAt a b x, false⟩ := by
  have hx : (b.x ≤ x ∧ x < a.x) ∨ (a.x ≤ x ∧ x < b.x) := by
    unfold span at h
    by_contra hc
    push Not at hc
    rw [if_neg (fun h' => absurd h'.2 (not_lt.2 (hc.1 h'.1))),
      if_neg (fun h' => absurd h'.2 (not_lt.2 (hc.2 h'.1)))] at h
    exact h rfl
  rcases hx with ⟨h1, h2⟩ | ⟨h1, h2⟩
  · have h' : 0 < a.x - b.x := by linarith
    have h'' : b.x - a.x ≠ 0 := by linarith [h'] |> fun h : b.x - a.x < 0 => h.ne
    refine ⟨(a.x - x) / (a.x - b.x), div_nonneg (by linarith) h'.le, (div_le_one h').2 (by linarith), ?_, ?_⟩
    · simp only []; field_simp; ring
    · simp only [heightAt]; field_simp; ring
  · exact onSegment_height (h1.trans_lt h2) h1 h2.le

theorem strictlyOn_heightAt {a b : Vertex K} {x : K} (h : span a b x ≠ 0) (ha : a.x ≠ x) (hb : b.x ≠ x) :
    StrictlyOn a b ⟨x, heightAt a b x, false⟩ :=
  ⟨onSegment_heightAt h, fun h' => ha h'.1, fun h' => hb h'.1⟩

/-- The crossings of two segments over a point, counted from the lower one. -/
theorem crossing_mul {a b c d v : Vertex K}
    (hne : span a b v.x ≠ 0 → span c d v.x ≠ 0 → heightAt a b v.x ≠ heightAt c d v.x) :
    crossingAbove v a b * crossingAbove v c d =
      crossingAbove v a b * crossingAbove ⟨v.x, heightAt a b v.x, false⟩ c d +
        crossingAbove v c d * crossingAbove ⟨v.x, heightAt c d v.x, false⟩ a b := by
  simp only [crossing_eq]
  by_cases h1 : span a b v.x = 0
  · simp [h1]
  · by_cases h2 : span c d v.x = 0
    · simp [h2]
    · have := hne h1 h2
      rcases lt_or_gt_of_ne this with h | h
      · by_cases h3 : v.y < heightAt a b v.x
        · rw [if_pos h3, if_pos (h3.trans h), if_pos h, if_neg (not_lt.2 h.le)]; ring
        · rw [if_neg h3, if_neg (not_lt.2 h.le)]; ring
      · by_cases h3 : v.y < heightAt c d v.x
        · rw [if_pos h3, if_pos (h3.trans h), if_pos h, if_neg (not_lt.2 h.le)]; ring
        · rw [if_neg h3, if_neg (not_lt.2 h.le)]; ring

/-- Crossings of the upward ray from `v`, each counted with the weight of its segment. -/
def weighted (k : Vertex K × Vertex K → ℤ) (l : List (Vertex K × Vertex K)) (v : Vertex K) : ℤ :=
  (l.map fun s => k s * crossingAbove v s.1 s.2).sum

theorem sum_mul_sum {α β : Type*} (f : α → ℤ) (g : β → ℤ) (l : List α) (m : List β) :
    (l.map f).sum * (m.map g).sum = (l.map fun a => (m.map fun b => f a * g b).sum).sum := by
  rw [← List.sum_map_mul_right]
  congr 1
  apply List.map_congr_left
  intro a _
  rw [← List.sum_map_mul_left]

theorem sum_swap {α β : Type*} (f : α → β → ℤ) (l : List α) (m : List β) :
    (l.map fun a => (m.map fun b => f a b).sum).sum = (m.map fun b => (l.map fun a => f a b).sum).sum := by
  induction l with
  | nil => simp
  | cons a l ih =>
    simp only [List.map_cons, List.sum_cons]
    rw [ih, ← List.sum_map_add]

/-- Over a point whose abscissa is not that of any end, the product of the two counts can be had from the crossings
of each arrangement, weighted with the count of the other one there. -/
theorem winding_mul {l m : List (Vertex K × Vertex K)} {v : Vertex K}
    (hne : ∀ s ∈ l, ∀ t ∈ m, span s.1 s.2 v.x ≠ 0 → span t.1 t.2 v.x ≠ 0 →
      heightAt s.1 s.2 v.x ≠ heightAt t.1 t.2 v.x) :
    windingNumber l v * windingNumber m v =
      weighted (fun s => windingNumber m ⟨v.x, heightAt s.1 s.2 v.x, false⟩) l v +
        weighted (fun t => windingNumber l ⟨v.x, heightAt t.1 t.2 v.x, false⟩) m v := by
  have e1 : weighted (fun s => windingNumber m ⟨v.x, heightAt s.1 s.2 v.x, false⟩) l v =
      (l.map fun s => (m.map fun t => crossingAbove v s.1 s.2 *
        crossingAbove ⟨v.x, heightAt s.1 s.2 v.x, false⟩ t.1 t.2).sum).sum := by
    unfold weighted windingNumber
    congr 1
    apply List.map_congr_left
    intro s _
    rw [mul_comm, ← List.sum_map_mul_left]
  have e2 : weighted (fun t => windingNumber l ⟨v.x, heightAt t.1 t.2 v.x, false⟩) m v =
      (l.map fun s => (m.map fun t => crossingAbove v t.1 t.2 *
        crossingAbove ⟨v.x, heightAt t.1 t.2 v.x, false⟩ s.1 s.2).sum).sum := by
    unfold weighted windingNumber
    rw [sum_swap]
    congr 1
    apply List.map_congr_left
    intro s _
    rw [mul_comm, ← List.sum_map_mul_left]
  rw [e1, e2, ← List.sum_map_add]
  unfold windingNumber
  rw [sum_mul_sum]
  congr 1
  apply List.map_congr_left
  intro s hs
  rw [← List.sum_map_add]
  congr 1
  apply List.map_congr_left
  intro t ht
  exact crossing_mul (hne s hs t ht)

/-- A distance that suits every element of a list. -/
theorem exists_common {α : Type*} {P : α → K → Prop} (hanti : ∀ a d d', d' ≤ d → P a d → P a d') (l : List α)
    (h : ∀ a ∈ l, ∃ d, 0 < d ∧ P a d) : ∃ d, 0 < d ∧ ∀ a ∈ l, P a d := by
  induction l with
  | nil => exact ⟨1, one_pos, by simp⟩
  | cons a l ih =>
    obtain ⟨d1, h1, h2⟩ := h a (by simp)
    obtain ⟨d2, h3, h4⟩ := ih fun b hb => h b (List.mem_cons_of_mem _ hb)
    refine ⟨min d1 d2, lt_min h1 h3, fun b hb => ?_⟩
    rcases List.mem_cons.1 hb with rfl | hb
    · exact hanti _ _ _ (min_le_left _ _) h2
    · exact hanti _ _ _ (min_le_right _ _) (h4 b hb)

/-- A point that is not on a segment has room to the left and to the right. -/
theorem gap {a b v : Vertex K} (h : ¬ OnSegment a b v) :
    ∃ d, 0 < d ∧ ∀ p, OnSegment a b p → p.y = v.y → d < |p.x - v.x| := by
  have half : ∀ z : K, z ≠ v.x → ∃ d, 0 < d ∧ d < |z - v.x| := fun z hz =>
    ⟨|z - v.x| / 2, half_pos (abs_pos.2 (sub_ne_zero.2 hz)), half_lt_self (abs_pos.2 (sub_ne_zero.2 hz))⟩
  by_cases hy : a.y = b.y
  · by_cases hv : a.y = v.y
    · have key : ∀ p : Vertex K, OnSegment a b p → p.x ≠ v.x := by
        rintro p ⟨t, t0, t1, tx, ty⟩ hx
        exact h ⟨t, t0, t1, by rw [← hx, tx], by rw [hy]; rw [hy] at hv; rw [← hv]; ring⟩
      have ha : a.x ≠ v.x := key a (onSegment_left a b)
      have hb : b.x ≠ v.x := key b (onSegment_right a b)
      obtain ⟨d1, p1, q1⟩ := half _ ha
      obtain ⟨d2, p2, q2⟩ := half _ hb
      refine ⟨min d1 d2, lt_min p1 p2, fun p hp _ => ?_⟩
      have hside : (v.x < a.x ∧ v.x < b.x) ∨ (a.x < v.x ∧ b.x < v.x) := by
        by_contra hc
        have hbet : (a.x ≤ v.x ∧ v.x ≤ b.x) ∨ (b.x ≤ v.x ∧ v.x ≤ a.x) := by
          push Not at hc
          rcases lt_or_gt_of_ne ha with h1 | h1
          · exact Or.inl ⟨h1.le, hc.2 h1⟩
          · exact Or.inr ⟨hc.1 h1, h1.le⟩
        have hne : a.x ≠ b.x := by
          intro he
          rcases hbet with ⟨h1, h2⟩ | ⟨h1, h2⟩
          · exact ha (le_antisymm h1 (he ▸ h2))
          · exact ha (le_antisymm (he ▸ h1) h2)
        have hne' : b.x - a.x ≠ 0 := sub_ne_zero.2 hne.symm
        refine h ⟨(v.x - a.x) / (b.x - a.x), ?_, ?_, by field_simp; ring, by rw [← hy, ← hv]; ring⟩
        · rcases hbet with ⟨h1, h2⟩ | ⟨h1, h2⟩
          · exact div_nonneg (by linarith) (by linarith)
          · exact div_nonneg_of_nonpos (by linarith) (by linarith)
        · rcases hbet with ⟨h1, h2⟩ | ⟨h1, h2⟩
          · rw [div_le_one (lt_of_le_of_ne (by linarith) (Ne.symm hne'))]; linarith
          · rw [div_le_one_of_neg (lt_of_le_of_ne (by linarith) hne')]; linarith
      obtain ⟨⟨b1, b2⟩, -⟩ := onSegment_box hp
      rcases hside with ⟨h1, h2⟩ | ⟨h1, h2⟩
      · rw [abs_of_pos (by linarith)] at q1 q2
        have : v.x < min a.x b.x := lt_min h1 h2
        rw [abs_of_pos (by linarith)]
        rcases min_choice a.x b.x with e | e
        · have := min_le_left d1 d2; rw [e] at b1; linarith
        · have := min_le_right d1 d2; rw [e] at b1; linarith
      · rw [abs_of_neg (by linarith)] at q1 q2
        have : max a.x b.x < v.x := max_lt h1 h2
        rw [abs_of_neg (by linarith)]
        rcases max_choice a.x b.x with e | e
        · have := min_le_left d1 d2; rw [e] at b2; linarith
        · have := min_le_right d1 d2; rw [e] at b2; linarith
    · refine ⟨1, one_pos, ?_⟩
      rintro p ⟨t, -, -, -, ty⟩ hp
      exact absurd (by rw [← hp, ty, hy]; ring) hv
  · have hne : b.y - a.y ≠ 0 := sub_ne_zero.2 (Ne.symm hy)
    have key : ∀ p : Vertex K, OnSegment a b p → p.y = v.y →
        p.x = a.x + (v.y - a.y) / (b.y - a.y) * (b.x - a.x) := by
      rintro p ⟨t, -, -, tx, ty⟩ hp
      have : t = (v.y - a.y) / (b.y - a.y) := by
        rw [eq_div_iff hne, ← hp, ty]; ring
      rw [tx, this]
    by_cases hx : a.x + (v.y - a.y) / (b.y - a.y) * (b.x - a.x) = v.x
    · refine ⟨1, one_pos, fun p hp hpy => ?_⟩
      have := key p hp hpy
      exact absurd ((onSegment_congr ⟨rfl, rfl⟩ ⟨rfl, rfl⟩ ⟨this.trans hx, hpy⟩).1 hp) h
    · obtain ⟨d, p1, q1⟩ := half _ hx
      exact ⟨d, p1, fun p hp hpy => by rw [key p hp hpy]; exact q1⟩

/-- Around a point that is not on any of the segments, a horizontal segment that avoids them all and has no end above
or below it, except right above or below the point. -/
theorem room (l : List (Vertex K × Vertex K)) {v : Vertex K} (hv : ∀ s ∈ l, ¬ OnSegment s.1 s.2 v) :
    ∃ d, 0 < d ∧ (∀ s ∈ l, ∀ p, OnSegment s.1 s.2 p → p.y = v.y → d < |p.x - v.x|) ∧
      ∀ s ∈ l, (s.1.x ≠ v.x → d < |s.1.x - v.x|) ∧ (s.2.x ≠ v.x → d < |s.2.x - v.x|) := by
  obtain ⟨d1, h1, h2⟩ := exists_common (l := l)
    (P := fun (s : Vertex K × Vertex K) d => ∀ p, OnSegment s.1 s.2 p → p.y = v.y → d < |p.x - v.x|)
    (fun s d d' hd h p hp hy => hd.trans_lt (h p hp hy)) fun s hs => gap (hv s hs)
  have half : ∀ z : K, ∃ d, 0 < d ∧ (z ≠ v.x → d < |z - v.x|) := fun z => by
    by_cases hz : z = v.x
    · exact ⟨1, one_pos, fun h => absurd hz h⟩
    · exact ⟨|z - v.x| / 2, half_pos (abs_pos.2 (sub_ne_zero.2 hz)), fun _ =>
        half_lt_self (abs_pos.2 (sub_ne_zero.2 hz))⟩
  obtain ⟨d2, h3, h4⟩ := exists_common (l := l)
    (P := fun (s : Vertex K × Vertex K) d => (s.1.x ≠ v.x → d < |s.1.x - v.x|) ∧ (s.2.x ≠ v.x → d < |s.2.x - v.x|))
    (fun s d d' hd h => ⟨fun h' => hd.trans_lt (h.1 h'), fun h' => hd.trans_lt (h.2 h')⟩) fun s _ => by
      obtain ⟨e1, p1, q1⟩ := half s.1.x
      obtain ⟨e2, p2, q2⟩ := half s.2.x
      exact ⟨min e1 e2, lt_min p1 p2, fun h => (min_le_left _ _).trans_lt (q1 h),
        fun h => (min_le_right _ _).trans_lt (q2 h)⟩
  exact ⟨min d1 d2, lt_min h1 h3, fun s hs p hp hy => (min_le_left _ _).trans_lt (h2 s hs p hp hy),
    fun s hs => ⟨fun h => (min_le_right _ _).trans_lt ((h4 s hs).1 h),
      fun h => (min_le_right _ _).trans_lt ((h4 s hs).2 h)⟩⟩

theorem onSegment_level {v w p : Vertex K} (h : OnSegment v w p) (hy : w.y = v.y) (hx : v.x ≤ w.x) :
    p.y = v.y ∧ v.x ≤ p.x ∧ p.x ≤ w.x := by
  obtain ⟨t, t0, t1, tx, ty⟩ := h
  refine ⟨by rw [ty, hy]; ring, ?_, ?_⟩
  · rw [tx]; have := mul_nonneg t0 (sub_nonneg.2 hx); linarith
  · rw [tx]; have := mul_le_of_le_one_left (sub_nonneg.2 hx) t1; linarith

theorem weighted_congr {k k' : Vertex K × Vertex K → ℤ} {l : List (Vertex K × Vertex K)} {v : Vertex K}
    (h : ∀ s ∈ l, crossingAbove v s.1 s.2 ≠ 0 → k s = k' s) : weighted k l v = weighted k' l v := by
  unfold weighted
  congr 1
  apply List.map_congr_left
  intro s hs
  by_cases hc : crossingAbove v s.1 s.2 = 0
  · rw [hc, mul_zero, mul_zero]
  · rw [h s hs hc]

/-- When each segment of one arrangement has a weight that depends linearly on the winding number of the other one along
it, the weighted crossings are the corresponding combination of the two winding numbers. -/
theorem region_identity {l m : List (Vertex K × Vertex K)} {k1 k2 : Vertex K × Vertex K → ℤ} {α β γ : ℤ}
    {v : Vertex K} (hv : ∀ s ∈ l ++ m, ¬ OnSegment s.1 s.2 v)
    (hdis : ∀ s ∈ l, ∀ t ∈ m, ∀ q, StrictlyOn s.1 s.2 q → ¬ OnSegment t.1 t.2 q)
    (h1 : ∀ s ∈ l, ∀ q, StrictlyOn s.1 s.2 q → k1 s = α + γ * windingNumber m q)
    (h2 : ∀ t ∈ m, ∀ q, StrictlyOn t.1 t.2 q → k2 t = β + γ * windingNumber l q) :
    weighted k1 l v + weighted k2 m v =
      α * windingNumber l v + β * windingNumber m v + γ * (windingNumber l v * windingNumber m v) := by
  obtain ⟨d, hd, hfar, hends⟩ := room _ hv
  let w : Vertex K := ⟨v.x + d, v.y, false⟩
  have hvw : v.x < w.x := by show v.x < v.x + d; linarith
  have hsame : ∀ s ∈ l ++ m, crossingAbove w s.1 s.2 = crossingAbove v s.1 s.2 := by
    intro s hs
    have hmiss : ∀ p, OnSegment s.1 s.2 p → ¬ OnSegment v w p := by
      intro p hp hp'
      obtain ⟨e1, e2, e3⟩ := onSegment_level hp' rfl hvw.le
      have := hfar s hs p hp e1
      rw [abs_of_nonneg (by linarith)] at this
      have e3' : p.x ≤ v.x + d := e3
      linarith
    have hz : ∀ e : Vertex K, (e.x ≠ v.x → d < |e.x - v.x|) → aboveSeg v w e = 0 := by
      intro e he
      unfold aboveSeg
      rw [if_neg]
      rintro ⟨e1, e2, -⟩
      have := he e1.ne'
      rw [abs_of_pos (by linarith)] at this
      have e2' : e.x ≤ v.x + d := e2
      linarith
    have := crossing_diff hvw hmiss
    rw [hz _ (hends s hs).1, hz _ (hends s hs).2] at this
    omega
  have hwl : windingNumber l w = windingNumber l v := by
    unfold windingNumber
    congr 1
    exact List.map_congr_left fun s hs => hsame s (List.mem_append_left _ hs)
  have hwm : windingNumber m w = windingNumber m v := by
    unfold windingNumber
    congr 1
    exact List.map_congr_left fun s hs => hsame s (List.mem_append_right _ hs)
  have hkl : weighted k1 l w = weighted k1 l v := by
    unfold weighted
    congr 1
    exact List.map_congr_left fun s hs => by rw [hsame s (List.mem_append_left _ hs)]
  have hkm : weighted k2 m w = weighted k2 m v := by
    unfold weighted
    congr 1
    exact List.map_congr_left fun s hs => by rw [hsame s (List.mem_append_right _ hs)]
  have hgen : ∀ s ∈ l ++ m, s.1.x ≠ w.x ∧ s.2.x ≠ w.x := by
    intro s hs
    obtain ⟨e1, e2⟩ := hends s hs
    have key : ∀ z : K, (z ≠ v.x → d < |z - v.x|) → z ≠ v.x + d := by
      rintro z hz rfl
      have := hz (by linarith)
      rw [add_sub_cancel_left, abs_of_pos hd] at this
      exact lt_irrefl _ this
    exact ⟨key _ e1, key _ e2⟩
  have hstrict : ∀ s ∈ l ++ m, span s.1 s.2 w.x ≠ 0 →
      StrictlyOn s.1 s.2 ⟨w.x, heightAt s.1 s.2 w.x, false⟩ := fun s hs h =>
    strictlyOn_heightAt h (hgen s hs).1 (hgen s hs).2
  have hcs : ∀ s : Vertex K × Vertex K, crossingAbove w s.1 s.2 ≠ 0 → span s.1 s.2 w.x ≠ 0 := by
    intro s h h'
    rw [crossing_eq, h'] at h
    simp at h
  have hmul := winding_mul (l := l) (m := m) (v := w) fun s hs t ht e1 e2 e3 => by
    refine hdis s hs t ht _ (hstrict s (List.mem_append_left _ hs) e1) ?_
    rw [e3]
    exact onSegment_heightAt e2
  have s1 : weighted k1 l w = α * windingNumber l w + γ *
      weighted (fun s => windingNumber m ⟨w.x, heightAt s.1 s.2 w.x, false⟩) l w := by
    rw [weighted_congr (k' := fun s => α + γ * windingNumber m ⟨w.x, heightAt s.1 s.2 w.x, false⟩)
      fun s hs hc => h1 s hs _ (hstrict s (List.mem_append_left _ hs) (hcs s hc))]
    unfold weighted
    rw [windingNumber, ← List.sum_map_mul_left, ← List.sum_map_mul_left, ← List.sum_map_add]
    congr 1
    exact List.map_congr_left fun s _ => by ring
  have s2 : weighted k2 m w = β * windingNumber m w + γ *
      weighted (fun t => windingNumber l ⟨w.x, heightAt t.1 t.2 w.x, false⟩) m w := by
    rw [weighted_congr (k' := fun t => β + γ * windingNumber l ⟨w.x, heightAt t.1 t.2 w.x, false⟩)
      fun s hs hc => h2 s hs _ (hstrict s (List.mem_append_right _ hs) (hcs s hc))]
    unfold weighted
    rw [windingNumber, ← List.sum_map_mul_left, ← List.sum_map_mul_left, ← List.sum_map_add]
    congr 1
    exact List.map_congr_left fun s _ => by ring
  rw [← hwl, ← hwm, hmul, ← hkl, ← hkm, s1, s2]
  ring

/-- Right above a point. -/
def aboveAt (v e : Vertex K) : ℤ := if e.x = v.x ∧ v.y < e.y then 1 else 0

/-- The crossings a little to the left and to the right of a point. -/
theorem level_diff {a b v : Vertex K} {d : K} (hd : 0 < d)
    (hfar : ∀ p, OnSegment a b p → p.y = v.y → d < |p.x - v.x|)
    (hends : (a.x ≠ v.x → d < |a.x - v.x|) ∧ (b.x ≠ v.x → d < |b.x - v.x|)) :
    crossingAbove ⟨v.x + d, v.y, false⟩ a b - crossingAbove ⟨v.x - d, v.y, false⟩ a b = aboveAt v b - aboveAt v a ∧
      crossingAbove ⟨v.x + d, v.y, false⟩ a b = crossingAbove v a b := by
  constructor
  · have hlt : (⟨v.x - d, v.y, false⟩ : Vertex K).x < (⟨v.x + d, v.y, false⟩ : Vertex K).x := by
      show v.x - d < v.x + d; linarith
    have hmiss : ∀ p, OnSegment a b p → ¬ OnSegment (⟨v.x - d, v.y, false⟩ : Vertex K) ⟨v.x + d, v.y, false⟩ p := by
      intro p hp hp'
      obtain ⟨e1, e2, e3⟩ := onSegment_level hp' rfl hlt.le
      have e2' : v.x - d ≤ p.x := e2
      have e3' : p.x ≤ v.x + d := e3
      exact absurd (hfar p hp e1) (not_lt.2 (abs_le.2 ⟨by linarith, by linarith⟩))
    have hz : ∀ e : Vertex K, (e.x ≠ v.x → d < |e.x - v.x|) →
        aboveSeg ⟨v.x - d, v.y, false⟩ ⟨v.x + d, v.y, false⟩ e = aboveAt v e := by
      intro e he
      unfold aboveSeg aboveAt
      have hh : heightAt (⟨v.x - d, v.y, false⟩ : Vertex K) ⟨v.x + d, v.y, false⟩ e.x = v.y := by
        unfold heightAt; simp
      rw [hh]
      by_cases hx : e.x = v.x
      · have : v.x - d < e.x ∧ e.x ≤ v.x + d := ⟨by linarith, by linarith⟩
        simp only [hx, true_and]
        rw [hx] at this
        simp only [this.1, this.2, true_and]
      · have := he hx
        rw [if_neg, if_neg (fun h => hx h.1)]
        rintro ⟨h1, h2, -⟩
        exact absurd this (not_lt.2 (abs_le.2 ⟨by have : v.x - d < e.x := h1; linarith,
          by have : e.x ≤ v.x + d := h2; linarith⟩))
    rw [crossing_diff hlt hmiss, hz _ hends.1, hz _ hends.2]
  · have hlt : v.x < (⟨v.x + d, v.y, false⟩ : Vertex K).x := by show v.x < v.x + d; linarith
    have hmiss : ∀ p, OnSegment a b p → ¬ OnSegment v ⟨v.x + d, v.y, false⟩ p := by
      intro p hp hp'
      obtain ⟨e1, e2, e3⟩ := onSegment_level hp' rfl hlt.le
      have := hfar p hp e1
      rw [abs_of_nonneg (by linarith)] at this
      have e3' : p.x ≤ v.x + d := e3
      linarith
    have hz : ∀ e : Vertex K, (e.x ≠ v.x → d < |e.x - v.x|) →
        aboveSeg v ⟨v.x + d, v.y, false⟩ e = 0 := by
      intro e he
      unfold aboveSeg
      rw [if_neg]
      rintro ⟨e1, e2, -⟩
      have := he e1.ne'
      rw [abs_of_pos (by linarith)] at this
      have e2' : e.x ≤ v.x + d := e2
      linarith
    have := crossing_diff hlt hmiss
    rw [hz _ hends.1, hz _ hends.2] at this
    omega

/-- The segments make up closed circuits: whatever is counted at the ends cancels out. -/
def Telescopes (l : List (Vertex K × Vertex K)) : Prop :=
  ∀ h : Vertex K → ℤ, (l.map fun s => h s.2 - h s.1).sum = 0

/-- The two segments share at most ends of both. -/
def Separate (s t : Vertex K × Vertex K) : Prop :=
  ∀ q, OnSegment s.1 s.2 q → OnSegment t.1 t.2 q → ¬ StrictlyOn s.1 s.2 q ∧ ¬ StrictlyOn t.1 t.2 q

theorem Separate.symm {s t : Vertex K × Vertex K} (h : Separate s t) : Separate t s :=
  fun q h1 h2 => (h q h2 h1).symm

theorem crossing_upright {a b : Vertex K} (h : a.x = b.x) (v : Vertex K) : crossingAbove v a b = 0 := by
  unfold crossingAbove
  rw [if_neg (fun h' => by linarith [h'.1, h'.2.1]), if_neg (fun h' => by linarith [h'.1, h'.2.1])]

theorem weighted_append (k : Vertex K × Vertex K → ℤ) (l m : List (Vertex K × Vertex K)) (v : Vertex K) :
    weighted k (l ++ m) v = weighted k l v + weighted k m v := by
  unfold weighted; rw [List.map_append, List.sum_append]

theorem sum_sub' {α : Type*} (l : List α) (f g h : α → ℤ) (e : ∀ a ∈ l, f a - g a = h a) :
    (l.map f).sum - (l.map g).sum = (l.map h).sum := by
  induction l with
  | nil => simp
  | cons a l ih =>
    have := ih fun b hb => e b (List.mem_cons_of_mem _ hb)
    have := e a (by simp)
    simp only [List.map_cons, List.sum_cons]
    omega

section Balance

variable {l m : List (Vertex K × Vertex K)} {k : Vertex K × Vertex K → ℤ} {α β γ : ℤ}

theorem column_free {v : Vertex K} (hv : ∀ s ∈ l ++ m, ¬ OnSegment s.1 s.2 v) (hap : (l ++ m).Pairwise Separate)
    (cl : Telescopes l) (cm : Telescopes m)
    (h1 : ∀ s ∈ l, ∀ q, StrictlyOn s.1 s.2 q → k s = α + γ * windingNumber m q)
    (h2 : ∀ t ∈ m, ∀ q, StrictlyOn t.1 t.2 q → k t = β + γ * windingNumber l q) :
    ((l ++ m).map fun s => k s * (aboveAt v s.2 - aboveAt v s.1)).sum = 0 := by
  obtain ⟨d, hd, hfar, hends⟩ := room _ hv
  have hdis : ∀ s ∈ l, ∀ t ∈ m, ∀ q, StrictlyOn s.1 s.2 q → ¬ OnSegment t.1 t.2 q := fun s hs t ht q h h' =>
    ((List.pairwise_append.1 hap).2.2 s hs t ht q h.1 h').1 h
  have off : ∀ e : K, |e| = d → ∀ s ∈ l ++ m, ¬ OnSegment s.1 s.2 (⟨v.x + e, v.y, false⟩ : Vertex K) := by
    intro e he s hs h
    have := hfar s hs _ h rfl
    simp only [add_sub_cancel_left] at this
    exact lt_irrefl _ (he ▸ this)
  have r1 := region_identity (off d (abs_of_pos hd)) hdis h1 h2
  have r2 := region_identity (off (-d) (by rw [abs_neg, abs_of_pos hd])) hdis h1 h2
  rw [← sub_eq_add_neg] at r2
  have wl : windingNumber l (⟨v.x + d, v.y, false⟩ : Vertex K) = windingNumber l ⟨v.x - d, v.y, false⟩ := by
    have := sum_sub' l (fun s => crossingAbove (⟨v.x + d, v.y, false⟩ : Vertex K) s.1 s.2)
      (fun s => crossingAbove (⟨v.x - d, v.y, false⟩ : Vertex K) s.1 s.2) (fun s => aboveAt v s.2 - aboveAt v s.1)
      fun s hs => (level_diff hd (hfar s (List.mem_append_left _ hs)) (hends s (List.mem_append_left _ hs))).1
    rw [cl] at this
    unfold windingNumber
    omega
  have wm : windingNumber m (⟨v.x + d, v.y, false⟩ : Vertex K) = windingNumber m ⟨v.x - d, v.y, false⟩ := by
    have := sum_sub' m (fun s => crossingAbove (⟨v.x + d, v.y, false⟩ : Vertex K) s.1 s.2)
      (fun s => crossingAbove (⟨v.x - d, v.y, false⟩ : Vertex K) s.1 s.2) (fun s => aboveAt v s.2 - aboveAt v s.1)
      fun s hs => (level_diff hd (hfar s (List.mem_append_right _ hs)) (hends s (List.mem_append_right _ hs))).1
    rw [cm] at this
    unfold windingNumber
    omega
  rw [← weighted_append] at r1 r2
  have := sum_sub' (l ++ m) (fun s => k s * crossingAbove (⟨v.x + d, v.y, false⟩ : Vertex K) s.1 s.2)
      (fun s => k s * crossingAbove (⟨v.x - d, v.y, false⟩ : Vertex K) s.1 s.2)
      (fun s => k s * (aboveAt v s.2 - aboveAt v s.1))
      fun s hs => by rw [← (level_diff hd (hfar s hs) (hends s hs)).1]; ring
  rw [← this]
  unfold weighted at r1 r2
  rw [r1, r2, wl, wm, sub_self]

theorem column_first {v : Vertex K} {s0 : Vertex K × Vertex K} (hs0 : s0 ∈ l) (hon : StrictlyOn s0.1 s0.2 v)
    (hup : s0.1.x = s0.2.x) (hap : (l ++ m).Pairwise Separate)
    (cl : Telescopes l) (cm : Telescopes m)
    (h1 : ∀ s ∈ l, ∀ q, StrictlyOn s.1 s.2 q → k s = α + γ * windingNumber m q)
    (h2 : ∀ t ∈ m, ∀ q, StrictlyOn t.1 t.2 q → k t = β + γ * windingNumber l q) :
    ((l ++ m).map fun s => k s * (aboveAt v s.2 - aboveAt v s.1)).sum = 0 := by
  have hdis : ∀ s ∈ l, ∀ t ∈ m, ∀ q, StrictlyOn s.1 s.2 q → ¬ OnSegment t.1 t.2 q := fun s hs t ht q h h' =>
    ((List.pairwise_append.1 hap).2.2 s hs t ht q h.1 h').1 h
  obtain ⟨l1, l2, rfl⟩ := List.append_of_mem hs0
  have hperm : (l1 ++ s0 :: l2).Perm (s0 :: (l1 ++ l2)) := List.perm_middle
  have hperm' : ((l1 ++ s0 :: l2) ++ m).Perm (s0 :: ((l1 ++ l2) ++ m)) := hperm.append_right m
  have hap' := (List.Perm.pairwise_iff (fun h => Separate.symm h) hperm').1 hap
  have hv : ∀ s ∈ (l1 ++ l2) ++ m, ¬ OnSegment s.1 s.2 v := fun s hs h =>
    ((List.pairwise_cons.1 hap').1 s hs v hon.1 h).1 hon
  obtain ⟨d, hd, hfar, hends⟩ := room _ hv
  have hx : ∀ q, OnSegment s0.1 s0.2 q → q.x = v.x := by
    have : ∀ q, OnSegment s0.1 s0.2 q → q.x = s0.1.x := by
      rintro q ⟨t, -, -, tx, -⟩
      rw [tx, hup]; ring
    intro q hq
    rw [this q hq, this v hon.1]
  have off : ∀ e : K, |e| = d → ∀ s ∈ (l1 ++ s0 :: l2) ++ m, ¬ OnSegment s.1 s.2 (⟨v.x + e, v.y, false⟩ : Vertex K) := by
    intro e he s hs h
    rcases List.mem_cons.1 (hperm'.mem_iff.1 hs) with rfl | hs
    · have e0 : v.x + e = v.x := hx _ h
      have : e = 0 := by linarith
      rw [this, abs_zero] at he
      linarith
    · have := hfar s hs _ h rfl
      simp only [add_sub_cancel_left] at this
      exact lt_irrefl _ (he ▸ this)
  have r1 := region_identity (off d (abs_of_pos hd)) hdis h1 h2
  have r2 := region_identity (off (-d) (by rw [abs_neg, abs_of_pos hd])) hdis h1 h2
  rw [← sub_eq_add_neg] at r2
  have wl : windingNumber (l1 ++ s0 :: l2) (⟨v.x + d, v.y, false⟩ : Vertex K) -
      windingNumber (l1 ++ s0 :: l2) ⟨v.x - d, v.y, false⟩ = - (aboveAt v s0.2 - aboveAt v s0.1) := by
    have := sum_sub' (l1 ++ l2) (fun s => crossingAbove (⟨v.x + d, v.y, false⟩ : Vertex K) s.1 s.2)
      (fun s => crossingAbove (⟨v.x - d, v.y, false⟩ : Vertex K) s.1 s.2) (fun s => aboveAt v s.2 - aboveAt v s.1)
      fun s hs => (level_diff hd (hfar s (List.mem_append_left _ hs)) (hends s (List.mem_append_left _ hs))).1
    have c := cl (aboveAt v)
    unfold windingNumber
    rw [(hperm.map _).sum_eq] at c ⊢
    rw [(hperm.map _).sum_eq]
    simp only [List.map_cons, List.sum_cons, crossing_upright hup] at c ⊢
    omega
  have wm : windingNumber m (⟨v.x + d, v.y, false⟩ : Vertex K) = windingNumber m ⟨v.x - d, v.y, false⟩ := by
    have := sum_sub' m (fun s => crossingAbove (⟨v.x + d, v.y, false⟩ : Vertex K) s.1 s.2)
      (fun s => crossingAbove (⟨v.x - d, v.y, false⟩ : Vertex K) s.1 s.2) (fun s => aboveAt v s.2 - aboveAt v s.1)
      fun s hs => (level_diff hd (hfar s (List.mem_append_right _ hs)) (hends s (List.mem_append_right _ hs))).1
    rw [cm] at this
    unfold windingNumber
    omega
  have wv : windingNumber m (⟨v.x + d, v.y, false⟩ : Vertex K) = windingNumber m v := by
    unfold windingNumber
    congr 1
    exact List.map_congr_left fun s hs =>
      (level_diff hd (hfar s (List.mem_append_right _ hs)) (hends s (List.mem_append_right _ hs))).2
  rw [← weighted_append] at r1 r2
  have := sum_sub' ((l1 ++ l2) ++ m) (fun s => k s * crossingAbove (⟨v.x + d, v.y, false⟩ : Vertex K) s.1 s.2)
      (fun s => k s * crossingAbove (⟨v.x - d, v.y, false⟩ : Vertex K) s.1 s.2)
      (fun s => k s * (aboveAt v s.2 - aboveAt v s.1))
      fun s hs => by rw [← (level_diff hd (hfar s hs) (hends s hs)).1]; ring
  have kv := h1 s0 hs0 v hon
  unfold weighted at r1 r2
  rw [(hperm'.map _).sum_eq] at r1 r2 ⊢
  simp only [List.map_cons, List.sum_cons, crossing_upright hup, mul_zero, zero_add] at r1 r2 ⊢
  rw [← this, r1, r2, kv, wm, ← wv, wm]
  have e : windingNumber (l1 ++ s0 :: l2) (⟨v.x + d, v.y, false⟩ : Vertex K) =
      windingNumber (l1 ++ s0 :: l2) ⟨v.x - d, v.y, false⟩ - (aboveAt v s0.2 - aboveAt v s0.1) := by linarith
  rw [e]
  ring

/-- No weight is lost across a column, when the point chosen on it is an end of no segment. -/
theorem column {v : Vertex K} (hv : ∀ s ∈ l ++ m, OnSegment s.1 s.2 v → StrictlyOn s.1 s.2 v ∧ s.1.x = s.2.x)
    (hap : (l ++ m).Pairwise Separate) (cl : Telescopes l) (cm : Telescopes m)
    (h1 : ∀ s ∈ l, ∀ q, StrictlyOn s.1 s.2 q → k s = α + γ * windingNumber m q)
    (h2 : ∀ t ∈ m, ∀ q, StrictlyOn t.1 t.2 q → k t = β + γ * windingNumber l q) :
    ((l ++ m).map fun s => k s * (aboveAt v s.2 - aboveAt v s.1)).sum = 0 := by
  by_cases hon : ∃ s ∈ l ++ m, OnSegment s.1 s.2 v
  · obtain ⟨s, hs, hon⟩ := hon
    obtain ⟨g1, g2⟩ := hv s hs hon
    rcases List.mem_append.1 hs with hs | hs
    · exact column_first hs g1 g2 hap cl cm h1 h2
    · have hp : (m ++ l).Perm (l ++ m) := List.perm_append_comm
      rw [← (hp.map _).sum_eq]
      exact column_first hs g1 g2 ((List.Perm.pairwise_iff (fun h => Separate.symm h) hp).2 hap) cm cl h2 h1
  · push Not at hon
    exact column_free hon hap cl cm h1 h2

/-- At a point. -/
def at' (b e : Vertex K) : ℤ := if e.x = b.x ∧ e.y = b.y then 1 else 0

/-- What balances above every point of every column balances at every point. -/
theorem balance_of_column {r : List (Vertex K × Vertex K)} (hcol : ∀ v : Vertex K,
      (∀ s ∈ r, OnSegment s.1 s.2 v → StrictlyOn s.1 s.2 v ∧ s.1.x = s.2.x) →
      (r.map fun s => k s * (aboveAt v s.2 - aboveAt v s.1)).sum = 0) (b : Vertex K) :
    (r.map fun s => k s * (at' b s.2 - at' b s.1)).sum = 0 := by
  have far : ∀ z : K, ∃ d, 0 < d ∧ (z ≠ b.y → d < |z - b.y|) := fun z => by
    by_cases hz : z = b.y
    · exact ⟨1, one_pos, fun h => absurd hz h⟩
    · exact ⟨|z - b.y| / 2, half_pos (abs_pos.2 (sub_ne_zero.2 hz)), fun _ =>
        half_lt_self (abs_pos.2 (sub_ne_zero.2 hz))⟩
  obtain ⟨d, hd, hgap⟩ := exists_common (l := r)
    (P := fun (s : Vertex K × Vertex K) d => (s.1.y ≠ b.y → d < |s.1.y - b.y|) ∧ (s.2.y ≠ b.y → d < |s.2.y - b.y|) ∧
      (heightAt s.1 s.2 b.x ≠ b.y → d < |heightAt s.1 s.2 b.x - b.y|))
    (fun s d d' hd h => ⟨fun h' => hd.trans_lt (h.1 h'), fun h' => hd.trans_lt (h.2.1 h'),
      fun h' => hd.trans_lt (h.2.2 h')⟩) fun s _ => by
      obtain ⟨e1, p1, q1⟩ := far s.1.y
      obtain ⟨e2, p2, q2⟩ := far s.2.y
      obtain ⟨e3, p3, q3⟩ := far (heightAt s.1 s.2 b.x)
      exact ⟨min e1 (min e2 e3), lt_min p1 (lt_min p2 p3), fun h => (min_le_left _ _).trans_lt (q1 h),
        fun h => ((min_le_right _ _).trans (min_le_left _ _)).trans_lt (q2 h),
        fun h => ((min_le_right _ _).trans (min_le_right _ _)).trans_lt (q3 h)⟩
  have key : ∀ e : K, |e| = d →
      (r.map fun s => k s * (aboveAt ⟨b.x, b.y + e, false⟩ s.2 - aboveAt ⟨b.x, b.y + e, false⟩ s.1)).sum = 0 := by
    intro e he
    have e0 : e ≠ 0 := by rintro rfl; rw [abs_zero] at he; linarith
    refine hcol _ ?_
    intro s hs hon
    obtain ⟨g1, g2, g3⟩ := hgap s hs
    have nz : ∀ z : K, (z ≠ b.y → d < |z - b.y|) → b.y + e ≠ z := by
      rintro z hz rfl
      have := hz (by intro h; exact e0 (by linarith))
      rw [add_sub_cancel_left, he] at this
      exact lt_irrefl _ this
    refine ⟨⟨hon, fun h => nz _ g1 h.2.symm, fun h => nz _ g2 h.2.symm⟩, ?_⟩
    by_contra hx
    refine nz _ g3 ?_
    obtain ⟨t, -, -, tx, ty⟩ := hon
    have tx' : b.x = s.1.x + t * (s.2.x - s.1.x) := tx
    have ty' : b.y + e = s.1.y + t * (s.2.y - s.1.y) := ty
    have hne : s.2.x - s.1.x ≠ 0 := sub_ne_zero.2 (Ne.symm hx)
    rw [ty']
    unfold heightAt
    rw [tx']
    field_simp
    ring
  have k1 := key (-d) (by rw [abs_neg, abs_of_pos hd])
  have k2 := key d (abs_of_pos hd)
  rw [← sub_eq_zero.2 (k1.trans k2.symm)]
  refine (sum_sub' _ _ _ _ fun s hs => ?_).symm
  obtain ⟨g1, g2, -⟩ := hgap s hs
  have ev : ∀ e : Vertex K, (e.y ≠ b.y → d < |e.y - b.y|) →
      at' b e = aboveAt ⟨b.x, b.y + -d, false⟩ e - aboveAt ⟨b.x, b.y + d, false⟩ e := by
    intro e he
    unfold at' aboveAt
    simp only
    by_cases hx : e.x = b.x
    · by_cases hy : e.y = b.y
      · rw [if_pos ⟨hx, hy⟩, if_pos ⟨hx, by linarith⟩, if_neg (fun h => by linarith [h.2])]; rfl
      · have := he hy
        rw [if_neg (fun h => hy h.2)]
        rcases lt_abs.1 this with h | h
        · rw [if_pos ⟨hx, by linarith⟩, if_pos ⟨hx, by linarith⟩]; rfl
        · rw [if_neg (fun h' => by linarith [h'.2]), if_neg (fun h' => by linarith [h'.2])]; rfl
    · rw [if_neg (fun h => hx h.1), if_neg (fun h => hx h.1), if_neg (fun h => hx h.1)]; rfl
  rw [ev _ g1, ev _ g2]
  ring

/-- At every point as much weight arrives as leaves. -/
theorem region_balance (hap : (l ++ m).Pairwise Separate) (cl : Telescopes l) (cm : Telescopes m)
    (h1 : ∀ s ∈ l, ∀ q, StrictlyOn s.1 s.2 q → k s = α + γ * windingNumber m q)
    (h2 : ∀ t ∈ m, ∀ q, StrictlyOn t.1 t.2 q → k t = β + γ * windingNumber l q) (b : Vertex K) :
    ((l ++ m).map fun s => k s * (at' b s.2 - at' b s.1)).sum = 0 :=
  balance_of_column (fun _ hv => column hv hap cl cm h1 h2) b

end Balance

end Verif
