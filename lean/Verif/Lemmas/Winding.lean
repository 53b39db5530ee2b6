import Verif.Model.Polyline
import Verif.Lemmas.Boxes
import Verif.Lemmas.Geometry
import Verif.Spec.Winding
import Mathlib.Tactic.Linarith
import Mathlib.Tactic.SplitIfs

/-!
# Lemmas on `Polyline::contains`
-/

set_option linter.unusedSectionVars false

namespace Verif

open Spec

section sums

variable {V : Type*}

theorem sum_consecutive {R : Type*} [CommRing R] (f : V → R) (a : V) (l : List V) :
    ((consecutivePairs (a :: l)).map fun s => f s.2 - f s.1).sum =
      f ((a :: l).getLast (by simp)) - f a := by
  induction l generalizing a with
  | nil => simp [consecutivePairs]
  | cons b l ih =>
    rw [consecutivePairs, List.map_cons, List.sum_cons, ih b,
      List.getLast_cons (a := a) (List.cons_ne_nil b l)]
    ring

/-- A difference summed over the segments of a closed polyline vanishes. -/
theorem sum_pairs_closed {R : Type*} [CommRing R] (f : V → R) (l : List V) :
    ((pairs l false).map fun s => f s.2 - f s.1).sum = 0 := by
  cases l with
  | nil => simp [pairs, consecutivePairs]
  | cons a l =>
    simp only [pairs, List.map_append, List.sum_append, sum_consecutive, Bool.false_eq_true, if_false,
      List.getLast?_eq_some_getLast (List.cons_ne_nil a l), List.head?_cons, List.map_cons,
      List.map_nil, List.sum_cons, List.sum_nil]
    ring

theorem consecutivePairs_snoc (l : List V) (a b : V) :
    consecutivePairs (l ++ [a, b]) = consecutivePairs (l ++ [a]) ++ [(a, b)] := by
  induction l with
  | nil => rfl
  | cons c l ih =>
    cases l with
    | nil => rfl
    | cons d l => simpa [consecutivePairs] using ih

theorem pairs_closed_eq (a : V) (l : List V) :
    pairs (a :: l) false = consecutivePairs (a :: (l ++ [a])) := by
  rcases List.eq_nil_or_concat' l with rfl | ⟨m, b, rfl⟩
  · rfl
  · have h := consecutivePairs_snoc (a :: m) b a
    simp only [List.cons_append, List.append_assoc, List.nil_append] at h ⊢
    rw [h, pairs]
    simp [List.getLast?_cons]

/-- Rotating the vertices of a closed polyline permutes its segments. -/
theorem pairs_rotate (l : List V) (k : Nat) : (pairs (l.rotate k) false).Perm (pairs l false) := by
  induction k generalizing l with
  | zero => simp
  | succ k ih =>
    cases l with
    | nil => simp
    | cons a l =>
      rw [List.rotate_cons_succ]
      refine (ih _).trans ?_
      cases l with
      | nil => exact List.Perm.refl _
      | cons b m =>
        rw [List.cons_append, pairs_closed_eq, pairs_closed_eq]
        have h := consecutivePairs_snoc (b :: m) a b
        simp only [List.cons_append, List.append_assoc, List.nil_append] at h ⊢
        rw [h]
        conv_rhs => rw [consecutivePairs]
        exact List.perm_append_singleton _ _

theorem consecutivePairs_reverse (l : List V) :
    consecutivePairs l.reverse = ((consecutivePairs l).map Prod.swap).reverse := by
  induction l with
  | nil => rfl
  | cons a l ih =>
    cases l with
    | nil => rfl
    | cons b m =>
      have h := consecutivePairs_snoc m.reverse b a
      simp only [List.reverse_cons, List.append_assoc, List.cons_append, List.nil_append] at ih ⊢
      rw [h, ih]
      simp [consecutivePairs]

/-- Reversing the vertices of a closed polyline reverses its segments, up to their order. -/
theorem pairs_reverse (l : List V) :
    (pairs l.reverse false).Perm ((pairs l false).map Prod.swap) := by
  cases l with
  | nil => exact List.Perm.refl _
  | cons a l =>
    have h1 : (a :: l).reverse = (a :: l.reverse).rotate 1 := by simp
    rw [h1]
    refine (pairs_rotate _ _).trans ?_
    rw [pairs_closed_eq, pairs_closed_eq]
    have h2 : a :: (l.reverse ++ [a]) = (a :: (l ++ [a])).reverse := by simp
    rw [h2, consecutivePairs_reverse]
    exact List.reverse_perm _

end sums

variable {K : Type*} [Field K] [LinearOrder K] [IsStrictOrderedRing K]

/-- What one segment adds to the counter of `contains`. -/
def contrib (eps : K) (v a b : Vertex K) : ℤ :=
  if a.x = b.x then 0
  else if (a.x < v.x ∧ b.x < v.x) ∨ (a.x > v.x ∧ b.x > v.x) then 0
  else
    match orientation eps a b v with
    | .colinear => 0
    | .counterclockwise => if a.x = v.x ∨ b.x = v.x then 1 else 2
    | .clockwise => if a.x = v.x ∨ b.x = v.x then -1 else -2

theorem vertical_onSegment {a b v : Vertex K} (h : a.x = b.x) :
    OnSegment a b v ↔ a.x = v.x ∧ ((a.y ≤ v.y ∧ v.y ≤ b.y) ∨ (b.y ≤ v.y ∧ v.y ≤ a.y)) := by
  rw [onSegment_iff]
  constructor
  · rintro ⟨-, hx, hy⟩
    rw [← h, min_self, max_self] at hx
    refine ⟨le_antisymm hx.1 hx.2, ?_⟩
    rcases le_total a.y b.y with hl | hl
    · rw [min_eq_left hl, max_eq_right hl] at hy; exact Or.inl hy
    · rw [min_eq_right hl, max_eq_left hl] at hy; exact Or.inr hy
  · rintro ⟨hx, hy⟩
    refine ⟨?_, ?_, ?_⟩
    · simp only [cross, ← h, ← hx]; ring
    · rw [← h, min_self, max_self, hx]; exact ⟨le_rfl, le_rfl⟩
    · rcases hy with hy | hy
      · exact ⟨(min_le_left _ _).trans hy.1, hy.2.trans (le_max_right _ _)⟩
      · exact ⟨(min_le_right _ _).trans hy.1, hy.2.trans (le_max_left _ _)⟩

theorem not_span {a b v : Vertex K} :
    ((a.x < v.x ∧ b.x < v.x) ∨ (a.x > v.x ∧ b.x > v.x)) ↔
      ¬ (min a.x b.x ≤ v.x ∧ v.x ≤ max a.x b.x) := by
  rw [not_and_or, not_le, not_le, lt_min_iff, max_lt_iff]
  tauto

theorem orientation_colinear {eps : K} {a b v : Vertex K} :
    orientation eps a b v = .colinear ↔ |cross a b v| ≤ eps := by
  unfold orientation
  simp only [orientDet_eq, approxEq_zero_iff]
  split_ifs with h1 h2 <;> simp_all

theorem containsLoop_eq (eps : K) (v : Vertex K) (l : List (Vertex K × Vertex K)) (n : ℤ) :
    (Polyline.containsLoop eps v l n = .boundary ↔ ∃ s ∈ l, NearSegment eps s.1 s.2 v) ∧
      ((¬ ∃ s ∈ l, NearSegment eps s.1 s.2 v) →
        Polyline.containsLoop eps v l n =
          if n + (l.map fun s => contrib eps v s.1 s.2).sum = 0 then .outside else .inside) := by
  induction l generalizing n with
  | nil =>
    simp only [Polyline.containsLoop, List.not_mem_nil, false_and, exists_false, iff_false,
      List.map_nil, List.sum_nil, add_zero, implies_true, and_true]
    split_ifs <;> simp
  | cons s l ih =>
    obtain ⟨a, b⟩ := s
    simp only [List.mem_cons, exists_eq_or_imp, List.map_cons, List.sum_cons, ← add_assoc]
    -- the segment is not near and adds `c`
    have skip : ∀ c : ℤ, ¬ NearSegment eps a b v → contrib eps v a b = c →
        ((Polyline.containsLoop eps v l (n + c) = .boundary ↔
          NearSegment eps a b v ∨ ∃ s ∈ l, NearSegment eps s.1 s.2 v) ∧
        ((¬ (NearSegment eps a b v ∨ ∃ s ∈ l, NearSegment eps s.1 s.2 v)) →
          Polyline.containsLoop eps v l (n + c) =
            if n + contrib eps v a b + (l.map fun s => contrib eps v s.1 s.2).sum = 0
            then .outside else .inside)) := by
      intro c hn hc
      have := ih (n + c)
      refine ⟨?_, fun h => ?_⟩
      · rw [this.1]; simp [hn]
      · rw [hc]; exact this.2 fun h' => h (Or.inr h')
    have stop : NearSegment eps a b v →
        ((Continence.boundary = .boundary ↔
          NearSegment eps a b v ∨ ∃ s ∈ l, NearSegment eps s.1 s.2 v) ∧
        ((¬ (NearSegment eps a b v ∨ ∃ s ∈ l, NearSegment eps s.1 s.2 v)) →
          Continence.boundary =
            if n + contrib eps v a b + (l.map fun s => contrib eps v s.1 s.2).sum = 0
            then .outside else .inside)) := by
      intro hn
      exact ⟨by simp [hn], fun h => absurd (Or.inl hn) h⟩
    rw [Polyline.containsLoop]
    by_cases hx : a.x = b.x
    · rw [if_pos hx]
      by_cases hv : a.x = v.x ∧ ((a.y ≤ v.y ∧ v.y ≤ b.y) ∨ (b.y ≤ v.y ∧ v.y ≤ a.y))
      · rw [if_pos hv]
        exact stop (Or.inl ⟨hx, (vertical_onSegment hx).2 hv⟩)
      · rw [if_neg hv]
        have := skip 0 ?_ (by rw [contrib, if_pos hx])
        · rwa [add_zero] at this
        · rintro (⟨-, h⟩ | ⟨h, -⟩)
          · exact hv ((vertical_onSegment hx).1 h)
          · exact h hx
    · rw [if_neg hx]
      by_cases hs : (a.x < v.x ∧ b.x < v.x) ∨ (a.x > v.x ∧ b.x > v.x)
      · rw [if_pos hs]
        have := skip 0 ?_ (by rw [contrib, if_neg hx, if_pos hs])
        · rwa [add_zero] at this
        · rintro (⟨h, -⟩ | ⟨-, h1, h2, -⟩)
          · exact hx h
          · exact not_span.1 hs ⟨h1, h2⟩
      · rw [if_neg hs]
        have hspan : min a.x b.x ≤ v.x ∧ v.x ≤ max a.x b.x := by
          by_contra hc; exact hs (not_span.2 hc)
        cases ho : orientation eps a b v with
        | colinear =>
          exact stop (Or.inr ⟨hx, hspan.1, hspan.2, orientation_colinear.1 ho⟩)
        | counterclockwise =>
          have hn : ¬ NearSegment eps a b v := by
            rintro (⟨h, -⟩ | ⟨-, -, -, h⟩)
            · exact hx h
            · rw [orientation_colinear.2 h] at ho; cases ho
          simp only
          by_cases h1 : a.x = v.x ∨ b.x = v.x
          · rw [if_pos h1]
            exact skip 1 hn (by rw [contrib, if_neg hx, if_neg hs, ho]; simp only; rw [if_pos h1])
          · rw [if_neg h1]
            exact skip 2 hn (by rw [contrib, if_neg hx, if_neg hs, ho]; simp only; rw [if_neg h1])
        | clockwise =>
          have hn : ¬ NearSegment eps a b v := by
            rintro (⟨h, -⟩ | ⟨-, -, -, h⟩)
            · exact hx h
            · rw [orientation_colinear.2 h] at ho; cases ho
          simp only [sub_eq_add_neg]
          by_cases h1 : a.x = v.x ∨ b.x = v.x
          · rw [if_pos h1]
            exact skip (-1) hn (by rw [contrib, if_neg hx, if_neg hs, ho]; simp only; rw [if_pos h1])
          · rw [if_neg h1]
            exact skip (-2) hn (by rw [contrib, if_neg hx, if_neg hs, ho]; simp only; rw [if_neg h1])

theorem nearSegment_swap {eps : K} {a b v : Vertex K} :
    NearSegment eps b a v ↔ NearSegment eps a b v := by
  have h : ∀ {a b : Vertex K}, NearSegment eps b a v → NearSegment eps a b v := by
    rintro a b (⟨h1, h2⟩ | ⟨h1, h2, h3, h4⟩)
    · exact Or.inl ⟨h1.symm, onSegment_symm h2⟩
    · refine Or.inr ⟨h1.symm, by rwa [min_comm], by rwa [max_comm], ?_⟩
      rwa [cross_swap, abs_neg]
  exact ⟨h, h⟩

theorem contrib_swap {eps : K} (he : 0 ≤ eps) (v a b : Vertex K) :
    contrib eps v b a = -contrib eps v a b := by
  unfold contrib
  by_cases hx : a.x = b.x
  · rw [if_pos hx, if_pos hx.symm]; rfl
  · rw [if_neg hx, if_neg (Ne.symm hx)]
    by_cases hs : (a.x < v.x ∧ b.x < v.x) ∨ (a.x > v.x ∧ b.x > v.x)
    · rw [if_pos hs, if_pos (hs.imp And.symm And.symm)]; rfl
    · rw [if_neg hs, if_neg (fun h => hs (h.imp And.symm And.symm))]
      unfold orientation
      rw [orientDet_eq, orientDet_eq, cross_swap a b v]
      have hz : approxEq eps (-cross a b v) 0 = approxEq eps (cross a b v) 0 := by
        simp [approxEq]
      rw [hz]
      by_cases h0 : approxEq eps (cross a b v) 0 = true
      · simp [h0]
      · have hne : cross a b v ≠ 0 := by
          intro h; apply h0; rw [h]; simp [approxEq, he]
        simp only [h0, Bool.false_eq_true, if_false]
        have hor : (b.x = v.x ∨ a.x = v.x) ↔ (a.x = v.x ∨ b.x = v.x) := or_comm
        rcases lt_or_gt_of_ne hne with hl | hl
        · have h1 : ¬ cross a b v > 0 := not_lt.2 hl.le
          have h2 : -cross a b v > 0 := neg_pos.2 hl
          simp only [h1, h2, if_true, if_false, hor]
          split_ifs <;> rfl
        · have h1 : cross a b v > 0 := hl
          have h2 : ¬ -cross a b v > 0 := by linarith
          simp only [h1, h2, if_true, if_false, hor]
          split_ifs <;> rfl

/-- The answer only depends on which segments there are, and how often. -/
theorem containsLoop_perm (eps : K) (v : Vertex K) {l l' : List (Vertex K × Vertex K)}
    (h : l.Perm l') : Polyline.containsLoop eps v l 0 = Polyline.containsLoop eps v l' 0 := by
  have h1 := containsLoop_eq eps v l 0
  have h2 := containsLoop_eq eps v l' 0
  have he : (∃ s ∈ l, NearSegment eps s.1 s.2 v) ↔ ∃ s ∈ l', NearSegment eps s.1 s.2 v := by
    constructor
    · rintro ⟨s, hs, hn⟩; exact ⟨s, h.mem_iff.1 hs, hn⟩
    · rintro ⟨s, hs, hn⟩; exact ⟨s, h.mem_iff.2 hs, hn⟩
  by_cases hn : ∃ s ∈ l, NearSegment eps s.1 s.2 v
  · rw [h1.1.2 hn, h2.1.2 (he.1 hn)]
  · rw [h1.2 hn, h2.2 (fun h => hn (he.2 h)), (h.map _).sum_eq]

/-- The answer does not depend on the direction of the segments. -/
theorem containsLoop_swap {eps : K} (he : 0 ≤ eps) (v : Vertex K) (l : List (Vertex K × Vertex K)) :
    Polyline.containsLoop eps v (l.map Prod.swap) 0 = Polyline.containsLoop eps v l 0 := by
  have h1 := containsLoop_eq eps v l 0
  have h2 := containsLoop_eq eps v (l.map Prod.swap) 0
  have hex : (∃ s ∈ l.map Prod.swap, NearSegment eps s.1 s.2 v) ↔
      ∃ s ∈ l, NearSegment eps s.1 s.2 v := by
    constructor
    · rintro ⟨s, hs, hn⟩
      obtain ⟨t, ht, rfl⟩ := List.mem_map.1 hs
      exact ⟨t, ht, nearSegment_swap.1 hn⟩
    · rintro ⟨s, hs, hn⟩
      exact ⟨s.swap, List.mem_map_of_mem hs, nearSegment_swap.1 hn⟩
  by_cases hn : ∃ s ∈ l, NearSegment eps s.1 s.2 v
  · rw [h1.1.2 hn, h2.1.2 (hex.2 hn)]
  · rw [h1.2 hn, h2.2 (fun h => hn (hex.1 h))]
    have hsum : ((l.map Prod.swap).map fun s => contrib eps v s.1 s.2).sum =
        -(l.map fun s => contrib eps v s.1 s.2).sum := by
      clear h1 h2 hex hn
      induction l with
      | nil => rfl
      | cons s l ih =>
        simp only [List.map_cons, List.sum_cons, ih, Prod.fst_swap, Prod.snd_swap]
        rw [contrib_swap he]; ring
    rw [hsum]
    simp

/-- Vertex potential: twice "right of the ray" plus the side of `v` on which a vertex level with the ray
lies. -/
def potential (v a : Vertex K) : ℤ :=
  if v.x < a.x then 2 else if a.x = v.x then (if v.y < a.y then -1 else 1) else 0

theorem orientation_of_not_near {eps : K} {a b v : Vertex K} (h : eps < |cross a b v|) :
    orientation eps a b v = if 0 < cross a b v then .counterclockwise else .clockwise := by
  unfold orientation
  have h0 : ¬ approxEq eps (orientDet a b v) 0 = true := by
    rw [orientDet_eq, approxEq_zero_iff]; exact not_le.2 h
  simp only [orientDet_eq] at h0 ⊢
  simp [h0]

/-- One segment away from the point adds four times its crossing of the upward ray, up to a
difference of a function of its ends. -/
theorem contrib_eq {eps : K} (he : 0 ≤ eps) {a b v : Vertex K} (hn : ¬ NearSegment eps a b v) :
    contrib eps v a b = 4 * crossingAbove v a b + (potential v b - potential v a) := by
  by_cases hx : a.x = b.x
  · -- vertical segment
    rw [contrib, if_pos hx]
    have h1 : crossingAbove v a b = 0 := by
      unfold crossingAbove
      rw [if_neg, if_neg]
      · rintro ⟨h1, h2, -⟩; linarith
      · rintro ⟨h1, h2, -⟩; linarith
    rw [h1]
    suffices potential v a = potential v b by omega
    by_cases hv : a.x = v.x
    · have hnot : ¬ ((a.y ≤ v.y ∧ v.y ≤ b.y) ∨ (b.y ≤ v.y ∧ v.y ≤ a.y)) := fun h =>
        hn (Or.inl ⟨hx, (vertical_onSegment hx).2 ⟨hv, h⟩⟩)
      have e1 : ¬ v.x < a.x := by rw [hv]; exact lt_irrefl _
      have e2 : ¬ v.x < b.x := by rw [← hx]; exact e1
      have hv' : b.x = v.x := hx ▸ hv
      unfold potential
      rw [if_neg e1, if_neg e2, if_pos hv, if_pos hv']
      have : v.y < a.y ↔ v.y < b.y := by
        constructor
        · intro h; by_contra hc; exact hnot (Or.inr ⟨not_lt.1 hc, h.le⟩)
        · intro h; by_contra hc; exact hnot (Or.inl ⟨not_lt.1 hc, h.le⟩)
      by_cases h' : v.y < a.y
      · rw [if_pos h', if_pos (this.1 h')]
      · rw [if_neg h', if_neg (fun h => h' (this.2 h))]
    · unfold potential; rw [← hx]; simp [hv]
  · rw [contrib, if_neg hx]
    by_cases hs : (a.x < v.x ∧ b.x < v.x) ∨ (a.x > v.x ∧ b.x > v.x)
    · rw [if_pos hs]
      unfold crossingAbove potential
      rcases hs with ⟨h1, h2⟩ | ⟨h1, h2⟩
      · rw [if_neg (fun h => absurd h.2.1 (not_lt.2 h1.le)), if_neg (fun h => absurd h.2.1 (not_lt.2 h2.le)),
          if_neg (not_lt.2 h1.le), if_neg (not_lt.2 h2.le), if_neg h1.ne, if_neg h2.ne]
        rfl
      · rw [if_neg (fun h => absurd h.1 (not_le.2 h2)), if_neg (fun h => absurd h.1 (not_le.2 h1)),
          if_pos h1, if_pos h2]
        rfl
    · rw [if_neg hs]
      have hspan : min a.x b.x ≤ v.x ∧ v.x ≤ max a.x b.x := by
        by_contra hc; exact hs (not_span.2 hc)
      have hbig : eps < |cross a b v| := by
        by_contra hc; exact hn (Or.inr ⟨hx, hspan.1, hspan.2, not_lt.1 hc⟩)
      rw [orientation_of_not_near hbig]
      have hne : cross a b v ≠ 0 := by
        intro h; rw [h, abs_zero] at hbig; exact absurd he (not_le.2 hbig)
      push Not at hs
      -- positions of the ends
      have key_a : a.x = v.x → (0 < cross a b v ↔ 0 < (b.x - a.x) * (v.y - a.y)) := by
        intro h
        have : cross a b v = (b.x - a.x) * (v.y - a.y) := by simp only [cross, ← h]; ring
        rw [this]
      have key_b : b.x = v.x → (0 < cross a b v ↔ 0 < (b.x - a.x) * (v.y - b.y)) := by
        intro h
        have : cross a b v = (b.x - a.x) * (v.y - b.y) := by simp only [cross, ← h]; ring
        rw [this]
      have hneg : ¬ 0 < cross a b v ↔ cross a b v < 0 := by
        rw [not_lt]; exact ⟨fun h => lt_of_le_of_ne h hne, le_of_lt⟩
      unfold crossingAbove potential
      rcases lt_trichotomy a.x v.x with ha | ha | ha
      · -- a left
        have hb : v.x ≤ b.x := hs.1 ha
        rcases hb.eq_or_lt with hb | hb
        · have hk := key_b hb.symm
          have hpos : 0 < b.x - a.x := by linarith
          by_cases hc : 0 < cross a b v
          · have hy : b.y < v.y := by
              have := hk.1 hc
              have := (mul_pos_iff_of_pos_left hpos).1 this
              linarith
            simp [hc, ha.ne, hb.symm, ha.le, ha.not_gt, hy.le, hc.not_gt]
          · have hc' := hneg.1 hc
            have hy : v.y < b.y := by
              by_contra hyn
              have : b.y ≠ v.y := by
                intro h
                have : cross a b v = (b.x - a.x) * (v.y - b.y) := by simp only [cross, hb]; ring
                rw [h, sub_self, mul_zero] at this; exact hne this
              have : b.y < v.y := lt_of_le_of_ne (not_lt.1 hyn) this
              exact hc (hk.2 (mul_pos hpos (by linarith)))
            simp [hc, ha.ne, hb.symm, ha.le, ha.not_gt, hy]
        · by_cases hc : 0 < cross a b v
          · simp [hc, ha.ne, hb.ne', ha.le, ha.not_gt, hb, hb.not_ge, hc.not_gt]
          · have hc' := hneg.1 hc
            simp [hc, hc', ha.ne, hb.ne', ha.le, ha.not_gt, hb, hb.not_ge]
      · have hxb : v.x ≠ b.x := fun h => hx (ha.trans h)
        have hk := key_a ha
        have eqc : cross a b v = (b.x - a.x) * (v.y - a.y) := by simp only [cross, ha]; ring
        have hyne : a.y ≠ v.y := by
          intro h
          rw [h, sub_self, mul_zero] at eqc; exact hne eqc
        rcases lt_or_gt_of_ne hxb with hb | hb
        · have hpos : 0 < b.x - a.x := by linarith
          by_cases hc : 0 < cross a b v
          · have hy : a.y < v.y := by
              have := (mul_pos_iff_of_pos_left hpos).1 (hk.1 hc)
              linarith
            simp [hc, ha, hb, hb.not_ge, hy.not_gt, hc.not_gt]
          · have hc' := hneg.1 hc
            have hy : v.y < a.y := by
              by_contra hyn
              exact hc (hk.2 (mul_pos hpos (by linarith [lt_of_le_of_ne (not_lt.1 hyn) hyne])))
            simp [hc, hc', ha, hb, hb.not_ge, hy]
        · have hpos : b.x - a.x < 0 := by linarith
          by_cases hc : 0 < cross a b v
          · have hy : v.y < a.y := by
              have := hk.1 hc
              by_contra hyn
              have := mul_nonpos_of_nonpos_of_nonneg hpos.le (by linarith : 0 ≤ v.y - a.y)
              linarith
            simp [hc, ha, hb.ne, hb.le, hb.not_gt, hy]
          · have hc' := hneg.1 hc
            have hy : a.y < v.y := by
              by_contra hyn
              have : v.y < a.y := lt_of_le_of_ne (not_lt.1 hyn) hyne.symm
              exact hc (hk.2 (mul_pos_of_neg_of_neg hpos (by linarith)))
            simp [hc, hc', ha, hb.ne, hb.le, hb.not_gt, hy.not_gt]
      · have hb : b.x ≤ v.x := hs.2 ha
        rcases hb.eq_or_lt with hb | hb
        · have hpos : b.x - a.x < 0 := by linarith
          have hk := key_b hb
          have eqc : cross a b v = (b.x - a.x) * (v.y - b.y) := by simp only [cross, ← hb]; ring
          have hyne : b.y ≠ v.y := by
            intro h
            rw [h, sub_self, mul_zero] at eqc; exact hne eqc
          by_cases hc : 0 < cross a b v
          · have hy : v.y < b.y := by
              have := hk.1 hc
              by_contra hyn
              have := mul_nonpos_of_nonpos_of_nonneg hpos.le (by linarith : 0 ≤ v.y - b.y)
              linarith
            simp [hc, ha, hb, hy]
          · have hc' := hneg.1 hc
            have hy : b.y < v.y := by
              by_contra hyn
              have : v.y < b.y := lt_of_le_of_ne (not_lt.1 hyn) hyne.symm
              exact hc (hk.2 (mul_pos_of_neg_of_neg hpos (by linarith)))
            simp [hc, ha, hb, hy.not_gt, ha.not_ge]
        · by_cases hc : 0 < cross a b v
          · simp [hc, ha, hb.le, hb.ne, hb.not_gt, ha.ne']
          · have hc' := hneg.1 hc
            simp [hc, ha, hb.ne, hb.not_gt, ha.ne', ha.not_ge]

/-- The counter of `contains` at the end of the loop. -/
theorem sum_contrib {eps : K} (he : 0 ≤ eps) (l : List (Vertex K)) (v : Vertex K)
    (hn : ¬ ∃ s ∈ pairs l false, NearSegment eps s.1 s.2 v) :
    ((pairs l false).map fun s => contrib eps v s.1 s.2).sum =
      4 * windingNumber (pairs l false) v := by
  have h : ∀ q : List (Vertex K × Vertex K), (¬ ∃ s ∈ q, NearSegment eps s.1 s.2 v) →
      (q.map fun s => contrib eps v s.1 s.2).sum =
        4 * windingNumber q v + (q.map fun s => potential v s.2 - potential v s.1).sum := by
    intro q
    induction q with
    | nil => intro _; simp [windingNumber]
    | cons s q ih =>
      intro hq
      have h1 := ih fun ⟨t, ht, h⟩ => hq ⟨t, List.mem_cons_of_mem _ ht, h⟩
      have h2 := contrib_eq he (a := s.1) (b := s.2) (v := v) fun h => hq ⟨s, List.mem_cons_self, h⟩
      simp only [windingNumber, List.map_cons, List.sum_cons] at h1 ⊢
      rw [h1, h2]; ring
  rw [h _ hn, sum_pairs_closed (potential v)]; ring

end Verif
