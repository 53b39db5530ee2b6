import Verif.Model.EdgeOps
import Verif.Spec.Paths
import Verif.Lemmas.ContinenceGeo
import Verif.Lemmas.Sets
import Mathlib.Tactic.Linarith
import Mathlib.Tactic.LinearCombination

/-!
# `Edge::decompose` and `Edge::arrange`
-/

set_option linter.unusedSectionVars false

namespace Verif

open Spec

section generic

variable {V : Type*} [DecidableEq V]

theorem arrangeMap_mem {l : List (Edge V)} {v w : V} (h : arrangeMap l v = some w) : (⟨v, w⟩ : Edge V) ∈ l := by
  unfold arrangeMap at h
  cases hf : l.reverse.find? fun e => decide (e.v1 = v) with
  | none => rw [hf] at h; simp at h
  | some e =>
    rw [hf] at h
    simp only [Option.map_some, Option.some.injEq] at h
    have h1 := List.find?_some hf
    simp only [decide_eq_true_eq] at h1
    have h2 := List.mem_of_find?_eq_some hf
    rw [List.mem_reverse] at h2
    rw [← h1, ← h]; exact h2

theorem arrangeMap_none {l : List (Edge V)} {v : V} (h : arrangeMap l v = none) : ∀ e ∈ l, e.v1 ≠ v := by
  intro e he hv
  unfold arrangeMap at h
  rw [Option.map_eq_none_iff, List.find?_eq_none] at h
  exact h e (List.mem_reverse.2 he) (by simp [hv])

theorem path_snoc {a b c : V} {l : List (Edge V)} (h : Path a l b) : Path a (l ++ [⟨b, c⟩]) c := by
  induction l generalizing a with
  | nil => simp only [Path] at h; subst h; exact ⟨rfl, rfl⟩
  | cons e l ih => exact ⟨h.1, ih h.2⟩

theorem path_append {a b c : V} {l m : List (Edge V)} (h : Path a l b) (h' : Path b m c) :
    Path a (l ++ m) c := by
  induction l generalizing a with
  | nil => simp only [Path] at h; subst h; exact h'
  | cons e l ih => exact ⟨h.1, ih h.2⟩

/-- Partial correctness of the loop of `decompose`. -/
theorem decomposeLoop_sound {veq : V → V → Bool} {l : List (Edge V)} {tail a : V} (n : Nat) (last : V)
    (acc r : List (Edge V)) (hp : Path a acc last) (hm : ∀ e ∈ acc, e ∈ l)
    (h : Edge.decomposeLoop veq (arrangeMap l) tail n last acc = .ok (some r)) :
    ∃ w, Path a r w ∧ veq w tail = true ∧ ∀ e ∈ r, e ∈ l := by
  induction n generalizing last acc with
  | zero =>
    unfold Edge.decomposeLoop at h
    by_cases hv : veq last tail = true
    · rw [if_pos hv] at h
      injection h with h; injection h with h; subst h
      exact ⟨last, hp, hv, hm⟩
    · rw [if_neg hv] at h
      cases hn : arrangeMap l last <;> rw [hn] at h <;> simp at h
  | succ n ih =>
    unfold Edge.decomposeLoop at h
    by_cases hv : veq last tail = true
    · rw [if_pos hv] at h
      injection h with h; injection h with h; subst h
      exact ⟨last, hp, hv, hm⟩
    · rw [if_neg hv] at h
      cases hn : arrangeMap l last with
      | none => rw [hn] at h; simp at h
      | some w =>
        rw [hn] at h
        refine ih w _ (path_snoc hp) ?_ h
        intro e he
        rw [List.mem_append, List.mem_singleton] at he
        rcases he with he | rfl
        · exact hm e he
        · exact arrangeMap_mem hn

/-- The loop of `decompose` ends if some quantity grows along each edge. -/
theorem decomposeLoop_total {K : Type*} [LinearOrder K] (veq : V → V → Bool) (l : List (Edge V)) (tail : V)
    (g : V → K) (hg : ∀ e ∈ l, g e.v1 < g e.v2) (n : Nat) (last : V) (acc : List (Edge V))
    (hn : (l.filter fun e => decide (g last ≤ g e.v1)).length ≤ n) :
    ∃ r, Edge.decomposeLoop veq (arrangeMap l) tail n last acc = .ok r := by
  have step : ∀ {last w : V}, arrangeMap l last = some w →
      (l.filter fun e => decide (g w ≤ g e.v1)).length <
        (l.filter fun e => decide (g last ≤ g e.v1)).length := by
    intro last w h
    have hm := arrangeMap_mem h
    have hlt := hg _ hm
    rw [← List.countP_eq_length_filter, ← List.countP_eq_length_filter]
    obtain ⟨l1, l2, rfl⟩ := List.append_of_mem hm
    simp only [List.countP_append, List.countP_cons]
    have mono : ∀ m : List (Edge V), m.countP (fun e => decide (g w ≤ g e.v1)) ≤
        m.countP (fun e => decide (g last ≤ g e.v1)) := fun m =>
      List.countP_mono_left fun e _ he => by
        simp only [decide_eq_true_eq] at he ⊢
        exact hlt.le.trans he
    have h1 := mono l1
    have h2 := mono l2
    simp only [not_le.2 hlt, decide_false, Bool.false_eq_true, if_false, le_refl, decide_true, if_true]
    omega
  induction n generalizing last acc with
  | zero =>
    unfold Edge.decomposeLoop
    by_cases hv : veq last tail = true
    · rw [if_pos hv]; exact ⟨_, rfl⟩
    · rw [if_neg hv]
      cases hw : arrangeMap l last with
      | none => exact ⟨_, rfl⟩
      | some w => have := step hw; omega
  | succ n ih =>
    unfold Edge.decomposeLoop
    by_cases hv : veq last tail = true
    · rw [if_pos hv]; exact ⟨_, rfl⟩
    · rw [if_neg hv]
      cases hw : arrangeMap l last with
      | none => exact ⟨_, rfl⟩
      | some w => exact ih w _ (by have := step hw; omega)

/-- If heads are distinct, the loop of `decompose` does not miss a path. -/
theorem decomposeLoop_complete {veq : V → V → Bool} {l : List (Edge V)} {tail : V}
    (hrefl : veq tail tail = true) (huniq : ∀ e ∈ l, ∀ f ∈ l, e.v1 = f.v1 → e = f)
    (n : Nat) (last : V) (acc p : List (Edge V)) (hp : Path last p tail) (hm : ∀ e ∈ p, e ∈ l) :
    Edge.decomposeLoop veq (arrangeMap l) tail n last acc ≠ .ok none := by
  induction n generalizing last acc p with
  | zero =>
    unfold Edge.decomposeLoop
    by_cases hv : veq last tail = true
    · rw [if_pos hv]; simp
    · rw [if_neg hv]
      cases hw : arrangeMap l last with
      | none =>
        cases p with
        | nil => simp only [Path] at hp; subst hp; exact absurd hrefl hv
        | cons e p => exact absurd hp.1 (arrangeMap_none hw e (hm e (by simp)))
      | some w => simp
  | succ n ih =>
    unfold Edge.decomposeLoop
    by_cases hv : veq last tail = true
    · rw [if_pos hv]; simp
    · rw [if_neg hv]
      cases p with
      | nil => simp only [Path] at hp; subst hp; exact absurd hrefl hv
      | cons e p =>
        cases hw : arrangeMap l last with
        | none => exact absurd hp.1 (arrangeMap_none hw e (hm e (by simp)))
        | some w =>
          have he := huniq _ (arrangeMap_mem hw) e (hm e (by simp)) hp.1.symm
          have hwe : e.v2 = w := by rw [← he]
          exact ih w _ p (hwe ▸ hp.2) fun f hf => hm f (by simp [hf])

end generic

variable {K : Type*} [Field K] [LinearOrder K] [IsStrictOrderedRing K]

/-- Position of a point along a direction. -/
def heightAlong (e : Edge (Vertex K)) (v : Vertex K) : K :=
  v.x * (e.v2.x - e.v1.x) + v.y * (e.v2.y - e.v1.y)

theorem sameWay_nondegenerate {e f : Edge (Vertex K)} (h : SameWay e f) :
    ¬ SamePoint e.v1 e.v2 ∧ ¬ SamePoint f.v1 f.v2 := by
  obtain ⟨_, h⟩ := h
  constructor <;> rintro ⟨hx, hy⟩ <;> rw [hx, hy] at h <;> simp at h

theorem sameWay_symm {e f : Edge (Vertex K)} (h : SameWay e f) : SameWay f e := by
  obtain ⟨h1, h2⟩ := h
  unfold Parallel at h1
  exact ⟨by unfold Parallel; linarith, by linarith⟩

theorem sameWay_trans {e f g : Edge (Vertex K)} (h : SameWay e f) (h' : SameWay f g) : SameWay e g := by
  have hn := (sameWay_nondegenerate h').1
  obtain ⟨h1, h2⟩ := h
  obtain ⟨h3, h4⟩ := h'
  unfold Parallel at h1 h3
  unfold SameWay Parallel
  have hL : 0 < (f.v2.x - f.v1.x) * (f.v2.x - f.v1.x) + (f.v2.y - f.v1.y) * (f.v2.y - f.v1.y) := by
    have := along_right_pos hn; unfold along at this; exact this
  generalize e.v2.x - e.v1.x = ux at *
  generalize e.v2.y - e.v1.y = uy at *
  generalize f.v2.x - f.v1.x = vx at *
  generalize f.v2.y - f.v1.y = vy at *
  generalize g.v2.x - g.v1.x = wx at *
  generalize g.v2.y - g.v1.y = wy at *
  constructor
  · have : (vx * vx + vy * vy) * (ux * wy - uy * wx) = 0 := by
      linear_combination (vx * wx + vy * wy) * h1 + (ux * vx + uy * vy) * h3
    have := (mul_eq_zero.1 this).resolve_left hL.ne'
    linarith
  · have h5 : (vx * vx + vy * vy) * (ux * wx + uy * wy) = (ux * vx + uy * vy) * (vx * wx + vy * wy) := by
      linear_combination -(vx * wy - vy * wx) * h1
    have h6 := mul_pos h2 h4
    rw [← h5] at h6
    exact (mul_pos_iff_of_pos_left hL).1 h6

theorem goesOn_join {e f : Edge (Vertex K)} (h : GoesOn e f) :
    SameWay ⟨e.v1, f.v2⟩ e ∧ SameWay ⟨e.v1, f.v2⟩ f := by
  obtain ⟨hj, hs⟩ := h
  have hn := sameWay_nondegenerate hs
  have h1 := along_right_pos hn.1
  have h2 := along_right_pos hn.2
  obtain ⟨hp, hd⟩ := hs
  unfold along at h1 h2
  unfold Parallel at hp
  unfold SameWay Parallel
  rw [hj] at hp hd h2 ⊢
  simp only []
  refine ⟨⟨?_, ?_⟩, ⟨?_, ?_⟩⟩
  · linear_combination -hp
  · have : (f.v2.x - e.v1.x) * (e.v2.x - e.v1.x) + (f.v2.y - e.v1.y) * (e.v2.y - e.v1.y) =
      ((e.v2.x - e.v1.x) * (e.v2.x - e.v1.x) + (e.v2.y - e.v1.y) * (e.v2.y - e.v1.y)) +
      ((e.v2.x - e.v1.x) * (f.v2.x - e.v2.x) + (e.v2.y - e.v1.y) * (f.v2.y - e.v2.y)) := by ring
    rw [this]; exact add_pos h1 hd
  · linear_combination hp
  · have : (f.v2.x - e.v1.x) * (f.v2.x - e.v2.x) + (f.v2.y - e.v1.y) * (f.v2.y - e.v2.y) =
      ((f.v2.x - e.v2.x) * (f.v2.x - e.v2.x) + (f.v2.y - e.v2.y) * (f.v2.y - e.v2.y)) +
      ((e.v2.x - e.v1.x) * (f.v2.x - e.v2.x) + (e.v2.y - e.v1.y) * (f.v2.y - e.v2.y)) := by ring
    rw [this]; exact add_pos h2 hd

/-- The common end of two edges that go straight on is on the joined edge. -/
theorem goesOn_onSegment {e f : Edge (Vertex K)} (h : GoesOn e f) : OnSegment e.v1 f.v2 e.v2 := by
  obtain ⟨hj, hs⟩ := h
  have hn := (sameWay_nondegenerate hs).1
  have h1 := along_right_pos hn
  obtain ⟨hp, hd⟩ := hs
  unfold Parallel at hp
  rw [hj] at hp hd
  refine onSegment_along hn (u := e.v1) (v := f.v2) (p := e.v2) ?_ ?_ ?_ ?_ ?_
  · unfold cross; ring
  · unfold cross; linear_combination hp
  · unfold cross; ring
  · rw [along_left]; exact h1.le
  · unfold along; nlinarith

/-- A straight path covers the segment between its ends, and nothing else. -/
theorem straight_path {d : Edge (Vertex K)} (l : List (Edge (Vertex K)))
    (a b : Vertex K) (hp : Path a l b) (hs : ∀ e ∈ l, SameWay e d) (hne : l ≠ []) :
    SameWay ⟨a, b⟩ d ∧ ∀ x, OnSegment a b x ↔ ∃ e ∈ l, OnSegment e.v1 e.v2 x := by
  induction l generalizing a with
  | nil => exact absurd rfl hne
  | cons e l ih =>
    obtain ⟨rfl, hp⟩ := hp
    have he := hs e (by simp)
    by_cases hl : l = []
    · subst hl
      simp only [Path] at hp
      subst hp
      exact ⟨he, fun x => by simp⟩
    · obtain ⟨h1, h2⟩ := ih e.v2 hp (fun f hf => hs f (by simp [hf])) hl
      have hg : GoesOn e ⟨e.v2, b⟩ := ⟨rfl, sameWay_trans he (sameWay_symm h1)⟩
      refine ⟨sameWay_trans (goesOn_join hg).1 he, fun x => ?_⟩
      rw [onSegment_cut (goesOn_onSegment hg), h2 x]
      simp

theorem extendsTail_zero {a b c : Vertex K} :
    Edge.extendsTail 0 a b c = true ↔ SameWay ⟨a, b⟩ ⟨b, c⟩ := by
  unfold Edge.extendsTail SameWay
  have h : orientation (0 : K) a b c = .colinear ↔ Parallel a b b c := by
    rw [orientation, orientDet_eq]
    unfold Parallel
    have e : cross a b c = (b.x - a.x) * (c.y - b.y) - (b.y - a.y) * (c.x - b.x) := by unfold cross; ring
    by_cases h0 : cross a b c = 0
    · rw [if_pos (by rw [approxEq_zero_eps]; exact h0)]
      simp only [true_iff]; rw [h0] at e; linarith
    · rw [if_neg (by rw [approxEq_zero_eps]; exact h0)]
      constructor
      · intro hh; split_ifs at hh
      · intro hh; exact absurd (by rw [e]; linarith) h0
  rw [Bool.and_eq_true, decide_eq_true_eq, decide_eq_true_eq, h]
  simp only [dot, gt_iff_lt]

/-! ### `Edge::arrange` -/

section arrange

/-- What an edge and the path it was made of must satisfy. -/
def Made (eps : K) (x : Edge (Vertex K) × List (Edge (Vertex K))) : Prop :=
  x.2 ≠ [] ∧ Path x.1.v1 x.2 x.1.v2 ∧ (eps = 0 → x.2 = [x.1] ∨ ∀ f ∈ x.2, SameWay x.1 f)

theorem extendOnce_spec {eps : K} {σ : Sched} {e e' : Edge (Vertex K)} {rest rest' : List (Edge (Vertex K))}
    (h : Edge.extendOnce eps σ e rest = some (e', rest')) :
    ∃ f ∈ rest, rest' = setErase f rest ∧
      ((f.v1 = e.v2 ∧ e' = ⟨e.v1, f.v2⟩ ∧ Edge.extendsTail eps e.v1 e.v2 f.v2 = true) ∨
        (f.v2 = e.v1 ∧ e' = ⟨f.v1, e.v2⟩ ∧ Edge.extendsTail eps e.v2 e.v1 f.v1 = true)) := by
  unfold Edge.extendOnce at h
  cases h1 : (shuffle (σ.sub 0) rest).find? fun f =>
      decide (f.v1 = e.v2) && Edge.extendsTail eps e.v1 e.v2 f.v2 with
  | some f =>
    rw [h1] at h
    simp only [Option.some.injEq, Prod.mk.injEq] at h
    have h2 := List.find?_some h1
    simp only [Bool.and_eq_true, decide_eq_true_eq] at h2
    exact ⟨f, mem_shuffle.1 (List.mem_of_find?_eq_some h1), h.2.symm, .inl ⟨h2.1, h.1.symm, h2.2⟩⟩
  | none =>
    rw [h1] at h
    simp only [] at h
    cases h3 : (shuffle (σ.sub 1) rest).find? fun f =>
        decide (f.v2 = e.v1) && Edge.extendsTail eps e.v2 e.v1 f.v1 with
    | some f =>
      rw [h3] at h
      simp only [Option.some.injEq, Prod.mk.injEq] at h
      have h2 := List.find?_some h3
      simp only [Bool.and_eq_true, decide_eq_true_eq] at h2
      exact ⟨f, mem_shuffle.1 (List.mem_of_find?_eq_some h3), h.2.symm, .inr ⟨h2.1, h.1.symm, h2.2⟩⟩
    | none => rw [h3] at h; simp at h

theorem extendOnce_none {eps : K} {σ : Sched} {e : Edge (Vertex K)} {rest : List (Edge (Vertex K))}
    (h : Edge.extendOnce eps σ e rest = none) :
    ∀ f ∈ rest, (f.v1 = e.v2 → Edge.extendsTail eps e.v1 e.v2 f.v2 = false) ∧
      (f.v2 = e.v1 → Edge.extendsTail eps e.v2 e.v1 f.v1 = false) := by
  unfold Edge.extendOnce at h
  cases h1 : (shuffle (σ.sub 0) rest).find? fun f =>
      decide (f.v1 = e.v2) && Edge.extendsTail eps e.v1 e.v2 f.v2 with
  | some f => rw [h1] at h; simp at h
  | none =>
    rw [h1] at h
    simp only [] at h
    cases h3 : (shuffle (σ.sub 1) rest).find? fun f =>
        decide (f.v2 = e.v1) && Edge.extendsTail eps e.v2 e.v1 f.v1 with
    | some f => rw [h3] at h; simp at h
    | none =>
      rw [List.find?_eq_none] at h1 h3
      intro f hf
      have e1 := h1 f (mem_shuffle.2 hf)
      have e2 := h3 f (mem_shuffle.2 hf)
      simp only [Bool.and_eq_true, decide_eq_true_eq, not_and, Bool.not_eq_true] at e1 e2
      exact ⟨e1, e2⟩

/-- Going straight on at the head, in terms of the two edges. -/
theorem extendsHead_zero {e f : Edge (Vertex K)} (h : f.v2 = e.v1) :
    Edge.extendsTail 0 e.v2 e.v1 f.v1 = true ↔ GoesOn f e := by
  rw [extendsTail_zero]
  unfold GoesOn SameWay Parallel
  rw [h]
  simp only [true_and]
  constructor <;> rintro ⟨h1, h2⟩ <;> exact ⟨by linear_combination -h1, by linarith⟩

theorem made_extend {eps : K} {σ : Sched} {e e' : Edge (Vertex K)} {rest rest' p : List (Edge (Vertex K))}
    (hn : rest.Nodup) (hm : Made eps (e, p)) (h : Edge.extendOnce eps σ e rest = some (e', rest')) :
    ∃ f p', Made eps (e', p') ∧ p'.Perm (f :: p) ∧ (f :: rest').Perm rest := by
  obtain ⟨f, hf, rfl, hj⟩ := extendOnce_spec h
  refine ⟨f, ?_⟩
  have hperm : (f :: setErase f rest).Perm rest := setErase_perm hn hf
  obtain ⟨hne, hp, hs⟩ := hm
  rcases hj with ⟨h1, rfl, h2⟩ | ⟨h1, rfl, h2⟩
  · refine ⟨p ++ [f], ⟨by simp, path_append hp (by rw [← h1]; exact ⟨rfl, rfl⟩), ?_⟩,
      List.perm_append_singleton _ _, hperm⟩
    intro he
    right
    subst he
    rw [← h1, extendsTail_zero] at h2
    have hg : GoesOn e f := ⟨h1, by rw [h1] at h2; unfold SameWay Parallel at h2 ⊢; rw [h1]; exact h2⟩
    obtain ⟨j1, j2⟩ := goesOn_join hg
    intro g hg'
    rw [List.mem_append, List.mem_singleton] at hg'
    rcases hg' with hg' | rfl
    · rcases hs rfl with hs | hs
      · simp only [] at hs; rw [hs, List.mem_singleton] at hg'; subst hg'; exact j1
      · exact sameWay_trans j1 (hs g hg')
    · exact j2
  · refine ⟨f :: p, ⟨by simp, ⟨rfl, by rw [h1]; exact hp⟩, ?_⟩, List.Perm.refl _, hperm⟩
    intro he
    right
    subst he
    rw [extendsHead_zero h1] at h2
    obtain ⟨j1, j2⟩ := goesOn_join h2
    intro g hg'
    rw [List.mem_cons] at hg'
    rcases hg' with rfl | hg'
    · exact j1
    · rcases hs rfl with hs | hs
      · simp only [] at hs; rw [hs, List.mem_singleton] at hg'; subst hg'; exact j2
      · exact sameWay_trans j2 (hs g hg')

/-- Partial correctness of the loop of `Edge::arrange`: the edges in hand are distributed over the results. -/
theorem arrangeLoop_spec {eps : K} (n : Nat) (σ : Sched) (cur : Option (Edge (Vertex K)))
    (rest acc out p : List (Edge (Vertex K))) (hn : rest.Nodup)
    (hcur : ∀ e, cur = some e → Made eps (e, p)) (hnone : cur = none → p = [])
    (h : Edge.arrangeLoop eps n σ cur rest acc = .ok out) :
    ∃ ps : List (Edge (Vertex K) × List (Edge (Vertex K))), (∀ x ∈ ps, Made eps x) ∧
      (∀ e, e ∈ out ↔ e ∈ acc ∨ ∃ q, (e, q) ∈ ps) ∧ (ps.flatMap (·.2)).Perm (p ++ rest) := by
  induction n generalizing σ cur rest acc p with
  | zero =>
    cases cur with
    | some e => simp [Edge.arrangeLoop] at h
    | none =>
      cases rest with
      | cons a l => simp [Edge.arrangeLoop] at h
      | nil =>
        simp only [Edge.arrangeLoop, Res.ok.injEq] at h
        subst h
        exact ⟨[], by simp, by simp, by simp [hnone rfl]⟩
  | succ n ih =>
    cases cur with
    | none =>
      simp only [Edge.arrangeLoop] at h
      cases hc : choose (σ.sub 0) rest with
      | none =>
        rw [hc] at h
        simp only [Res.ok.injEq] at h
        subst h
        rw [choose_eq_none.1 hc]
        exact ⟨[], by simp, by simp, by simp [hnone rfl]⟩
      | some e =>
        rw [hc] at h
        simp only [] at h
        obtain ⟨ps, h1, h2, h3⟩ := ih (σ.sub 1) (some e) (setErase e rest) acc [e] (nodup_setErase hn)
          (fun e' he' => by
            injection he' with he'; subst he'
            exact ⟨by simp, ⟨rfl, rfl⟩, fun _ => .inl rfl⟩) (by simp) h
        refine ⟨ps, h1, h2, h3.trans ?_⟩
        rw [hnone rfl]
        exact setErase_perm hn (choose_mem hc)
    | some e =>
      simp only [Edge.arrangeLoop] at h
      cases hx : Edge.extendOnce eps (σ.sub 0) e rest with
      | some r =>
        rw [hx] at h
        simp only [] at h
        obtain ⟨e', rest'⟩ := r
        obtain ⟨f, p', m1, m2, m3⟩ := made_extend hn (hcur e rfl) hx
        have hn' : rest'.Nodup := (List.nodup_cons.1 (m3.nodup_iff.2 hn)).2
        obtain ⟨ps, h1, h2, h3⟩ := ih (σ.sub 1) (some e') rest' acc p' hn'
          (fun e'' he' => by injection he' with he'; subst he'; exact m1) (by simp) h
        refine ⟨ps, h1, h2, h3.trans ?_⟩
        refine (m2.append_right rest').trans ?_
        rw [List.cons_append]
        refine (List.perm_middle.symm).trans ?_
        exact m3.append_left p
      | none =>
        rw [hx] at h
        simp only [] at h
        obtain ⟨ps, h1, h2, h3⟩ := ih (σ.sub 1) none rest (setInsert e acc) [] hn (by simp) (by simp) h
        refine ⟨(e, p) :: ps, ?_, ?_, ?_⟩
        · intro x hx
          rcases List.mem_cons.1 hx with rfl | hx
          · exact hcur e rfl
          · exact h1 x hx
        · intro e'
          rw [h2, mem_setInsert]
          simp only [List.mem_cons, Prod.mk.injEq]
          constructor
          · rintro ((rfl | h) | ⟨q, h⟩)
            · exact .inr ⟨p, .inl ⟨rfl, rfl⟩⟩
            · exact .inl h
            · exact .inr ⟨q, .inr h⟩
          · rintro (h | ⟨q, ⟨rfl, _⟩ | h⟩)
            · exact .inl (.inr h)
            · exact .inl (.inl rfl)
            · exact .inr ⟨q, h⟩
        · rw [List.flatMap_cons]
          exact h3.append_left p

/-- Edges one of which goes straight on along the other. -/
def Joinable (e f : Edge (Vertex K)) : Prop := GoesOn e f ∨ GoesOn f e

theorem not_joinable_self (e : Edge (Vertex K)) : ¬ Joinable e e := by
  rintro (⟨h, hs⟩ | ⟨h, hs⟩) <;> exact (sameWay_nondegenerate hs).1 (by rw [h]; exact ⟨rfl, rfl⟩)

theorem path_first {V : Type*} {a b : V} {l : List (Edge V)} (h : Path a l b) (hne : l ≠ []) :
    ∃ e ∈ l, e.v1 = a := by
  cases l with
  | nil => exact absurd rfl hne
  | cons e l => exact ⟨e, by simp, h.1⟩

theorem path_last {V : Type*} {a b : V} {l : List (Edge V)} (h : Path a l b) (hne : l ≠ []) :
    ∃ e ∈ l, e.v2 = b := by
  induction l generalizing a with
  | nil => exact absurd rfl hne
  | cons e l ih =>
    by_cases hl : l = []
    · subst hl; exact ⟨e, by simp, h.2⟩
    · obtain ⟨f, h1, h2⟩ := ih h.2 hl
      exact ⟨f, by simp [h1], h2⟩

theorem joinable_piece {e f : Edge (Vertex K)} {p : List (Edge (Vertex K))} (hm : Made 0 (f, p))
    (h : Joinable e f) : ∃ g ∈ p, Joinable e g := by
  obtain ⟨hne, hp, hs⟩ := hm
  rcases hs rfl with hs | hs
  · simp only [] at hs; exact ⟨f, by rw [hs]; simp, h⟩
  · rcases h with ⟨h1, h2⟩ | ⟨h1, h2⟩
    · obtain ⟨g, hg, hg'⟩ := path_first hp hne
      exact ⟨g, hg, .inl ⟨by rw [hg', ← h1], sameWay_trans h2 (hs g hg)⟩⟩
    · obtain ⟨g, hg, hg'⟩ := path_last hp hne
      exact ⟨g, hg, .inr ⟨by rw [hg', ← h1], sameWay_trans (sameWay_symm (hs g hg)) h2⟩⟩

theorem arrangeLoop_maximal (n : Nat) (σ : Sched) (cur : Option (Edge (Vertex K)))
    (rest acc out p : List (Edge (Vertex K))) (hn : rest.Nodup)
    (hcur : ∀ e, cur = some e → Made 0 (e, p)) (hnone : cur = none → p = [])
    (h1 : ∀ e ∈ acc, ∀ f ∈ acc, ¬ Joinable e f) (h2 : ∀ e ∈ acc, ∀ f ∈ p ++ rest, ¬ Joinable e f)
    (h : Edge.arrangeLoop 0 n σ cur rest acc = .ok out) : ∀ e ∈ out, ∀ f ∈ out, ¬ Joinable e f := by
  induction n generalizing σ cur rest acc p with
  | zero =>
    cases cur with
    | some e => simp [Edge.arrangeLoop] at h
    | none =>
      cases rest with
      | cons a l => simp [Edge.arrangeLoop] at h
      | nil =>
        simp only [Edge.arrangeLoop, Res.ok.injEq] at h
        subst h
        exact h1
  | succ n ih =>
    cases cur with
    | none =>
      simp only [Edge.arrangeLoop] at h
      cases hc : choose (σ.sub 0) rest with
      | none =>
        rw [hc] at h
        simp only [Res.ok.injEq] at h
        subst h
        exact h1
      | some e =>
        rw [hc] at h
        refine ih (σ.sub 1) (some e) (setErase e rest) acc [e] (nodup_setErase hn)
          (fun e' he' => by
            injection he' with he'; subst he'
            exact ⟨by simp, ⟨rfl, rfl⟩, fun _ => .inl rfl⟩) (by simp) h1 ?_ h
        intro g hg f hf
        refine h2 g hg f ?_
        rw [hnone rfl, List.nil_append]
        exact (setErase_perm hn (choose_mem hc)).mem_iff.1 (by simpa using hf)
    | some e =>
      simp only [Edge.arrangeLoop] at h
      cases hx : Edge.extendOnce 0 (σ.sub 0) e rest with
      | some r =>
        rw [hx] at h
        obtain ⟨e', rest'⟩ := r
        obtain ⟨f, p', m1, m2, m3⟩ := made_extend hn (hcur e rfl) hx
        have hn' : rest'.Nodup := (List.nodup_cons.1 (m3.nodup_iff.2 hn)).2
        refine ih (σ.sub 1) (some e') rest' acc p' hn'
          (fun e'' he' => by injection he' with he'; subst he'; exact m1) (by simp) h1 ?_ h
        intro g hg k hk
        refine h2 g hg k ?_
        rw [List.mem_append, m2.mem_iff, List.mem_cons] at hk
        rw [List.mem_append, ← m3.mem_iff, List.mem_cons]
        tauto
      | none =>
        rw [hx] at h
        have hno := extendOnce_none hx
        have hm := hcur e rfl
        have key : ∀ f ∈ rest, ¬ Joinable e f := by
          rintro f hf (⟨j1, j2⟩ | hj)
          · have := (hno f hf).1 j1
            rw [← Bool.not_eq_true, extendsTail_zero] at this
            apply this
            unfold SameWay Parallel at j2 ⊢
            rw [j1] at j2
            exact j2
          · have := (hno f hf).2 hj.1.symm
            rw [← Bool.not_eq_true, extendsHead_zero hj.1.symm] at this
            exact this hj
        have key2 : ∀ g ∈ acc, ¬ Joinable g e := by
          intro g hg hj
          obtain ⟨k, hk, hk'⟩ := joinable_piece hm hj
          exact h2 g hg k (by simp [hk]) hk'
        refine ih (σ.sub 1) none rest (setInsert e acc) [] hn (by simp) (by simp) ?_ ?_ h
        · intro g hg f hf
          rw [mem_setInsert] at hg hf
          rcases hg with rfl | hg <;> rcases hf with rfl | hf
          · exact not_joinable_self _
          · exact fun hj => key2 f hf hj.symm
          · exact key2 g hg
          · exact h1 g hg f hf
        · intro g hg f hf
          rw [mem_setInsert] at hg
          rw [List.nil_append] at hf
          rcases hg with rfl | hg
          · exact key f hf
          · exact h2 g hg f (by simp [hf])

theorem arrangeLoop_total {eps : K} (n : Nat) (σ : Sched) (cur : Option (Edge (Vertex K)))
    (rest acc : List (Edge (Vertex K))) (hn : rest.Nodup)
    (hf : 2 * rest.length + (if cur.isSome then 1 else 0) ≤ n) :
    ∃ out, Edge.arrangeLoop eps n σ cur rest acc = .ok out := by
  induction n generalizing σ cur rest acc with
  | zero =>
    cases cur with
    | some e => simp at hf
    | none =>
      cases rest with
      | cons a l => simp at hf
      | nil => exact ⟨acc, rfl⟩
  | succ n ih =>
    cases cur with
    | none =>
      simp only [Edge.arrangeLoop]
      cases hc : choose (σ.sub 0) rest with
      | none => exact ⟨acc, rfl⟩
      | some e =>
        have := (setErase_perm hn (choose_mem hc)).length_eq
        rw [List.length_cons] at this
        refine ih _ _ _ _ (nodup_setErase hn) ?_
        simp only [Option.isSome_none, Bool.false_eq_true, if_false, Option.isSome_some, if_true] at hf ⊢
        omega
    | some e =>
      simp only [Edge.arrangeLoop]
      cases hx : Edge.extendOnce eps (σ.sub 0) e rest with
      | some r =>
        obtain ⟨e', rest'⟩ := r
        obtain ⟨f, hf', rfl, _⟩ := extendOnce_spec hx
        have := (setErase_perm hn hf').length_eq
        rw [List.length_cons] at this
        refine ih _ _ _ _ (nodup_setErase hn) ?_
        simp only [Option.isSome_some, if_true] at hf ⊢
        omega
      | none =>
        refine ih _ _ _ _ hn ?_
        simp only [Option.isSome_none, Bool.false_eq_true, if_false, Option.isSome_some, if_true] at hf ⊢
        omega

end arrange

end Verif
