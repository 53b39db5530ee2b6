import Verif.Lemmas.EdgeOps
import Verif.Lemmas.Winding
import Mathlib.Algebra.Order.Ring.Rat
import Mathlib.Algebra.Field.Rat

/-!
# Arranging edges into a closed polyline (C11)
-/

set_option linter.unusedSectionVars false

namespace Verif.Props

open Spec

section

variable {V : Type*} [DecidableEq V]

/-- Every vertex of the edges is the start of exactly one of them and the end of exactly one of them. -/
structure OneInOneOut (edges : List (Edge V)) : Prop where
  start_unique : ∀ e ∈ edges, ∀ f ∈ edges, e.v1 = f.v1 → e = f
  end_unique : ∀ e ∈ edges, ∀ f ∈ edges, e.v2 = f.v2 → e = f
  leaves : ∀ e ∈ edges, ∃ f ∈ edges, f.v1 = e.v2

theorem mem_consecutivePairs_snoc {l : List V} {a b : V} {s : V × V} (hl : l.getLast? = some a) :
    s ∈ consecutivePairs (l ++ [b]) ↔ s ∈ consecutivePairs l ∨ s = (a, b) := by
  rcases List.eq_nil_or_concat' l with rfl | ⟨m, c, rfl⟩
  · simp at hl
  · simp only [List.getLast?_append, List.getLast?_singleton, Option.some_or, Option.some.injEq] at hl
    subst hl
    rw [List.append_assoc, List.singleton_append, consecutivePairs_snoc]
    simp

theorem mem_consecutive_right {l : List V} {a w : V} (hh : l.head? = some a) (hw : w ∈ l) :
    w = a ∨ ∃ u, (u, w) ∈ consecutivePairs l := by
  induction l generalizing a with
  | nil => simp at hw
  | cons c l ih =>
    simp only [List.head?_cons, Option.some.injEq] at hh
    subst hh
    rcases List.mem_cons.1 hw with rfl | hw
    · exact .inl rfl
    · cases l with
      | nil => simp at hw
      | cons d m =>
        right
        rcases ih rfl hw with rfl | ⟨u, hu⟩
        · exact ⟨c, by simp [consecutivePairs]⟩
        · exact ⟨u, by simp [consecutivePairs, hu]⟩

theorem consecutive_left_not_last {l : List V} (hn : l.Nodup) {a w : V} (hl : l.getLast? = some a) :
    (a, w) ∉ consecutivePairs l := by
  induction l with
  | nil => simp at hl
  | cons c l ih =>
    cases l with
    | nil => simp [consecutivePairs]
    | cons d m =>
      rw [consecutivePairs, List.mem_cons]
      rintro (h | h)
      · injection h with h1 h2
        subst h1
        have : a ∈ d :: m := List.mem_of_getLast? (by rwa [List.getLast?_cons_cons] at hl)
        exact (List.nodup_cons.1 hn).1 this
      · exact ih (List.nodup_cons.1 hn).2 (by rwa [List.getLast?_cons_cons] at hl) h

/-- The loop on a set of disjoint cycles: it ends having walked once around the cycle of `head`. -/
theorem arrangeLoop_cycle {veq : V → V → Bool} {edges : List (Edge V)} (hio : OneInOneOut edges)
    (hveq : ∀ e ∈ edges, ∀ f ∈ edges, veq e.v2 f.v1 = true ↔ e.v2 = f.v1) {head : V}
    (n : Nat) (tail : V) (acc : List V) (hhead : acc.head? = some head) (hlast : acc.getLast? = some tail)
    (hnd : acc.Nodup) (hstart : ∀ v ∈ acc, ∃ f ∈ edges, f.v1 = v)
    (hpairs : ∀ s ∈ consecutivePairs acc, (⟨s.1, s.2⟩ : Edge V) ∈ edges)
    (hf : edges.length < n + acc.length) :
    ∃ vs, arrangeLoop veq (arrangeMap edges) head n tail acc = .ok vs ∧ vs.Nodup ∧ vs ≠ [] ∧
      head ∈ vs ∧ ∀ s ∈ pairs vs false, (⟨s.1, s.2⟩ : Edge V) ∈ edges := by
  have hle : acc.length ≤ edges.length := by
    have h1 : acc ⊆ edges.map (·.v1) := fun v hv => by
      obtain ⟨f, hf, rfl⟩ := hstart v hv
      exact List.mem_map_of_mem hf
    have := (hnd.subperm h1).length_le
    rwa [List.length_map] at this
  induction n generalizing tail acc with
  | zero => omega
  | succ n ih =>
    unfold arrangeLoop
    have htail : tail ∈ acc := List.mem_of_getLast? hlast
    have hne : acc ≠ [] := List.ne_nil_of_mem htail
    cases hw : arrangeMap edges tail with
    | none =>
      obtain ⟨f, hf, hf'⟩ := hstart tail htail
      exact absurd hf' (arrangeMap_none hw f hf)
    | some w =>
      have hm := arrangeMap_mem hw
      obtain ⟨fh, hfh, hfh'⟩ := hstart head (List.mem_of_head? hhead)
      have hv := hveq _ hm fh hfh
      simp only [hfh'] at hv
      simp only []
      by_cases hwh : w = head
      · rw [if_pos (hv.2 hwh)]
        refine ⟨acc, rfl, hnd, hne, List.mem_of_head? hhead, ?_⟩
        intro s hs
        rw [pairs, hlast, hhead] at hs
        simp only [Bool.false_eq_true, if_false, List.mem_append, List.mem_singleton] at hs
        rcases hs with hs | rfl
        · exact hpairs s hs
        · rw [← hwh]; exact hm
      · rw [if_neg (fun h => hwh (hv.1 h))]
        have hnot : w ∉ acc := by
          intro hmem
          rcases mem_consecutive_right hhead hmem with h | ⟨u, hu⟩
          · exact hwh h
          · have h1 := hpairs _ hu
            have h2 := hio.end_unique _ h1 _ hm rfl
            injection h2 with h2
            simp only [] at h2
            rw [h2] at hu
            exact consecutive_left_not_last hnd hlast hu
        have hstart' : ∀ v ∈ acc ++ [w], ∃ f ∈ edges, f.v1 = v := by
          intro v hv
          rw [List.mem_append, List.mem_singleton] at hv
          rcases hv with hv | rfl
          · exact hstart v hv
          · exact hio.leaves _ hm
        have hnd' : (acc ++ [w]).Nodup := by
          rw [List.nodup_append]
          refine ⟨hnd, by simp, ?_⟩
          intro a ha b hb
          rw [List.mem_singleton] at hb
          rintro rfl
          exact hnot (hb ▸ ha)
        refine ih w (acc ++ [w]) ?_ (by simp) hnd' hstart' ?_ ?_ ?_
        · cases acc with
          | nil => exact absurd rfl hne
          | cons c acc => exact hhead
        · intro s hs
          rw [mem_consecutivePairs_snoc hlast] at hs
          rcases hs with hs | rfl
          · exact hpairs s hs
          · exact hm
        · simp; omega
        · have h1 : acc ++ [w] ⊆ edges.map (·.v1) := fun v hv => by
            obtain ⟨f, hf, rfl⟩ := hstart' v hv
            exact List.mem_map_of_mem hf
          have := (hnd'.subperm h1).length_le
          rwa [List.length_map] at this

theorem pairs_length (l : List V) (h : l ≠ []) : (pairs l false).length = l.length := by
  cases l with
  | nil => exact absurd rfl h
  | cons a l =>
    rw [pairs_closed_eq]
    have : ∀ (l : List V) (a b : V), (consecutivePairs (a :: (l ++ [b]))).length = l.length + 1 := by
      intro l
      induction l with
      | nil => intro a b; rfl
      | cons c l ih => intro a b; simp [consecutivePairs, ih]
    rw [this, List.length_cons]

theorem pairs_fst (l : List V) : (pairs l false).map Prod.fst = l := by
  cases l with
  | nil => rfl
  | cons a l =>
    rw [pairs_closed_eq]
    have : ∀ (l : List V) (a b : V), (consecutivePairs (a :: (l ++ [b]))).map Prod.fst = a :: l := by
      intro l
      induction l with
      | nil => intro a b; rfl
      | cons c l ih => intro a b; simp [consecutivePairs, ih]
    exact this l a a

/-- A set that contains one vertex of a closed chain, and with a vertex the next one, contains all of
them. -/
theorem chain_closed {l : List V} {S : V → Prop} {v : V} (hv : v ∈ l) (hS : S v)
    (hstep : ∀ s ∈ pairs l false, S s.1 → S s.2) : ∀ w ∈ l, S w := by
  have open_chain : ∀ (m : List V) (a : V), S a → (∀ s ∈ consecutivePairs (a :: m), S s.1 → S s.2) →
      ∀ w ∈ a :: m, S w := by
    intro m
    induction m with
    | nil => intro a ha _ w hw; rw [List.mem_singleton] at hw; exact hw ▸ ha
    | cons b m ih =>
      intro a ha hs w hw
      rcases List.mem_cons.1 hw with rfl | hw
      · exact ha
      · exact ih b (hs (a, b) (by simp [consecutivePairs]) ha)
          (fun s h => hs s (by simp [consecutivePairs, h])) w hw
  obtain ⟨l1, l2, rfl⟩ := List.append_of_mem hv
  have hrot : (l1 ++ v :: l2).rotate l1.length = v :: (l2 ++ l1) := by
    rw [List.rotate_append_length_eq]; rfl
  intro w hw
  refine open_chain (l2 ++ l1) v hS ?_ w ?_
  · intro s hs
    refine hstep s ((pairs_rotate (l1 ++ v :: l2) l1.length).mem_iff.1 ?_)
    rw [hrot, pairs]
    exact List.mem_append_left _ hs
  · rw [← hrot, List.mem_rotate]; exact hw

/-- C11 when every vertex has one edge in and one edge out: the call returns, a returned polyline is
closed and its edges are exactly the given ones, and `None` is returned only if no closed polyline has
exactly those edges. What is missing: other sets of edges, for which the claim is false
(`C11_diverges_false`, `C11_invents_false`, `C11_panics_false`). -/
theorem C11_partial {veq : V → V → Bool} {edges : List (Edge V)} (σ : Sched) (fuel : Nat)
    (hn : edges.Nodup) (hio : OneInOneOut edges)
    (hveq : ∀ e ∈ edges, ∀ f ∈ edges, veq e.v2 f.v1 = true ↔ e.v2 = f.v1)
    (h3 : 3 ≤ edges.length) (hf : edges.length ≤ fuel) :
    ∃ r, Polyline.arrange veq σ fuel edges = .ok r ∧
      (∀ p, r = some p → p.opened = false ∧ p.intoEdges.Perm edges) ∧
      (r = none → ∀ p : Polyline V, p.opened = false → ¬ p.intoEdges.Perm edges) := by
  unfold Polyline.arrange
  simp only []
  have hperm := shuffle_perm (σ.sub 0) edges
  generalize ho : shuffle (σ.sub 0) edges = order at hperm
  have hio' : OneInOneOut order :=
    ⟨fun e he f hf => hio.1 e (hperm.mem_iff.1 he) f (hperm.mem_iff.1 hf),
      fun e he f hf => hio.2 e (hperm.mem_iff.1 he) f (hperm.mem_iff.1 hf),
      fun e he => by
        obtain ⟨f, h1, h2⟩ := hio.3 e (hperm.mem_iff.1 he)
        exact ⟨f, hperm.mem_iff.2 h1, h2⟩⟩
  cases hc : choose (σ.sub 1) (toSet (order.map (·.v1))) with
  | none =>
    exfalso
    rw [choose_eq_none] at hc
    have hlen : 0 < order.length := by rw [hperm.length_eq]; omega
    obtain ⟨e, he⟩ := List.exists_mem_of_length_pos hlen
    have : e.v1 ∈ toSet (order.map (·.v1)) := mem_toSet.2 (List.mem_map_of_mem he)
    rw [hc] at this
    simp at this
  | some head =>
    have hh := mem_toSet.1 (choose_mem hc)
    obtain ⟨e0, he0, he0'⟩ := List.mem_map.1 hh
    obtain ⟨vs, h1, h2, h2', h3', h4⟩ := arrangeLoop_cycle (veq := veq) hio'
      (fun e he f hf => hveq e (hperm.mem_iff.1 he) f (hperm.mem_iff.1 hf)) (head := head) fuel head [head]
      rfl rfl (by simp) (by intro v hv; rw [List.mem_singleton] at hv; exact ⟨e0, he0, he0'.trans hv.symm⟩)
      (by simp [consecutivePairs]) (by simp [hperm.length_eq]; omega)
    simp only [h1, Res.bind_ok]
    have hnd : (pairs vs false).Nodup := List.Nodup.of_map Prod.fst (by rw [pairs_fst]; exact h2)
    have hndE : ((pairs vs false).map fun s => (⟨s.1, s.2⟩ : Edge V)).Nodup := by
      refine hnd.map fun a b h => ?_
      injection h with h5 h6
      exact Prod.ext h5 h6
    have hsub : (pairs vs false).map (fun s => (⟨s.1, s.2⟩ : Edge V)) ⊆ edges := by
      intro e he
      obtain ⟨s, hs, rfl⟩ := List.mem_map.1 he
      exact hperm.mem_iff.1 (h4 s hs)
    by_cases hlen : vs.length = edges.length
    · rw [if_pos hlen]
      have h3v : 3 ≤ vs.length := by omega
      rw [Polyline.newClosed, dif_pos h3v]
      refine ⟨_, rfl, ?_, by simp⟩
      intro p hp
      injection hp with hp
      subst hp
      refine ⟨rfl, ?_⟩
      unfold Polyline.intoEdges
      refine (List.subperm_of_subset hndE hsub).perm_of_length_le ?_
      rw [List.length_map, pairs_length vs h2', hlen]
    · rw [if_neg hlen]
      refine ⟨none, rfl, by simp, ?_⟩
      rintro - p hp hpe
      apply hlen
      unfold Polyline.intoEdges at hpe
      rw [hp] at hpe
      have hpl : p.vertices ≠ [] := by
        intro h0; have := p.two_le; rw [h0] at this; simp at this
      have hl2 : p.vertices.length = edges.length := by
        rw [← hpe.length_eq, List.length_map, pairs_length _ hpl]
      have hlow : vs.length ≤ edges.length := by
        have := (List.subperm_of_subset hndE hsub).length_le
        rwa [List.length_map, pairs_length vs h2'] at this
      have hpnd : p.vertices.Nodup := by
        have e1 := hpe.map Edge.v1
        rw [List.map_map] at e1
        have e2 : (pairs p.vertices false).map (Edge.v1 ∘ fun s => (⟨s.1, s.2⟩ : Edge V)) = p.vertices :=
          pairs_fst _
        rw [e2] at e1
        rw [e1.nodup_iff]
        exact (List.nodup_map_iff_inj_on hn).2 fun e he f hf h => hio.1 e he f hf h
      have hheadp : head ∈ p.vertices := by
        have e1 := hpe.mem_iff.2 (hperm.mem_iff.1 he0)
        obtain ⟨s, hs, hs'⟩ := List.mem_map.1 e1
        rw [← he0', ← hs', ← pairs_fst p.vertices]
        exact List.mem_map_of_mem (f := Prod.fst) hs
      have hall := chain_closed (S := fun v => v ∈ vs) hheadp h3' (by
        intro s hs hs1
        have e1 : (⟨s.1, s.2⟩ : Edge V) ∈ edges := hpe.mem_iff.1 (List.mem_map_of_mem (f := fun s => (⟨s.1, s.2⟩ : Edge V)) hs)
        have e2 : s.1 ∈ (pairs vs false).map Prod.fst := by rw [pairs_fst]; exact hs1
        obtain ⟨t, ht, ht1⟩ := List.mem_map.1 e2
        have e3 := hio.1 _ e1 ⟨t.1, t.2⟩ (hperm.mem_iff.1 (h4 t ht)) ht1.symm
        injection e3 with _ e3
        show s.2 ∈ vs
        rw [e3]
        exact (mem_pairs ht).2)
      have := (hpnd.subperm hall).length_le
      omega

end

/-! ### What goes wrong on other sets of edges -/

/-- A vertex of the counterexamples. -/
def av (x : ℚ) : Vertex ℚ := ⟨x, 0, false⟩

/-- The scheduler that takes the element at position `k` when it first picks a vertex. -/
def pick (k : Nat) : Sched := fun p => match p with
  | [1] => k
  | _ => 0

/-- C11 is false: the edges `0 → 1`, `1 → 2`, `2 → 1` keep the loop busy forever when it starts at
vertex 0. -/
theorem C11_diverges_false (fuel : Nat) :
    Polyline.arrange (Vertex.eqv 0) (pick 2) fuel
      [⟨av 0, av 1⟩, ⟨av 1, av 2⟩, ⟨av 2, av 1⟩] = .diverged := by
  have hloop : ∀ (n : Nat) (acc : List (Vertex ℚ)) (t : Vertex ℚ), t = av 1 ∨ t = av 2 →
      arrangeLoop (Vertex.eqv 0)
        (arrangeMap [⟨av 0, av 1⟩, ⟨av 1, av 2⟩, ⟨av 2, av 1⟩]) (av 0) n t acc = .diverged := by
    intro n
    induction n with
    | zero => intro acc t _; rfl
    | succ n ih =>
      rintro acc t (rfl | rfl)
      · unfold arrangeLoop
        have h1 : arrangeMap [⟨av 0, av 1⟩, ⟨av 1, av 2⟩, ⟨av 2, av 1⟩] (av 1) = some (av 2) := by
          decide +kernel
        have h2 : Vertex.eqv 0 (av 2) (av 0) = false := by decide +kernel
        rw [h1]
        simp only [h2, Bool.false_eq_true, if_false]
        exact ih _ _ (.inr rfl)
      · unfold arrangeLoop
        have h1 : arrangeMap [⟨av 0, av 1⟩, ⟨av 1, av 2⟩, ⟨av 2, av 1⟩] (av 2) = some (av 1) := by
          decide +kernel
        have h2 : Vertex.eqv 0 (av 1) (av 0) = false := by decide +kernel
        rw [h1]
        simp only [h2, Bool.false_eq_true, if_false]
        exact ih _ _ (.inl rfl)
  have hs : shuffle ((pick 2).sub 0) ([⟨av 0, av 1⟩, ⟨av 1, av 2⟩, ⟨av 2, av 1⟩] : List (Edge (Vertex ℚ))) =
      [⟨av 0, av 1⟩, ⟨av 1, av 2⟩, ⟨av 2, av 1⟩] := by decide +kernel
  have hc : choose ((pick 2).sub 1) (toSet (([⟨av 0, av 1⟩, ⟨av 1, av 2⟩, ⟨av 2, av 1⟩] :
      List (Edge (Vertex ℚ))).map (·.v1))) = some (av 0) := by decide +kernel
  unfold Polyline.arrange
  simp only [hs, hc]
  cases fuel with
  | zero => rfl
  | succ n =>
    unfold arrangeLoop
    have h1 : arrangeMap [⟨av 0, av 1⟩, ⟨av 1, av 2⟩, ⟨av 2, av 1⟩] (av 0) = some (av 1) := by decide +kernel
    have h2 : Vertex.eqv 0 (av 1) (av 0) = false := by decide +kernel
    rw [h1]
    simp only [h2, Bool.false_eq_true, if_false]
    rw [hloop _ _ _ (.inl rfl)]
    rfl

/-- C11 is false: from the edges `0 → 1`, `1 → 2`, `3 → 1` the code builds the closed polyline
`0 1 2`, whose edge `2 → 0` was not given. -/
theorem C11_invents_false :
    ∃ p : Polyline (Vertex ℚ),
      Polyline.arrange (Vertex.eqv 0) (pick 2) 4 [⟨av 0, av 1⟩, ⟨av 1, av 2⟩, ⟨av 3, av 1⟩] =
        .ok (some p) ∧ p.vertices = [av 0, av 1, av 2] ∧
      (⟨av 2, av 0⟩ : Edge (Vertex ℚ)) ∈ p.intoEdges ∧
      (⟨av 2, av 0⟩ : Edge (Vertex ℚ)) ∉ [⟨av 0, av 1⟩, ⟨av 1, av 2⟩, ⟨av 3, av 1⟩] :=
  ⟨⟨[av 0, av 1, av 2], false, by decide⟩, by decide +kernel, rfl, by decide +kernel, by decide +kernel⟩

/-- C11 is false: no edges at all, or a pair of opposite edges, make the code panic. -/
theorem C11_panics_false (σ : Sched) :
    Polyline.arrange (Vertex.eqv (0 : ℚ)) σ 4 [] = .panic ∧
      Polyline.arrange (Vertex.eqv 0) Sched.first 4 [⟨av 0, av 1⟩, ⟨av 1, av 0⟩] = .panic := by
  constructor
  · unfold Polyline.arrange
    have : choose (σ.sub 1) (toSet ((shuffle (σ.sub 0) ([] : List (Edge (Vertex ℚ)))).map (·.v1))) = none := by
      rw [choose_eq_none]; rfl
    simp only [this]
  · decide +kernel

/-- Two disjoint triangles meet the hypotheses of `C11_partial` (and the answer is `None`); so does one
square. -/
example : OneInOneOut [⟨av 0, av 1⟩, ⟨av 1, av 2⟩, ⟨av 2, av 3⟩, (⟨av 3, av 0⟩ : Edge (Vertex ℚ))] :=
  ⟨by decide +kernel, by decide +kernel, by decide +kernel⟩

example : OneInOneOut [⟨av 0, av 1⟩, ⟨av 1, av 2⟩, ⟨av 2, av 0⟩, ⟨av 3, av 4⟩, ⟨av 4, av 5⟩,
    (⟨av 5, av 3⟩ : Edge (Vertex ℚ))] :=
  ⟨by decide +kernel, by decide +kernel, by decide +kernel⟩

end Verif.Props
