import Verif.Lemmas.EdgeMaps
import Verif.Props.EdgeOps

/-!
# C76 (the two maps of a set of edges) and C46 (concatenating edges, with the maps of the code)
-/

set_option linter.unusedSectionVars false

namespace Verif.Props

open Spec

section maps

variable {V : Type*} [DecidableEq V]

/-- C76: the two maps made of a set of edges list exactly the edges of the set: a vertex `b` is listed for
`a` in the first map, and `a` for `b` in the second one, exactly when there is an edge from `a` to `b`. Every
key has one entry, and no entry is empty. -/
theorem C76_maps (σ : Sched) (base : List (Edge V)) :
    (∀ a b, (∃ s, (Edge.intoHashmap σ base).1.get a = some s ∧ b ∈ s) ↔ ⟨a, b⟩ ∈ base) ∧
      (∀ a b, (∃ s, (Edge.intoHashmap σ base).2.get b = some s ∧ a ∈ s) ↔ ⟨a, b⟩ ∈ base) ∧
      (∀ a, (Edge.intoHashmap σ base).1.get a = none ↔ ∀ e ∈ base, e.v1 ≠ a) ∧
      (∀ b, (Edge.intoHashmap σ base).2.get b = none ↔ ∀ e ∈ base, e.v2 ≠ b) ∧
      ((Edge.intoHashmap σ base).1.map Prod.fst).Nodup ∧ ((Edge.intoHashmap σ base).2.map Prod.fst).Nodup ∧
      (∀ x ∈ (Edge.intoHashmap σ base).1, x.2 ≠ []) ∧ ∀ x ∈ (Edge.intoHashmap σ base).2, x.2 ≠ [] := by
  have h := Edge.intoHashmap_maps σ base
  have none_iff : ∀ {m : VertexMap V} {R : V → V → Prop}, m.Rep R → ∀ k, m.get k = none ↔ ∀ w, ¬ R k w := by
    intro m R hm k
    constructor
    · intro hk w hw
      obtain ⟨s, hs, _⟩ := (hm.holds k w).2 hw
      rw [hk] at hs
      simp at hs
    · intro hk
      cases hg : m.get k with
      | none => rfl
      | some s =>
        obtain ⟨w, hw⟩ := List.exists_mem_of_ne_nil _ (hm.full k s hg)
        exact absurd ((hm.holds k w).1 ⟨s, hg, hw⟩) (hk w)
  refine ⟨h.1.holds, fun a b => h.2.holds b a, ?_, ?_, h.1.keys, h.2.keys, ?_, ?_⟩
  · intro a
    rw [none_iff h.1]
    constructor
    · rintro k ⟨x, y⟩ he rfl
      exact k y he
    · intro k w hw
      exact k _ hw rfl
  · intro b
    rw [none_iff h.2]
    constructor
    · rintro k ⟨x, y⟩ he rfl
      exact k x he
    · intro k w hw
      exact k _ hw rfl
  · exact fun x hx => h.1.full _ _ (VertexMap.get_of_mem h.1.keys hx)
  · exact fun x hx => h.2.full _ _ (VertexMap.get_of_mem h.2.keys hx)

/-- C76: taking an edge of the set out of the two maps never panics, whichever map comes first, and leaves
the two maps of the set without that edge. -/
theorem C76_remove (σ : Sched) {base : List (Edge V)} {a b : V} (h : ⟨a, b⟩ ∈ base) :
    ∃ ht th, Edge.removeEdge (Edge.intoHashmap σ base).1 (Edge.intoHashmap σ base).2 a b = .ok (ht, th) ∧
      Edge.removeEdge (Edge.intoHashmap σ base).2 (Edge.intoHashmap σ base).1 b a = .ok (th, ht) ∧
      (∀ x y, (∃ s, ht.get x = some s ∧ y ∈ s) ↔ ⟨x, y⟩ ∈ base ∧ ¬ (x = a ∧ y = b)) ∧
      ∀ x y, (∃ s, th.get y = some s ∧ x ∈ s) ↔ ⟨x, y⟩ ∈ base ∧ ¬ (x = a ∧ y = b) := by
  obtain ⟨ht, th, h1, h2, h3⟩ := (Edge.intoHashmap_maps σ base).symm_remove h
  refine ⟨ht, th, h1, h2, fun x y => ?_, fun x y => ?_⟩
  · rw [h3.1.holds]; simp
  · rw [h3.2.holds y x]; simp

example : Edge.intoHashmap Sched.first [(⟨0, 1⟩ : Edge Nat), ⟨0, 2⟩, ⟨2, 1⟩] =
    ([(2, [1]), (0, [2, 1])], [(2, [0]), (1, [2, 0])]) := by decide

/-- Every order of the elements of a hash container is the order decided by some scheduler: quantifying over
all schedulers quantifies over all iteration orders, and over nothing else. -/
theorem all_orders {α : Type*} (l l' : List α) : l'.Perm l ↔ ∃ σ, shuffle σ l = l' :=
  ⟨exists_order, by rintro ⟨σ, rfl⟩; exact shuffle_perm σ l⟩

end maps

variable {K : Type*} [Field K] [LinearOrder K] [IsStrictOrderedRing K]

/-- C46: concatenating edges with the two maps of the code behaves, for every iteration order of the maps, as
concatenating them on one set does for some order. -/
theorem C46_refines (eps : K) (fuel : Nat) (σ : Sched) (edges : List (Edge (Vertex K))) :
    ∃ τ, Edge.arrangeMaps eps fuel σ edges = Edge.arrange eps fuel τ edges :=
  Edge.arrangeMapsLoop_refines fuel _ none _ _ edges [] (Edge.intoHashmap_maps _ edges)

/-- C46: with the two maps of the code, concatenating colinear edges always returns; none of its `unwrap`
fails. The given edges are distributed, each one exactly once, over paths that lead from the first to the
second vertex of a returned edge. -/
theorem C46_maps (eps : K) (σ : Sched) {edges : List (Edge (Vertex K))} (hn : edges.Nodup) (fuel : Nat)
    (hf : 2 * edges.length ≤ fuel) :
    ∃ out, Edge.arrangeMaps eps fuel σ edges = .ok out ∧
      ∃ ps : List (Edge (Vertex K) × List (Edge (Vertex K))),
        (∀ x ∈ ps, x.2 ≠ [] ∧ Path x.1.v1 x.2 x.1.v2 ∧
          (eps = 0 → x.2 = [x.1] ∨ ∀ f ∈ x.2, SameWay x.1 f)) ∧
        (∀ e, e ∈ out ↔ ∃ q, (e, q) ∈ ps) ∧ (ps.flatMap (·.2)).Perm edges := by
  obtain ⟨τ, hτ⟩ := C46_refines eps fuel σ edges
  obtain ⟨out, h⟩ := C46_terminates eps τ hn fuel hf
  exact ⟨out, hτ.trans h, C46_partition hn h⟩

/-- C46: with the two maps of the code and exact arithmetic, the returned edges cover the same points as the
given ones, and no two of them could be concatenated further. -/
theorem C46_maps_exact {σ : Sched} {edges out : List (Edge (Vertex K))} (hn : edges.Nodup) {fuel : Nat}
    (h : Edge.arrangeMaps 0 fuel σ edges = .ok out) :
    (∀ x, (∃ e ∈ edges, OnSegment e.v1 e.v2 x) ↔ ∃ e ∈ out, OnSegment e.v1 e.v2 x) ∧
      ∀ e ∈ out, ∀ f ∈ out, ¬ GoesOn e f := by
  obtain ⟨τ, hτ⟩ := C46_refines 0 fuel σ edges
  rw [hτ] at h
  exact ⟨C46_points hn h, C46_maximal hn h⟩

/-- Two colinear pieces and a corner. -/
example :
    let e (a b c d : ℚ) : Edge (Vertex ℚ) := ⟨⟨a, b, false⟩, ⟨c, d, false⟩⟩
    Edge.arrangeMaps 0 9 Sched.first [e 1 0 2 0, e 0 0 1 0, e 2 0 2 5, e 2 5 2 7] =
      .ok [e 0 0 2 0, e 2 0 2 7] := by decide +kernel

end Verif.Props
