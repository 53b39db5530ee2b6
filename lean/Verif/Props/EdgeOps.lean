import Verif.Lemmas.EdgeOps
import Mathlib.Algebra.Order.Ring.Rat
import Mathlib.Algebra.Field.Rat

/-!
# Decomposing a segment into edges (C40) and concatenating colinear edges (C46)
-/

set_option linter.unusedSectionVars false

namespace Verif.Props

open Spec

variable {K : Type*} [Field K] [LinearOrder K] [IsStrictOrderedRing K]

theorem decomposeKeeps_sameWay {eps : K} {edge e : Edge (Vertex K)}
    (h : Edge.decomposeKeeps eps edge e = true) : SameWay e edge := by
  unfold Edge.decomposeKeeps at h
  simp only [Bool.and_eq_true, decide_eq_true_eq] at h
  exact ⟨(parallel_iff _ _ _ _).1 h.1.2, h.2⟩

/-- C40: decomposing a segment always ends, after at most one step per given edge. -/
theorem C40_terminates (eps : K) (σ : Sched) (base : List (Edge (Vertex K))) (edge : Edge (Vertex K))
    (fuel : Nat) (hf : base.length ≤ fuel) : ∃ r, Edge.decompose eps fuel σ base edge = .ok r := by
  unfold Edge.decompose
  refine decomposeLoop_total _ _ _ (heightAlong edge) ?_ _ _ _ ?_
  · intro e he
    obtain ⟨_, h⟩ := decomposeKeeps_sameWay (List.mem_filter.1 he).2
    unfold heightAlong
    linarith
  · refine (List.length_filter_le _ _).trans ((List.length_filter_le _ _).trans ?_)
    rwa [length_shuffle]

/-- C40: a returned list is a path of given edges, all of them parallel to the segment and pointing the
same way, from its first vertex to a vertex equal (up to the tolerance) to its second one. -/
theorem C40_chain {eps : K} {σ : Sched} {base : List (Edge (Vertex K))} {edge : Edge (Vertex K)}
    {fuel : Nat} {l : List (Edge (Vertex K))} (h : Edge.decompose eps fuel σ base edge = .ok (some l)) :
    ∃ w, Path edge.v1 l w ∧ Vertex.eqv eps w edge.v2 = true ∧ ∀ e ∈ l, e ∈ base ∧ SameWay e edge := by
  unfold Edge.decompose at h
  obtain ⟨w, h1, h2, h3⟩ := decomposeLoop_sound fuel edge.v1 [] l rfl (by simp) h
  refine ⟨w, h1, h2, fun e he => ?_⟩
  have := List.mem_filter.1 (h3 e he)
  exact ⟨mem_shuffle.1 this.1, decomposeKeeps_sameWay this.2⟩

/-- C40: with exact arithmetic, the returned edges cover the segment exactly. -/
theorem C40_points {σ : Sched} {base : List (Edge (Vertex K))} {edge : Edge (Vertex K)} {fuel : Nat}
    {l : List (Edge (Vertex K))} (hs : ¬ SamePoint edge.v1 edge.v2)
    (hg : ∀ e ∈ edge :: base, e.v1.isGhost = false ∧ e.v2.isGhost = false)
    (h : Edge.decompose 0 fuel σ base edge = .ok (some l)) (x : Vertex K) :
    OnSegment edge.v1 edge.v2 x ↔ ∃ e ∈ l, OnSegment e.v1 e.v2 x := by
  obtain ⟨w, h1, h2, h3⟩ := C40_chain h
  have hend : ∀ (l : List (Edge (Vertex K))) (a : Vertex K), a.isGhost = false → Path a l w →
      (∀ e ∈ l, e.v2.isGhost = false) → w.isGhost = false := by
    intro l
    induction l with
    | nil => intro a ha hp _; simp only [Path] at hp; rwa [← hp]
    | cons e l ih =>
      intro a _ hp hm
      exact ih e.v2 (hm e (by simp)) hp.2 fun f hf => hm f (by simp [hf])
  have hw := hend l edge.v1 (hg edge (by simp)).1 h1 fun e he => (hg e (by simp [(h3 e he).1])).2
  have hsame : SamePoint w edge.v2 := (eqv_zero hw (hg edge (by simp)).2).1 h2
  have hne : l ≠ [] := by
    rintro rfl
    simp only [Path] at h1
    rw [← h1] at hsame
    exact hs hsame
  have hp := (straight_path l edge.v1 w h1 (fun e he => (h3 e he).2) hne).2 x
  rw [← hp]
  exact onSegment_congr ⟨rfl, rfl⟩ hsame.symm ⟨rfl, rfl⟩

/-- C40: if no two candidate edges share their first vertex and some path of them leads from one end of
the segment to the other, a decomposition is found. -/
theorem C40_complete {eps : K} (he : 0 ≤ eps) {σ : Sched} {base p : List (Edge (Vertex K))}
    {edge : Edge (Vertex K)} {fuel : Nat} (hf : base.length ≤ fuel)
    (huniq : ∀ e ∈ base, ∀ f ∈ base, SameWay e edge → SameWay f edge → e.v1 = f.v1 → e = f)
    (hp : Path edge.v1 p edge.v2)
    (hm : ∀ e ∈ p, e ∈ base ∧ SameWay e edge ∧ (intersection eps e.v1 e.v2 edge.v1 edge.v2).isSome) :
    ∃ l, Edge.decompose eps fuel σ base edge = .ok (some l) := by
  obtain ⟨r, hr⟩ := C40_terminates eps σ base edge fuel hf
  cases r with
  | some l => exact ⟨l, hr⟩
  | none =>
    exfalso
    unfold Edge.decompose at hr
    refine decomposeLoop_complete ?_ ?_ fuel edge.v1 [] p hp ?_ hr
    · simp [Vertex.eqv, approxEq, he]
    · intro e h1 f h2 h3
      have e1 := List.mem_filter.1 h1
      have e2 := List.mem_filter.1 h2
      exact huniq e (mem_shuffle.1 e1.1) f (mem_shuffle.1 e2.1) (decomposeKeeps_sameWay e1.2)
        (decomposeKeeps_sameWay e2.2) h3
    · intro e h1
      obtain ⟨h1, ⟨h2, h3⟩, h4⟩ := hm e h1
      refine List.mem_filter.2 ⟨mem_shuffle.2 h1, ?_⟩
      unfold Edge.decomposeKeeps
      simp only [Bool.and_eq_true, decide_eq_true_eq]
      exact ⟨⟨h4, (parallel_iff _ _ _ _).2 h2⟩, h3⟩

/-- The side from (0,0) to (3,0), given in three pieces among other edges, is found. -/
example :
    let e (a b : ℚ) : Edge (Vertex ℚ) := ⟨⟨a, 0, false⟩, ⟨b, 0, false⟩⟩
    Edge.decompose 0 9 Sched.first [e 2 3, e 0 1, ⟨⟨1, 0, false⟩, ⟨1, 5, false⟩⟩, e 1 0, e 1 2, e 5 6]
      (e 0 3) = .ok (some [e 0 1, e 1 2, e 2 3]) := by decide +kernel

/-- C46: concatenating colinear edges always ends. -/
theorem C46_terminates (eps : K) (σ : Sched) {edges : List (Edge (Vertex K))} (hn : edges.Nodup)
    (fuel : Nat) (hf : 2 * edges.length ≤ fuel) : ∃ out, Edge.arrange eps fuel σ edges = .ok out :=
  arrangeLoop_total fuel σ none edges [] hn (by simpa using hf)

/-- C46: the given edges are distributed, each one exactly once, over paths that lead from the first to the
second vertex of a returned edge; with exact arithmetic all the edges of a path point the same way. -/
theorem C46_partition {eps : K} {σ : Sched} {edges out : List (Edge (Vertex K))} (hn : edges.Nodup)
    {fuel : Nat} (h : Edge.arrange eps fuel σ edges = .ok out) :
    ∃ ps : List (Edge (Vertex K) × List (Edge (Vertex K))),
      (∀ x ∈ ps, x.2 ≠ [] ∧ Path x.1.v1 x.2 x.1.v2 ∧
        (eps = 0 → x.2 = [x.1] ∨ ∀ f ∈ x.2, SameWay x.1 f)) ∧
      (∀ e, e ∈ out ↔ ∃ q, (e, q) ∈ ps) ∧ (ps.flatMap (·.2)).Perm edges := by
  obtain ⟨ps, h1, h2, h3⟩ := arrangeLoop_spec fuel σ none edges [] out [] hn (by simp) (by simp) h
  exact ⟨ps, h1, by simpa using h2, by simpa using h3⟩

/-- C46: with exact arithmetic the returned edges cover the same points as the given ones. -/
theorem C46_points {σ : Sched} {edges out : List (Edge (Vertex K))} (hn : edges.Nodup) {fuel : Nat}
    (h : Edge.arrange 0 fuel σ edges = .ok out) (x : Vertex K) :
    (∃ e ∈ edges, OnSegment e.v1 e.v2 x) ↔ ∃ e ∈ out, OnSegment e.v1 e.v2 x := by
  obtain ⟨ps, h1, h2, h3⟩ := C46_partition hn h
  have key : ∀ y ∈ ps, OnSegment y.1.v1 y.1.v2 x ↔ ∃ e ∈ y.2, OnSegment e.v1 e.v2 x := by
    intro y hy
    obtain ⟨k1, k2, k3⟩ := h1 y hy
    rcases k3 rfl with k3 | k3
    · rw [k3]; simp
    · exact (straight_path (d := y.1) y.2 y.1.v1 y.1.v2 k2 (fun e he => sameWay_symm (k3 e he)) k1).2 x
  constructor
  · rintro ⟨e, he, hx⟩
    rw [← h3.mem_iff, List.mem_flatMap] at he
    obtain ⟨y, hy, he⟩ := he
    exact ⟨y.1, (h2 _).2 ⟨y.2, hy⟩, (key y hy).2 ⟨e, he, hx⟩⟩
  · rintro ⟨e, he, hx⟩
    obtain ⟨q, hq⟩ := (h2 e).1 he
    obtain ⟨f, hf, hx⟩ := (key _ hq).1 hx
    exact ⟨f, h3.mem_iff.1 (List.mem_flatMap.2 ⟨_, hq, hf⟩), hx⟩

/-- C46: with exact arithmetic no two returned edges could be concatenated further. -/
theorem C46_maximal {σ : Sched} {edges out : List (Edge (Vertex K))} (hn : edges.Nodup) {fuel : Nat}
    (h : Edge.arrange 0 fuel σ edges = .ok out) : ∀ e ∈ out, ∀ f ∈ out, ¬ GoesOn e f := fun e he f hf hg =>
  arrangeLoop_maximal fuel σ none edges [] out [] hn (by simp) (by simp) (by simp) (by simp) h e he f hf
    (.inl hg)

/-- Two colinear pieces and a corner. -/
example :
    let e (a b c d : ℚ) : Edge (Vertex ℚ) := ⟨⟨a, b, false⟩, ⟨c, d, false⟩⟩
    Edge.arrange 0 9 Sched.first [e 1 0 2 0, e 0 0 1 0, e 2 0 2 5, e 2 5 2 7] =
      .ok [e 2 0 2 7, e 0 0 2 0] := by decide +kernel

end Verif.Props
