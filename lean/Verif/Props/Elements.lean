import Verif.Lemmas.Sets
import Verif.Lemmas.Geometry
import Verif.Model.Polyline
import Mathlib.Tactic.NormNum

/-!
# C34 (sort), C35 (equality, hashing, ordering), C41 (edges and polylines)
-/

set_option linter.unusedSectionVars false

namespace Verif.Props

open Spec

variable {K : Type*} [Field K] [LinearOrder K]

/-! ## C34 -/

/-- Lexicographic order on coordinates. -/
def LexLe (a b : Vertex K) : Prop := a.x < b.x ∨ (a.x = b.x ∧ a.y ≤ b.y)

/-- C34 fails: `sort` can return a list that is not in lexicographic order. -/
theorem C34_not_sorting : ∃ l : List (Vertex ℚ), ¬ (Vertex.sort l).Pairwise LexLe := by
  refine ⟨[⟨2, 0, false⟩, ⟨1, 5, false⟩], ?_⟩
  have : Vertex.sort [(⟨2, 0, false⟩ : Vertex ℚ), ⟨1, 5, false⟩] =
      [⟨2, 0, false⟩, ⟨1, 5, false⟩] := by
    have h : Vertex.sortLe (⟨2, 0, false⟩ : Vertex ℚ) ⟨1, 5, false⟩ = true := by
      norm_num [Vertex.sortLe]
    simp [Vertex.sort, List.mergeSort, List.MergeSort.Internal.splitInTwo, h]
  rw [this]
  simp only [List.pairwise_cons, List.mem_singleton, forall_eq, LexLe]
  norm_num

/-- C34, part that holds: `sort` returns the same vertices, and when all have the same abscissa they come out by
increasing ordinate. Missing: lexicographic order in general, which is false (`C34_not_sorting`). -/
theorem C34_sort_partial (l : List (Vertex K)) :
    (Vertex.sort l).Perm l ∧
      ((∀ a ∈ l, ∀ b ∈ l, a.x = b.x) → (Vertex.sort l).Pairwise LexLe) := by
  refine ⟨List.mergeSort_perm _ _, fun hx => ?_⟩
  have hmap : (Vertex.sort l).map (fun v => v.y) =
      (l.map fun v => v.y).mergeSort (fun a b => decide (a ≤ b)) := by
    rw [Vertex.sort]
    refine List.map_mergeSort ?_
    intro a ha b hb
    simp [Vertex.sortLe, hx a ha b hb]
  have hsorted : ((Vertex.sort l).map fun v => v.y).Pairwise (· ≤ ·) := by
    rw [hmap]
    have := List.pairwise_mergeSort (le := fun a b : K => decide (a ≤ b))
      (by intro a b c h1 h2; simp only [decide_eq_true_eq] at *; exact h1.trans h2)
      (by intro a b; simp only [Bool.or_eq_true, decide_eq_true_eq]; exact le_total a b)
      (l.map fun v => v.y)
    simpa using this
  rw [List.pairwise_map] at hsorted
  refine hsorted.imp_of_mem ?_
  intro a b ha hb hab
  exact Or.inr ⟨hx a ((List.mergeSort_perm _ _).mem_iff.1 ha) b
    ((List.mergeSort_perm _ _).mem_iff.1 hb), hab⟩

example : ∃ a b : Vertex ℚ, a ≠ b ∧ ∀ c ∈ [a, b], ∀ d ∈ [a, b], c.x = d.x :=
  ⟨⟨1, 5, false⟩, ⟨1, 2, false⟩, by simp, by simp⟩

/-! ## C35 -/

/-- C35 fails: with a positive tolerance equality of vertices is not transitive. -/
theorem C35_not_transitive {eps : ℚ} (h : 0 < eps) :
    ∃ a b c : Vertex ℚ, a.eqv eps b = true ∧ b.eqv eps c = true ∧ a.eqv eps c = false := by
  refine ⟨⟨0, 0, false⟩, ⟨eps, 0, false⟩, ⟨2 * eps, 0, false⟩, ?_, ?_, ?_⟩
  · simp [Vertex.eqv, approxEq, abs_of_pos h, h.le]
  · have : eps - 2 * eps = -eps := by ring
    simp [Vertex.eqv, approxEq, this, abs_of_pos h, h.le]
  · have : |(0 : ℚ) - 2 * eps| = 2 * eps := by
      rw [zero_sub, abs_neg, abs_of_pos (by linarith)]
    simp only [Vertex.eqv, approxEq, this]
    have h2 : ¬ 2 * eps ≤ eps := by linarith
    simp [h2]

/-- C35 fails: equal vertices may hash differently, so a hash set can hold both. -/
theorem C35_hash_mismatch {eps : ℚ} (h : 0 < eps) :
    ∃ a b : Vertex ℚ, a.eqv eps b = true ∧ a.hashKey ≠ b.hashKey ∧ (toSet [a, b]).length = 2 := by
  have hne : eps ≠ 0 := h.ne'
  refine ⟨⟨0, 0, false⟩, ⟨eps, 0, false⟩, ?_, ?_, ?_⟩
  · simp [Vertex.eqv, approxEq, abs_of_pos h, h.le]
  · simp [Vertex.hashKey, hne.symm]
  · simp [toSet, setInsert, hne]

/-- C35 fails: equal triangles (same triangle, rotated) are different keys of a hash set. -/
theorem C35_triangle_mismatch (eps : ℚ) (h : 0 ≤ eps) :
    ∃ s t : Tri (Vertex ℚ), s.eqv (Vertex.eqv eps) t = true ∧ (toSet [s, t]).length = 2 := by
  refine ⟨⟨⟨0, 0, false⟩, ⟨1, 0, false⟩, ⟨0, 1, false⟩⟩, ⟨⟨1, 0, false⟩, ⟨0, 1, false⟩, ⟨0, 0, false⟩⟩, ?_, ?_⟩
  · simp [Tri.eqv, Vertex.eqv, approxEq, h]
  · simp [toSet, setInsert]

/-- C35 fails: the order calls two vertices equal only if the coordinates are identical, so `a == b` and
`a.cmp(b) == Less` can hold together. -/
theorem C35_order_mismatch {eps : ℚ} (h : 0 < eps) :
    ∃ a b : Vertex ℚ, a.eqv eps b = true ∧ a.cmp b = .lt := by
  refine ⟨⟨0, 0, false⟩, ⟨eps, 0, false⟩, ?_, ?_⟩
  · simp [Vertex.eqv, approxEq, abs_of_pos h, h.le]
  · simp [Vertex.cmp, h, h.not_gt]

/-- C35, part that holds: equality of vertices is reflexive and symmetric for every tolerance; with zero
tolerance, on vertices whose ghosts are the canonical one, it is the equality of the hashed data (hence an
equivalence that agrees with hashing) and agrees with the order. Missing: the same with the positive
tolerance of the code, and for triangles, which is false. -/
theorem C35_equality_partial [IsStrictOrderedRing K] {eps : K} (h : 0 ≤ eps) (a b : Vertex K)
    (ha : a.isGhost = true → a = Vertex.ghost) (hb : b.isGhost = true → b = Vertex.ghost) :
    a.eqv eps a = true ∧ a.eqv eps b = b.eqv eps a ∧
      (a.eqv 0 b = true ↔ a.hashKey = b.hashKey) ∧
      (a.isGhost = b.isGhost → (a.eqv 0 b = true ↔ a.cmp b = .eq)) := by
  have habs : ∀ u v : K, approxEq eps u v = approxEq eps v u := by
    intro u v; simp [approxEq, abs_sub_comm]
  have hz : ∀ u v : K, approxEq 0 u v = true ↔ u = v := fun u v => by
    rw [approxEq_zero_eps]
  have hself : ∀ u : K, approxEq eps u u = true := by
    intro u; rw [approxEq, sub_self]; simp [h]
  have key : a.eqv 0 b = true ↔ a.hashKey = b.hashKey := by
    obtain ⟨ax, ay, ag⟩ := a
    obtain ⟨bx, bY, bg⟩ := b
    cases ag <;> cases bg
    · simp [Vertex.eqv, Vertex.hashKey, hz]
    · simp [Vertex.eqv, Vertex.hashKey]
    · simp [Vertex.eqv, Vertex.hashKey]
    · have h1 := ha rfl
      have h2 := hb rfl
      rw [h1, h2]; simp [Vertex.eqv, Vertex.ghost]
  refine ⟨?_, ?_, key, ?_⟩
  · cases hg : a.isGhost <;> simp [Vertex.eqv, hg, hself]
  · simp only [Vertex.eqv, habs a.x, habs a.y, Bool.and_comm a.isGhost, Bool.beq_comm (a := a.isGhost)]
  · intro hg
    rw [key]
    cases hg' : a.isGhost
    · rw [hg'] at hg
      simp only [Vertex.hashKey, Vertex.cmp, hg', ← hg, Bool.and_self, Bool.false_eq_true, if_false,
        Prod.mk.injEq, and_true]
      split_ifs with h1 h2 h3 h4
      · simp [ne_of_gt h1]
      · simp [ne_of_lt h2]
      · simp [ne_of_gt h3]
      · simp [ne_of_lt h4]
      · simp [le_antisymm (not_lt.1 h1) (not_lt.1 h2), le_antisymm (not_lt.1 h3) (not_lt.1 h4)]
    · rw [hg'] at hg
      rw [ha hg', hb hg.symm]
      simp [Vertex.cmp, Vertex.ghost]

example : (⟨1, 2, false⟩ : Vertex ℚ).isGhost = true → (⟨1, 2, false⟩ : Vertex ℚ) = Vertex.ghost := by
  simp

/-! ## C41 -/

section pairs

variable {V : Type*}

theorem consecutivePairs_length (l : List V) : (consecutivePairs l).length = l.length - 1 := by
  induction l with
  | nil => rfl
  | cons a l ih =>
    cases l with
    | nil => rfl
    | cons b l => simp only [consecutivePairs, List.length_cons] at ih ⊢; omega

theorem consecutivePairs_getElem (l : List V) (i : Nat) (h : i + 1 < l.length) :
    (consecutivePairs l)[i]? = some (l[i], l[i + 1]) := by
  induction l generalizing i with
  | nil => simp at h
  | cons a l ih =>
    cases l with
    | nil => simp at h
    | cons b l =>
      cases i with
      | zero => rfl
      | succ i =>
        simp only [consecutivePairs, List.getElem?_cons_succ]
        exact ih i (by simpa using h)

/-- C41: a closed polyline of `n` vertices has `n` edges, the `i`-th joining vertices `i` and
`i + 1 mod n`. -/
theorem C41_closed (p : Polyline V) (h : p.opened = false) (hpos : 0 < p.vertices.length) :
    p.intoEdges.length = p.vertices.length ∧
      ∀ i (hi : i < p.vertices.length),
        p.intoEdges[i]? = some ⟨p.vertices[i],
          p.vertices[(i + 1) % p.vertices.length]'(Nat.mod_lt _ hpos)⟩ := by
  have hlast : p.vertices.getLast? = some (p.vertices[p.vertices.length - 1]'(by omega)) := by
    rw [List.getLast?_eq_getElem?, List.getElem?_eq_getElem (by omega)]
  have hhead : p.vertices.head? = some (p.vertices[0]'hpos) := by
    rw [List.head?_eq_getElem?, List.getElem?_eq_getElem hpos]
  have hp : pairs p.vertices p.opened = consecutivePairs p.vertices ++
      [(p.vertices[p.vertices.length - 1]'(by omega), p.vertices[0]'hpos)] := by
    rw [pairs, h, hlast, hhead]; rfl
  constructor
  · rw [Polyline.intoEdges, hp]
    simp only [List.map_append, List.map_cons, List.map_nil, List.length_append, List.length_map,
      consecutivePairs_length, List.length_cons, List.length_nil]
    omega
  · intro i hi
    rw [Polyline.intoEdges, hp, List.getElem?_map]
    by_cases hlt : i + 1 < p.vertices.length
    · rw [List.getElem?_append_left (by rw [consecutivePairs_length]; omega),
        consecutivePairs_getElem _ _ hlt]
      simp [Nat.mod_eq_of_lt hlt]
    · have hi' : i = p.vertices.length - 1 := by omega
      subst hi'
      rw [List.getElem?_append_right (by rw [consecutivePairs_length])]
      have : (p.vertices.length - 1 + 1) % p.vertices.length = 0 := by
        rw [Nat.sub_add_cancel hpos, Nat.mod_self]
      simp [consecutivePairs_length, this]

/-- C41: an opened polyline of `n` vertices has `n - 1` edges joining consecutive vertices. -/
theorem C41_opened (p : Polyline V) (h : p.opened = true) :
    p.intoEdges.length = p.vertices.length - 1 ∧
      ∀ i (hi : i + 1 < p.vertices.length),
        p.intoEdges[i]? = some ⟨p.vertices[i], p.vertices[i + 1]⟩ := by
  have hp : pairs p.vertices p.opened = consecutivePairs p.vertices := by
    rw [pairs, h]; simp
  constructor
  · rw [Polyline.intoEdges, hp, List.length_map, consecutivePairs_length]
  · intro i hi
    rw [Polyline.intoEdges, hp, List.getElem?_map, consecutivePairs_getElem _ _ hi]; rfl

/-- C41: a closed polyline needs three vertices, an opened one two; the vertices are kept. -/
theorem C41_constructors (l : List V) :
    (Polyline.newClosed l = none ↔ l.length < 3) ∧ (Polyline.newOpened l = none ↔ l.length < 2) ∧
      (∀ p, Polyline.newClosed l = some p → p.vertices = l ∧ p.opened = false) ∧
      (∀ p, Polyline.newOpened l = some p → p.vertices = l ∧ p.opened = true) := by
  refine ⟨?_, ?_, ?_, ?_⟩
  · unfold Polyline.newClosed; split_ifs with h <;> simp <;> omega
  · unfold Polyline.newOpened; split_ifs with h <;> simp <;> omega
  · intro p h
    unfold Polyline.newClosed at h; split_ifs at h
    cases h; exact ⟨rfl, rfl⟩
  · intro p h
    unfold Polyline.newOpened at h; split_ifs at h
    cases h; exact ⟨rfl, rfl⟩

/-- C41: head and tail are the ends of an opened polyline, and absent from a closed one. -/
theorem C41_ends (p : Polyline V) :
    (p.opened = false → p.head = none ∧ p.tail = none) ∧
      (p.opened = true → p.head = p.vertices[0]? ∧
        p.tail = p.vertices[p.vertices.length - 1]?) := by
  constructor
  · intro h; simp [Polyline.head, Polyline.tail, h]
  · intro h
    simp [Polyline.head, Polyline.tail, h, List.head?_eq_getElem?, List.getLast?_eq_getElem?]

/-- C41: conversions between edges and pairs are inverse to each other. -/
theorem C41_round_trip (es : List (Edge V)) (ps : List (V × V)) :
    Edge.fromVertexPairs (Edge.intoVertexPairs es) = es ∧
      Edge.intoVertexPairs (Edge.fromVertexPairs ps) = ps := by
  constructor
  · rw [Edge.fromVertexPairs, Edge.intoVertexPairs, List.map_map]; exact List.map_id es
  · rw [Edge.fromVertexPairs, Edge.intoVertexPairs, List.map_map]; exact List.map_id ps

/-- C41: the edges of a list of vertices are those of the closed polyline. -/
theorem C41_from_vertices (l : List V) (h : l ≠ []) :
    Edge.fromVertices l = Edge.fromVertexPairs (pairs l false) := by
  cases l with
  | nil => exact absurd rfl h
  | cons v0 rest =>
    have gen : ∀ (l : List V) (a : V), Edge.fromVerticesAux v0 (a :: l) =
        (consecutivePairs (a :: l)).map (fun p => (⟨p.1, p.2⟩ : Edge V)) ++
          [⟨(a :: l).getLast (by simp), v0⟩] := by
      intro l
      induction l with
      | nil => intro a; rfl
      | cons b l ih =>
        intro a
        rw [Edge.fromVerticesAux, ih b]
        simp [consecutivePairs]
    rw [Edge.fromVertices, gen, pairs, List.getLast?_eq_some_getLast (by simp)]
    simp [Edge.fromVertexPairs]

/-- C41: coordinates are read in pairs; an odd number panics. -/
theorem C41_from_coordinates (l : List K) :
    (l.length % 2 = 1 → Vertex.fromCoordinates l = .panic) ∧
      (l.length % 2 = 0 → ∃ vs, Vertex.fromCoordinates l = .ok vs ∧
        vs.flatMap (fun v => [v.x, v.y]) = l ∧ ∀ v ∈ vs, v.isGhost = false) := by
  induction l using Vertex.fromCoordinates.induct with
  | case1 => simp [Vertex.fromCoordinates]
  | case2 a => simp [Vertex.fromCoordinates]
  | case3 x y rest ih =>
    constructor
    · intro h
      rw [Vertex.fromCoordinates, ih.1 (by simp at h; omega)]; rfl
    · intro h
      obtain ⟨vs, h1, h2, h3⟩ := ih.2 (by simp at h; omega)
      refine ⟨Vertex.mk' x y :: vs, by rw [Vertex.fromCoordinates, h1]; rfl, ?_, ?_⟩
      · simp [Vertex.mk', h2]
      · intro v hv
        rcases List.mem_cons.1 hv with rfl | hv
        · rfl
        · exact h3 v hv

example : (⟨[1, 2, 3], false, by simp⟩ : Polyline Nat).intoEdges = [⟨1, 2⟩, ⟨2, 3⟩, ⟨3, 1⟩] := rfl
example : (⟨[1, 2, 3], true, by simp⟩ : Polyline Nat).intoEdges = [⟨1, 2⟩, ⟨2, 3⟩] := rfl

end pairs

end Verif.Props
