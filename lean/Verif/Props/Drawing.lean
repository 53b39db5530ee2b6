import Verif.Props.Hull
import Verif.Model.Drawing
import Mathlib.Tactic.Ring
import Mathlib.Data.Rat.Defs

/-!
# C75: what is handed to the renderer and printed

`r` is any conversion of coordinates (for instance the rounding to single precision).
-/

set_option linter.unusedSectionVars false

namespace Verif.Props

open Spec

section lists

variable {α β : Type*}

/-- Blocks of three in a flattened list. -/
theorem flatMap_three (f g h : α → β) (l : List α) :
    (l.flatMap fun a => [f a, g a, h a]).length = 3 * l.length ∧
      ∀ i, (l.flatMap fun a => [f a, g a, h a])[3 * i]? = l[i]?.map f ∧
        (l.flatMap fun a => [f a, g a, h a])[3 * i + 1]? = l[i]?.map g ∧
        (l.flatMap fun a => [f a, g a, h a])[3 * i + 2]? = l[i]?.map h := by
  induction l with
  | nil => simp
  | cons a l ih =>
    refine ⟨by simp only [List.flatMap_cons, List.length_append, ih.1, List.length_cons, List.length_nil]; ring, ?_⟩
    intro i
    cases i with
    | zero => simp
    | succ i =>
      have h1 : 3 * (i + 1) = 3 * i + 3 := by ring
      have h2 := ih.2 i
      simp only [List.flatMap_cons, h1, List.cons_append, List.nil_append, List.getElem?_cons_succ]
      exact ⟨h2.1, h2.2.1, h2.2.2⟩

/-- Blocks of two in a flattened list. -/
theorem flatMap_two (f g : α → β) (l : List α) :
    (l.flatMap fun a => [f a, g a]).length = 2 * l.length ∧
      ∀ i, (l.flatMap fun a => [f a, g a])[2 * i]? = l[i]?.map f ∧
        (l.flatMap fun a => [f a, g a])[2 * i + 1]? = l[i]?.map g := by
  induction l with
  | nil => simp
  | cons a l ih =>
    refine ⟨by simp only [List.flatMap_cons, List.length_append, ih.1, List.length_cons, List.length_nil]; ring, ?_⟩
    intro i
    cases i with
    | zero => simp
    | succ i =>
      have h1 : 2 * (i + 1) = 2 * i + 2 := by ring
      have h2 := ih.2 i
      simp only [List.flatMap_cons, h1, List.cons_append, List.nil_append, List.getElem?_cons_succ]
      exact ⟨h2.1, h2.2⟩

end lists

variable {K F : Type*} [DecidableEq K]

/-- C75: the positions sent for filled triangles are, three by three, the corners of the solid triangles of
the mesh: there is an order of the solid triangles, each one listed once, such that the positions number
`3 i`, `3 i + 1` and `3 i + 2` are those of the three corners of triangle number `i`. -/
theorem C75_triangles (r : K → F) (ghost : Vertex K → Bool) (σ : Sched) (m : Mesh (Vertex K)) :
    ∃ ts : List (Tri (Vertex K)), ts.Perm (m.tris.filter fun t => !t.isGhost ghost) ∧
      (trianglePositions r ghost σ m).length = 3 * ts.length ∧
      ∀ i (hi : i < ts.length),
        (trianglePositions r ghost σ m)[3 * i]? = some (r ts[i].v1.x, r ts[i].v1.y) ∧
        (trianglePositions r ghost σ m)[3 * i + 1]? = some (r ts[i].v2.x, r ts[i].v2.y) ∧
        (trianglePositions r ghost σ m)[3 * i + 2]? = some (r ts[i].v3.x, r ts[i].v3.y) := by
  refine ⟨(shuffle σ m.tris).filter fun t => !t.isGhost ghost, (shuffle_perm σ m.tris).filter _, ?_, ?_⟩
  · rw [trianglePositions, List.length_map]
    exact (flatMap_three Tri.v1 Tri.v2 Tri.v3 _).1
  · intro i hi
    have h := (flatMap_three Tri.v1 Tri.v2 Tri.v3 ((shuffle σ m.tris).filter fun t => !t.isGhost ghost)).2 i
    rw [List.getElem?_eq_getElem hi] at h
    simp only [trianglePositions, List.getElem?_map, h, Option.map_some, position]
    exact ⟨trivial, trivial, trivial⟩

/-- C75: the positions sent for lines are, two by two, the ends of edges of solid triangles; every edge of a
solid triangle is sent once, in one of its two directions. -/
theorem C75_edges (r : K → F) (ghost : Vertex K → Bool) (σ : Sched) (m : Mesh (Vertex K)) :
    ∃ es : List (Edge (Vertex K)), es.Nodup ∧
      (∀ e ∈ es, ∃ t ∈ m.tris, t.isGhost ghost = false ∧ IsSide t e) ∧
      (∀ t ∈ m.tris, t.isGhost ghost = false → ∀ a b, a ≠ b → IsSide t ⟨a, b⟩ →
        ((⟨a, b⟩ ∈ es ∧ ⟨b, a⟩ ∉ es) ∨ (⟨b, a⟩ ∈ es ∧ ⟨a, b⟩ ∉ es))) ∧
      (edgePositions r ghost σ m).length = 2 * es.length ∧
      ∀ i (hi : i < es.length),
        (edgePositions r ghost σ m)[2 * i]? = some (r es[i].v1.x, r es[i].v1.y) ∧
        (edgePositions r ghost σ m)[2 * i + 1]? = some (r es[i].v2.x, r es[i].v2.y) := by
  obtain ⟨k1, k2, k3⟩ := C37_drawn_once ghost (σ.sub 0) m
  refine ⟨shuffle (σ.sub 1) (drawnEdges ghost (σ.sub 0) m), nodup_shuffle.2 k1,
    fun e he => k2 e (mem_shuffle.1 he), ?_, ?_, ?_⟩
  · intro t ht hg a b hab hs
    simpa only [mem_shuffle] using k3 t ht hg a b hab hs
  · rw [edgePositions, List.length_map]
    exact (flatMap_two Edge.v1 Edge.v2 _).1
  · intro i hi
    have h := (flatMap_two Edge.v1 Edge.v2 (shuffle (σ.sub 1) (drawnEdges ghost (σ.sub 0) m))).2 i
    rw [List.getElem?_eq_getElem hi] at h
    simp only [edgePositions, List.getElem?_map, h, Option.map_some, position]
    exact ⟨trivial, trivial⟩

/-- C75: reading positions from a list of coordinates panics exactly when their number is odd; otherwise
position number `i` is made of the coordinates number `2 i` and `2 i + 1`. -/
theorem C75_coordinates {F : Type*} : ∀ l : List F,
    (fromCoordinates l = .panic ↔ l.length % 2 = 1) ∧
      (l.length % 2 = 0 → ∃ ps, fromCoordinates l = .ok ps ∧ 2 * ps.length = l.length ∧
        ∀ i x y, ps[i]? = some (x, y) ↔ l[2 * i]? = some x ∧ l[2 * i + 1]? = some y)
  | [] => by simp [fromCoordinates]
  | [a] => by simp [fromCoordinates]
  | a :: b :: l => by
    obtain ⟨h1, h2⟩ := C75_coordinates l
    have hl : (a :: b :: l).length % 2 = l.length % 2 := by simp only [List.length_cons]; omega
    rw [hl]
    rcases Nat.mod_two_eq_zero_or_one l.length with h0 | h0
    · obtain ⟨ps, h3, h4, h5⟩ := h2 h0
      refine ⟨by simp [fromCoordinates, h3, h0], fun _ => ⟨(a, b) :: ps, by simp [fromCoordinates, h3], ?_, ?_⟩⟩
      · simp only [List.length_cons]; omega
      · intro i x y
        cases i with
        | zero => simp
        | succ i =>
          have : 2 * (i + 1) = 2 * i + 2 := by ring
          simp only [this, List.getElem?_cons_succ]
          exact h5 i x y
    · have h3 := h1.2 h0
      exact ⟨by simp [fromCoordinates, h3, h0], fun h => by omega⟩

/-- C75: printing a `TriangulationData` prints, for every complete pair of coordinates, one point, and for
every complete triple of indices, one triangle, in order; values that are left over are not printed. -/
theorem C75_printed {C I : Type*} : (∀ l : List C, (printedPoints l).length = l.length / 2 ∧
      ∀ i x y, (printedPoints l)[i]? = some (x, y) ↔ l[2 * i]? = some x ∧ l[2 * i + 1]? = some y) ∧
    ∀ l : List I, (printedTriangles l).length = l.length / 3 ∧
      ∀ i a b c, (printedTriangles l)[i]? = some (a, b, c) ↔
        l[3 * i]? = some a ∧ l[3 * i + 1]? = some b ∧ l[3 * i + 2]? = some c := by
  have h1 : ∀ n, ∀ l : List C, l.length ≤ n → (printedPoints l).length = l.length / 2 ∧
      ∀ i x y, (printedPoints l)[i]? = some (x, y) ↔ l[2 * i]? = some x ∧ l[2 * i + 1]? = some y := by
    intro n
    induction n with
    | zero =>
      intro l hl
      obtain rfl := List.length_eq_zero_iff.1 (Nat.le_zero.1 hl)
      simp [printedPoints]
    | succ n ih =>
      intro l hl
      match l, hl with
      | [], _ => simp [printedPoints]
      | [a], _ => simp [printedPoints]
      | a :: b :: l, hl =>
        obtain ⟨k1, k2⟩ := ih l (by simp only [List.length_cons] at hl; omega)
        refine ⟨by simp only [printedPoints, List.length_cons, k1]; omega, ?_⟩
        intro i x y
        cases i with
        | zero => simp [printedPoints]
        | succ i =>
          have : 2 * (i + 1) = 2 * i + 2 := by ring
          simp only [printedPoints, this, List.getElem?_cons_succ]
          exact k2 i x y
  have h2 : ∀ n, ∀ l : List I, l.length ≤ n → (printedTriangles l).length = l.length / 3 ∧
      ∀ i a b c, (printedTriangles l)[i]? = some (a, b, c) ↔
        l[3 * i]? = some a ∧ l[3 * i + 1]? = some b ∧ l[3 * i + 2]? = some c := by
    intro n
    induction n with
    | zero =>
      intro l hl
      obtain rfl := List.length_eq_zero_iff.1 (Nat.le_zero.1 hl)
      simp [printedTriangles]
    | succ n ih =>
      intro l hl
      match l, hl with
      | [], _ => simp [printedTriangles]
      | [a], _ => simp [printedTriangles]
      | [a, b], _ => simp [printedTriangles]
      | a :: b :: c :: l, hl =>
        obtain ⟨k1, k2⟩ := ih l (by simp only [List.length_cons] at hl; omega)
        refine ⟨by simp only [printedTriangles, List.length_cons, k1]; omega, ?_⟩
        intro i x y z
        cases i with
        | zero => simp [printedTriangles]
        | succ i =>
          have : 3 * (i + 1) = 3 * i + 3 := by ring
          simp only [printedTriangles, this, List.getElem?_cons_succ]
          exact k2 i x y z
  exact ⟨fun l => h1 _ l le_rfl, fun l => h2 _ l le_rfl⟩

/-- Two solid triangles and a ghost triangle. -/
example :
    let v (a b : ℚ) : Vertex ℚ := ⟨a, b, false⟩
    let m : Mesh (Vertex ℚ) := ⟨[⟨v 0 0, v 1 0, v 0 1⟩, ⟨v 1 0, v 1 1, v 0 1⟩, ⟨v 1 0, v 0 0, ⟨0, 0, true⟩⟩], fun _ => none⟩
    trianglePositions id (fun v => v.isGhost) Sched.first m = [(0, 0), (1, 0), (0, 1), (1, 0), (1, 1), (0, 1)] ∧
      (edgePositions id (fun v => v.isGhost) Sched.first m).length = 10 := by decide +kernel

example : fromCoordinates [1, 2, 3, 4] = .ok [(1, 2), (3, 4)] ∧ fromCoordinates [1, 2, 3] = (.panic : Res (List (Nat × Nat))) := by
  decide

example : printedPoints [1, 2, 3, 4, 5] = [(1, 2), (3, 4)] ∧ printedTriangles [0, 1, 2, 2, 1] = [(0, 1, 2)] := by decide

end Verif.Props
