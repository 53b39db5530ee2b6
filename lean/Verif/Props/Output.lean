import Verif.Lemmas.Mesh
import Verif.Model.Cli

/-!
# C31: the written output
-/

set_option linter.unusedSectionVars false

namespace Verif.Props

open Spec

variable {V : Type*} [DecidableEq V]

/-- The corners obtained by looking three indices up in the coordinate list. -/
def lookup (out : Output V) (i : Nat × Nat × Nat) : Option (V × V × V) :=
  match out.coordinates[i.1]?, out.coordinates[i.2.1]?, out.coordinates[i.2.2]? with
  | some a, some b, some c => some (a, b, c)
  | _, _, _ => none

/-- The output with its coordinates in another order. -/
def reorder (out : Output V) (l : List V) : Output V := { out with coordinates := l }

/-- C31 fails: for some hashing order and some mesh, the three indices written for a triangle denote corners
of no triangle of the mesh. -/
theorem C31_wrong_indices :
    ∃ (σ : Sched) (m : Mesh Nat) (out : Output Nat) (i : Nat × Nat × Nat) (a b c : Nat),
      fromTriangulator (fun v => v == 9) σ m = .ok out ∧ i ∈ out.triangles ∧
        lookup out i = some (a, b, c) ∧
        ∀ t ∈ m.tris, ¬ (IsCorner t a ∧ IsCorner t b ∧ IsCorner t c) := by
  refine ⟨fun p => if p.head? = some 1 then 1 else 0,
    ⟨[⟨0, 1, 2⟩, ⟨2, 1, 3⟩], fun _ => none⟩, ⟨[2, 1, 0, 3], [(3, 2, 1), (1, 2, 0)]⟩, (3, 2, 1), 3, 0, 1,
    rfl, by simp, rfl, ?_⟩
  simp [IsCorner]

theorem indexOf?_some {vec : List V} {v : V} {i : Nat} (h : indexOf? vec v = some i) :
    vec[i]? = some v := by
  rw [indexOf?, List.findIdx?_eq_some_iff_getElem] at h
  obtain ⟨hi, h1, -⟩ := h
  rw [List.getElem?_eq_getElem hi]
  simpa using h1

theorem indexOf?_isSome {vec : List V} {v : V} (h : v ∈ vec) : ∃ i, indexOf? vec v = some i := by
  cases hi : indexOf? vec v with
  | some i => exact ⟨i, rfl⟩
  | none =>
    rw [indexOf?, List.findIdx?_eq_none_iff] at hi
    have := hi v h
    simp at this

theorem mem_vertices {ghost : V → Bool} {m : Mesh V} {v : V} :
    v ∈ m.vertices ghost ↔ (∃ t ∈ m.tris, IsCorner t v) ∧ ghost v = false := by
  simp [Mesh.vertices, mem_corners]

/-- C31, part that holds: writing never panics; the coordinates are the vertices of the mesh, each once; there is
one index triple per solid triangle, in some order `order` of the triangles; all indices are in range; each triple denotes
the corners of its triangle if the coordinates are put into a certain order; and if the map happens to be iterated in that
order (the order of the vertex list), the coordinates are in this order already. Missing: that they always are, which is
false. -/
theorem C31_output_partial (ghost : V → Bool) (σ : Sched) (m : Mesh V) :
    ∃ (out : Output V) (order : List (Tri V)), fromTriangulator ghost σ m = .ok out ∧
      out.coordinates.Nodup ∧
      (∀ v, v ∈ out.coordinates ↔ (∃ t ∈ m.tris, IsCorner t v) ∧ ghost v = false) ∧
      order.Perm (m.tris.filter fun t => !t.isGhost ghost) ∧
      out.triangles.length = order.length ∧
      (∀ i ∈ out.triangles, (lookup out i).isSome = true) ∧
      (∃ l, l.Perm out.coordinates ∧
        out.triangles.map (lookup (reorder out l)) = order.map fun t => some (t.v1, t.v2, t.v3)) ∧
      (shuffle (σ.sub 1) (shuffle (σ.sub 0) (m.vertices ghost)) =
          shuffle (σ.sub 0) (m.vertices ghost) →
        out.triangles.map (lookup out) = order.map fun t => some (t.v1, t.v2, t.v3)) := by
  set vec := shuffle (σ.sub 0) (m.vertices ghost) with hvec
  set order := (shuffle (σ.sub 2) m.tris).filter fun t => !t.isGhost ghost with horder
  have hgen : ∀ l : List (Tri V), (∀ t ∈ l, t.v1 ∈ vec ∧ t.v2 ∈ vec ∧ t.v3 ∈ vec) →
      ∃ ts, unwrapAll (l.map (triIndices vec)) = .ok ts ∧ ts.length = l.length ∧
        (∀ i ∈ ts, i.1 < vec.length ∧ i.2.1 < vec.length ∧ i.2.2 < vec.length) ∧
        ts.map (fun i => (vec[i.1]?, vec[i.2.1]?, vec[i.2.2]?)) =
          l.map fun t => (some t.v1, some t.v2, some t.v3) := by
    intro l
    induction l with
    | nil => intro _; exact ⟨[], rfl, rfl, by simp, rfl⟩
    | cons t l ih =>
      intro hl
      obtain ⟨ts, h1, h2, h3, h4⟩ := ih fun s hs => hl s (List.mem_cons_of_mem _ hs)
      obtain ⟨m1, m2, m3⟩ := hl t List.mem_cons_self
      obtain ⟨i1, e1⟩ := indexOf?_isSome m1
      obtain ⟨i2, e2⟩ := indexOf?_isSome m2
      obtain ⟨i3, e3⟩ := indexOf?_isSome m3
      have ht : triIndices vec t = some (i1, i2, i3) := by simp [triIndices, e1, e2, e3]
      have g1 := indexOf?_some e1
      have g2 := indexOf?_some e2
      have g3 := indexOf?_some e3
      refine ⟨(i1, i2, i3) :: ts, ?_, by simp [h2], ?_, ?_⟩
      · rw [List.map_cons, ht, unwrapAll, h1]; rfl
      · intro i hi
        rcases List.mem_cons.1 hi with rfl | hi
        · exact ⟨(List.getElem?_eq_some_iff.1 g1).1, (List.getElem?_eq_some_iff.1 g2).1,
            (List.getElem?_eq_some_iff.1 g3).1⟩
        · exact h3 i hi
      · rw [List.map_cons, h4, List.map_cons, g1, g2, g3]
  have hmem : ∀ t ∈ order, t.v1 ∈ vec ∧ t.v2 ∈ vec ∧ t.v3 ∈ vec := by
    intro t ht
    rw [horder, List.mem_filter, mem_shuffle] at ht
    have hg := ht.2
    simp only [Tri.isGhost, Bool.not_eq_true', Bool.or_eq_false_iff] at hg
    rw [hvec]
    simp only [mem_shuffle, mem_vertices]
    exact ⟨⟨⟨t, ht.1, Or.inl rfl⟩, hg.1.1⟩, ⟨⟨t, ht.1, Or.inr (Or.inl rfl)⟩, hg.1.2⟩,
      ⟨⟨t, ht.1, Or.inr (Or.inr rfl)⟩, hg.2⟩⟩
  obtain ⟨ts, h1, h2, h3, h4⟩ := hgen order hmem
  have hcomb : ts.map (lookup ⟨vec, ts⟩) = order.map fun t => some (t.v1, t.v2, t.v3) := by
    have : ts.map (lookup ⟨vec, ts⟩) =
        (ts.map fun i => (vec[i.1]?, vec[i.2.1]?, vec[i.2.2]?)).map fun q =>
          match q.1, q.2.1, q.2.2 with
          | some a, some b, some c => some (a, b, c)
          | _, _, _ => none := by
      rw [List.map_map]; rfl
    rw [this, h4, List.map_map]
    rfl
  refine ⟨⟨shuffle (σ.sub 1) vec, ts⟩, order, ?_, ?_, ?_, ?_, h2, ?_, ⟨vec, (shuffle_perm _ _).symm, hcomb⟩, ?_⟩
  · rw [fromTriangulator, ← hvec, ← horder, h1]; rfl
  · exact nodup_shuffle.2 (nodup_shuffle.2 (nodup_toSet _))
  · intro v
    rw [mem_shuffle, hvec, mem_shuffle, mem_vertices]
  · exact (shuffle_perm _ _).filter _
  · intro i hi
    obtain ⟨a, b, c⟩ := h3 i hi
    simp only [lookup]
    rw [List.getElem?_eq_getElem (by simpa using a), List.getElem?_eq_getElem (by simpa using b),
      List.getElem?_eq_getElem (by simpa using c)]
    rfl
  · intro hsame
    rw [hsame]
    exact hcomb

/-- The hypothesis of the last part is met, for instance, when both containers are iterated in
insertion order. -/
example (m : Mesh Nat) : shuffle (Sched.first.sub 1) (shuffle (Sched.first.sub 0) (m.vertices fun _ => false))
    = shuffle (Sched.first.sub 0) (m.vertices fun _ => false) := shuffle_first _

end Verif.Props
