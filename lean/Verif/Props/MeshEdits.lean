import Verif.Lemmas.Mesh
import Mathlib.Tactic.NormNum

/-!
# C13: mesh adjacency over every edit history
-/

set_option linter.unusedSectionVars false

namespace Verif.Props

open Spec

variable {V : Type*} [DecidableEq V]

/-- Apply one operation with the code's `include_triangle` / `remove_triangle`. -/
def applyOp (m : Mesh V) : MeshOp V → Mesh V × Bool
  | .insert t => m.include t
  | .delete t => m.remove t

/-- Apply a history, oldest operation first. -/
def applyOps (m : Mesh V) (h : List (MeshOp V)) : Mesh V := h.foldl (fun m o => (applyOp m o).1) m

/-- C13: after every history the set of triangles is the one described by the operations, stored without
repetition, and the adjacency only refers to stored triangles having that side. -/
theorem C13_sound (h : List (MeshOp V)) :
    (∀ t, t ∈ (applyOps Mesh.empty h).tris ↔ t ∈ effects ∅ h) ∧
      (applyOps Mesh.empty h).tris.Nodup ∧ AdjSound (applyOps Mesh.empty h) := by
  have gen : ∀ (h : List (MeshOp V)) (m : Mesh V) (S : Set (Tri V)),
      (∀ t, t ∈ m.tris ↔ t ∈ S) → m.tris.Nodup → AdjSound m →
      (∀ t, t ∈ (applyOps m h).tris ↔ t ∈ effects S h) ∧ (applyOps m h).tris.Nodup ∧
        AdjSound (applyOps m h) := by
    intro h
    induction h with
    | nil => intro m S h1 h2 h3; exact ⟨h1, h2, h3⟩
    | cons o h ih =>
      intro m S h1 h2 h3
      rw [applyOps, effects, List.foldl_cons, List.foldl_cons]
      apply ih
      · intro t
        cases o with
        | insert s =>
          change t ∈ (m.add s).tris ↔ t ∈ S ∪ {s}
          rw [mem_add, h1]; simp
        | delete s =>
          change t ∈ (m.del s).tris ↔ t ∈ S \ {s}
          rw [mem_del, h1]; simp
      · cases o with
        | insert s => exact nodup_add h2
        | delete s => exact nodup_del h2
      · cases o with
        | insert s => exact adjSound_add h3
        | delete s => exact adjSound_del h3
  exact gen h _ _ (by simp [Mesh.empty]) List.nodup_nil adjSound_empty

/-- C13: if at no moment of the history two stored triangles share a directed edge, all sides of all
triangles are found in the adjacency. -/
theorem C13_complete (h : List (MeshOp V))
    (hd : ∀ n, EdgeDisjoint (applyOps Mesh.empty (h.take n)).tris) :
    AdjComplete (applyOps Mesh.empty h) := by
  have gen : ∀ (h : List (MeshOp V)) (m : Mesh V), AdjComplete m →
      (∀ n, EdgeDisjoint (applyOps m (h.take n)).tris) → AdjComplete (applyOps m h) := by
    intro h
    induction h with
    | nil => intro m h1 _; exact h1
    | cons o h ih =>
      intro m h1 hd
      have h0 : EdgeDisjoint m.tris := hd 0
      have h1' : EdgeDisjoint (applyOp m o).1.tris := by simpa [applyOps] using hd 1
      rw [applyOps, List.foldl_cons]
      apply ih
      · cases o with
        | insert s => exact adjComplete_add h1 h1'
        | delete s => exact adjComplete_del h1 h0
      · intro n
        simpa [applyOps] using hd (n + 1)
  exact gen h _ adjComplete_empty hd

/-- C13: the returned boolean says whether the set of triangles changed. -/
theorem C13_reports (m : Mesh V) (t : Tri V) :
    ((m.include t).2 = true ↔ t ∉ m.tris) ∧ ((m.remove t).2 = true ↔ t ∈ m.tris) := by
  constructor
  · unfold Mesh.include; split_ifs <;> simp [*]
  · unfold Mesh.remove; split_ifs <;> simp [*]

/-- The hypothesis of `C13_complete` on the whole history cannot be weakened to the final state: a side lost to
another triangle is not restored. -/
theorem C13_history_needed :
    ∃ h : List (MeshOp Nat), EdgeDisjoint (applyOps Mesh.empty h).tris ∧
      ¬ AdjComplete (applyOps Mesh.empty h) := by
  refine ⟨[.insert ⟨0, 1, 2⟩, .insert ⟨0, 1, 3⟩, .delete ⟨0, 1, 3⟩], ?_, ?_⟩
  · intro s hs t ht e _ _
    simp only [applyOps, applyOp, List.foldl_cons, List.foldl_nil, Mesh.empty, Mesh.include,
      Mesh.remove] at hs ht
    simp [setErase] at hs ht
    rw [hs, ht]
  · intro h
    have := h ⟨0, 1, 2⟩ (by decide) ⟨0, 1⟩ (by simp [IsSide])
    revert this
    decide

example : ∀ n, EdgeDisjoint (applyOps (V := Nat) Mesh.empty
    ([.insert ⟨0, 1, 2⟩, .insert ⟨1, 0, 3⟩].take n)).tris := by
  intro n
  apply edgeDisjoint_mono (l := [⟨0, 1, 2⟩, ⟨1, 0, 3⟩])
  · intro s hs t ht e h1 h2
    simp only [List.mem_cons, List.not_mem_nil, or_false] at hs ht
    rcases hs with rfl | rfl <;> rcases ht with rfl | rfl <;> simp [IsSide] at h1 h2 ⊢ <;> omega
  · intro t ht
    match n with
    | 0 => simp [applyOps, Mesh.empty] at ht
    | 1 => simp [applyOps, applyOp, Mesh.empty, Mesh.include] at ht; simp [ht]
    | n + 2 => simp [applyOps, applyOp, Mesh.empty, Mesh.include] at ht; simp; tauto

end Verif.Props
