import Verif.Lemmas.Sets
import Verif.Spec.Mesh

/-!
# Elementary facts about meshes
-/

set_option linter.unusedSectionVars false

namespace Verif

open Spec

variable {V : Type*}

theorem mem_innerEdges {t : Tri V} {e : Edge V} : e ∈ t.innerEdges ↔ IsSide t e := by
  cases e
  simp [Tri.innerEdges, IsSide]

theorem mem_corners {t : Tri V} {v : V} : v ∈ t.corners ↔ IsCorner t v := by
  simp [Tri.corners, IsCorner]

@[simp] theorem opposite_opposite (e : Edge V) : e.opposite.opposite = e := rfl

theorem opposite_inj {e f : Edge V} : e.opposite = f.opposite ↔ e = f :=
  ⟨fun h => by rw [← opposite_opposite e, h, opposite_opposite], fun h => by rw [h]⟩

variable [DecidableEq V]

theorem sideCount_eq (l : List (Tri V)) (e : Edge V) :
    sideCount l e = (l.flatMap Tri.innerEdges).count e := by
  induction l with
  | nil => rfl
  | cons t l ih =>
    simp only [sideCount, List.map_cons, List.sum_cons, List.flatMap_cons, List.count_append]
    simp only [sideCount] at ih
    rw [ih]
    congr 1
    obtain ⟨a, b⟩ := e
    simp only [Tri.innerEdges, List.count_cons, List.count_nil, beq_iff_eq, Edge.mk.injEq]
    simp only [@eq_comm _ a, @eq_comm _ b]
    omega

theorem mem_add {m : Mesh V} {s t : Tri V} : t ∈ (m.add s).tris ↔ t = s ∨ t ∈ m.tris := by
  unfold Mesh.add Mesh.include
  split_ifs with h
  · constructor
    · exact Or.inr
    · rintro (rfl | h') <;> assumption
  · exact List.mem_cons

theorem mem_del {m : Mesh V} {s t : Tri V} : t ∈ (m.del s).tris ↔ t ∈ m.tris ∧ t ≠ s := by
  unfold Mesh.del Mesh.remove
  split_ifs with h
  · exact mem_setErase
  · constructor
    · intro ht; exact ⟨ht, fun e => h (e ▸ ht)⟩
    · exact And.left

theorem add_adj {m : Mesh V} {s : Tri V} (h : s ∉ m.tris) (e : Edge V) :
    (m.add s).adj e = if e ∈ s.innerEdges then some s else m.adj e := by
  simp [Mesh.add, Mesh.include, h]

theorem del_adj {m : Mesh V} {s : Tri V} (h : s ∈ m.tris) (e : Edge V) :
    (m.del s).adj e = if e ∈ s.innerEdges then none else m.adj e := by
  simp [Mesh.del, Mesh.remove, h]

theorem add_of_mem {m : Mesh V} {s : Tri V} (h : s ∈ m.tris) : m.add s = m := by
  simp [Mesh.add, Mesh.include, h]

theorem del_of_not_mem {m : Mesh V} {s : Tri V} (h : s ∉ m.tris) : m.del s = m := by
  simp [Mesh.del, Mesh.remove, h]

theorem add_tris {m : Mesh V} {s : Tri V} (h : s ∉ m.tris) : (m.add s).tris = s :: m.tris := by
  simp [Mesh.add, Mesh.include, h]

theorem del_tris {m : Mesh V} {s : Tri V} : (m.del s).tris = setErase s m.tris := by
  by_cases h : s ∈ m.tris
  · simp [Mesh.del, Mesh.remove, h]
  · rw [del_of_not_mem h, setErase_of_not_mem h]

theorem nodup_add {m : Mesh V} {s : Tri V} (h : m.tris.Nodup) : (m.add s).tris.Nodup := by
  by_cases hs : s ∈ m.tris
  · rwa [add_of_mem hs]
  · rw [add_tris hs]; exact List.nodup_cons.2 ⟨hs, h⟩

theorem nodup_del {m : Mesh V} {s : Tri V} (h : m.tris.Nodup) : (m.del s).tris.Nodup := by
  rw [del_tris]; exact nodup_setErase h

theorem adjSound_add {m : Mesh V} {s : Tri V} (h : AdjSound m) : AdjSound (m.add s) := by
  by_cases hs : s ∈ m.tris
  · rwa [add_of_mem hs]
  · intro e t het
    rw [add_adj hs] at het
    split_ifs at het with he
    · cases het
      exact ⟨mem_add.2 (Or.inl rfl), mem_innerEdges.1 he⟩
    · exact ⟨mem_add.2 (Or.inr (h e t het).1), (h e t het).2⟩

theorem adjSound_del {m : Mesh V} {s : Tri V} (h : AdjSound m) : AdjSound (m.del s) := by
  by_cases hs : s ∈ m.tris
  · intro e t het
    rw [del_adj hs] at het
    split_ifs at het with he
    obtain ⟨h1, h2⟩ := h e t het
    refine ⟨mem_del.2 ⟨h1, ?_⟩, h2⟩
    rintro rfl
    exact he (mem_innerEdges.2 h2)
  · rwa [del_of_not_mem hs]

theorem edgeDisjoint_mono {l l' : List (Tri V)} (h : EdgeDisjoint l) (hs : ∀ t ∈ l', t ∈ l) :
    EdgeDisjoint l' := fun s hs' t ht e h1 h2 => h s (hs s hs') t (hs t ht) e h1 h2

theorem adjComplete_add {m : Mesh V} {s : Tri V} (h : AdjComplete m)
    (hd : EdgeDisjoint (m.add s).tris) : AdjComplete (m.add s) := by
  by_cases hs : s ∈ m.tris
  · rwa [add_of_mem hs]
  · intro t ht e hte
    rw [add_adj hs]
    split_ifs with he
    · rw [hd s (mem_add.2 (Or.inl rfl)) t ht e (mem_innerEdges.1 he) hte]
    · rcases mem_add.1 ht with rfl | ht
      · exact absurd (mem_innerEdges.2 hte) he
      · exact h t ht e hte

theorem adjComplete_del {m : Mesh V} {s : Tri V} (h : AdjComplete m) (hd : EdgeDisjoint m.tris) :
    AdjComplete (m.del s) := by
  by_cases hs : s ∈ m.tris
  · intro t ht e hte
    obtain ⟨ht, hne⟩ := mem_del.1 ht
    rw [del_adj hs, if_neg]
    · exact h t ht e hte
    · intro he
      exact hne (hd t ht s hs e hte (mem_innerEdges.1 he))
  · rwa [del_of_not_mem hs]

theorem adjSound_empty : AdjSound (Mesh.empty : Mesh V) := by
  intro e t h; simp [Mesh.empty] at h

theorem adjComplete_empty : AdjComplete (Mesh.empty : Mesh V) := by
  intro t h; simp [Mesh.empty] at h

/-- With a sound and complete map, no directed edge is shared. -/
theorem edgeDisjoint_of_complete {m : Mesh V} (h : AdjComplete m) : EdgeDisjoint m.tris := by
  intro s hs t ht e h1 h2
  have := (h s hs e h1).symm.trans (h t ht e h2)
  exact Option.some.inj this

end Verif
