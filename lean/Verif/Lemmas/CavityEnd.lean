import Verif.Lemmas.Cavity
import Verif.Lemmas.Sets
import Mathlib.Algebra.BigOperators.Group.List.Basic
import Mathlib.Algebra.Order.Group.Nat

/-!
# What one insertion, and a run of insertions, does to the mesh
-/

set_option linter.unusedSectionVars false

namespace Verif

open Spec

variable {V : Type*} [DecidableEq V]

theorem starts_sides (l : List (Tri V)) :
    ((sides l).map Edge.v1).Perm ((sides l).map Edge.v2) := by
  induction l with
  | nil => simp [sides]
  | cons t l ih =>
    rw [sides_cons, List.map_append, List.map_append]
    refine List.Perm.append ?_ ih
    simp only [Tri.innerEdges, List.map_cons, List.map_nil]
    rw [List.perm_iff_count]
    intro x
    simp only [List.count_cons, List.count_nil]
    omega

section

variable {P : Preds V} {C : List (Edge V)} {v : V} {T0 : List (Tri V)} {m : Mesh V}
  {L : List (Edge V)} {O R : List (Tri V)} {Z : List (Edge V)}

/-- The border of the cavity enters each vertex as often as it leaves it. -/
theorem CavInv.closed (h : CavInv P C v T0 m [] L O R Z) : (L.map Edge.v1).Perm (L.map Edge.v2) := by
  have h1 := (h.bdry.map Edge.v1).symm.trans ((starts_sides R).trans (h.bdry.map Edge.v2))
  simp only [List.nil_append, List.map_append, List.map_map] at h1
  have e1 : (Edge.v1 ∘ Edge.opposite : Edge V → V) = Edge.v2 := rfl
  have e2 : (Edge.v2 ∘ Edge.opposite : Edge V → V) = Edge.v1 := rfl
  rw [e1, e2] at h1
  exact (List.perm_append_right_iff _).1 (h1.trans (List.perm_append_comm.append_left _))

theorem sides_map_newTri (g : V → Bool) (L : List (Edge V)) (v : V) :
    (sides (L.map (newTri g · v))).Perm
      (L ++ (L.map (fun l => (⟨l.v2, v⟩ : Edge V)) ++ L.map (fun l => (⟨v, l.v1⟩ : Edge V)))) := by
  induction L with
  | nil => simp [sides]
  | cons l L ih =>
    rw [List.map_cons, sides_cons]
    refine ((newTri_sides g l v).append ih).trans ?_
    rw [List.perm_iff_count]
    intro x
    simp only [List.count_append, List.count_cons, List.map_cons, List.count_nil]
    omega

theorem CavInv.sides_now (h : CavInv P C v T0 m [] L O R Z) :
    (sides m.tris).Perm
      ((L ++ (L.map (fun l => (⟨l.v2, v⟩ : Edge V)) ++ L.map (fun l => (⟨v, l.v1⟩ : Edge V))))
        ++ sides O) := by
  refine (sides_perm h.now).trans ?_
  rw [sides_append]
  exact (sides_map_newTri _ _ _).append_right _

theorem count_opposite (l : List (Edge V)) (e : Edge V) :
    (l.map Edge.opposite).count e = l.count e.opposite := by
  induction l with
  | nil => simp
  | cons a l ih =>
    simp only [List.map_cons, List.count_cons, ih, beq_iff_eq]
    congr 1
    by_cases hh : a = e.opposite
    · subst hh; simp
    · rw [if_neg hh, if_neg]
      intro hc
      apply hh
      rw [← hc]; rfl

theorem count_in (L : List (Edge V)) (v x : V) :
    (L.map (fun l => (⟨l.v2, v⟩ : Edge V))).count ⟨x, v⟩ = (L.map Edge.v2).count x := by
  induction L with
  | nil => simp
  | cons l L ih => simp [List.count_cons, ih]

theorem count_out (L : List (Edge V)) (v x : V) :
    (L.map (fun l => (⟨v, l.v1⟩ : Edge V))).count ⟨v, x⟩ = (L.map Edge.v1).count x := by
  induction L with
  | nil => simp
  | cons l L ih => simp [List.count_cons, ih]

/-- Sides away from the new vertex: those of the border of the cavity and of the triangles left. -/
theorem CavInv.count_away (h : CavInv P C v T0 m [] L O R Z) {e : Edge V} (h1 : e.v1 ≠ v)
    (h2 : e.v2 ≠ v) : sideCount m.tris e = L.count e + (sides O).count e := by
  rw [sideCount_sides, h.sides_now.count_eq]
  simp only [List.count_append]
  have k1 : (L.map (fun l => (⟨l.v2, v⟩ : Edge V))).count e = 0 := by
    rw [List.count_eq_zero]
    intro hm
    obtain ⟨l, -, hl⟩ := List.mem_map.1 hm
    exact h2 (by rw [← hl])
  have k2 : (L.map (fun l => (⟨v, l.v1⟩ : Edge V))).count e = 0 := by
    rw [List.count_eq_zero]
    intro hm
    obtain ⟨l, -, hl⟩ := List.mem_map.1 hm
    exact h1 (by rw [← hl])
  omega

theorem CavInv.count_spoke_in (h : CavInv P C v T0 m [] L O R Z) (hv : Fresh T0 v) {x : V}
    (hx : x ≠ v) : sideCount m.tris ⟨x, v⟩ = (L.map Edge.v2).count x := by
  rw [sideCount_sides, h.sides_now.count_eq]
  simp only [List.count_append, count_in]
  have k1 : L.count (⟨x, v⟩ : Edge V) = 0 := by
    rw [List.count_eq_zero]; intro hm
    exact (h.ends hv (by simpa using hm)).2 rfl
  have k2 : (L.map (fun l => (⟨v, l.v1⟩ : Edge V))).count ⟨x, v⟩ = 0 := by
    rw [List.count_eq_zero]; intro hm
    obtain ⟨l, -, hl⟩ := List.mem_map.1 hm
    exact hx (congrArg Edge.v1 hl).symm
  have k3 : (sides O).count (⟨x, v⟩ : Edge V) = 0 := by
    rw [List.count_eq_zero]; intro hm
    obtain ⟨t, ht, hte⟩ := mem_sides.1 hm
    exact (hv.ends (mem_sides.2 ⟨t, h.mem_O ht, hte⟩)).2 rfl
  omega

theorem CavInv.count_spoke_out (h : CavInv P C v T0 m [] L O R Z) (hv : Fresh T0 v) {x : V}
    (hx : x ≠ v) : sideCount m.tris ⟨v, x⟩ = (L.map Edge.v1).count x := by
  rw [sideCount_sides, h.sides_now.count_eq]
  simp only [List.count_append, count_out]
  have k1 : L.count (⟨v, x⟩ : Edge V) = 0 := by
    rw [List.count_eq_zero]; intro hm
    exact (h.ends hv (by simpa using hm)).1 rfl
  have k2 : (L.map (fun l => (⟨l.v2, v⟩ : Edge V))).count ⟨v, x⟩ = 0 := by
    rw [List.count_eq_zero]; intro hm
    obtain ⟨l, -, hl⟩ := List.mem_map.1 hm
    exact hx (congrArg Edge.v2 hl).symm
  have k3 : (sides O).count (⟨v, x⟩ : Edge V) = 0 := by
    rw [List.count_eq_zero]; intro hm
    obtain ⟨t, ht, hte⟩ := mem_sides.1 hm
    exact (hv.ends (mem_sides.2 ⟨t, h.mem_O ht, hte⟩)).1 rfl
  omega

/-- The mesh is closed again. -/
theorem CavInv.watertight (h : CavInv P C v T0 m [] L O R Z) (hv : Fresh T0 v)
    (hw : Watertight T0) : Watertight m.tris := by
  intro a b
  by_cases ha : a = v
  · subst ha
    by_cases hb : b = a
    · subst hb; rfl
    · rw [h.count_spoke_out hv hb, h.count_spoke_in hv hb]
      exact h.closed.count_eq b
  · by_cases hb : b = v
    · subst hb
      rw [h.count_spoke_out hv ha, h.count_spoke_in hv ha]
      exact (h.closed.count_eq a).symm
    · rw [h.count_away (e := ⟨a, b⟩) ha hb, h.count_away (e := ⟨b, a⟩) hb ha]
      have := hw a b
      rw [sideCount_sides, sideCount_sides, h.sides_old.count_eq, h.sides_old.count_eq] at this
      simp only [List.nil_append, List.count_append, count_opposite, Edge.opposite] at this
      omega

/-- No side away from the new vertex is gained; a side that is lost is not constrained, nor is its reverse. -/
theorem CavInv.count_constrained (h : CavInv P C v T0 m [] L O R Z) {e : Edge V}
    (hc : Constrained C e) (h1 : e.v1 ≠ v) (h2 : e.v2 ≠ v) :
    sideCount m.tris e = sideCount T0 e := by
  rw [h.count_away h1 h2, sideCount_sides, h.sides_old.count_eq]
  simp only [List.nil_append, List.count_append, count_opposite]
  have k1 : Z.count e = 0 := List.count_eq_zero.2 fun hm => h.free e hm hc
  have k2 : Z.count e.opposite = 0 := by
    refine List.count_eq_zero.2 fun hm => h.free _ hm ?_
    simpa only [Constrained, opposite_opposite] using hc.symm
  omega

theorem CavInv.corner_now (h : CavInv P C v T0 m [] L O R Z) (hR : R ≠ []) (x : V) :
    (∃ t ∈ m.tris, IsCorner t x) ↔ x = v ∨ ∃ t ∈ T0, IsCorner t x := by
  constructor
  · rintro ⟨t, ht, hx⟩
    rcases List.mem_append.1 (h.now.mem_iff.1 ht) with k | k
    · obtain ⟨l, hl, rfl⟩ := List.mem_map.1 k
      obtain ⟨r, hr, hrl⟩ := h.mem_side_old (e := l) (by simpa using hl)
      rcases newTri_isCorner.1 hx with k | k | k
      · refine Or.inr ⟨r, h.mem_R hr, ?_⟩
        rcases hrl with ⟨e, -⟩ | ⟨e, -⟩ | ⟨e, -⟩ <;> rw [k, e] <;> simp [IsCorner]
      · refine Or.inr ⟨r, h.mem_R hr, ?_⟩
        rcases hrl with ⟨-, e⟩ | ⟨-, e⟩ | ⟨-, e⟩ <;> rw [k, e] <;> simp [IsCorner]
      · exact Or.inl k
    · exact Or.inr ⟨t, h.mem_O k, hx⟩
  · have key : ∀ r ∈ R, ∀ x, IsCorner r x → ∃ l ∈ L, l.v1 = x := by
      intro r hr x hx
      simpa using h.cover r hr x hx
    rintro (rfl | ⟨t, ht, hx⟩)
    · obtain ⟨r, hr⟩ := List.exists_mem_of_ne_nil R hR
      obtain ⟨l, hl, -⟩ := key r hr r.v1 (Or.inl rfl)
      refine ⟨newTri P.ghost l x, h.now.mem_iff.2 ?_, newTri_isCorner.2 (Or.inr (Or.inr rfl))⟩
      exact List.mem_append.2 (Or.inl (List.mem_map.2 ⟨l, hl, rfl⟩))
    · rcases List.mem_append.1 (h.old.mem_iff.1 ht) with k | k
      · obtain ⟨l, hl, hlx⟩ := key t k x hx
        refine ⟨newTri P.ghost l v, h.now.mem_iff.2 ?_, newTri_isCorner.2 (Or.inl hlx.symm)⟩
        exact List.mem_append.2 (Or.inl (List.mem_map.2 ⟨l, hl, rfl⟩))
      · exact ⟨t, h.now.mem_iff.2 (List.mem_append.2 (Or.inr k)), hx⟩

end

/-- What is true between two insertions, whatever the predicates answer. -/
structure Legit (P : Preds V) (S : V → Prop) (s : SolveState V) : Prop where
  sound : AdjSound s.mesh
  complete : Simple s.mesh.tris → AdjComplete s.mesh
  wf : s.cmap.WF
  keys : ∀ t l, (t, l) ∈ s.cmap → t ∈ s.mesh.tris
  bucket : ∀ t l, (t, l) ∈ s.cmap → ∀ w ∈ l, P.inside t w = true ∧ P.mayInsert t w = .ok true
  pendN : (s.cmap.flat ++ s.remaining).Nodup
  pendF : ∀ w ∈ s.cmap.flat ++ s.remaining, Fresh s.mesh.tris w
  pendS : ∀ w ∈ s.cmap.flat ++ s.remaining, S w
  meshS : ∀ t ∈ s.mesh.tris, ∀ x, IsCorner t x → S x
  incN : s.included.Nodup
  remN : s.removed.Nodup

/-- `v` was inserted between `s` and `s'`. -/
structure Inserts (P : Preds V) (C : List (Edge V)) (s : SolveState V) (v : V) (s' : SolveState V)
    (L : List (Edge V)) (O R : List (Tri V)) (Z : List (Edge V)) : Prop where
  cav : CavInv P C v s.mesh.tris s'.mesh [] L O R Z
  nonempty : R ≠ []
  fresh : Fresh s.mesh.tris v
  pend : (s.cmap.flat ++ s.remaining).Perm (v :: (s'.cmap.flat ++ s'.remaining))
  inc : ∀ t, t ∈ s'.included ↔ t ∈ s.included ∨ ∃ l ∈ L, t = newTri P.ghost l v
  rem : ∀ t, t ∈ s'.removed ↔ t ∈ s.removed ∨ t ∈ R

/-- Opening a cavity. -/
theorem solveStep_open {P : Preds V} {S : V → Prop} {s : SolveState V} (hl : Legit P S s)
    (hsim : Simple s.mesh.tris) {t : Tri V} {l : List V} (hc : (t, l) ∈ s.cmap)
    {v : V} (hvl : l.getLast? = some v) (C : List (Edge V)) :
    v ∈ s.cmap.flat ∧
    CavInv P C v s.mesh.tris (openCavity t l s).mesh (openEdges t) [] (s.mesh.tris.erase t) [t] [] ∧
    ∃ W, (s.cmap.flat ++ s.remaining).Perm (v :: W) ∧
      Book P v s.included s.removed W (openCavity t l s) [] [t] := by
  have hvm : v ∈ l := List.mem_of_getLast? hvl
  have hflat : v ∈ s.cmap.flat := List.mem_flatMap.2 ⟨(t, l), hc, hvm⟩
  have htm := hl.keys t l hc
  obtain ⟨b1, b2⟩ := hl.bucket t l hc v hvm
  have hexp : Expandable P v t := ⟨by simp [conflicting, b1], b2⟩
  have hlast : l = l.dropLast ++ [v] := by
    obtain ⟨l', rfl⟩ := List.getLast?_eq_some_iff.1 hvl
    simp
  have hget : s.cmap.get t = some l := (CMap.get_eq_some hl.wf).2 hc
  have hfl := CMap.flat_erase hl.wf t
  rw [hget] at hfl
  simp only [Option.getD_some] at hfl
  refine ⟨hflat, openCavity_inv hsim hl.sound (hl.complete hsim) htm hexp,
    (s.cmap.erase t).flat ++ (s.remaining ++ l.dropLast), ?_, ?_⟩
  · refine (hfl.symm.append_right _).trans ?_
    rw [List.perm_iff_count]
    intro x
    have := congrArg (List.count x) hlast
    simp only [List.count_append, List.count_cons, List.count_nil] at this ⊢
    omega
  · refine ⟨by simp [openCavity], ?_, hl.incN, nodup_setInsert hl.remN, CMap.wf_erase hl.wf t, ?_, ?_,
      List.Perm.refl _⟩
    · intro x
      simp only [openCavity, mem_setInsert, List.mem_singleton]
      tauto
    · intro x k hx
      simp only [openCavity] at hx ⊢
      rw [CMap.mem_erase] at hx
      exact mem_del.2 ⟨hl.keys x k hx.1, hx.2⟩
    · intro x k hx
      simp only [openCavity] at hx
      rw [CMap.mem_erase] at hx
      exact hl.bucket x k hx.1

/-- One iteration of the outer loop inserts one vertex. -/
theorem solveStep_inv {P : Preds V} {C : List (Edge V)} {S : V → Prop} (hsep : SepOn P.veq S)
    {fuel : Nat} {σ : Sched} {s s' : SolveState V} (hl : Legit P S s) (hsim : Simple s.mesh.tris)
    (hr : solveStep P C fuel σ s = .ok s') :
    Legit P S s' ∧ ∃ v L O R Z, v ∈ s.cmap.flat ∧ Inserts P C s v s' L O R Z := by
  unfold solveStep at hr
  cases hc : choose σ s.cmap with
  | none => rw [hc] at hr; cases hr
  | some p =>
    obtain ⟨t, l⟩ := p
    rw [hc] at hr
    simp only at hr
    cases hvl : l.getLast? with
    | none => rw [hvl] at hr; cases hr
    | some v =>
      rw [hvl] at hr
      simp only at hr
      obtain ⟨hflat, hcav, W, hW, hbook⟩ := solveStep_open hl hsim (choose_mem hc) hvl C
      have hv : Fresh s.mesh.tris v := hl.pendF v (List.mem_append.2 (Or.inl hflat))
      obtain ⟨L, O, R, Z, k1, k2, k3⟩ := cavityLoop_inv hsim hv hsep hl.meshS hcav hbook hr
      have hRne : R ≠ [] := by
        rintro rfl
        simp at k3
      have hpend := hW.trans (k2.pend.symm.cons v)
      have hnd := hpend.nodup_iff.1 hl.pendN
      rw [List.nodup_cons] at hnd
      refine ⟨⟨k1.sound, k1.complete, k2.wf, k2.keys, k2.bucket, hnd.2, ?_, ?_, ?_, k2.incN, k2.remN⟩,
        v, L, O, R, Z, hflat, k1, hRne, hv, hpend, k2.inc, k2.rem⟩
      · intro w hw x hx hxw
        have hwv : w ≠ v := fun h => hnd.1 (h ▸ hw)
        rcases (k1.corner_now hRne w).1 ⟨x, hx, hxw⟩ with h | ⟨y, hy, hyw⟩
        · exact hwv h
        · exact hl.pendF w (hpend.mem_iff.2 (List.mem_cons_of_mem _ hw)) y hy hyw
      · intro w hw
        exact hl.pendS w (hpend.mem_iff.2 (List.mem_cons_of_mem _ hw))
      · intro x hx w hxw
        rcases (k1.corner_now hRne w).1 ⟨x, hx, hxw⟩ with h | ⟨y, hy, hyw⟩
        · subst h; exact hl.pendS w (List.mem_append.2 (Or.inl hflat))
        · exact hl.meshS y hy w hyw

end Verif
