import Verif.Lemmas.Conflicts
import Mathlib.Data.List.Perm.Subperm

/-!
# The cavity loop, for arbitrary predicate answers
-/

set_option linter.unusedSectionVars false

namespace Verif

open Spec

variable {V : Type*} [DecidableEq V]

/-- All directed sides of a list of triangles. -/
def sides (l : List (Tri V)) : List (Edge V) := l.flatMap Tri.innerEdges

theorem sides_append (l l' : List (Tri V)) : sides (l ++ l') = sides l ++ sides l' := by
  simp [sides]

theorem sides_cons (t : Tri V) (l : List (Tri V)) : sides (t :: l) = t.innerEdges ++ sides l := by
  simp [sides]

theorem sides_perm {l l' : List (Tri V)} (h : l.Perm l') : (sides l).Perm (sides l') :=
  h.flatMap_right _

theorem mem_sides {l : List (Tri V)} {e : Edge V} : e ∈ sides l ↔ ∃ t ∈ l, IsSide t e := by
  simp [sides, mem_innerEdges]

theorem sideCount_sides (l : List (Tri V)) (e : Edge V) : sideCount l e = (sides l).count e :=
  sideCount_eq l e

theorem Spec.Simple.nodup_sides {l : List (Tri V)} (h : Simple l) : (sides l).Nodup :=
  List.nodup_iff_count_le_one.2 fun e => by rw [← sideCount_sides]; exact h e

theorem simple_iff {l : List (Tri V)} : Simple l ↔ (sides l).Nodup :=
  ⟨Simple.nodup_sides, fun h e => by
    rw [sideCount_sides]; exact List.nodup_iff_count_le_one.1 h e⟩

theorem watertight_of {l : List (Tri V)}
    (h : ∀ e ∈ sides l, (sides l).count e = (sides l).count e.opposite) : Watertight l := by
  intro a b
  rw [sideCount_sides, sideCount_sides]
  by_cases h1 : (⟨a, b⟩ : Edge V) ∈ sides l
  · exact h _ h1
  · by_cases h2 : (⟨b, a⟩ : Edge V) ∈ sides l
    · exact (h _ h2).symm
    · rw [List.count_eq_zero.2 h1, List.count_eq_zero.2 h2]

theorem Spec.Simple.edgeDisjoint {l : List (Tri V)} (h : Simple l) : EdgeDisjoint l := by
  intro s hs t ht e h1 h2
  by_contra hne
  have hn := h.nodup_sides
  obtain ⟨l1, l2, rfl⟩ := List.append_of_mem hs
  have hp : (l1 ++ s :: l2).Perm (s :: (l1 ++ l2)) := List.perm_middle
  have ht' : t ∈ l1 ++ l2 := by
    have := hp.mem_iff.1 ht
    rcases List.mem_cons.1 this with h | h
    · exact absurd h.symm hne
    · exact h
  have hn' := (sides_perm hp).nodup_iff.1 hn
  rw [sides_cons, List.nodup_append] at hn'
  exact hn'.2.2 e (mem_innerEdges.2 h1) e (mem_sides.2 ⟨t, ht', h2⟩) rfl

theorem Spec.Simple.nodup {l : List (Tri V)} (h : Simple l) : l.Nodup := by
  have hn := h.nodup_sides
  clear h
  induction l with
  | nil => exact List.nodup_nil
  | cons t l ih =>
    rw [sides_cons, List.nodup_append] at hn
    refine List.nodup_cons.2 ⟨fun ht => ?_, ih hn.2.1⟩
    have h1 : (⟨t.v1, t.v2⟩ : Edge V) ∈ t.innerEdges := by simp [Tri.innerEdges]
    exact hn.2.2 _ h1 _ (mem_sides.2 ⟨t, ht, mem_innerEdges.1 h1⟩) rfl

/-- `v` is a corner of no triangle of the list. -/
def Fresh (l : List (Tri V)) (v : V) : Prop := ∀ t ∈ l, ¬ IsCorner t v

theorem Fresh.ends {l : List (Tri V)} {v : V} (h : Fresh l v) {e : Edge V} (he : e ∈ sides l) :
    e.v1 ≠ v ∧ e.v2 ≠ v := by
  obtain ⟨t, ht, hs⟩ := mem_sides.1 he
  have := h t ht
  simp only [IsCorner, not_or] at this
  rcases hs with ⟨h1, h2⟩ | ⟨h1, h2⟩ | ⟨h1, h2⟩ <;> rw [h1, h2] <;>
    constructor <;> intro h' <;> simp [h'] at this

theorem newTri_cases (g : V → Bool) (e : Edge V) (v : V) :
    newTri g e v = ⟨e.v2, v, e.v1⟩ ∨ newTri g e v = ⟨v, e.v1, e.v2⟩ ∨
      newTri g e v = ⟨e.v1, e.v2, v⟩ := by
  unfold newTri
  split_ifs <;> simp

theorem newTri_sides (g : V → Bool) (e : Edge V) (v : V) :
    ((newTri g e v).innerEdges).Perm [e, ⟨e.v2, v⟩, ⟨v, e.v1⟩] := by
  obtain ⟨a, b⟩ := e
  rw [List.perm_iff_count]
  intro f
  rcases newTri_cases g ⟨a, b⟩ v with h | h | h <;> rw [h] <;>
    simp only [Tri.innerEdges, List.count_cons, List.count_nil] <;> omega

theorem newTri_isSide {g : V → Bool} {e f : Edge V} {v : V} :
    IsSide (newTri g e v) f ↔ f = e ∨ f = ⟨e.v2, v⟩ ∨ f = ⟨v, e.v1⟩ := by
  rw [← mem_innerEdges, (newTri_sides g e v).mem_iff]; simp

theorem newTri_isCorner {g : V → Bool} {e : Edge V} {v w : V} :
    IsCorner (newTri g e v) w ↔ w = e.v1 ∨ w = e.v2 ∨ w = v := by
  unfold newTri IsCorner
  split_ifs <;> tauto

theorem newTri_inj {g : V → Bool} {e f : Edge V} {v : V} (he : e.v1 ≠ v ∧ e.v2 ≠ v)
    (h : newTri g e v = newTri g f v) : e = f := by
  have h1 : IsSide (newTri g f v) e := by rw [← h, newTri_isSide]; exact Or.inl rfl
  rcases newTri_isSide.1 h1 with h1 | h1 | h1
  · exact h1
  · exact absurd (congrArg Edge.v2 h1) he.2
  · exact absurd (congrArg Edge.v1 h1) he.1

/-- The vertex comparison identifies no two different vertices of `S`. -/
def SepOn (veq : V → V → Bool) (S : V → Prop) : Prop :=
  ∀ a b, S a → S b → (veq a b = true ↔ a = b)

theorem SepOn.edge {veq : V → V → Bool} {S : V → Prop} (h : SepOn veq S) {e f : Edge V}
    (h1 : S e.v1) (h2 : S e.v2) (h3 : S f.v1) (h4 : S f.v2) :
    Edge.eqv veq e f = true ↔ e = f := by
  cases e; cases f
  simp only [Edge.eqv, Bool.and_eq_true, Edge.mk.injEq] at *
  rw [h _ _ h1 h3, h _ _ h2 h4]

theorem cavityPushes_perm {veq : V → V → Bool} {S : V → Prop} (h : SepOn veq S) {t : Tri V}
    (hS : ∀ x, IsCorner t x → S x) {f : Edge V} (hf : IsSide t f) :
    (f :: cavityPushes veq t f).Perm t.innerEdges := by
  have h1 : S t.v1 := hS _ (Or.inl rfl)
  have h2 : S t.v2 := hS _ (Or.inr (Or.inl rfl))
  have h3 : S t.v3 := hS _ (Or.inr (Or.inr rfl))
  have hf1 : S f.v1 := by
    rcases hf with ⟨e, -⟩ | ⟨e, -⟩ | ⟨e, -⟩ <;> rw [e] <;> assumption
  have hf2 : S f.v2 := by
    rcases hf with ⟨-, e⟩ | ⟨-, e⟩ | ⟨-, e⟩ <;> rw [e] <;> assumption
  unfold cavityPushes
  split_ifs with k1 k2
  · rw [h.edge hf1 hf2 h1 h2] at k1
    subst k1
    exact List.Perm.cons _ (List.Perm.swap _ _ _)
  · rw [h.edge hf1 hf2 h2 h3] at k2
    subst k2
    refine List.Perm.trans (List.Perm.cons _ (List.Perm.swap _ _ _)) ?_
    exact List.Perm.swap _ _ _
  · rw [h.edge hf1 hf2 h1 h2] at k1
    rw [h.edge hf1 hf2 h2 h3] at k2
    have hf3 : f = ⟨t.v3, t.v1⟩ := by
      cases f
      rcases hf with ⟨e1, e2⟩ | ⟨e1, e2⟩ | ⟨e1, e2⟩ <;> simp only at e1 e2 <;> subst e1 <;> subst e2
      · exact absurd rfl k1
      · exact absurd rfl k2
      · rfl
    subst hf3
    simp only [Tri.innerEdges]
    refine List.Perm.trans (List.Perm.cons _ (List.Perm.swap _ _ _)) ?_
    refine List.Perm.trans (List.Perm.swap _ _ _) ?_
    exact List.Perm.cons _ (List.Perm.swap _ _ _)

/-- The pushed edges lead from the start of the popped edge to its end: the first one starts where `f` ends. -/
theorem cavityPushes_starts {veq : V → V → Bool} {S : V → Prop} (h : SepOn veq S) {t : Tri V}
    (hS : ∀ x, IsCorner t x → S x) {f : Edge V} (hf : IsSide t f) {x : V} (hx : IsCorner t x) :
    x = f.v1 ∨ ∃ e ∈ cavityPushes veq t f, e.v1 = x := by
  have hp := cavityPushes_perm h hS hf
  have : ∃ e ∈ t.innerEdges, e.v1 = x := by
    rcases hx with rfl | rfl | rfl <;> simp [Tri.innerEdges]
  obtain ⟨e, he, hex⟩ := this
  rcases List.mem_cons.1 (hp.mem_iff.2 he) with rfl | he
  · exact Or.inl hex.symm
  · exact Or.inr ⟨e, he, hex⟩

/-- `t` may be added to the cavity of `v`. -/
def Expandable (P : Preds V) (v : V) (t : Tri V) : Prop :=
  conflicting P t v = true ∧ P.mayInsert t v = .ok true

/-- What is true at every moment of the cavity loop. `B` are the pending edges, `L` the edges over which a triangle
was built, `O` the old triangles that are left, `R` the removed triangles, `Z` the edges crossed. -/
structure CavInv (P : Preds V) (C : List (Edge V)) (v : V) (T0 : List (Tri V)) (m : Mesh V)
    (B L : List (Edge V)) (O R : List (Tri V)) (Z : List (Edge V)) : Prop where
  now : m.tris.Perm (L.map (newTri P.ghost · v) ++ O)
  old : T0.Perm (R ++ O)
  bdry : (sides R).Perm (B ++ L ++ (Z ++ Z.map Edge.opposite))
  sound : AdjSound m
  complete : Simple m.tris → AdjComplete m
  keep : ∀ t ∈ O, ∀ e, IsSide t e → m.adj e = some t
  exp : ∀ r ∈ R, Expandable P v r
  links : ∀ l ∈ L, Constrained C l ∨ ∃ t ∈ T0, IsSide t l.opposite ∧ ¬ Expandable P v t ∧
    ∃ b, P.mayInsert t v = .ok b
  free : ∀ z ∈ Z, ¬ Constrained C z
  cover : ∀ r ∈ R, ∀ x, IsCorner r x → ∃ e ∈ B ++ L, e.v1 = x
  tree : Z.length + 1 = R.length

section

variable {P : Preds V} {C : List (Edge V)} {v : V} {T0 : List (Tri V)} {m : Mesh V}
  {B L : List (Edge V)} {O R : List (Tri V)} {Z : List (Edge V)}

theorem CavInv.sides_old (h : CavInv P C v T0 m B L O R Z) :
    (sides T0).Perm ((B ++ L ++ (Z ++ Z.map Edge.opposite)) ++ sides O) := by
  refine (sides_perm h.old).trans ?_
  rw [sides_append]
  exact h.bdry.append_right _

theorem CavInv.mem_side_old (h : CavInv P C v T0 m B L O R Z) {e : Edge V} (he : e ∈ B ++ L) :
    ∃ r ∈ R, IsSide r e := by
  rw [← mem_sides, h.bdry.mem_iff, List.mem_append]
  exact Or.inl he

theorem CavInv.mem_R (h : CavInv P C v T0 m B L O R Z) {r : Tri V} (hr : r ∈ R) : r ∈ T0 :=
  h.old.mem_iff.2 (List.mem_append.2 (Or.inl hr))

theorem CavInv.mem_O (h : CavInv P C v T0 m B L O R Z) {r : Tri V} (hr : r ∈ O) : r ∈ T0 :=
  h.old.mem_iff.2 (List.mem_append.2 (Or.inr hr))

theorem CavInv.ends (h : CavInv P C v T0 m B L O R Z) (hv : Fresh T0 v) {e : Edge V}
    (he : e ∈ B ++ L) : e.v1 ≠ v ∧ e.v2 ≠ v := by
  obtain ⟨r, hr, hs⟩ := h.mem_side_old he
  exact hv.ends (mem_sides.2 ⟨r, h.mem_R hr, hs⟩)

theorem CavInv.nodup_BL (h : CavInv P C v T0 m B L O R Z) (hs : Simple T0) : (B ++ L).Nodup := by
  have hn := hs.nodup_sides
  rw [h.sides_old.nodup_iff] at hn
  exact (List.nodup_append.1 (List.nodup_append.1 hn).1).1

/-- A pending edge whose far side was already covered by a new triangle is constrained. -/
theorem CavInv.constrained_of_new (h : CavInv P C v T0 m B L O R Z) (hs : Simple T0) {e : Edge V}
    (he : e ∈ B) (hl : e.opposite ∈ L) : Constrained C e := by
  rcases h.links _ hl with hc | ⟨t, ht, hside, hne, -⟩
  · exact hc.symm.imp_left (fun h => by simpa using h) |>.imp_right (fun h => by simpa using h)
  · obtain ⟨r, hr, hrs⟩ := h.mem_side_old (List.mem_append.2 (Or.inl he))
    rw [opposite_opposite] at hside
    have := hs.edgeDisjoint t ht r (h.mem_R hr) e hside hrs
    exact absurd (h.exp r hr) (this ▸ hne)

/-- The triangle found behind a pending edge is old, or the edge is constrained. -/
theorem CavInv.found (h : CavInv P C v T0 m B L O R Z) (hs : Simple T0) (hv : Fresh T0 v)
    {e : Edge V} (he : e ∈ B) {t : Tri V} (ht : m.adj e.opposite = some t) :
    IsSide t e.opposite ∧ ((t ∈ O) ∨ Constrained C e) := by
  obtain ⟨h1, h2⟩ := h.sound _ _ ht
  refine ⟨h2, ?_⟩
  rcases List.mem_append.1 (h.now.mem_iff.1 h1) with h3 | h3
  · right
    obtain ⟨l, hl, rfl⟩ := List.mem_map.1 h3
    have hev := h.ends hv (List.mem_append.2 (Or.inl he))
    have : e.opposite = l := by
      rcases newTri_isSide.1 h2 with h4 | h4 | h4
      · exact h4
      · exact absurd (congrArg Edge.v2 h4) hev.1
      · exact absurd (congrArg Edge.v1 h4) hev.2
    subst this
    exact h.constrained_of_new hs he hl
  · exact Or.inl h3

/-- An old triangle behind a pending edge joins the cavity. -/
theorem CavInv.remove {e : Edge V} (h : CavInv P C v T0 m (e :: B) L O R Z) (hs : Simple T0)
    (hv : Fresh T0 v) {S : V → Prop} (hsep : SepOn P.veq S)
    (hS : ∀ t ∈ T0, ∀ x, IsCorner t x → S x) {t : Tri V} (hside : IsSide t e.opposite) (ht : t ∈ O)
    (hexp : Expandable P v t) (hc : ¬ Constrained C e) :
    CavInv P C v T0 (m.del t) (cavityPushes P.veq t e.opposite ++ B) L (O.erase t) (t :: R)
      (e :: Z) := by
  have hpush := cavityPushes_perm hsep (hS t (h.mem_O ht)) hside
  have hOperm : O.Perm (t :: O.erase t) := List.perm_cons_erase ht
  have htm : t ∈ m.tris := h.now.mem_iff.2 (List.mem_append.2 (Or.inr ht))
  have hTnd : T0.Nodup := hs.nodup
  have hnow' : m.tris.Perm (t :: (L.map (newTri P.ghost · v) ++ O.erase t)) :=
    (h.now.trans (hOperm.append_left _)).trans List.perm_middle
  have hmnd : m.tris.Nodup := by
    rw [h.now.nodup_iff, List.nodup_append]
    refine ⟨?_, ?_, ?_⟩
    · refine List.Nodup.map_on ?_ (List.nodup_append.1 (h.nodup_BL hs)).2.1
      intro a ha b hb hab
      exact newTri_inj (h.ends hv (List.mem_append.2 (Or.inr ha))) hab
    · exact (List.nodup_append.1 ((h.old.nodup_iff).1 hTnd)).2.1
    · intro a ha b hb hab
      subst hab
      obtain ⟨l, -, rfl⟩ := List.mem_map.1 ha
      exact hv _ (h.mem_O hb) (newTri_isCorner.2 (Or.inr (Or.inr rfl)))
  refine ⟨?_, ?_, ?_, adjSound_del h.sound, ?_, ?_, ?_, h.links, ?_, ?_, by simp [h.tree]⟩
  · have : (m.del t).tris = setErase t m.tris := del_tris
    rw [this]
    exact ((setErase_perm hmnd htm).trans hnow').cons_inv
  · exact (h.old.trans (hOperm.append_left R)).trans List.perm_middle
  · rw [sides_cons]
    refine (hpush.symm.append h.bdry).trans ?_
    -- (opp e :: pushes) ++ (e :: B ++ L ++ (Z ++ Z')) ~ pushes ++ B ++ L ++ (e :: Z ++ opp e :: Z')
    rw [List.perm_iff_count]
    intro f
    simp only [List.count_append, List.count_cons, List.map_cons]
    omega
  · intro hsim
    have hsm : Simple m.tris := by
      rw [simple_iff] at hsim ⊢
      have hp : (sides m.tris).Perm (t.innerEdges ++ sides (m.del t).tris) := by
        rw [← sides_cons]
        refine sides_perm ?_
        rw [del_tris]
        exact (setErase_perm hmnd htm).symm
      rw [hp.nodup_iff, List.nodup_append]
      have hO := hs.nodup_sides
      rw [(sides_perm (h.old.trans (hOperm.append_left R))).nodup_iff, sides_append, sides_cons] at hO
      obtain ⟨-, hO2, hO3⟩ := List.nodup_append.1 hO
      refine ⟨(List.nodup_append.1 hO2).1, hsim, ?_⟩
      intro a ha b hb hab
      subst hab
      obtain ⟨s, hs', hsa⟩ := mem_sides.1 hb
      rw [mem_del, h.now.mem_iff, List.mem_append] at hs'
      obtain ⟨hs1 | hs1, hs2⟩ := hs'
      · obtain ⟨l, hl, rfl⟩ := List.mem_map.1 hs1
        have hav := hv.ends (mem_sides.2 ⟨t, h.mem_O ht, mem_innerEdges.1 ha⟩)
        rcases newTri_isSide.1 hsa with k | k | k
        · subst k
          have hmem : a ∈ sides R := h.bdry.mem_iff.2
            (List.mem_append.2 (Or.inl (List.mem_append.2 (Or.inr hl))))
          exact hO3 _ hmem _ (List.mem_append.2 (Or.inl ha)) rfl
        · exact hav.2 (congrArg Edge.v2 k)
        · exact hav.1 (congrArg Edge.v1 k)
      · exact hs2 (hs.edgeDisjoint s (h.mem_O hs1) t (h.mem_O ht) a hsa (mem_innerEdges.1 ha))
    exact adjComplete_del (h.complete hsm) hsm.edgeDisjoint
  · intro s hs' f hf
    rw [del_adj htm]
    have hOnd : O.Nodup := (List.nodup_append.1 ((h.old.nodup_iff).1 hTnd)).2.1
    rw [hOnd.mem_erase_iff] at hs'
    rw [if_neg]
    · exact h.keep s hs'.2 f hf
    · intro hft
      exact hs'.1 (hs.edgeDisjoint s (h.mem_O hs'.2) t (h.mem_O ht) f hf (mem_innerEdges.1 hft))
  · intro r hr
    rcases List.mem_cons.1 hr with rfl | hr
    · exact hexp
    · exact h.exp r hr
  · intro z hz
    rcases List.mem_cons.1 hz with rfl | hz
    · exact hc
    · exact h.free z hz
  · have key : ∀ x, IsCorner t x → ∃ f ∈ (cavityPushes P.veq t e.opposite ++ B) ++ L, f.v1 = x := by
      intro x hx
      rcases cavityPushes_starts hsep (hS t (h.mem_O ht)) hside hx with rfl | ⟨f, hf, hfx⟩
      · -- the end of `e`: it starts another edge
        obtain ⟨r, hr, hre⟩ := h.mem_side_old (e := e) (by simp)
        obtain ⟨f, hf, hfx⟩ := h.cover r hr e.v2 (by
          rcases hre with ⟨-, k⟩ | ⟨-, k⟩ | ⟨-, k⟩ <;> rw [k] <;> simp [IsCorner])
        by_cases hfe : f = e
        · subst hfe
          -- a loop `e`: then the opposite is the same edge; its triangle gives another start
          have hee : f.opposite = f := by
            cases f; simp only at hfx; subst hfx; rfl
          have hin : f ∈ sides R := mem_sides.2 ⟨r, hr, hre⟩
          have hn := hs.nodup_sides
          rw [(sides_perm h.old).nodup_iff, sides_append, List.nodup_append] at hn
          rw [hee] at hside
          exact absurd rfl (hn.2.2 f hin f (mem_sides.2 ⟨t, ht, hside⟩))
        · refine ⟨f, ?_, hfx⟩
          simp only [List.cons_append, List.mem_cons, hfe, false_or, List.mem_append] at hf ⊢
          tauto
      · exact ⟨f, by simp [hf], hfx⟩
    intro r hr x hx
    rcases List.mem_cons.1 hr with rfl | hr
    · exact key x hx
    · obtain ⟨f, hf, hfx⟩ := h.cover r hr x hx
      by_cases hfe : f = e
      · subst hfe
        exact key x (by
          rcases hside with ⟨-, k⟩ | ⟨-, k⟩ | ⟨-, k⟩ <;> simp only [Edge.opposite] at k <;>
            rw [← hfx, k] <;> simp [IsCorner])
      · refine ⟨f, ?_, hfx⟩
        simp only [List.cons_append, List.mem_cons, hfe, false_or, List.mem_append] at hf ⊢
        tauto

/-- A new triangle is built over a pending edge. -/
theorem CavInv.build {e : Edge V} (h : CavInv P C v T0 m (e :: B) L O R Z) (hs : Simple T0)
    (hv : Fresh T0 v)
    (hl : Constrained C e ∨ ∃ t ∈ T0, IsSide t e.opposite ∧ ¬ Expandable P v t ∧ ∃ b, P.mayInsert t v = .ok b) :
    newTri P.ghost e v ∉ m.tris ∧
    CavInv P C v T0 (m.add (newTri P.ghost e v)) B (e :: L) O R Z := by
  have hnew : newTri P.ghost e v ∉ m.tris := by
    rw [h.now.mem_iff, List.mem_append]
    rintro (hm | hm)
    · obtain ⟨l, hl', hle⟩ := List.mem_map.1 hm
      have := newTri_inj (h.ends hv (List.mem_append.2 (Or.inr hl'))) hle
      subst this
      have hn := h.nodup_BL hs
      rw [List.cons_append, List.nodup_cons] at hn
      exact hn.1 (List.mem_append.2 (Or.inr hl'))
    · exact hv _ (h.mem_O hm) (newTri_isCorner.2 (Or.inr (Or.inr rfl)))
  refine ⟨hnew, ?_, h.old, ?_, adjSound_add h.sound, ?_, ?_, h.exp, ?_, h.free, ?_, h.tree⟩
  · rw [add_tris hnew]
    exact List.Perm.cons _ h.now
  · refine h.bdry.trans ?_
    rw [List.perm_iff_count]
    intro f
    simp only [List.count_append, List.count_cons]
    omega
  · intro hsim
    have hsm : Simple m.tris := by
      rw [simple_iff] at hsim ⊢
      rw [add_tris hnew, sides_cons] at hsim
      exact (List.nodup_append.1 hsim).2.1
    exact adjComplete_add (h.complete hsm) hsim.edgeDisjoint
  · intro t ht f hf
    rw [add_adj hnew, if_neg]
    · exact h.keep t ht f hf
    · intro hf'
      have hfv := hv.ends (mem_sides.2 ⟨t, h.mem_O ht, hf⟩)
      rcases newTri_isSide.1 (mem_innerEdges.1 hf') with k | k | k
      · subst k
        obtain ⟨r, hr, hrf⟩ := h.mem_side_old (e := f) (by simp)
        have := hs.edgeDisjoint t (h.mem_O ht) r (h.mem_R hr) f hf hrf
        subst this
        have hn := (h.old.nodup_iff).1 hs.nodup
        exact (List.nodup_append.1 hn).2.2 t hr t ht rfl
      · exact hfv.2 (congrArg Edge.v2 k)
      · exact hfv.1 (congrArg Edge.v1 k)
  · intro l hl'
    rcases List.mem_cons.1 hl' with rfl | hl'
    · exact hl
    · exact h.links l hl'
  · intro r hr x hx
    obtain ⟨f, hf, hfx⟩ := h.cover r hr x hx
    refine ⟨f, ?_, hfx⟩
    simp only [List.cons_append, List.mem_cons, List.mem_append] at hf ⊢
    tauto

/-- What is true of the conflict map and the returned sets during the cavity loop. `inc0`, `rem0` are the sets
before, `W` the vertices still to be inserted. -/
structure Book (P : Preds V) (v : V) (inc0 rem0 : List (Tri V)) (W : List V) (s : SolveState V)
    (L : List (Edge V)) (R : List (Tri V)) : Prop where
  inc : ∀ t, t ∈ s.included ↔ t ∈ inc0 ∨ ∃ l ∈ L, t = newTri P.ghost l v
  rem : ∀ t, t ∈ s.removed ↔ t ∈ rem0 ∨ t ∈ R
  incN : s.included.Nodup
  remN : s.removed.Nodup
  wf : s.cmap.WF
  keys : ∀ t l, (t, l) ∈ s.cmap → t ∈ s.mesh.tris
  bucket : ∀ t l, (t, l) ∈ s.cmap → ∀ w ∈ l, P.inside t w = true ∧ P.mayInsert t w = .ok true
  pend : (s.cmap.flat ++ s.remaining).Perm W

/-- One iteration of the cavity loop. -/
theorem cavityStep_inv {s : SolveState V} {e : Edge V} {inc0 rem0 : List (Tri V)} {W : List V}
    (h : CavInv P C v T0 s.mesh (e :: B) L O R Z) (hb : Book P v inc0 rem0 W s L R)
    (hs : Simple T0) (hv : Fresh T0 v) {S : V → Prop} (hsep : SepOn P.veq S)
    (hS : ∀ t ∈ T0, ∀ x, IsCorner t x → S x) {r : List (Edge V) × SolveState V}
    (hr : cavityStep P C v e s = .ok r) :
    (∃ t ∈ O, CavInv P C v T0 r.2.mesh (r.1 ++ B) L (O.erase t) (t :: R) (e :: Z) ∧
        Book P v inc0 rem0 W r.2 L (t :: R) ∧ r.1.length = 2) ∨
    (r.1 = [] ∧ CavInv P C v T0 r.2.mesh B (e :: L) O R Z ∧ Book P v inc0 rem0 W r.2 (e :: L) R) := by
  unfold cavityStep at hr
  cases hadj : s.mesh.adj e.opposite with
  | none => rw [hadj] at hr; cases hr
  | some t =>
    rw [hadj] at hr
    simp only at hr
    rw [Res.bind_eq_ok] at hr
    obtain ⟨may, hmay, hr⟩ := hr
    obtain ⟨hside, hfound⟩ := h.found hs hv (List.mem_cons_self) hadj
    by_cases hcond : (conflicting P t v && !(decide (e.opposite ∈ C) || decide (e ∈ C)) && may) = true
    · rw [if_pos hcond] at hr
      simp only [Bool.and_eq_true, Bool.not_eq_true', Bool.or_eq_false_iff,
        decide_eq_false_iff_not] at hcond
      obtain ⟨⟨c1, c2⟩, c3⟩ := hcond
      subst c3
      have hnc : ¬ Constrained C e := fun hc => hc.elim c2.1 c2.2
      have htO : t ∈ O := hfound.resolve_right hnc
      have htm : t ∈ s.mesh.tris := (h.sound _ _ hadj).1
      simp only [Res.ok.injEq] at hr
      subst hr
      refine Or.inl ⟨t, htO, h.remove hs hv hsep hS hside htO ⟨c1, hmay⟩ hnc, ?_, ?_⟩
      · refine ⟨hb.inc, ?_, hb.incN, nodup_setInsert hb.remN, CMap.wf_erase hb.wf t, ?_, ?_, ?_⟩
        · intro x
          simp only [mem_setInsert, hb.rem, List.mem_cons]
          tauto
        · intro x l hx
          rw [CMap.mem_erase] at hx
          exact mem_del.2 ⟨hb.keys x l hx.1, hx.2⟩
        · intro x l hx
          rw [CMap.mem_erase] at hx
          exact hb.bucket x l hx.1
        · have hfl := CMap.flat_erase hb.wf t
          refine List.Perm.trans ?_ hb.pend
          refine List.Perm.trans ?_ (hfl.append_right _)
          rw [List.perm_iff_count]
          intro x
          simp only [List.count_append]
          omega
      · simp only [cavityPushes]
        split_ifs <;> rfl
    · rw [if_neg hcond] at hr
      rw [Res.bind_eq_ok] at hr
      obtain ⟨q, hq, hr⟩ := hr
      simp only [Res.ok.injEq] at hr
      subst hr
      have hl : Constrained C e ∨ ∃ t ∈ T0, IsSide t e.opposite ∧ ¬ Expandable P v t ∧
          ∃ b, P.mayInsert t v = .ok b := by
        by_cases hc : Constrained C e
        · exact Or.inl hc
        · refine Or.inr ⟨t, h.mem_O (hfound.resolve_right hc), hside, ?_, may, hmay⟩
          rintro ⟨k1, k2⟩
          rw [hmay] at k2
          simp only [Res.ok.injEq] at k2
          apply hcond
          simp only [Constrained, not_or] at hc
          simp [k1, k2, hc.1, hc.2]
      obtain ⟨hnew, hinv⟩ := h.build hs hv hl
      obtain ⟨d1, d2, d3, d4, d5⟩ := distribute_spec hb.wf hq
      refine Or.inr ⟨rfl, hinv, ?_, hb.rem, nodup_setInsert hb.incN, hb.remN, d1, ?_, ?_, ?_⟩
      · intro x
        simp only [mem_setInsert, hb.inc, List.mem_cons, exists_eq_or_imp]
        tauto
      · intro x l hx
        rcases d5 x l hx with ⟨-, k⟩ | ⟨k, -⟩
        · exact mem_add.2 (Or.inr (hb.keys x l k))
        · exact mem_add.2 (Or.inl k)
      · intro x l hx w hw
        rcases d5 x l hx with ⟨-, k⟩ | ⟨k, old, new, rfl, ho, -, hn⟩
        · exact hb.bucket x l k w hw
        · subst k
          rcases List.mem_append.1 hw with hw | hw
          · rcases ho with rfl | ho
            · simp at hw
            · exact hb.bucket _ old ho w hw
          · exact hn w hw
      · exact d2.trans hb.pend

/-- The cavity loop, run to its end. -/
theorem cavityLoop_inv {inc0 rem0 : List (Tri V)} {W : List V} (hs : Simple T0) (hv : Fresh T0 v)
    {S : V → Prop} (hsep : SepOn P.veq S) (hS : ∀ t ∈ T0, ∀ x, IsCorner t x → S x) {n : Nat}
    {s s' : SolveState V} {B L : List (Edge V)} {O R : List (Tri V)} {Z : List (Edge V)}
    (h : CavInv P C v T0 s.mesh B L O R Z) (hb : Book P v inc0 rem0 W s L R)
    (hr : cavityLoop P C v n B s = .ok s') :
    ∃ L' O' R' Z', CavInv P C v T0 s'.mesh [] L' O' R' Z' ∧ Book P v inc0 rem0 W s' L' R' ∧
      R <:+ R' := by
  induction n generalizing s B L O R Z with
  | zero =>
    cases B with
    | nil =>
      simp only [cavityLoop, Res.ok.injEq] at hr
      subst hr
      exact ⟨L, O, R, Z, h, hb, List.suffix_refl _⟩
    | cons e B => simp [cavityLoop] at hr
  | succ n ih =>
    cases B with
    | nil =>
      simp only [cavityLoop, Res.ok.injEq] at hr
      subst hr
      exact ⟨L, O, R, Z, h, hb, List.suffix_refl _⟩
    | cons e B =>
      rw [cavityLoop, Res.bind_eq_ok] at hr
      obtain ⟨r, hstep, hr⟩ := hr
      rcases cavityStep_inv h hb hs hv hsep hS hstep with ⟨t, -, k1, k2, -⟩ | ⟨k0, k1, k2⟩
      · obtain ⟨L', O', R', Z', j1, j2, j3⟩ := ih k1 k2 hr
        exact ⟨L', O', R', Z', j1, j2, (List.suffix_cons t R).trans j3⟩
      · rw [k0] at hr
        exact ih k1 k2 hr

theorem splitConflicts_total (hm : ∀ t w, P.mayInsert t w ≠ .diverged) (t : Tri V) (vs : List V) :
    splitConflicts P t vs ≠ .diverged := by
  induction vs with
  | nil => simp [splitConflicts]
  | cons w vs ih =>
    simp only [splitConflicts]
    cases h1 : P.mayInsert t w with
    | diverged => exact absurd h1 (hm t w)
    | panic => simp [Res.bind]
    | ok b =>
      cases h2 : splitConflicts P t vs with
      | diverged => exact absurd h2 ih
      | panic => simp [Res.bind]
      | ok q => simp only [Res.bind]; split_ifs <;> simp

theorem distribute_total (hm : ∀ t w, P.mayInsert t w ≠ .diverged) (t : Tri V) (c : CMap V)
    (vs : List V) : distribute P t c vs ≠ .diverged := by
  unfold distribute
  cases h : splitConflicts P t vs with
  | diverged => exact absurd h (splitConflicts_total hm t vs)
  | panic => simp [Res.bind]
  | ok q => simp [Res.bind]

theorem cavityStep_total (hm : ∀ t w, P.mayInsert t w ≠ .diverged) (e : Edge V) (s : SolveState V) :
    cavityStep P C v e s ≠ .diverged := by
  unfold cavityStep
  cases s.mesh.adj e.opposite with
  | none => simp
  | some t =>
    simp only
    cases h1 : P.mayInsert t v with
    | diverged => exact absurd h1 (hm t v)
    | panic => simp [Res.bind]
    | ok may =>
      simp only [Res.bind]
      split_ifs
      · simp
      · cases h2 : distribute P (newTri P.ghost e v) s.cmap s.remaining with
        | diverged => exact absurd h2 (distribute_total hm _ _ _)
        | panic => simp
        | ok q => simp

/-- The cavity loop finishes: each iteration removes an old triangle or a pending edge. -/
theorem cavityLoop_total {inc0 rem0 : List (Tri V)} {W : List V} (hs : Simple T0) (hv : Fresh T0 v)
    {S : V → Prop} (hsep : SepOn P.veq S) (hS : ∀ t ∈ T0, ∀ x, IsCorner t x → S x)
    (hm : ∀ t w, P.mayInsert t w ≠ .diverged) {n : Nat}
    {s : SolveState V} {B L : List (Edge V)} {O R : List (Tri V)} {Z : List (Edge V)}
    (h : CavInv P C v T0 s.mesh B L O R Z) (hb : Book P v inc0 rem0 W s L R)
    (hn : 2 * O.length + B.length ≤ n) : cavityLoop P C v n B s ≠ .diverged := by
  induction n generalizing s B L O R Z with
  | zero =>
    have : B = [] := List.length_eq_zero_iff.1 (by omega)
    subst this
    simp [cavityLoop]
  | succ n ih =>
    cases B with
    | nil => simp [cavityLoop]
    | cons e B =>
      rw [cavityLoop]
      cases hstep : cavityStep P C v e s with
      | diverged => exact absurd hstep (cavityStep_total hm e s)
      | panic => simp [Res.bind]
      | ok r =>
        simp only [Res.bind]
        simp only [List.length_cons] at hn
        rcases cavityStep_inv h hb hs hv hsep hS hstep with ⟨t, ht, k1, k2, k3⟩ | ⟨k0, k1, k2⟩
        · refine ih k1 k2 ?_
          have : O.length = (O.erase t).length + 1 := by
            rw [List.length_erase_of_mem ht]
            have := List.length_pos_of_mem ht
            omega
          rw [List.length_append, k3]
          omega
        · rw [k0]
          exact ih k1 k2 (by simp; omega)

/-- The invariants hold when the cavity is opened. -/
theorem openCavity_inv {s : SolveState V} {t : Tri V} {l : List V} (hsim : Simple s.mesh.tris)
    (hsound : AdjSound s.mesh) (hcomp : AdjComplete s.mesh) (ht : t ∈ s.mesh.tris)
    (hexp : Expandable P v t) :
    CavInv P C v s.mesh.tris (openCavity t l s).mesh (openEdges t) [] (s.mesh.tris.erase t) [t] [] := by
  have hp : s.mesh.tris.Perm (t :: s.mesh.tris.erase t) := List.perm_cons_erase ht
  have hnd := hsim.nodup
  refine ⟨?_, ?_, ?_, adjSound_del hsound, fun _ => adjComplete_del hcomp hsim.edgeDisjoint, ?_, ?_,
    by simp, by simp, ?_, rfl⟩
  · simp only [openCavity, List.map_nil, List.nil_append]
    rw [del_tris]
    exact ((setErase_perm hnd ht).trans hp).cons_inv
  · exact hp
  · rw [List.perm_iff_count]
    intro f
    simp only [sides, openEdges, Tri.innerEdges, List.flatMap_cons, List.flatMap_nil,
      List.count_cons, List.count_nil, List.map_nil, List.append_nil]
    omega
  · intro x hx f hf
    rw [hnd.mem_erase_iff] at hx
    simp only [openCavity]
    rw [del_adj ht, if_neg]
    · exact hcomp x hx.2 f hf
    · intro hf'
      exact hx.1 (hsim.edgeDisjoint x hx.2 t ht f hf (mem_innerEdges.1 hf'))
  · simpa using hexp
  · intro r hr x hx
    simp only [List.mem_singleton] at hr
    subst hr
    rcases hx with rfl | rfl | rfl <;> simp [openEdges]

end

end Verif
