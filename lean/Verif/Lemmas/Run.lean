import Verif.Lemmas.CavityEnd
import Verif.Props.Conflicts
import Verif.Spec.Insertion

/-!
# Runs of the insertion loop
-/

set_option linter.unusedSectionVars false

namespace Verif

open Spec

variable {V : Type*} [DecidableEq V]

section anyMesh

/-! ## Facts that need no assumption on the mesh -/

/-- `x` is an end of an edge of the list. -/
def IsEnd (B : List (Edge V)) (x : V) : Prop := ∃ e ∈ B, x = e.v1 ∨ x = e.v2

theorem isEnd_pushes {veq : V → V → Bool} {t : Tri V} {f : Edge V} {x : V} :
    IsEnd (cavityPushes veq t f) x ↔ IsCorner t x := by
  unfold cavityPushes IsEnd IsCorner
  split_ifs <;> simp <;> tauto

theorem isCorner_of_isSide {t : Tri V} {e : Edge V} (h : IsSide t e) :
    IsCorner t e.v1 ∧ IsCorner t e.v2 := by
  rcases h with ⟨h1, h2⟩ | ⟨h1, h2⟩ | ⟨h1, h2⟩ <;> rw [h1, h2] <;> simp [IsCorner]

theorem IsEnd.append {B B' : List (Edge V)} {x : V} :
    IsEnd (B ++ B') x ↔ IsEnd B x ∨ IsEnd B' x := by
  unfold IsEnd
  constructor
  · rintro ⟨e, he, h⟩
    rcases List.mem_append.1 he with h' | h'
    · exact Or.inl ⟨e, h', h⟩
    · exact Or.inr ⟨e, h', h⟩
  · rintro (⟨e, he, h⟩ | ⟨e, he, h⟩)
    · exact ⟨e, List.mem_append.2 (Or.inl he), h⟩
    · exact ⟨e, List.mem_append.2 (Or.inr he), h⟩

theorem IsEnd.cons {B : List (Edge V)} {e : Edge V} {x : V} :
    IsEnd (e :: B) x ↔ (x = e.v1 ∨ x = e.v2) ∨ IsEnd B x := by
  simp [IsEnd]

/-- What one step does to vertices, pending vertices and constrained edges. -/
structure Loose (P : Preds V) (C : List (Edge V)) (v : V) (s : SolveState V) (B : List (Edge V))
    (s' : SolveState V) (B' : List (Edge V)) : Prop where
  sound : AdjSound s'.mesh
  wf : s'.cmap.WF
  pend : (s'.cmap.flat ++ s'.remaining).Perm (s.cmap.flat ++ s.remaining)
  kept : ∀ x, InMesh s.mesh x ∨ IsEnd B x → InMesh s'.mesh x ∨ IsEnd B' x
  only : ∀ x, InMesh s'.mesh x ∨ IsEnd B' x → x = v ∨ InMesh s.mesh x ∨ IsEnd B x
  new : InMesh s.mesh v → InMesh s'.mesh v ∨ IsEnd B' v
  keys : (∀ t l, (t, l) ∈ s.cmap → ∀ x, IsCorner t x → InMesh s.mesh x ∨ IsEnd B x) →
    ∀ t l, (t, l) ∈ s'.cmap → ∀ x, IsCorner t x → InMesh s'.mesh x ∨ IsEnd B' x

theorem Loose.trans {P : Preds V} {C : List (Edge V)} {v : V} {s1 s2 s3 : SolveState V}
    {B1 B2 B3 : List (Edge V)} (h : Loose P C v s1 B1 s2 B2) (h' : Loose P C v s2 B2 s3 B3) :
    Loose P C v s1 B1 s3 B3 :=
  ⟨h'.sound, h'.wf, h'.pend.trans h.pend, fun x hx => h'.kept x (h.kept x hx),
    fun x hx => (h'.only x hx).elim Or.inl (h.only x), fun hx => h'.kept v (h.new hx),
    fun hk => h'.keys (h.keys hk)⟩

theorem cavityStep_loose {P : Preds V} {C : List (Edge V)} {v : V} {s : SolveState V} {e : Edge V}
    {B : List (Edge V)} {r : List (Edge V) × SolveState V} (hs : AdjSound s.mesh) (hw : s.cmap.WF)
    (hr : cavityStep P C v e s = .ok r) :
    Loose P C v s (e :: B) r.2 (r.1 ++ B) ∧ (r.1 = [] → InMesh r.2.mesh v) := by
  unfold cavityStep at hr
  cases hadj : s.mesh.adj e.opposite with
  | none => rw [hadj] at hr; cases hr
  | some t =>
    rw [hadj] at hr
    simp only at hr
    rw [Res.bind_eq_ok] at hr
    obtain ⟨may, -, hr⟩ := hr
    obtain ⟨htm, hside⟩ := hs _ _ hadj
    have hcor := isCorner_of_isSide hside
    by_cases hcond : (conflicting P t v && !(decide (e.opposite ∈ C) || decide (e ∈ C)) && may) = true
    · rw [if_pos hcond] at hr
      simp only [Res.ok.injEq] at hr
      subst hr
      have kept : ∀ x, InMesh s.mesh x ∨ IsEnd (e :: B) x →
          InMesh (s.mesh.del t) x ∨ IsEnd (cavityPushes P.veq t e.opposite ++ B) x := by
        intro x hx
        rw [IsEnd.append, isEnd_pushes]
        rcases hx with ⟨u, hu, hux⟩ | hx
        · by_cases hut : u = t
          · subst hut; exact Or.inr (Or.inl hux)
          · exact Or.inl ⟨u, mem_del.2 ⟨hu, hut⟩, hux⟩
        · rcases IsEnd.cons.1 hx with (rfl | rfl) | hx
          · exact Or.inr (Or.inl hcor.2)
          · exact Or.inr (Or.inl hcor.1)
          · exact Or.inr (Or.inr hx)
      refine ⟨⟨adjSound_del hs, CMap.wf_erase hw t, ?_, kept, ?_, fun hx => kept v (Or.inl hx),
        fun hk u l hu x hx => kept x (hk u l (CMap.mem_erase.1 hu).1 x hx)⟩, ?_⟩
      · refine List.Perm.trans ?_ ((CMap.flat_erase hw t).append_right _)
        rw [List.perm_iff_count]
        intro x
        simp only [List.count_append]
        omega
      · intro x hx
        rcases hx with ⟨u, hu, hux⟩ | hx
        · exact Or.inr (Or.inl ⟨u, (mem_del.1 hu).1, hux⟩)
        · rcases IsEnd.append.1 hx with hx | hx
          · exact Or.inr (Or.inl ⟨t, htm, isEnd_pushes.1 hx⟩)
          · exact Or.inr (Or.inr (IsEnd.cons.2 (Or.inr hx)))
      · intro hc
        exfalso
        revert hc
        simp only [cavityPushes]
        split_ifs <;> simp
    · rw [if_neg hcond, Res.bind_eq_ok] at hr
      obtain ⟨q, hq, hr⟩ := hr
      simp only [Res.ok.injEq] at hr
      subst hr
      obtain ⟨d1, d2, -, -, d5⟩ := distribute_spec hw hq
      have hin : ∀ x, x = e.v1 ∨ x = e.v2 ∨ x = v → InMesh (s.mesh.add (newTri P.ghost e v)) x :=
        fun x hx => ⟨_, mem_add.2 (Or.inl rfl), newTri_isCorner.2 hx⟩
      have hkeep : ∀ x, InMesh s.mesh x → InMesh (s.mesh.add (newTri P.ghost e v)) x :=
        fun x ⟨u, hu, hux⟩ => ⟨u, mem_add.2 (Or.inr hu), hux⟩
      have kept : ∀ x, InMesh s.mesh x ∨ IsEnd (e :: B) x →
          InMesh (s.mesh.add (newTri P.ghost e v)) x ∨ IsEnd ([] ++ B) x := by
        intro x hx
        rcases hx with hx | hx
        · exact Or.inl (hkeep x hx)
        · rcases IsEnd.cons.1 hx with (rfl | rfl) | hx
          · exact Or.inl (hin _ (Or.inl rfl))
          · exact Or.inl (hin _ (Or.inr (Or.inl rfl)))
          · exact Or.inr (by simpa using hx)
      refine ⟨⟨adjSound_add hs, d1, d2, kept, ?_, fun hx => Or.inl (hkeep v hx), ?_⟩,
        fun _ => hin v (Or.inr (Or.inr rfl))⟩
      · intro x hx
        rcases hx with ⟨u, hu, hux⟩ | hx
        · rcases mem_add.1 hu with rfl | hu
          · rcases newTri_isCorner.1 hux with k | k | k
            · exact Or.inr (Or.inr (IsEnd.cons.2 (Or.inl (Or.inl k))))
            · exact Or.inr (Or.inr (IsEnd.cons.2 (Or.inl (Or.inr k))))
            · exact Or.inl k
          · exact Or.inr (Or.inl ⟨u, hu, hux⟩)
        · exact Or.inr (Or.inr (IsEnd.cons.2 (Or.inr (by simpa using hx))))
      · intro hk u l hu x hx
        rcases d5 u l hu with ⟨-, k⟩ | ⟨k, -⟩
        · exact kept x (hk u l k x hx)
        · subst k
          exact Or.inl (hin x (newTri_isCorner.1 hx))

theorem cavityLoop_loose {P : Preds V} {C : List (Edge V)} {v : V} {n : Nat} {s s' : SolveState V}
    {B : List (Edge V)} (hs : AdjSound s.mesh) (hw : s.cmap.WF)
    (hr : cavityLoop P C v n B s = .ok s') :
    Loose P C v s B s' [] ∧ (B ≠ [] → InMesh s'.mesh v) := by
  induction n generalizing s B with
  | zero =>
    cases B with
    | nil =>
      simp only [cavityLoop, Res.ok.injEq] at hr
      subst hr
      exact ⟨⟨hs, hw, List.Perm.refl _, fun x hx => hx, fun x hx => Or.inr hx, Or.inl,
        fun hk => hk⟩,
        fun h => absurd rfl h⟩
    | cons e B => simp [cavityLoop] at hr
  | succ n ih =>
    cases B with
    | nil =>
      simp only [cavityLoop, Res.ok.injEq] at hr
      subst hr
      exact ⟨⟨hs, hw, List.Perm.refl _, fun x hx => hx, fun x hx => Or.inr hx, Or.inl,
        fun hk => hk⟩,
        fun h => absurd rfl h⟩
    | cons e B =>
      rw [cavityLoop, Res.bind_eq_ok] at hr
      obtain ⟨r, hstep, hr⟩ := hr
      obtain ⟨k1, k2⟩ := cavityStep_loose (B := B) hs hw hstep
      obtain ⟨j1, j2⟩ := ih k1.sound k1.wf hr
      refine ⟨k1.trans j1, fun _ => ?_⟩
      by_cases hb : r.1 = []
      · rcases j1.kept v (Or.inl (k2 hb)) with h | ⟨e, h, -⟩
        · exact h
        · simp at h
      · exact j2 (by simp [hb])

theorem solveStep_loose {P : Preds V} {C : List (Edge V)} {fuel : Nat} {σ : Sched}
    {s s' : SolveState V} (hs : AdjSound s.mesh) (hw : s.cmap.WF)
    (hkeys : ∀ t l, (t, l) ∈ s.cmap → ∀ x, IsCorner t x → InMesh s.mesh x)
    (hr : solveStep P C fuel σ s = .ok s') :
    ∃ v, AdjSound s'.mesh ∧ s'.cmap.WF ∧
      (s.cmap.flat ++ s.remaining).Perm (v :: (s'.cmap.flat ++ s'.remaining)) ∧
      (∀ x, InMesh s'.mesh x ↔ x = v ∨ InMesh s.mesh x) ∧
      (∀ t l, (t, l) ∈ s'.cmap → ∀ x, IsCorner t x → InMesh s'.mesh x) := by
  unfold solveStep at hr
  cases hc : choose σ s.cmap with
  | none => rw [hc] at hr; cases hr
  | some p =>
    obtain ⟨t, l⟩ := p
    rw [hc] at hr
    simp only at hr
    have hmem := choose_mem hc
    cases hvl : l.getLast? with
    | none => rw [hvl] at hr; cases hr
    | some v =>
      rw [hvl] at hr
      simp only at hr
      obtain ⟨k1, k2⟩ := cavityLoop_loose (s := openCavity t l s) (adjSound_del hs)
        (CMap.wf_erase hw t) hr
      have hin : InMesh s'.mesh v := k2 (by simp [openEdges])
      have hend : ∀ x, IsEnd (openEdges t) x ↔ IsCorner t x := by
        intro x
        simp [openEdges, IsEnd, IsCorner]
        tauto
      have hopen : ∀ x, InMesh s.mesh x → InMesh (openCavity t l s).mesh x ∨ IsEnd (openEdges t) x := by
        rintro x ⟨u, hu, hux⟩
        by_cases hut : u = t
        · subst hut; exact Or.inr ((hend x).2 hux)
        · exact Or.inl ⟨u, mem_del.2 ⟨hu, hut⟩, hux⟩
      have hlast : l = l.dropLast ++ [v] := by
        obtain ⟨l', rfl⟩ := List.getLast?_eq_some_iff.1 hvl
        simp
      have hget : s.cmap.get t = some l := (CMap.get_eq_some hw).2 hmem
      have hfl := CMap.flat_erase hw t
      rw [hget] at hfl
      simp only [Option.getD_some] at hfl
      refine ⟨v, k1.sound, k1.wf, ?_, ?_, ?_⟩
      · refine List.Perm.trans ?_ (k1.pend.symm.cons v)
        refine (hfl.symm.append_right _).trans ?_
        simp only [openCavity]
        rw [List.perm_iff_count]
        intro x
        have := congrArg (List.count x) hlast
        simp only [List.count_append, List.count_cons, List.count_nil] at this ⊢
        omega
      · intro x
        constructor
        · intro hx
          rcases k1.only x (Or.inl hx) with h | ⟨u, hu, hux⟩ | h
          · exact Or.inl h
          · exact Or.inr ⟨u, (mem_del.1 hu).1, hux⟩
          · exact Or.inr (hkeys t l hmem x ((hend x).1 h))
        · rintro (rfl | hx)
          · exact hin
          · rcases k1.kept x (hopen x hx) with h | ⟨e, h, -⟩
            · exact h
            · simp at h
      · intro u k hu x hx
        have := k1.keys (fun u k hu x hx => hopen x (hkeys u k (CMap.mem_erase.1 hu).1 x hx)) u k hu x hx
        rcases this with h | ⟨e, h, -⟩
        · exact h
        · simp at h

/-- A constrained edge that is a side of the mesh or pending stays so. -/
theorem cavityStep_side {P : Preds V} {C : List (Edge V)} {v : V} {s : SolveState V} {e : Edge V}
    {B : List (Edge V)} {r : List (Edge V) × SolveState V} {S : V → Prop} (hsep : SepOn P.veq S)
    (hS : ∀ x, InMesh s.mesh x → S x) (hs : AdjSound s.mesh) (hr : cavityStep P C v e s = .ok r)
    {f : Edge V} (hf : Constrained C f) (h : f ∈ sides s.mesh.tris ∨ f ∈ e :: B) :
    f ∈ sides r.2.mesh.tris ∨ f ∈ r.1 ++ B := by
  unfold cavityStep at hr
  cases hadj : s.mesh.adj e.opposite with
  | none => rw [hadj] at hr; cases hr
  | some t =>
    rw [hadj] at hr
    simp only at hr
    rw [Res.bind_eq_ok] at hr
    obtain ⟨may, -, hr⟩ := hr
    obtain ⟨htm, hside⟩ := hs _ _ hadj
    by_cases hcond : (conflicting P t v && !(decide (e.opposite ∈ C) || decide (e ∈ C)) && may) = true
    · rw [if_pos hcond] at hr
      simp only [Res.ok.injEq] at hr
      subst hr
      simp only [Bool.and_eq_true, Bool.not_eq_true', Bool.or_eq_false_iff,
        decide_eq_false_iff_not] at hcond
      have hne : f ≠ e := by
        rintro rfl
        exact hf.elim hcond.1.2.1 hcond.1.2.2
      have hne' : f ≠ e.opposite := by
        rintro rfl
        exact hf.elim hcond.1.2.2 hcond.1.2.1
      rcases h with h | h
      · obtain ⟨u, hu, huf⟩ := mem_sides.1 h
        by_cases hut : u = t
        · subst hut
          right
          have hp := cavityPushes_perm hsep (fun x hx => hS x ⟨u, hu, hx⟩) hside
          have := hp.mem_iff.2 (mem_innerEdges.2 huf)
          rcases List.mem_cons.1 this with h | h
          · exact absurd h hne'
          · exact List.mem_append.2 (Or.inl h)
        · exact Or.inl (mem_sides.2 ⟨u, mem_del.2 ⟨hu, hut⟩, huf⟩)
      · rcases List.mem_cons.1 h with h | h
        · exact absurd h hne
        · exact Or.inr (List.mem_append.2 (Or.inr h))
    · rw [if_neg hcond, Res.bind_eq_ok] at hr
      obtain ⟨q, hq, hr⟩ := hr
      simp only [Res.ok.injEq] at hr
      subst hr
      rcases h with h | h
      · obtain ⟨u, hu, huf⟩ := mem_sides.1 h
        exact Or.inl (mem_sides.2 ⟨u, mem_add.2 (Or.inr hu), huf⟩)
      · rcases List.mem_cons.1 h with rfl | h
        · exact Or.inl (mem_sides.2 ⟨_, mem_add.2 (Or.inl rfl), newTri_isSide.2 (Or.inl rfl)⟩)
        · exact Or.inr (by simpa using h)

theorem cavityLoop_side {P : Preds V} {C : List (Edge V)} {v : V} {n : Nat} {s s' : SolveState V}
    {B : List (Edge V)} {S : V → Prop} (hsep : SepOn P.veq S) (hv : S v)
    (hS : ∀ x, InMesh s.mesh x ∨ IsEnd B x → S x) (hs : AdjSound s.mesh) (hw : s.cmap.WF)
    (hr : cavityLoop P C v n B s = .ok s')
    {f : Edge V} (hf : Constrained C f) (h : f ∈ sides s.mesh.tris ∨ f ∈ B) :
    f ∈ sides s'.mesh.tris := by
  induction n generalizing s B with
  | zero =>
    cases B with
    | nil =>
      simp only [cavityLoop, Res.ok.injEq] at hr
      subst hr
      simpa using h
    | cons e B => simp [cavityLoop] at hr
  | succ n ih =>
    cases B with
    | nil =>
      simp only [cavityLoop, Res.ok.injEq] at hr
      subst hr
      simpa using h
    | cons e B =>
      rw [cavityLoop, Res.bind_eq_ok] at hr
      obtain ⟨r, hstep, hr⟩ := hr
      obtain ⟨k1, k2⟩ := cavityStep_loose (B := B) hs hw hstep
      refine ih ?_ k1.sound k1.wf hr
        (cavityStep_side hsep (fun x hx => hS x (Or.inl hx)) hs hstep hf h)
      intro x hx
      rcases k1.only x hx with rfl | h
      · exact hv
      · exact hS x h

theorem solveStep_side {P : Preds V} {C : List (Edge V)} {fuel : Nat} {σ : Sched}
    {s s' : SolveState V} {S : V → Prop} (hsep : SepOn P.veq S)
    (hS : ∀ x, InMesh s.mesh x → S x) (hp : ∀ x ∈ s.cmap.flat, S x) (hs : AdjSound s.mesh)
    (hw : s.cmap.WF) (hkeys : ∀ t l, (t, l) ∈ s.cmap → ∀ x, IsCorner t x → InMesh s.mesh x)
    (hr : solveStep P C fuel σ s = .ok s')
    {f : Edge V} (hf : Constrained C f) (h : f ∈ sides s.mesh.tris) : f ∈ sides s'.mesh.tris := by
  unfold solveStep at hr
  cases hc : choose σ s.cmap with
  | none => rw [hc] at hr; cases hr
  | some p =>
    obtain ⟨t, l⟩ := p
    rw [hc] at hr
    simp only at hr
    have hmem := choose_mem hc
    cases hvl : l.getLast? with
    | none => rw [hvl] at hr; cases hr
    | some v =>
      rw [hvl] at hr
      simp only at hr
      refine cavityLoop_side hsep (hp v ?_) ?_ (adjSound_del hs) (CMap.wf_erase hw t) hr hf ?_
      · exact List.mem_flatMap.2 ⟨(t, l), hmem, List.mem_of_getLast? hvl⟩
      · rintro x (⟨u, hu, hux⟩ | ⟨e, he, hx⟩)
        · exact hS x ⟨u, (mem_del.1 hu).1, hux⟩
        · refine hS x (hkeys t l hmem x ?_)
          simp only [openEdges, List.mem_cons, List.not_mem_nil, or_false] at he
          rcases he with rfl | rfl | rfl <;> rcases hx with rfl | rfl <;> simp [IsCorner]
      · obtain ⟨u, hu, huf⟩ := mem_sides.1 h
        by_cases hut : u = t
        · subst hut
          right
          cases f
          simp only [openEdges, List.mem_cons, List.not_mem_nil, or_false, Edge.mk.injEq]
          rcases huf with ⟨h1, h2⟩ | ⟨h1, h2⟩ | ⟨h1, h2⟩ <;> simp only at h1 h2 <;> simp [h1, h2]
        · exact Or.inl (mem_sides.2 ⟨u, mem_del.2 ⟨hu, hut⟩, huf⟩)

end anyMesh

/-! ## The outer loop -/

theorem Spec.Run.head {P : Preds V} {C : List (Edge V)} {fuel : Nat} {s s1 s2 : SolveState V} (σ : Sched)
    (hne : s.cmap ≠ []) (h : solveStep P C fuel σ s = .ok s1) (hr : Run P C fuel s1 s2) :
    Run P C fuel s s2 := by
  induction hr with
  | refl => exact Run.step σ (Run.refl s) hne h
  | step τ _ h1 h2 ih => exact Run.step τ ih h1 h2

theorem solveLoop_run {P : Preds V} {C : List (Edge V)} {fuel n : Nat} {σ : Sched}
    {s s' : SolveState V} (h : solveLoop P C fuel n σ s = .ok s') :
    Run P C fuel s s' ∧ s'.cmap = [] := by
  induction n generalizing σ s with
  | zero =>
    simp only [solveLoop] at h
    split_ifs at h with hc
    simp only [Res.ok.injEq] at h
    subst h
    exact ⟨Run.refl _, hc⟩
  | succ n ih =>
    rw [solveLoop] at h
    split_ifs at h with hc
    · simp only [Res.ok.injEq] at h
      subst h
      exact ⟨Run.refl _, hc⟩
    · rw [Res.bind_eq_ok] at h
      obtain ⟨s1, h1, h2⟩ := h
      obtain ⟨k1, k2⟩ := ih h2
      exact ⟨Run.head _ hc h1 k1, k2⟩

theorem include_run {P : Preds V} {C : List (Edge V)} {fuel : Nat} {σ : Sched} {m : Mesh V}
    {vs : List V} {r : SolveState V} (h : includeVertices P C fuel σ m vs = .ok r) :
    ∃ s0, startState P σ m vs = .ok s0 ∧ Run P C fuel s0 r ∧ r.cmap = [] := by
  unfold includeVertices at h
  rw [Res.bind_eq_ok] at h
  obtain ⟨q, hq, h⟩ := h
  refine ⟨⟨m, q.1, q.2, [], []⟩, ?_, solveLoop_run h⟩
  unfold startState
  rw [hq]; rfl

theorem mem_vertices {P : Preds V} {m : Mesh V} {x : V} :
    x ∈ m.vertices P.ghost ↔ InMesh m x ∧ P.ghost x = false := by
  simp [Mesh.vertices, InMesh, mem_corners]

theorem startState_spec {P : Preds V} {σ : Sched} {m : Mesh V} {vs : List V} {s0 : SolveState V}
    (h : startState P σ m vs = .ok s0) :
    s0.mesh = m ∧ s0.included = [] ∧ s0.removed = [] ∧ s0.cmap.WF ∧
      (s0.cmap.flat ++ s0.remaining).Perm (vs.filter fun v => !decide (v ∈ m.vertices P.ghost)) ∧
      (∀ t l, (t, l) ∈ s0.cmap → t ∈ m.tris ∧ ∀ w ∈ l, P.inside t w = true ∧ P.mayInsert t w = .ok true) ∧
      (∀ w ∈ s0.remaining, ∀ t ∈ m.tris, ¬ (P.inside t w = true ∧ P.mayInsert t w = .ok true)) := by
  unfold startState at h
  rw [Res.bind_eq_ok] at h
  obtain ⟨q, hq, h⟩ := h
  simp only [Res.ok.injEq] at h
  subst h
  obtain ⟨k1, k2, k3, k4, k5⟩ := Props.C36_distribute P _ _ q.2 q.1 hq
  refine ⟨rfl, rfl, rfl, ⟨k3, fun p hp => (k4 p.1 p.2 hp).2.1⟩, k1, ?_, ?_⟩
  · intro t l ht
    exact ⟨mem_shuffle.1 (k4 t l ht).1, (k4 t l ht).2.2⟩
  · intro w hw t ht
    exact k5 w hw t (mem_shuffle.2 ht)

theorem start_legit {P : Preds V} {S : V → Prop} {σ : Sched} {m : Mesh V} {vs : List V}
    {s0 : SolveState V} (hs : AdjSound m) (hc : AdjComplete m) (hn : vs.Nodup)
    (hg : ∀ w ∈ vs, P.ghost w = false) (hm : ∀ x, InMesh m x → S x) (hvs : ∀ w ∈ vs, S w)
    (h : startState P σ m vs = .ok s0) : Legit P S s0 := by
  obtain ⟨k1, k2, k3, k4, k5, k6, -⟩ := startState_spec h
  have hmem : ∀ w ∈ s0.cmap.flat ++ s0.remaining, w ∈ vs ∧ ¬ InMesh m w := by
    intro w hw
    rw [k5.mem_iff, List.mem_filter] at hw
    refine ⟨hw.1, fun hin => ?_⟩
    simp only [Bool.not_eq_true', decide_eq_false_iff_not] at hw
    exact hw.2 (mem_vertices.2 ⟨hin, hg w hw.1⟩)
  refine ⟨k1 ▸ hs, fun _ => k1 ▸ hc, k4, fun t l ht => k1 ▸ (k6 t l ht).1,
    fun t l ht => (k6 t l ht).2, k5.nodup_iff.2 (hn.filter _), ?_, fun w hw => hvs w (hmem w hw).1, ?_,
    by simp [k2], by simp [k3]⟩
  · intro w hw t ht hx
    rw [k1] at ht
    exact (hmem w hw).2 ⟨t, ht, hx⟩
  · intro t ht x hx
    rw [k1] at ht
    exact hm x ⟨t, ht, hx⟩

/-- Any property kept by one insertion is kept by a run, provided every mesh passed through is simple. -/
theorem run_induct {P : Preds V} {C : List (Edge V)} {fuel : Nat} {S : V → Prop}
    (hsep : SepOn P.veq S) {s0 s' : SolveState V} (hl : Legit P S s0)
    (hsim : ∀ s1, Run P C fuel s0 s1 → s1.cmap ≠ [] → Simple s1.mesh.tris) (Q : SolveState V → Prop) (h0 : Q s0)
    (hstep : ∀ s1 v s2 L O R Z, Run P C fuel s0 s1 → Legit P S s1 → Simple s1.mesh.tris → Q s1 →
      v ∈ s1.cmap.flat → Inserts P C s1 v s2 L O R Z → Q s2)
    (hr : Run P C fuel s0 s') : Legit P S s' ∧ Q s' := by
  induction hr with
  | refl => exact ⟨hl, h0⟩
  | step σ hr hne h ih =>
    obtain ⟨l1, q1⟩ := ih
    obtain ⟨l2, v, L, O, R, Z, hv, hi⟩ := solveStep_inv hsep l1 (hsim _ hr hne) h
    exact ⟨l2, hstep _ v _ L O R Z hr l1 (hsim _ hr hne) q1 hv hi⟩

/-- Each insertion adds two triangles. -/
theorem Inserts.length {P : Preds V} {C : List (Edge V)} {s s' : SolveState V} {v : V}
    {L : List (Edge V)} {O R : List (Tri V)} {Z : List (Edge V)} (h : Inserts P C s v s' L O R Z) :
    s'.mesh.tris.length = s.mesh.tris.length + 2 := by
  have h1 := h.cav.now.length_eq
  have h2 := h.cav.old.length_eq
  have h3 := h.cav.bdry.length_eq
  have h4 : ∀ l : List (Tri V), (sides l).length = 3 * l.length := by
    intro l
    induction l with
    | nil => rfl
    | cons t l ih => rw [sides_cons, List.length_append, ih]; simp [Tri.innerEdges]; omega
  have h5 := h.cav.tree
  rw [h4] at h3
  simp only [List.length_append, List.length_map, List.length_nil] at h1 h2 h3
  omega

theorem Spec.Run.trans {P : Preds V} {C : List (Edge V)} {fuel : Nat} {s s1 s2 : SolveState V}
    (h : Run P C fuel s s1) (h' : Run P C fuel s1 s2) : Run P C fuel s s2 := by
  induction h' with
  | refl => exact h
  | step σ _ h1 h2 ih => exact Run.step σ ih h1 h2

/-- The outer loop finishes when there is enough fuel for the current mesh and pending vertices. -/
theorem solveLoop_total {P : Preds V} {C : List (Edge V)} {fuel : Nat} {S : V → Prop}
    (hsep : SepOn P.veq S) (hmay : ∀ t w, P.mayInsert t w ≠ .diverged) {n : Nat} {σ : Sched}
    {s : SolveState V} (hl : Legit P S s)
    (hsim : ∀ s1, Run P C fuel s s1 → s1.cmap ≠ [] → Simple s1.mesh.tris)
    (hf : 2 * (s.mesh.tris.length + 2 * (s.cmap.flat ++ s.remaining).length) + 3 ≤ fuel)
    (hn : (s.cmap.flat ++ s.remaining).length ≤ n) :
    solveLoop P C fuel n σ s ≠ .diverged := by
  induction n generalizing σ s with
  | zero =>
    simp only [solveLoop]
    rw [if_pos]
    · simp
    · by_contra hne
      obtain ⟨p, hp⟩ := List.exists_mem_of_ne_nil _ hne
      have : s.cmap.flat = [] := by
        have : (s.cmap.flat ++ s.remaining) = [] := List.length_eq_zero_iff.1 (by omega)
        exact (List.append_eq_nil_iff.1 this).1
      have hne' := hl.wf.2 p hp
      obtain ⟨w, hw⟩ := List.exists_mem_of_ne_nil _ hne'
      have : w ∈ s.cmap.flat := List.mem_flatMap.2 ⟨p, hp, hw⟩
      simp_all
  | succ n ih =>
    rw [solveLoop]
    split_ifs with hc
    · simp
    · cases hst : solveStep P C fuel (σ.sub 0) s with
      | panic => simp
      | ok s1 =>
        simp only [Res.bind_ok]
        obtain ⟨l1, v, L, O, R, Z, hv, hi⟩ := solveStep_inv hsep hl (hsim s (Run.refl s) hc) hst
        have hlen := hi.length
        have hp := hi.pend.length_eq
        simp only [List.length_cons] at hp
        refine ih l1 (fun s2 h2 => hsim s2 (Run.head _ hc hst h2)) ?_ ?_
        · rw [hlen]; omega
        · omega
      | diverged =>
        exfalso
        unfold solveStep at hst
        cases hch : choose (σ.sub 0) s.cmap with
        | none => rw [hch] at hst; cases hst
        | some p =>
          obtain ⟨t, l⟩ := p
          rw [hch] at hst
          simp only at hst
          cases hvl : l.getLast? with
          | none => rw [hvl] at hst; cases hst
          | some v =>
            rw [hvl] at hst
            simp only at hst
            have hs0 := hsim s (Run.refl s) hc
            obtain ⟨hflat, hcav, W, hW, hbook⟩ := solveStep_open hl hs0 (choose_mem hch) hvl C
            refine cavityLoop_total hs0 (hl.pendF v (List.mem_append.2 (Or.inl hflat))) hsep hl.meshS hmay
              hcav hbook ?_ hst
            have : (s.mesh.tris.erase t).length ≤ s.mesh.tris.length := List.length_erase_le
            simp only [openEdges, List.length_cons, List.length_nil]
            omega

end Verif
