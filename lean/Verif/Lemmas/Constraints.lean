import Verif.Lemmas.Refine

/-!
# Constrained edges during the refinement
-/

set_option linter.unusedSectionVars false

namespace Verif

open Spec

variable {V : Type*} [DecidableEq V]

/-- What the steps of an insertion write down about triangles: those that left the mesh are in `removed`, and the
corners of those noted in `included` and `removed` are vertices of the mesh. -/
structure Ledger (s : SolveState V) (s' : SolveState V) (B' : List (Edge V)) : Prop where
  left : ∀ t ∈ s.mesh.tris, t ∈ s'.mesh.tris ∨ t ∈ s'.removed
  grows : ∀ t ∈ s.removed, t ∈ s'.removed
  inc : ∀ t ∈ s'.included, t ∈ s.included ∨ ∀ x, IsCorner t x → InMesh s'.mesh x ∨ IsEnd B' x
  rem : ∀ t ∈ s'.removed, t ∈ s.removed ∨ ∀ x, IsCorner t x → InMesh s'.mesh x ∨ IsEnd B' x

theorem Ledger.trans {P : Preds V} {C : List (Edge V)} {v : V} {s1 s2 s3 : SolveState V} {B2 B3 : List (Edge V)}
    (h : Ledger s1 s2 B2) (h' : Ledger s2 s3 B3) (hl : Loose P C v s2 B2 s3 B3) : Ledger s1 s3 B3 := by
  refine ⟨fun t ht => ?_, fun t ht => h'.grows t (h.grows t ht), fun t ht => ?_, fun t ht => ?_⟩
  · rcases h.left t ht with k | k
    · exact h'.left t k
    · exact Or.inr (h'.grows t k)
  · rcases h'.inc t ht with k | k
    · exact (h.inc t k).imp_right fun j x hx => hl.kept x (j x hx)
    · exact Or.inr k
  · rcases h'.rem t ht with k | k
    · exact (h.rem t k).imp_right fun j x hx => hl.kept x (j x hx)
    · exact Or.inr k

theorem cavityStep_ledger {P : Preds V} {C : List (Edge V)} {v : V} {s : SolveState V} {e : Edge V}
    {B : List (Edge V)} {r : List (Edge V) × SolveState V} (hs : AdjSound s.mesh) (hw : s.cmap.WF)
    (hr : cavityStep P C v e s = .ok r) : Ledger s r.2 (r.1 ++ B) := by
  have hl := (cavityStep_loose (B := B) hs hw hr).1
  unfold cavityStep at hr
  cases hadj : s.mesh.adj e.opposite with
  | none => rw [hadj] at hr; cases hr
  | some t =>
    rw [hadj] at hr
    simp only at hr
    rw [Res.bind_eq_ok] at hr
    obtain ⟨may, -, hr⟩ := hr
    obtain ⟨htm, hside⟩ := hs _ _ hadj
    by_cases hcond : (conflicting P t v && !(decide (e.opposite ∈ C) || decide (e ∈ C)) && may) = true
    · rw [if_pos hcond] at hr
      simp only [Res.ok.injEq] at hr
      subst hr
      refine ⟨fun u hu => ?_, fun u hu => mem_setInsert.2 (Or.inr hu), fun u hu => Or.inl hu, fun u hu => ?_⟩
      · by_cases hut : u = t
        · exact Or.inr (mem_setInsert.2 (Or.inl hut))
        · exact Or.inl (mem_del.2 ⟨hu, hut⟩)
      · rcases mem_setInsert.1 hu with rfl | hu
        · exact Or.inr fun x hx => hl.kept x (Or.inl ⟨u, htm, hx⟩)
        · exact Or.inl hu
    · rw [if_neg hcond, Res.bind_eq_ok] at hr
      obtain ⟨q, hq, hr⟩ := hr
      simp only [Res.ok.injEq] at hr
      subst hr
      refine ⟨fun u hu => Or.inl (mem_add.2 (Or.inr hu)), fun u hu => hu, fun u hu => ?_, fun u hu => Or.inl hu⟩
      rcases mem_setInsert.1 hu with rfl | hu
      · exact Or.inr fun x hx => Or.inl ⟨_, mem_add.2 (Or.inl rfl), hx⟩
      · exact Or.inl hu

theorem ledger_refl (s : SolveState V) (B : List (Edge V)) : Ledger s s B :=
  ⟨fun _ h => Or.inl h, fun _ h => h, fun _ h => Or.inl h, fun _ h => Or.inl h⟩

theorem cavityLoop_ledger {P : Preds V} {C : List (Edge V)} {v : V} {n : Nat} {s s' : SolveState V}
    {B : List (Edge V)} (hs : AdjSound s.mesh) (hw : s.cmap.WF)
    (hr : cavityLoop P C v n B s = .ok s') : Ledger s s' [] := by
  induction n generalizing s B with
  | zero =>
    cases B with
    | nil => simp only [cavityLoop, Res.ok.injEq] at hr; subst hr; exact ledger_refl _ _
    | cons e B => simp [cavityLoop] at hr
  | succ n ih =>
    cases B with
    | nil => simp only [cavityLoop, Res.ok.injEq] at hr; subst hr; exact ledger_refl _ _
    | cons e B =>
      rw [cavityLoop, Res.bind_eq_ok] at hr
      obtain ⟨r, hstep, hr⟩ := hr
      have k1 := (cavityStep_loose (B := B) hs hw hstep).1
      exact (cavityStep_ledger (B := B) hs hw hstep).trans (ih k1.sound k1.wf hr)
        (cavityLoop_loose k1.sound k1.wf hr).1

theorem not_isEnd_nil {x : V} : ¬ IsEnd ([] : List (Edge V)) x := by rintro ⟨e, h, -⟩; simp at h

theorem solveStep_ledger {P : Preds V} {C : List (Edge V)} {fuel : Nat} {σ : Sched}
    {s s' : SolveState V} (hs : AdjSound s.mesh) (hw : s.cmap.WF)
    (hkeys : ∀ t l, (t, l) ∈ s.cmap → ∀ x, IsCorner t x → InMesh s.mesh x)
    (hr : solveStep P C fuel σ s = .ok s') : Ledger s s' [] := by
  obtain ⟨w, -, -, -, hin, -⟩ := solveStep_loose hs hw hkeys hr
  unfold solveStep at hr
  cases hc : choose σ s.cmap with
  | none => rw [hc] at hr; cases hr
  | some p =>
    obtain ⟨t, l⟩ := p
    rw [hc] at hr
    simp only at hr
    have hmem := choose_mem hc
    cases hvl : l.getLast? with
    | none => rw [hvl] at hr; cases hr
    | some v =>
      rw [hvl] at hr
      simp only at hr
      have k := cavityLoop_ledger (s := openCavity t l s) (adjSound_del hs) (CMap.wf_erase hw t) hr
      refine ⟨fun u hu => ?_, fun u hu => k.grows u (mem_setInsert.2 (Or.inr hu)), fun u hu => k.inc u hu,
        fun u hu => ?_⟩
      · by_cases hut : u = t
        · exact Or.inr (k.grows u (mem_setInsert.2 (Or.inl hut)))
        · exact k.left u (mem_del.2 ⟨hu, hut⟩)
      · rcases k.rem u hu with j | j
        · rcases mem_setInsert.1 j with rfl | j
          · exact Or.inr fun x hx => Or.inl ((hin x).2 (Or.inr (hkeys u l hmem x hx)))
          · exact Or.inl j
        · exact Or.inr j

/-- A whole insertion: vertices, ledger and constrained sides, when vertex comparison is exact on `D`. -/
theorem run_keep {P : Preds V} {C : List (Edge V)} {fuel : Nat} {D : V → Prop} (hd : SepOn P.veq D)
    {s0 s' : SolveState V} (hs : AdjSound s0.mesh) (hw : s0.cmap.WF)
    (hkeys : ∀ t l, (t, l) ∈ s0.cmap → ∀ x, IsCorner t x → InMesh s0.mesh x)
    (hD : ∀ x, InMesh s0.mesh x ∨ x ∈ s0.cmap.flat ++ s0.remaining → D x) (hr : Run P C fuel s0 s') :
    (AdjSound s'.mesh ∧ s'.cmap.WF ∧ ∀ t l, (t, l) ∈ s'.cmap → ∀ x, IsCorner t x → InMesh s'.mesh x) ∧
      (∀ x, InMesh s0.mesh x → InMesh s'.mesh x) ∧
      (∀ x, InMesh s'.mesh x ∨ x ∈ s'.cmap.flat ++ s'.remaining → D x) ∧
      Ledger s0 s' [] ∧ ∀ f, Constrained C f → f ∈ sides s0.mesh.tris → f ∈ sides s'.mesh.tris := by
  induction hr with
  | refl => exact ⟨⟨hs, hw, hkeys⟩, fun _ h => h, hD, ledger_refl _ _, fun _ _ h => h⟩
  | @step s1 s2 σ _ _ h2 ih =>
    obtain ⟨⟨a1, a2, a3⟩, a4, a5, a6, a7⟩ := ih
    obtain ⟨v, b1, b2, b3, b4, b5⟩ := solveStep_loose a1 a2 a3 h2
    have hl := solveStep_ledger a1 a2 a3 h2
    refine ⟨⟨b1, b2, b5⟩, fun x hx => (b4 x).2 (Or.inr (a4 x hx)), ?_, ?_, ?_⟩
    · rintro x (hx | hx)
      · rcases (b4 x).1 hx with rfl | hx
        · exact a5 _ (Or.inr (b3.mem_iff.2 List.mem_cons_self))
        · exact a5 x (Or.inl hx)
      · exact a5 x (Or.inr (b3.mem_iff.2 (List.mem_cons_of_mem _ hx)))
    · refine ⟨fun t ht => ?_, fun t ht => hl.grows t (a6.grows t ht), fun t ht => ?_, fun t ht => ?_⟩
      · rcases a6.left t ht with k | k
        · exact hl.left t k
        · exact Or.inr (hl.grows t k)
      · rcases hl.inc t ht with k | k
        · exact (a6.inc t k).imp_right fun j x hx =>
            Or.inl ((b4 x).2 (Or.inr ((j x hx).resolve_right not_isEnd_nil)))
        · exact Or.inr k
      · rcases hl.rem t ht with k | k
        · exact (a6.rem t k).imp_right fun j x hx =>
            Or.inl ((b4 x).2 (Or.inr ((j x hx).resolve_right not_isEnd_nil)))
        · exact Or.inr k
    · intro f hf h
      exact solveStep_side hd (fun x hx => a5 x (Or.inl hx))
        (fun x hx => a5 x (Or.inr (List.mem_append.2 (Or.inl hx)))) a1 a2 a3 h2 hf (a7 f hf h)

/-- What a mesh edit keeps: soundness, vertices in `D`, the old vertices and the sides satisfying `Q`. -/
structure Keeps (D : V → Prop) (Q : Edge V → Prop) (m m' : Mesh V) : Prop where
  sound : AdjSound m'
  dom : ∀ x, InMesh m' x → D x
  verts : ∀ x, InMesh m x → InMesh m' x
  sides : ∀ f, Q f → f ∈ sides m.tris → f ∈ sides m'.tris

theorem Keeps.trans {D : V → Prop} {Q : Edge V → Prop} {m1 m2 m3 : Mesh V} (h : Keeps D Q m1 m2) (h' : Keeps D Q m2 m3) :
    Keeps D Q m1 m3 :=
  ⟨h'.sound, h'.dom, fun x hx => h'.verts x (h.verts x hx), fun f hf hx => h'.sides f hf (h.sides f hf hx)⟩

theorem keeps_refl {D : V → Prop} {Q : Edge V → Prop} {m : Mesh V} (hs : AdjSound m) (hD : ∀ x, InMesh m x → D x) :
    Keeps D Q m m := ⟨hs, hD, fun _ h => h, fun _ _ h => h⟩

theorem include_keep {P : Preds V} {C : List (Edge V)} {fuel : Nat} {σ : Sched} {D : V → Prop} (hd : SepOn P.veq D)
    {m : Mesh V} {vs : List V} {r : SolveState V} (hs : AdjSound m) (hD : ∀ x, InMesh m x → D x)
    (hvs : ∀ x ∈ vs, D x) (h : includeVertices P C fuel σ m vs = .ok r) :
    Keeps D (Constrained C) m r.mesh ∧ ∀ t ∈ r.included, ∀ x, IsCorner t x → InMesh r.mesh x := by
  obtain ⟨s0, h0, hr, -⟩ := include_run h
  obtain ⟨k1, k2, -, k4, k5, k6, -⟩ := startState_spec h0
  obtain ⟨⟨a1, -, -⟩, a2, a3, a4, a5⟩ := run_keep hd (k1 ▸ hs) k4
    (fun t l ht x hx => ⟨t, k1 ▸ (k6 t l ht).1, hx⟩) (by
      rintro x (hx | hx)
      · exact hD x (k1 ▸ hx)
      · rw [k5.mem_iff] at hx
        exact hvs x (List.mem_of_mem_filter hx)) hr
  rw [k1] at a2 a5
  refine ⟨⟨a1, fun x hx => a3 x (Or.inl hx), a2, a5⟩, fun t ht x hx => ?_⟩
  rcases a4.inc t ht with k | k
  · rw [k2] at k; cases k
  · exact (k x hx).resolve_right not_isEnd_nil

/-- Both ends of the edge are in `D`. -/
def Ends (D : V → Prop) (e : Edge V) : Prop := D e.v1 ∧ D e.v2

theorem ends_of_sides {D : V → Prop} {m : Mesh V} (hD : ∀ x, InMesh m x → D x) {f : Edge V} (h : f ∈ sides m.tris) :
    Ends D f := by
  obtain ⟨t, ht, hf⟩ := mem_sides.1 h
  have := isCorner_of_isSide hf
  exact ⟨hD _ ⟨t, ht, this.1⟩, hD _ ⟨t, ht, this.2⟩⟩

/-- The edge is encroached, in neither direction, by a vertex satisfying `E`. -/
def Clear (P : RPreds V) (E : V → Prop) (f : Edge V) : Prop :=
  ∀ v, E v → P.encroaches f v = false ∧ P.encroaches f.opposite v = false

theorem Clear.ne {P : RPreds V} {E : V → Prop} {e f : Edge V} (hf : Clear P E f)
    (he : ∃ v, E v ∧ P.encroaches e v = true) : f ≠ e ∧ f ≠ e.opposite := by
  obtain ⟨v, hv, h⟩ := he
  constructor
  · rintro rfl
    rw [(hf v hv).1] at h; cases h
  · rintro rfl
    have := (hf v hv).2
    rw [opposite_opposite] at this
    rw [this] at h; cases h

/-- The constrained edges that a splitting leaves alone. -/
def Spared (P : RPreds V) (D E : V → Prop) (C : List (Edge V)) (f : Edge V) : Prop :=
  Constrained C f ∧ Clear P E f ∧ Ends D f

theorem splitSegment_keep {P : RPreds V} {C : List (Edge V)} {fuel : Nat} {σ : Sched} {D E : V → Prop}
    (hd : SepOn P.veq D) (hmid : ∀ e, D (P.mid e)) {m : Mesh V} {e : Edge V} {r : SolveState V} (hs : AdjSound m)
    (hD : ∀ x, InMesh m x → D x) (he : Ends D e) (hE : ∃ v, E v ∧ P.encroaches e v = true)
    (h : splitSegment P fuel σ C m e = .ok r) :
    Keeps D (Spared P D E C) m r.mesh ∧ ∀ t ∈ r.included, ∀ x, IsCorner t x → InMesh r.mesh x := by
  obtain ⟨k, k'⟩ := include_keep hd hs hD (by simpa using hmid e) h
  refine ⟨⟨k.sound, k.dom, k.verts, fun f hf hm => k.sides f ?_ hm⟩, k'⟩
  obtain ⟨hc, hcl, hef⟩ := hf
  obtain ⟨n1, n2⟩ := hcl.ne hE
  have aux : ∀ g : Edge V, Ends D g → g ≠ e → g ≠ e.opposite → g ∈ C →
      g ∈ C.filter fun e' => !Edge.eqv P.veq e' e && !Edge.eqv P.veq e' e.opposite := by
    intro g hg h1 h2 hgC
    rw [List.mem_filter]
    refine ⟨hgC, ?_⟩
    rw [Bool.and_eq_true, Bool.not_eq_true', Bool.not_eq_true', ← Bool.not_eq_true, ← Bool.not_eq_true]
    unfold Edge.eqv
    rw [Bool.and_eq_true, Bool.and_eq_true, hd _ _ hg.1 he.1, hd _ _ hg.2 he.2,
      hd _ _ hg.1 (show D e.opposite.v1 from he.2), hd _ _ hg.2 (show D e.opposite.v2 from he.1)]
    constructor
    · rintro ⟨a, b⟩
      apply h1
      cases g; cases e; simp_all
    · rintro ⟨a, b⟩
      apply h2
      cases g; cases e; simp_all [Edge.opposite]
  rcases hc with hc | hc
  · refine Or.inl (aux _ ⟨hef.2, hef.1⟩ (fun h => n2 ?_) (fun h => n1 ?_) hc)
    · rw [← h, opposite_opposite]
    · have := congrArg Edge.opposite h
      simpa [opposite_opposite] using this
  · exact Or.inr (aux _ hef n1 n2 hc)

/-- The state of `unencroach_segment`, for edges that stay. -/
structure UKeep (P : RPreds V) (D E : V → Prop) (C : List (Edge V)) (m : Mesh V) (s : UnencState V) : Prop where
  keeps : Keeps D (Spared P D E C) m s.mesh
  verts : ∀ v ∈ s.vertices, E v
  inc : ∀ t ∈ s.included, ∀ x, IsCorner t x → InMesh s.mesh x
  ends : ∀ e ∈ s.newEdges, Ends D e

theorem unencStep_keep {P : RPreds V} {C : List (Edge V)} {fuel : Nat} {σ : Sched} {D E : V → Prop}
    (hd : SepOn P.veq D) (hmid : ∀ e, D (P.mid e)) {m : Mesh V} {e : Edge V} {s : UnencState V}
    {r : List (Edge V) × UnencState V} (h : UKeep P D E C m s) (he : Ends D e)
    (hE : ∃ v, E v ∧ P.encroaches e v = true) (hr : unencStep P fuel σ C e s = .ok r) :
    UKeep P D E C m r.2 ∧ ∀ g ∈ r.1, Ends D g ∧ ∃ v, E v ∧ P.encroaches g v = true := by
  unfold unencStep at hr
  rw [Res.bind_eq_ok] at hr
  obtain ⟨st, hst, hr⟩ := hr
  injection hr with hr
  subst hr
  obtain ⟨k, k'⟩ := splitSegment_keep hd hmid h.keeps.sound h.keeps.dom he hE hst
  have e1 : Ends D ⟨e.v1, P.mid e⟩ := ⟨he.1, hmid e⟩
  have e2 : Ends D ⟨P.mid e, e.v2⟩ := ⟨hmid e, he.2⟩
  refine ⟨⟨h.keeps.trans k, fun v hv => h.verts v (List.mem_of_mem_filter hv), ?_, ?_⟩, ?_⟩
  · intro t ht x hx
    rw [mem_toSet, List.mem_filter, List.mem_append] at ht
    rcases ht.1 with ht | ht
    · exact k.verts x (h.inc t ht x hx)
    · exact k' t ht x hx
  · intro g hg
    simp only at hg
    split_ifs at hg
    · exact h.ends g hg
    · rcases mem_setInsert.1 hg with rfl | hg
      · exact e1
      · exact h.ends g hg
    · rcases mem_setInsert.1 hg with rfl | hg
      · exact e2
      · exact h.ends g hg
    · rcases mem_setInsert.1 hg with rfl | hg
      · exact e2
      · rcases mem_setInsert.1 hg with rfl | hg
        · exact e1
        · exact h.ends g hg
  · intro g hg
    simp only [List.mem_append] at hg
    rcases hg with hg | hg
    · split_ifs at hg with hb
      · rw [List.mem_singleton.1 hg]
        obtain ⟨v, hv, hv'⟩ := List.any_eq_true.1 hb
        exact ⟨e2, v, h.verts v hv, hv'⟩
      · cases hg
    · split_ifs at hg with hb
      · rw [List.mem_singleton.1 hg]
        obtain ⟨v, hv, hv'⟩ := List.any_eq_true.1 hb
        exact ⟨e1, v, h.verts v hv, hv'⟩
      · cases hg

theorem unencLoop_keep {P : RPreds V} {C : List (Edge V)} {fuel : Nat} {D E : V → Prop}
    (hd : SepOn P.veq D) (hmid : ∀ e, D (P.mid e)) {m : Mesh V} {n : Nat} :
    ∀ {σ : Sched} {stack : List (Edge V)} {s s' : UnencState V}, UKeep P D E C m s →
      (∀ g ∈ stack, Ends D g ∧ ∃ v, E v ∧ P.encroaches g v = true) →
      unencLoop P C fuel n σ stack s = .ok s' → UKeep P D E C m s' := by
  induction n with
  | zero =>
    intro σ stack s s' h _ hr
    cases stack with
    | nil => rw [unencLoop] at hr; injection hr with hr; subst hr; exact h
    | cons e stack => rw [unencLoop] at hr; cases hr
  | succ n ih =>
    intro σ stack s s' h hst hr
    cases stack with
    | nil => rw [unencLoop] at hr; injection hr with hr; subst hr; exact h
    | cons e stack =>
      rw [unencLoop, Res.bind_eq_ok] at hr
      obtain ⟨r, hstep, hr⟩ := hr
      obtain ⟨j1, j2⟩ := hst e List.mem_cons_self
      obtain ⟨k1, k2⟩ := unencStep_keep hd hmid h j1 j2 hstep
      refine ih k1 (fun g hg => ?_) hr
      rcases List.mem_append.1 hg with hg | hg
      · exact k2 g hg
      · exact hst g (List.mem_cons_of_mem _ hg)

theorem unencroachSegment_keep {P : RPreds V} {C : List (Edge V)} {fuel : Nat} {σ : Sched} {D E : V → Prop}
    (hd : SepOn P.veq D) (hmid : ∀ e, D (P.mid e)) {m : Mesh V} {e : Edge V} {vs : List V} {s : UnencState V}
    (hs : AdjSound m) (hD : ∀ x, InMesh m x → D x) (he : Ends D e) (hE : ∃ v, E v ∧ P.encroaches e v = true)
    (hvs : ∀ v ∈ vs, E v) (h : unencroachSegment P fuel σ C m e vs = .ok s) : UKeep P D E C m s :=
  unencLoop_keep hd hmid ⟨keeps_refl hs hD, hvs, by simp, by simp⟩ (by
    intro g hg
    rw [List.mem_singleton.1 hg]
    exact ⟨he, hE⟩) h

theorem mem_foldl_mapInsert {α β : Type*} [DecidableEq α] (l : List α) (b : β) (s : List (α × β)) (q : α × β) :
    q ∈ l.foldl (fun s h => mapInsert h b s) s → q ∈ s ∨ (q.1 ∈ l ∧ q.2 = b) := by
  induction l generalizing s with
  | nil => exact Or.inl
  | cons a l ih =>
    intro h
    rcases ih _ h with h | ⟨h, h'⟩
    · unfold mapInsert at h
      rcases List.mem_cons.1 h with rfl | h
      · exact Or.inr ⟨List.mem_cons_self, rfl⟩
      · exact Or.inl (List.mem_of_mem_filter h)
    · exact Or.inr ⟨List.mem_cons_of_mem _ h, h'⟩

theorem unencroachLoop_keep {P : RPreds V} {C : List (Edge V)} {fuel : Nat} {D E : V → Prop}
    (hd : SepOn P.veq D) (hmid : ∀ e, D (P.mid e)) {n : Nat} :
    ∀ {σ : Sched} {m : Mesh V} {cs : List (Edge V × List V)} {split : List (Edge V × Edge V)}
      {r : Mesh V × List (Edge V × Edge V)}, AdjSound m → (∀ x, InMesh m x → D x) →
      (∀ p ∈ cs, Ends D p.1 ∧ (∃ v, E v ∧ P.encroaches p.1 v = true) ∧ ∀ v ∈ p.2, E v) →
      (∀ q ∈ split, Ends D q.1 ∧ ∃ v, E v ∧ P.encroaches q.2 v = true) →
      unencroachLoop P C fuel n σ m cs split = .ok r →
      Keeps D (Spared P D E C) m r.1 ∧ ∀ q ∈ r.2, Ends D q.1 ∧ ∃ v, E v ∧ P.encroaches q.2 v = true := by
  induction n with
  | zero =>
    intro σ m cs split r hs hD _ hsp h
    cases cs with
    | nil => rw [unencroachLoop] at h; injection h with h; subst h; exact ⟨keeps_refl hs hD, hsp⟩
    | cons c cs => rw [unencroachLoop] at h; cases h
  | succ n ih =>
    intro σ m cs split r hs hD hcs hsp h
    cases cs with
    | nil => rw [unencroachLoop] at h; injection h with h; subst h; exact ⟨keeps_refl hs hD, hsp⟩
    | cons c cs =>
      rw [unencroachLoop] at h
      cases hc : choose (σ.sub 0) (c :: cs) with
      | none => rw [hc] at h; cases h
      | some p =>
        obtain ⟨e, vs⟩ := p
        rw [hc] at h
        simp only at h
        rw [Res.bind_eq_ok] at h
        obtain ⟨u, hu, h⟩ := h
        obtain ⟨j1, j2, j3⟩ := hcs _ (choose_mem hc)
        have k := unencroachSegment_keep hd hmid hs hD j1 j2 j3 hu
        obtain ⟨q1, q2⟩ := ih k.keeps.sound k.keeps.dom (fun p hp => hcs p (List.mem_of_mem_filter hp)) (by
          intro q hq
          rcases mem_foldl_mapInsert _ _ _ _ hq with hq | ⟨hq, hq'⟩
          · exact hsp q hq
          · exact ⟨k.ends _ hq, hq' ▸ j2⟩) h
        exact ⟨k.keeps.trans q1, q2⟩

theorem unencroach_keep {P : RPreds V} {C : List (Edge V)} {fuel : Nat} {σ : Sched} {D E : V → Prop}
    (hd : SepOn P.veq D) (hmid : ∀ e, D (P.mid e)) {m : Mesh V} {r : Mesh V × List (Edge V × Edge V)}
    (hs : AdjSound m) (hD : ∀ x, InMesh m x → D x) (hC : ∀ e ∈ C, Ends D e) (hE : ∀ x, InMesh m x → E x)
    (h : unencroach P fuel σ C m = .ok r) :
    Keeps D (Spared P D E C) m r.1 ∧ ∀ q ∈ r.2, Ends D q.1 ∧ ∃ v, E v ∧ P.encroaches q.2 v = true := by
  refine unencroachLoop_keep hd hmid hs hD (fun p hp => ?_) (by simp) h
  unfold distributeEncroachments at hp
  rw [List.mem_filter, List.mem_map] at hp
  obtain ⟨⟨e, he, rfl⟩, hne⟩ := hp
  simp only [Bool.not_eq_true', decide_eq_false_iff_not] at hne
  obtain ⟨v, hv⟩ := List.exists_mem_of_ne_nil _ hne
  have aux : ∀ v ∈ (m.vertices P.ghost).filter (fun v => P.encroaches e v), E v ∧ P.encroaches e v = true := by
    intro v hv
    rw [List.mem_filter] at hv
    exact ⟨hE v (mem_vertices.1 hv.1).1, hv.2⟩
  exact ⟨hC e he, ⟨v, aux v hv⟩, fun v hv => (aux v hv).1⟩

/-- The insertion of a circumcentre that was not a vertex of the mesh. -/
theorem tryCircumcenter_keep {P : RPreds V} {C : List (Edge V)} {fuel : Nat} {σ : Sched} {D : V → Prop}
    (hP : ∀ t x, NoGhost P.ghost t → IsCorner t x → P.inside t x = false)
    (hd : SepOn P.veq D) {m : Mesh V} {t : Tri V} {o : TryRes V} (hs : AdjSound m) (hD : ∀ x, InMesh m x → D x)
    (ht : ∀ x, IsCorner t x → InMesh m x) (hc : ∀ c, P.circumcenter t = some c → D c ∧ ¬ InMesh m c)
    (h : tryCircumcenter P fuel σ C m t = .ok o) :
    match o with
    | .inserted m' I _ => Keeps D (Constrained C) m m' ∧ ∀ t ∈ I, ∀ x, IsCorner t x → InMesh m' x
    | .rejected m' _ => Keeps D (fun _ => True) m m' := by
  unfold tryCircumcenter at h
  rw [Res.bind_eq_ok] at h
  obtain ⟨c, hcc, h⟩ := h
  rw [Res.unwrap_eq_ok] at hcc
  obtain ⟨hDc, hfresh⟩ := hc c hcc
  rw [Res.bind_eq_ok] at h
  obtain ⟨d, hdist, h⟩ := h
  rw [Res.bind_eq_ok] at h
  obtain ⟨s, hsol, h⟩ := h
  rw [Res.bind_eq_ok] at h
  obtain ⟨enc, -, h⟩ := h
  have hdl : distributeOverLoop P.toPreds m fuel [t] [t] [] [c] = .ok d := hdist
  obtain ⟨k1, k2, k3⟩ := distributeOverLoop_gen hs (M := fun u => u ∈ m.tris ∨ u = t) (fun _ => Or.inl)
    (by simp) CMap.wf_nil (by simp) hdl
  have hpend : ∀ w ∈ d.1.flat ++ [], w = c := by
    intro w hw
    rw [List.append_nil] at hw
    have := k2.mem_iff.1 (List.mem_append_left d.2 hw)
    simpa [CMap.flat] using this
  have hrun := (solveLoop_run (show solveLoop P.toPreds C fuel fuel (σ.sub 1) ⟨m, d.1, [], [], []⟩ = .ok s from hsol)).1
  have htrack : Track P.toPreds (· = t) c m ⟨m, d.1, [], [], []⟩ :=
    ⟨hs, k1, hpend, fun u l hu => ⟨(k3 u l hu).1, fun w hw => ((k3 u l hu).2 w hw).1⟩,
      fun u hu => Or.inl hu, by simp, by simp⟩
  have htr := run_track hP htrack hrun
  obtain ⟨⟨a1, -, -⟩, a2, a3, a4, a5⟩ := run_keep hd (s0 := ⟨m, d.1, [], [], []⟩) hs k1 (by
      intro u l hu x hx
      rcases (k3 u l hu).1 with k | rfl
      · exact ⟨u, k, hx⟩
      · exact ht x hx) (by
      rintro x (hx | hx)
      · exact hD x hx
      · rw [hpend x hx]; exact hDc) hrun
  have hinc : ∀ u ∈ s.included, ∀ x, IsCorner u x → InMesh s.mesh x := by
    intro u hu x hx
    rcases a4.inc u hu with k | k
    · cases k
    · exact (k x hx).resolve_right not_isEnd_nil
  have hrem : ∀ u ∈ s.removed, ∀ x, IsCorner u x → InMesh s.mesh x := by
    intro u hu x hx
    rcases a4.rem u hu with k | k
    · cases k
    · exact (k x hx).resolve_right not_isEnd_nil
  split_ifs at h
  · injection h with h
    subst h
    exact ⟨⟨a1, fun x hx => a3 x (Or.inl hx), a2, a5⟩, hinc⟩
  · injection h with h
    subst h
    obtain ⟨b1, b2⟩ := mem_foldl_del (shuffle (σ.sub 2) s.included) s.mesh a1
    obtain ⟨c1, c2⟩ := mem_foldl_add (shuffle (σ.sub 3) s.removed) _ b1
    have hsub : ∀ u ∈ m.tris, u ∈ (rollback s.mesh (shuffle (σ.sub 2) s.included) (shuffle (σ.sub 3) s.removed)).tris := by
      intro u hu
      refine (c2 u).2 ?_
      rcases a4.left u hu with k | k
      · refine Or.inl ((b2 u).2 ⟨k, fun hk => hfresh ⟨u, hu, htr.inc u (mem_shuffle.1 hk)⟩⟩)
      · exact Or.inr (mem_shuffle.2 k)
    refine ⟨c1, ?_, ?_, ?_⟩
    · rintro x ⟨u, hu, hx⟩
      rcases (c2 u).1 hu with k | k
      · exact a3 x (Or.inl ⟨u, ((b2 u).1 k).1, hx⟩)
      · exact a3 x (Or.inl (hrem u (mem_shuffle.1 k) x hx))
    · rintro x ⟨u, hu, hx⟩
      exact ⟨u, hsub u hu, hx⟩
    · intro f _ hf
      obtain ⟨u, hu, hx⟩ := mem_sides.1 hf
      exact mem_sides.2 ⟨u, hsub u hu, hx⟩

/-- The state of `split_irregular`, for a constrained edge `f` that stays. -/
structure SKeep (P : RPreds V) (D : V → Prop) (f : Edge V) (s : SplitState V) : Prop where
  sound : AdjSound s.mesh
  dom : ∀ x, InMesh s.mesh x → D x
  ends : ∀ e ∈ s.segments, Ends D e
  queue : ∀ t, t ∈ s.irregulars ∨ t ∈ s.larges → ∀ x, IsCorner t x → InMesh s.mesh x
  constrained : Constrained s.segments f
  side : f ∈ sides s.mesh.tris

theorem requeue_mem {P : RPreds V} {I R : List (Tri V)} {s : SplitState V} {t : Tri V}
    (h : t ∈ (requeue P I R s).irregulars ∨ t ∈ (requeue P I R s).larges) :
    (t ∈ s.irregulars ∨ t ∈ s.larges) ∨ t ∈ I := by
  have fold : ∀ (c : Tri V → Bool) (l acc : List (Tri V)),
      t ∈ l.foldl (fun a u => if c u then setInsert u a else a) acc → t ∈ acc ∨ t ∈ l := by
    intro c l
    induction l with
    | nil => intro acc h; exact Or.inl h
    | cons u l ih =>
      intro acc h
      rw [List.foldl_cons] at h
      rcases ih _ h with h | h
      · split_ifs at h
        · rcases mem_setInsert.1 h with rfl | h
          · exact Or.inr List.mem_cons_self
          · exact Or.inl h
        · exact Or.inl h
      · exact Or.inr (List.mem_cons_of_mem _ h)
  simp only [requeue] at h
  rcases h with h | h
  · rcases fold P.irregular _ _ (List.mem_of_mem_filter h) with h | h
    · exact Or.inl (Or.inl h)
    · exact Or.inr (List.mem_of_mem_filter h)
  · have h := List.mem_of_mem_filter h
    have e : (fun (l : List (Tri V)) t => if P.irregular t then l else if P.large t then setInsert t l else l) =
        fun l t => if (!P.irregular t && P.large t) then setInsert t l else l := by
      funext l t
      cases P.irregular t <;> cases P.large t <;> rfl
    rw [e] at h
    rcases fold (fun t => !P.irregular t && P.large t) _ _ h with h | h
    · exact Or.inl (Or.inr h)
    · exact Or.inr (List.mem_of_mem_filter h)

theorem splitEncroached_keep {P : RPreds V} {fuel : Nat} {D E : V → Prop} (hd : SepOn P.veq D)
    (hmid : ∀ e, D (P.mid e)) {f : Edge V} (hf : Clear P E f) {es : List (Edge V)} :
    ∀ {σ : Sched} {vs : List V} {s s' : SplitState V}, SKeep P D f s →
      (∀ e ∈ es, Ends D e ∧ ∃ v, E v ∧ P.encroaches e v = true) → (∀ v ∈ vs, E v) →
      splitEncroached P fuel σ es vs s = .ok s' → SKeep P D f s' := by
  induction es with
  | nil =>
    intro σ vs s s' h _ _ hr
    rw [splitEncroached] at hr
    injection hr with hr
    subst hr
    exact h
  | cons e es ih =>
    intro σ vs s s' h hes hvs hr
    rw [splitEncroached, Res.bind_eq_ok] at hr
    obtain ⟨r, hu, hr⟩ := hr
    obtain ⟨j1, j2⟩ := hes e List.mem_cons_self
    have k := unencroachSegment_keep (E := E) hd hmid h.sound h.dom j1 j2 hvs hu
    refine ih ⟨k.keeps.sound, k.keeps.dom, ?_, ?_, ?_, ?_⟩ (fun g hg => hes g (List.mem_cons_of_mem _ hg)) k.verts hr
    · intro g hg
      have hg' : g ∈ r.newEdges.foldl (fun l h => setInsert h l) (setErase e s.segments) := hg
      rcases (mem_foldl_setInsert _ _ _).1 hg' with hg' | hg'
      · exact k.ends g hg'
      · exact h.ends g (mem_setErase.1 hg').1
    · intro t ht x hx
      rcases requeue_mem ht with ht | ht
      · exact k.keeps.verts x (h.queue t ht x hx)
      · exact k.inc t ht x hx
    · obtain ⟨n1, n2⟩ := hf.ne j2
      show Constrained (r.newEdges.foldl (fun l h => setInsert h l) (setErase e s.segments)) f
      rcases h.constrained with hc | hc
      · refine Or.inl ((mem_foldl_setInsert _ _ _).2 (Or.inr (mem_setErase.2 ⟨hc, fun hh => n2 ?_⟩)))
        rw [← hh, opposite_opposite]
      · exact Or.inr ((mem_foldl_setInsert _ _ _).2 (Or.inr (mem_setErase.2 ⟨hc, n1⟩)))
    · exact k.keeps.sides f ⟨h.constrained, hf, ends_of_sides h.dom h.side⟩ h.side

theorem splitStep_keep {P : RPreds V} {fuel : Nat} {D E : V → Prop}
    (hP : ∀ t x, NoGhost P.ghost t → IsCorner t x → P.inside t x = false) (hd : SepOn P.veq D)
    (hmid : ∀ e, D (P.mid e)) {f : Edge V} (hf : Clear P E f) {σ : Sched} {t : Tri V} {s s' : SplitState V}
    (h : SKeep P D f s) (ht : ∀ x, IsCorner t x → InMesh s.mesh x)
    (hc : ∀ c, P.circumcenter t = some c → D c ∧ E c ∧ ¬ InMesh s.mesh c)
    (hr : splitStep P fuel σ t s = .ok s') : SKeep P D f s' := by
  unfold splitStep at hr
  rw [Res.bind_eq_ok] at hr
  obtain ⟨o, ho, hr⟩ := hr
  have k := tryCircumcenter_keep hP hd h.sound h.dom ht (fun c k => ⟨(hc c k).1, (hc c k).2.2⟩) ho
  cases o with
  | inserted m' I R =>
    simp only at k hr
    injection hr with hr
    subst hr
    refine ⟨k.1.sound, k.1.dom, h.ends, fun u hu x hx => ?_, h.constrained, k.1.sides f h.constrained h.side⟩
    rcases requeue_mem hu with hu | hu
    · exact k.1.verts x (h.queue u hu x hx)
    · exact k.2 u hu x hx
  | rejected m' enc =>
    simp only at k hr
    rw [Res.bind_eq_ok] at hr
    obtain ⟨c, hcc, hr⟩ := hr
    rw [Res.unwrap_eq_ok] at hcc
    have hm : SKeep P D f { s with mesh := m' } :=
      ⟨k.sound, k.dom, h.ends, fun u hu x hx => k.verts x (h.queue u hu x hx), h.constrained,
        k.sides f trivial h.side⟩
    refine splitEncroached_keep hd hmid hf hm (fun e he => ?_) (by simpa using (hc c hcc).2.1) hr
    obtain ⟨c', I, en, hc', hf', he'⟩ := tryCircumcenter_enc ho
    rw [hcc] at hc'
    injection hc' with hc'
    subst hc'
    have : enc = en := by
      rcases he' with ⟨-, m'', R', ho'⟩ | ⟨-, m'', ho'⟩
      · cases ho'
      · injection ho'
    subst this
    obtain ⟨-, q2, q3⟩ := (mem_findEncroachments hf' e).1 (mem_shuffle.1 he)
    refine ⟨?_, c, (hc c hcc).2.1, q3⟩
    rcases q2 with q | q
    · exact h.ends e q
    · have := h.ends _ q
      exact ⟨this.2, this.1⟩

theorem popTriangle_mem {σ : Sched} {s s' : SplitState V} {t : Tri V} (h : popTriangle σ s = some (t, s')) :
    (t ∈ s.irregulars ∨ t ∈ s.larges) ∧ s'.mesh = s.mesh ∧ s'.segments = s.segments ∧
      ∀ u, u ∈ s'.irregulars ∨ u ∈ s'.larges → u ∈ s.irregulars ∨ u ∈ s.larges := by
  unfold popTriangle at h
  cases hc : choose σ s.irregulars with
  | some u =>
    rw [hc] at h
    simp only [Option.some.injEq, Prod.mk.injEq] at h
    obtain ⟨rfl, rfl⟩ := h
    exact ⟨Or.inl (choose_mem hc), rfl, rfl, fun w hw => hw.imp_left fun k => (mem_setErase.1 k).1⟩
  | none =>
    rw [hc] at h
    simp only at h
    cases hc' : choose σ s.larges with
    | none => rw [hc'] at h; cases h
    | some u =>
      rw [hc'] at h
      simp only [Option.some.injEq, Prod.mk.injEq] at h
      obtain ⟨rfl, rfl⟩ := h
      exact ⟨Or.inr (choose_mem hc'), rfl, rfl, fun w hw => hw.imp_right fun k => (mem_setErase.1 k).1⟩

theorem history_keep {P : RPreds V} {fuel : Nat} {D E : V → Prop}
    (hP : ∀ t x, NoGhost P.ghost t → IsCorner t x → P.inside t x = false) (hd : SepOn P.veq D)
    (hmid : ∀ e, D (P.mid e)) {f : Edge V} (hf : Clear P E f) {s s' : SplitState V} {l : List (Attempt V)}
    (hr : History P fuel s l s') : SKeep P D f s →
    (∀ a ∈ l, ∀ c, P.circumcenter a.tri = some c → D c ∧ E c ∧ ¬ InMesh a.before.mesh c) → SKeep P D f s' := by
  induction hr with
  | done s => exact fun h _ => h
  | @step s s1 s2 s3 t o l σ τ hp ho hst hh ih =>
    intro h hl
    obtain ⟨p1, p2, p3, p4⟩ := popTriangle_mem hp
    have h1 : SKeep P D f s1 :=
      ⟨p2 ▸ h.sound, p2 ▸ h.dom, p3 ▸ h.ends, fun u hu x hx => p2 ▸ h.queue u (p4 u hu) x hx, p3 ▸ h.constrained,
        p2 ▸ h.side⟩
    refine ih (splitStep_keep hP hd hmid hf h1 (fun x hx => p2 ▸ h.queue t p1 x hx) ?_ hst)
      (fun a ha => hl a (List.mem_cons_of_mem _ ha))
    exact fun c hc => hl ⟨s1, t, o⟩ List.mem_cons_self c hc

/-! ## Why triangles leave the mesh -/

/-- The vertex conflicts with the triangle and the predicates allow to connect them. -/
def Reason (P : Preds V) (t : Tri V) (v : V) : Prop := conflicting P t v = true ∧ P.mayInsert t v = .ok true

structure Why (P : Preds V) (m : Mesh V) (R : V → Prop) (s : SolveState V) : Prop where
  sound : AdjSound s.mesh
  wf : s.cmap.WF
  pend : ∀ w ∈ s.cmap.flat ++ s.remaining, R w
  key : ∀ t l, (t, l) ∈ s.cmap → ∀ w ∈ l, Reason P t w
  gone : ∀ t ∈ m.tris, t ∉ s.mesh.tris → ∃ v, R v ∧ Reason P t v
  new : ∀ t ∈ s.mesh.tris, t ∈ m.tris ∨ ∃ v, R v ∧ IsCorner t v

theorem cavityStep_why {P : Preds V} {C : List (Edge V)} {v : V} {m : Mesh V} {R : V → Prop} (hv : R v)
    {s : SolveState V} {e : Edge V} {r : List (Edge V) × SolveState V} (h : Why P m R s)
    (hr : cavityStep P C v e s = .ok r) : Why P m R r.2 := by
  have hl := (cavityStep_loose (B := []) h.sound h.wf hr).1
  have hpend : ∀ w ∈ r.2.cmap.flat ++ r.2.remaining, R w := fun w hw => h.pend w (hl.pend.mem_iff.1 hw)
  unfold cavityStep at hr
  cases hadj : s.mesh.adj e.opposite with
  | none => rw [hadj] at hr; cases hr
  | some t =>
    rw [hadj] at hr
    simp only at hr
    rw [Res.bind_eq_ok] at hr
    obtain ⟨may, hmay, hr⟩ := hr
    by_cases hcond : (conflicting P t v && !(decide (e.opposite ∈ C) || decide (e ∈ C)) && may) = true
    · rw [if_pos hcond] at hr
      simp only [Res.ok.injEq] at hr
      subst hr
      refine ⟨hl.sound, hl.wf, hpend, fun u l hu => h.key u l (CMap.mem_erase.1 hu).1, fun u hu hn => ?_,
        fun u hu => h.new u (mem_del.1 hu).1⟩
      by_cases hus : u ∈ s.mesh.tris
      · have hut : u = t := by
          by_contra hut
          exact hn (mem_del.2 ⟨hus, hut⟩)
        subst hut
        rw [Bool.and_eq_true, Bool.and_eq_true] at hcond
        refine ⟨v, hv, hcond.1.1, ?_⟩
        rw [hmay, hcond.2]
      · exact h.gone u hu hus
    · rw [if_neg hcond, Res.bind_eq_ok] at hr
      obtain ⟨q, hq, hr⟩ := hr
      simp only [Res.ok.injEq] at hr
      subst hr
      obtain ⟨-, -, -, -, d5⟩ := distribute_spec h.wf hq
      refine ⟨hl.sound, hl.wf, hpend, fun u l hu w hw => ?_, fun u hu hn => ?_, fun u hu => ?_⟩
      · rcases d5 u l hu with ⟨-, k⟩ | ⟨rfl, old, new, rfl, ho, -, hn⟩
        · exact h.key u l k w hw
        · rcases List.mem_append.1 hw with hw | hw
          · rcases ho with rfl | ho
            · cases hw
            · exact h.key _ _ ho w hw
          · exact ⟨by simp [conflicting, (hn w hw).1], (hn w hw).2⟩
      · exact h.gone u hu fun hk => hn (mem_add.2 (Or.inr hk))
      · rcases mem_add.1 hu with rfl | hu
        · exact Or.inr ⟨v, hv, newTri_isCorner.2 (Or.inr (Or.inr rfl))⟩
        · exact h.new u hu

theorem cavityLoop_why {P : Preds V} {C : List (Edge V)} {v : V} {m : Mesh V} {R : V → Prop} (hv : R v) {n : Nat}
    {s s' : SolveState V} {B : List (Edge V)} (h : Why P m R s) (hr : cavityLoop P C v n B s = .ok s') :
    Why P m R s' := by
  induction n generalizing s B with
  | zero =>
    cases B with
    | nil => simp only [cavityLoop, Res.ok.injEq] at hr; subst hr; exact h
    | cons e B => simp [cavityLoop] at hr
  | succ n ih =>
    cases B with
    | nil => simp only [cavityLoop, Res.ok.injEq] at hr; subst hr; exact h
    | cons e B =>
      rw [cavityLoop, Res.bind_eq_ok] at hr
      obtain ⟨r, hstep, hr⟩ := hr
      exact ih (cavityStep_why hv h hstep) hr

theorem solveStep_why {P : Preds V} {C : List (Edge V)} {fuel : Nat} {σ : Sched} {m : Mesh V} {R : V → Prop}
    {s s' : SolveState V} (h : Why P m R s) (hr : solveStep P C fuel σ s = .ok s') : Why P m R s' := by
  unfold solveStep at hr
  cases hc : choose σ s.cmap with
  | none => rw [hc] at hr; cases hr
  | some p =>
    obtain ⟨t, l⟩ := p
    rw [hc] at hr
    simp only at hr
    have hmem := choose_mem hc
    cases hvl : l.getLast? with
    | none => rw [hvl] at hr; cases hr
    | some v =>
      rw [hvl] at hr
      simp only at hr
      have hvl' := List.mem_of_getLast? hvl
      have hfl : ∀ w ∈ l, R w := fun w hw =>
        h.pend w (List.mem_append_left _ (mem_flat.2 ⟨t, l, hmem, hw⟩))
      refine cavityLoop_why (hfl v hvl') (s := openCavity t l s) ?_ hr
      refine ⟨adjSound_del h.sound, CMap.wf_erase h.wf t, fun w hw => ?_,
        fun u k hu => h.key u k (CMap.mem_erase.1 hu).1, fun u hu hn => ?_, fun u hu => h.new u (mem_del.1 hu).1⟩
      · simp only [openCavity, List.mem_append] at hw
        rcases hw with hw | hw | hw
        · obtain ⟨u, k, hu, hk⟩ := mem_flat.1 hw
          exact h.pend w (List.mem_append_left _ (mem_flat.2 ⟨u, k, (CMap.mem_erase.1 hu).1, hk⟩))
        · exact h.pend w (List.mem_append_right _ hw)
        · exact hfl w (List.dropLast_subset l hw)
      · by_cases hus : u ∈ s.mesh.tris
        · have hut : u = t := by
            by_contra hut
            exact hn (mem_del.2 ⟨hus, hut⟩)
          subst hut
          exact ⟨v, hfl v hvl', h.key u l hmem v hvl'⟩
        · exact h.gone u hu hus

theorem include_why {P : Preds V} {C : List (Edge V)} {fuel : Nat} {σ : Sched} {m : Mesh V} {vs : List V}
    {r : SolveState V} (hs : AdjSound m) (h : includeVertices P C fuel σ m vs = .ok r) :
    (∀ t ∈ m.tris, t ∉ r.mesh.tris → ∃ v ∈ vs, Reason P t v) ∧
      ∀ t ∈ r.mesh.tris, t ∈ m.tris ∨ ∃ v ∈ vs, v ∉ m.vertices P.ghost ∧ IsCorner t v := by
  obtain ⟨s0, h0, hr, -⟩ := include_run h
  obtain ⟨k1, k2, -, k4, k5, k6, -⟩ := startState_spec h0
  have key : Why P m (fun v => v ∈ vs ∧ v ∉ m.vertices P.ghost) r := by
    clear h
    induction hr with
    | refl =>
      refine ⟨k1 ▸ hs, k4, fun w hw => ?_, fun t l ht w hw => ?_, fun t ht hn => absurd (k1 ▸ ht) hn,
        fun t ht => Or.inl (k1 ▸ ht)⟩
      · have := k5.mem_iff.1 hw
        rw [List.mem_filter] at this
        simpa using this
      · have := (k6 t l ht).2 w hw
        exact ⟨by simp [conflicting, this.1], this.2⟩
    | step σ _ _ h2 ih => exact solveStep_why ih h2
  refine ⟨fun t ht hn => ?_, fun t ht => ?_⟩
  · obtain ⟨v, hv, hr⟩ := key.gone t ht hn
    exact ⟨v, hv.1, hr⟩
  · rcases key.new t ht with k | ⟨v, hv, hc⟩
    · exact Or.inl k
    · exact Or.inr ⟨v, hv.1, hv.2, hc⟩

end Verif
