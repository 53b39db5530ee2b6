import Verif.Lemmas.Constraints

/-!
# The vertices of the mesh during the refinement
-/

set_option linter.unusedSectionVars false

namespace Verif

open Spec

variable {V : Type*} [DecidableEq V]

/-- All corners of the triangle are in `D`. -/
abbrev CornersIn (D : V → Prop) (t : Tri V) : Prop := ∀ x, IsCorner t x → D x

/-- Everything an insertion handles has its corners in `D`. -/
structure Housed (D : V → Prop) (s : SolveState V) : Prop where
  sound : AdjSound s.mesh
  wf : s.cmap.WF
  mesh : ∀ t ∈ s.mesh.tris, CornersIn D t
  keys : ∀ t l, (t, l) ∈ s.cmap → CornersIn D t ∧ ∀ w ∈ l, D w
  rest : ∀ w ∈ s.remaining, D w
  inc : ∀ t ∈ s.included, CornersIn D t
  rem : ∀ t ∈ s.removed, CornersIn D t

theorem cavityPushes_ends {veq : V → V → Bool} {t : Tri V} {f e : Edge V} (h : e ∈ cavityPushes veq t f) :
    IsCorner t e.v1 ∧ IsCorner t e.v2 := by
  unfold cavityPushes at h
  split_ifs at h <;> simp only [List.mem_cons, List.not_mem_nil, or_false] at h <;> rcases h with rfl | rfl <;>
    simp [IsCorner]

theorem cavityStep_within {P : Preds V} {C : List (Edge V)} {D : V → Prop} {v : V} (hv : D v) {s : SolveState V}
    {e : Edge V} {r : List (Edge V) × SolveState V} (he : Ends D e) (h : Housed D s)
    (hr : cavityStep P C v e s = .ok r) : Housed D r.2 ∧ ∀ f ∈ r.1, Ends D f := by
  unfold cavityStep at hr
  cases hadj : s.mesh.adj e.opposite with
  | none => rw [hadj] at hr; cases hr
  | some t =>
    rw [hadj] at hr
    simp only at hr
    rw [Res.bind_eq_ok] at hr
    obtain ⟨may, -, hr⟩ := hr
    obtain ⟨htm, -⟩ := h.sound _ _ hadj
    have htD := h.mesh t htm
    by_cases hcond : (conflicting P t v && !(decide (e.opposite ∈ C) || decide (e ∈ C)) && may) = true
    · rw [if_pos hcond] at hr
      simp only [Res.ok.injEq] at hr
      subst hr
      refine ⟨⟨adjSound_del h.sound, CMap.wf_erase h.wf t, fun u hu => h.mesh u (mem_del.1 hu).1,
        fun u l hu => h.keys u l (CMap.mem_erase.1 hu).1, fun w hw => ?_, h.inc, fun u hu => ?_⟩, fun f hf => ?_⟩
      · rcases List.mem_append.1 hw with hw | hw
        · exact h.rest w hw
        · cases hget : s.cmap.get t with
          | none => rw [hget] at hw; cases hw
          | some l =>
            rw [hget] at hw
            exact (h.keys t l ((CMap.get_eq_some h.wf).1 hget)).2 w hw
      · rcases mem_setInsert.1 hu with rfl | hu
        · exact htD
        · exact h.rem u hu
      · have := cavityPushes_ends hf
        exact ⟨htD _ this.1, htD _ this.2⟩
    · rw [if_neg hcond, Res.bind_eq_ok] at hr
      obtain ⟨q, hq, hr⟩ := hr
      simp only [Res.ok.injEq] at hr
      subst hr
      obtain ⟨d1, -, d3, -, d5⟩ := distribute_spec h.wf hq
      have hnt : CornersIn D (newTri P.ghost e v) := by
        intro x hx
        rcases newTri_isCorner.1 hx with rfl | rfl | rfl
        · exact he.1
        · exact he.2
        · exact hv
      refine ⟨⟨adjSound_add h.sound, d1, fun u hu => ?_, fun u l hu => ?_, fun w hw => h.rest w (d3.subset hw),
        fun u hu => ?_, h.rem⟩, by simp⟩
      · rcases mem_add.1 hu with rfl | hu
        · exact hnt
        · exact h.mesh u hu
      · rcases d5 u l hu with ⟨-, k⟩ | ⟨rfl, old, new, rfl, ho, hn, -⟩
        · exact h.keys u l k
        · refine ⟨hnt, fun w hw => ?_⟩
          rcases List.mem_append.1 hw with hw | hw
          · rcases ho with rfl | ho
            · cases hw
            · exact (h.keys _ _ ho).2 w hw
          · exact h.rest w (hn.subset hw)
      · rcases mem_setInsert.1 hu with rfl | hu
        · exact hnt
        · exact h.inc u hu

theorem cavityLoop_within {P : Preds V} {C : List (Edge V)} {D : V → Prop} {v : V} (hv : D v) {n : Nat}
    {s s' : SolveState V} {B : List (Edge V)} (hB : ∀ f ∈ B, Ends D f) (h : Housed D s)
    (hr : cavityLoop P C v n B s = .ok s') : Housed D s' := by
  induction n generalizing s B with
  | zero =>
    cases B with
    | nil => simp only [cavityLoop, Res.ok.injEq] at hr; subst hr; exact h
    | cons e B => simp [cavityLoop] at hr
  | succ n ih =>
    cases B with
    | nil => simp only [cavityLoop, Res.ok.injEq] at hr; subst hr; exact h
    | cons e B =>
      rw [cavityLoop, Res.bind_eq_ok] at hr
      obtain ⟨r, hstep, hr⟩ := hr
      obtain ⟨k1, k2⟩ := cavityStep_within hv (hB e List.mem_cons_self) h hstep
      refine ih (fun f hf => ?_) k1 hr
      rcases List.mem_append.1 hf with hf | hf
      · exact k2 f hf
      · exact hB f (List.mem_cons_of_mem _ hf)

theorem solveStep_within {P : Preds V} {C : List (Edge V)} {D : V → Prop} {fuel : Nat} {σ : Sched}
    {s s' : SolveState V} (h : Housed D s) (hr : solveStep P C fuel σ s = .ok s') : Housed D s' := by
  unfold solveStep at hr
  cases hc : choose σ s.cmap with
  | none => rw [hc] at hr; cases hr
  | some p =>
    obtain ⟨t, l⟩ := p
    rw [hc] at hr
    simp only at hr
    obtain ⟨hk, hl⟩ := h.keys t l (choose_mem hc)
    cases hvl : l.getLast? with
    | none => rw [hvl] at hr; cases hr
    | some v =>
      rw [hvl] at hr
      simp only at hr
      refine cavityLoop_within (hl v (List.mem_of_getLast? hvl)) (fun f hf => ?_) ?_ hr
      · simp only [openEdges, List.mem_cons, List.not_mem_nil, or_false] at hf
        rcases hf with rfl | rfl | rfl <;> exact ⟨hk _ (by simp [IsCorner]), hk _ (by simp [IsCorner])⟩
      · refine ⟨adjSound_del h.sound, CMap.wf_erase h.wf t, fun u hu => h.mesh u (mem_del.1 hu).1,
          fun u k hu => h.keys u k (CMap.mem_erase.1 hu).1, fun w hw => ?_, h.inc, fun u hu => ?_⟩
        · rcases List.mem_append.1 hw with hw | hw
          · exact h.rest w hw
          · exact hl w (List.dropLast_subset l hw)
        · rcases mem_setInsert.1 hu with rfl | hu
          · exact hk
          · exact h.rem u hu

theorem run_within {P : Preds V} {C : List (Edge V)} {D : V → Prop} {fuel : Nat} {s s' : SolveState V}
    (h : Housed D s) (hr : Run P C fuel s s') : Housed D s' := by
  induction hr with
  | refl => exact h
  | step σ _ _ h2 ih => exact solveStep_within ih h2

theorem include_within {P : Preds V} {C : List (Edge V)} {D : V → Prop} {fuel : Nat} {σ : Sched} {m : Mesh V}
    {vs : List V} {r : SolveState V} (hs : AdjSound m) (hm : ∀ t ∈ m.tris, CornersIn D t) (hv : ∀ v ∈ vs, D v)
    (h : includeVertices P C fuel σ m vs = .ok r) : Housed D r := by
  obtain ⟨s0, h0, hr, -⟩ := include_run h
  obtain ⟨k1, k2, k3, k4, k5, k6, -⟩ := startState_spec h0
  have hp : ∀ w ∈ s0.cmap.flat ++ s0.remaining, D w := fun w hw => hv w (List.mem_of_mem_filter (k5.mem_iff.1 hw))
  refine run_within ⟨k1 ▸ hs, k4, k1 ▸ hm, fun t l ht => ⟨hm t (k6 t l ht).1, fun w hw => ?_⟩,
    fun w hw => hp w (List.mem_append_right _ hw), by simp [k2], by simp [k3]⟩ hr
  exact hp w (List.mem_append_left _ (mem_flat.2 ⟨t, l, ht, hw⟩))

/-- The edges in `E` may be cut: their middle is in `D` and their halves are in `E`. -/
structure Cuts (P : RPreds V) (D : V → Prop) (E : Edge V → Prop) : Prop where
  mid : ∀ e, E e → D (P.mid e)
  first : ∀ e, E e → E ⟨e.v1, P.mid e⟩
  second : ∀ e, E e → E ⟨P.mid e, e.v2⟩
  back : ∀ e, E e → E e.opposite

/-- State of `unencroach_segment`. -/
structure UWithin (D : V → Prop) (E : Edge V → Prop) (s : UnencState V) : Prop where
  sound : AdjSound s.mesh
  mesh : ∀ t ∈ s.mesh.tris, CornersIn D t
  inc : ∀ t ∈ s.included, CornersIn D t
  edges : ∀ e ∈ s.newEdges, E e

theorem unencStep_within {P : RPreds V} {C : List (Edge V)} {D : V → Prop} {E : Edge V → Prop} (hE : Cuts P D E)
    {fuel : Nat} {σ : Sched} {e : Edge V} {s : UnencState V} {r : List (Edge V) × UnencState V} (h : UWithin D E s)
    (he : E e) (hr : unencStep P fuel σ C e s = .ok r) : UWithin D E r.2 ∧ ∀ f ∈ r.1, E f := by
  unfold unencStep at hr
  rw [Res.bind_eq_ok] at hr
  obtain ⟨st, hst, hr⟩ := hr
  injection hr with hr
  subst hr
  have k := include_within h.sound h.mesh (by simpa using hE.mid e he) hst
  have e1 := hE.first e he
  have e2 := hE.second e he
  refine ⟨⟨k.sound, k.mesh, fun t ht => ?_, fun f hf => ?_⟩, fun f hf => ?_⟩
  · rw [mem_toSet, List.mem_filter, List.mem_append] at ht
    rcases ht.1 with ht | ht
    · exact h.inc t ht
    · exact k.inc t ht
  · simp only at hf
    split_ifs at hf
    · exact h.edges f hf
    · rcases mem_setInsert.1 hf with rfl | hf
      · exact e1
      · exact h.edges f hf
    · rcases mem_setInsert.1 hf with rfl | hf
      · exact e2
      · exact h.edges f hf
    · rcases mem_setInsert.1 hf with rfl | hf
      · exact e2
      · rcases mem_setInsert.1 hf with rfl | hf
        · exact e1
        · exact h.edges f hf
  · simp only [List.mem_append] at hf
    rcases hf with hf | hf
    · split_ifs at hf
      · rw [List.mem_singleton.1 hf]; exact e2
      · cases hf
    · split_ifs at hf
      · rw [List.mem_singleton.1 hf]; exact e1
      · cases hf

theorem unencLoop_within {P : RPreds V} {C : List (Edge V)} {D : V → Prop} {E : Edge V → Prop} (hE : Cuts P D E)
    {fuel n : Nat} : ∀ {σ : Sched} {stack : List (Edge V)} {s s' : UnencState V}, UWithin D E s →
      (∀ f ∈ stack, E f) → unencLoop P C fuel n σ stack s = .ok s' → UWithin D E s' := by
  induction n with
  | zero =>
    intro σ stack s s' h _ hr
    cases stack with
    | nil => rw [unencLoop] at hr; injection hr with hr; subst hr; exact h
    | cons e stack => rw [unencLoop] at hr; cases hr
  | succ n ih =>
    intro σ stack s s' h hst hr
    cases stack with
    | nil => rw [unencLoop] at hr; injection hr with hr; subst hr; exact h
    | cons e stack =>
      rw [unencLoop, Res.bind_eq_ok] at hr
      obtain ⟨r, hstep, hr⟩ := hr
      obtain ⟨k1, k2⟩ := unencStep_within hE h (hst e List.mem_cons_self) hstep
      refine ih k1 (fun f hf => ?_) hr
      rcases List.mem_append.1 hf with hf | hf
      · exact k2 f hf
      · exact hst f (List.mem_cons_of_mem _ hf)

theorem unencroachSegment_within {P : RPreds V} {C : List (Edge V)} {D : V → Prop} {E : Edge V → Prop}
    (hE : Cuts P D E) {fuel : Nat} {σ : Sched} {m : Mesh V} {e : Edge V} {vs : List V} {r : UnencState V}
    (hs : AdjSound m) (hm : ∀ t ∈ m.tris, CornersIn D t) (he : E e)
    (h : unencroachSegment P fuel σ C m e vs = .ok r) : UWithin D E r :=
  unencLoop_within hE ⟨hs, hm, by simp, by simp⟩ (by simpa using he) h

theorem unencroachLoop_within {P : RPreds V} {C : List (Edge V)} {D : V → Prop} {E : Edge V → Prop} (hE : Cuts P D E)
    {fuel n : Nat} : ∀ {σ : Sched} {m : Mesh V} {cs : List (Edge V × List V)} {split : List (Edge V × Edge V)}
      {r : Mesh V × List (Edge V × Edge V)}, AdjSound m → (∀ t ∈ m.tris, CornersIn D t) → (∀ q ∈ cs, E q.1) →
      (∀ q ∈ split, E q.1) → unencroachLoop P C fuel n σ m cs split = .ok r →
      AdjSound r.1 ∧ (∀ t ∈ r.1.tris, CornersIn D t) ∧ ∀ q ∈ r.2, E q.1 := by
  induction n with
  | zero =>
    intro σ m cs split r hs hD _ hsp h
    cases cs with
    | nil => rw [unencroachLoop] at h; injection h with h; subst h; exact ⟨hs, hD, hsp⟩
    | cons c cs => rw [unencroachLoop] at h; cases h
  | succ n ih =>
    intro σ m cs split r hs hD hcs hsp h
    cases cs with
    | nil => rw [unencroachLoop] at h; injection h with h; subst h; exact ⟨hs, hD, hsp⟩
    | cons c cs =>
      rw [unencroachLoop] at h
      cases hc : choose (σ.sub 0) (c :: cs) with
      | none => rw [hc] at h; cases h
      | some p =>
        obtain ⟨e, vs⟩ := p
        rw [hc] at h
        simp only at h
        rw [Res.bind_eq_ok] at h
        obtain ⟨u, hu, h⟩ := h
        have k := unencroachSegment_within hE hs hD (hcs _ (choose_mem hc)) hu
        refine ih k.sound k.mesh (fun p hp => hcs p (List.mem_of_mem_filter hp)) (fun q hq => ?_) h
        rcases mem_foldl_mapInsert _ _ _ _ hq with hq | ⟨hq, -⟩
        · exact hsp q hq
        · exact k.edges _ hq

/-- State of `split_irregular`: `B` is the class of the queued triangles. -/
structure SWithin (D : V → Prop) (E : Edge V → Prop) (B : Tri V → Prop) (s : SplitState V) : Prop where
  sound : AdjSound s.mesh
  mesh : ∀ t ∈ s.mesh.tris, CornersIn D t
  edges : ∀ e ∈ s.segments, E e
  queue : ∀ t, t ∈ s.irregulars ∨ t ∈ s.larges → B t ∧ CornersIn D t

theorem requeue_poor {P : RPreds V} {I R : List (Tri V)} {s : SplitState V} {t : Tri V}
    (h : t ∈ (requeue P I R s).irregulars ∨ t ∈ (requeue P I R s).larges) :
    (t ∈ s.irregulars ∨ t ∈ s.larges) ∨ (t ∈ I ∧ Poor P t) := by
  have fold : ∀ (c : Tri V → Bool) (l acc : List (Tri V)),
      t ∈ l.foldl (fun a u => if c u then setInsert u a else a) acc → t ∈ acc ∨ (t ∈ l ∧ c t = true) := by
    intro c l
    induction l with
    | nil => intro acc h; exact Or.inl h
    | cons u l ih =>
      intro acc h
      rw [List.foldl_cons] at h
      rcases ih _ h with h | h
      · split_ifs at h with hu
        · rcases mem_setInsert.1 h with rfl | h
          · exact Or.inr ⟨List.mem_cons_self, hu⟩
          · exact Or.inl h
        · exact Or.inl h
      · exact Or.inr ⟨List.mem_cons_of_mem _ h.1, h.2⟩
  have solid : t ∈ I.filter (fun t => !t.isGhost P.ghost) → t ∈ I ∧ NoGhost P.ghost t := by
    intro h
    rw [List.mem_filter] at h
    exact ⟨h.1, by simpa using h.2⟩
  simp only [requeue] at h
  rcases h with h | h
  · rcases fold P.irregular _ _ (List.mem_of_mem_filter h) with h | h
    · exact Or.inl (Or.inl h)
    · exact Or.inr ⟨(solid h.1).1, (solid h.1).2, Or.inl h.2⟩
  · have h := List.mem_of_mem_filter h
    have e : (fun (l : List (Tri V)) t => if P.irregular t then l else if P.large t then setInsert t l else l) =
        fun l t => if (!P.irregular t && P.large t) then setInsert t l else l := by
      funext l t
      cases P.irregular t <;> cases P.large t <;> rfl
    rw [e] at h
    rcases fold (fun t => !P.irregular t && P.large t) _ _ h with h | h
    · exact Or.inl (Or.inr h)
    · rw [Bool.and_eq_true] at h
      exact Or.inr ⟨(solid h.1).1, (solid h.1).2, Or.inr h.2.2⟩

theorem splitEncroached_within {P : RPreds V} {D : V → Prop} {E : Edge V → Prop} {B : Tri V → Prop} (hE : Cuts P D E)
    (hB : ∀ t, Poor P t → B t) {fuel : Nat} {es : List (Edge V)} :
    ∀ {σ : Sched} {vs : List V} {s s' : SplitState V}, SWithin D E B s → (∀ e ∈ es, E e) →
      splitEncroached P fuel σ es vs s = .ok s' → SWithin D E B s' := by
  induction es with
  | nil =>
    intro σ vs s s' h _ hr
    rw [splitEncroached] at hr
    injection hr with hr
    subst hr
    exact h
  | cons e es ih =>
    intro σ vs s s' h hes hr
    rw [splitEncroached, Res.bind_eq_ok] at hr
    obtain ⟨r, hu, hr⟩ := hr
    have k := unencroachSegment_within hE h.sound h.mesh (hes e List.mem_cons_self) hu
    refine ih ⟨k.sound, k.mesh, fun g hg => ?_, fun t ht => ?_⟩ (fun g hg => hes g (List.mem_cons_of_mem _ hg)) hr
    · have hg' : g ∈ r.newEdges.foldl (fun l h => setInsert h l) (setErase e s.segments) := hg
      rcases (mem_foldl_setInsert _ _ _).1 hg' with hg' | hg'
      · exact k.edges g hg'
      · exact h.edges g (mem_setErase.1 hg').1
    · rcases requeue_poor ht with ht | ⟨ht, hp⟩
      · exact h.queue t ht
      · exact ⟨hB t hp, k.inc t ht⟩

theorem tryCircumcenter_within {P : RPreds V} {C : List (Edge V)} {D : V → Prop} {fuel : Nat} {σ : Sched}
    {m : Mesh V} {t : Tri V} {o : TryRes V} (hs : AdjSound m) (hm : ∀ t ∈ m.tris, CornersIn D t) (ht : CornersIn D t)
    (hc : ∀ c, P.circumcenter t = some c → D c) (h : tryCircumcenter P fuel σ C m t = .ok o) :
    match o with
    | .inserted m' I _ => AdjSound m' ∧ (∀ t ∈ m'.tris, CornersIn D t) ∧ ∀ t ∈ I, CornersIn D t
    | .rejected m' _ => AdjSound m' ∧ ∀ t ∈ m'.tris, CornersIn D t := by
  unfold tryCircumcenter at h
  rw [Res.bind_eq_ok] at h
  obtain ⟨c, hcc, h⟩ := h
  rw [Res.unwrap_eq_ok] at hcc
  have hDc := hc c hcc
  rw [Res.bind_eq_ok] at h
  obtain ⟨d, hdist, h⟩ := h
  rw [Res.bind_eq_ok] at h
  obtain ⟨s, hsol, h⟩ := h
  rw [Res.bind_eq_ok] at h
  obtain ⟨enc, -, h⟩ := h
  have hdl : distributeOverLoop P.toPreds m fuel [t] [t] [] [c] = .ok d := hdist
  obtain ⟨k1, k2, k3⟩ := distributeOverLoop_gen hs (M := fun u => u ∈ m.tris ∨ u = t) (fun _ => Or.inl)
    (by simp) CMap.wf_nil (by simp) hdl
  have hrun := (solveLoop_run (show solveLoop P.toPreds C fuel fuel (σ.sub 1) ⟨m, d.1, [], [], []⟩ = .ok s from hsol)).1
  have k : Housed D s := run_within (s := ⟨m, d.1, [], [], []⟩) ⟨hs, k1, hm, fun u l hu => ⟨?_, fun w hw => ?_⟩, by simp, by simp, by simp⟩ hrun
  · split_ifs at h
    · injection h with h
      subst h
      exact ⟨k.sound, k.mesh, k.inc⟩
    · injection h with h
      subst h
      obtain ⟨b1, b2⟩ := mem_foldl_del (shuffle (σ.sub 2) s.included) s.mesh k.sound
      obtain ⟨c1, c2⟩ := mem_foldl_add (shuffle (σ.sub 3) s.removed) _ b1
      refine ⟨c1, fun u hu => ?_⟩
      rcases (c2 u).1 hu with j | j
      · exact k.mesh u ((b2 u).1 j).1
      · exact k.rem u (mem_shuffle.1 j)
  · rcases (k3 u l hu).1 with j | rfl
    · exact hm u j
    · exact ht
  · have := k2.mem_iff.1 (List.mem_append_left d.2 (mem_flat.2 ⟨u, l, hu, hw⟩))
    have : w = c := by simpa [CMap.flat] using this
    exact this ▸ hDc

theorem splitStep_within {P : RPreds V} {D : V → Prop} {E : Edge V → Prop} {B : Tri V → Prop} (hE : Cuts P D E)
    (hB : ∀ t, Poor P t → B t) {fuel : Nat} {σ : Sched} {t : Tri V} {s s' : SplitState V} (h : SWithin D E B s)
    (ht : CornersIn D t) (hc : ∀ c, P.circumcenter t = some c → D c) (hr : splitStep P fuel σ t s = .ok s') :
    SWithin D E B s' := by
  unfold splitStep at hr
  rw [Res.bind_eq_ok] at hr
  obtain ⟨o, ho, hr⟩ := hr
  have k := tryCircumcenter_within h.sound h.mesh ht hc ho
  cases o with
  | inserted m' I R =>
    simp only at k hr
    injection hr with hr
    subst hr
    refine ⟨k.1, k.2.1, h.edges, fun u hu => ?_⟩
    rcases requeue_poor hu with hu | ⟨hu, hp⟩
    · exact h.queue u hu
    · exact ⟨hB u hp, k.2.2 u hu⟩
  | rejected m' enc =>
    simp only at k hr
    rw [Res.bind_eq_ok] at hr
    obtain ⟨c, hcc, hr⟩ := hr
    refine splitEncroached_within hE hB (s := { s with mesh := m' }) ⟨k.1, k.2, h.edges, h.queue⟩ (fun e he => ?_) hr
    obtain ⟨c', I, en, hc', hf', he'⟩ := tryCircumcenter_enc ho
    have : enc = en := by
      rcases he' with ⟨-, m'', R', ho'⟩ | ⟨-, m'', ho'⟩
      · cases ho'
      · injection ho'
    subst this
    obtain ⟨-, q2, -⟩ := (mem_findEncroachments hf' e).1 (mem_shuffle.1 he)
    rcases q2 with q | q
    · exact h.edges e q
    · have := hE.back _ (h.edges _ q)
      rwa [opposite_opposite] at this

theorem splitIrregularLoop_within {P : RPreds V} {D : V → Prop} {E : Edge V → Prop} {B : Tri V → Prop} (hE : Cuts P D E)
    (hB : ∀ t, Poor P t → B t) (hc : ∀ t c, B t → CornersIn D t → P.circumcenter t = some c → D c) {fuel n : Nat} :
    ∀ {σ : Sched} {s s' : SplitState V}, SWithin D E B s → splitIrregularLoop P fuel n σ s = .ok s' →
      SWithin D E B s' := by
  induction n with
  | zero =>
    intro σ s s' h hr
    rw [splitIrregularLoop] at hr
    cases hp : popTriangle (σ.sub 0) s with
    | none => rw [hp] at hr; injection hr with hr; subst hr; exact h
    | some q => rw [hp] at hr; cases hr
  | succ n ih =>
    intro σ s s' h hr
    rw [splitIrregularLoop] at hr
    cases hp : popTriangle (σ.sub 0) s with
    | none => rw [hp] at hr; injection hr with hr; subst hr; exact h
    | some q =>
      obtain ⟨t, s1⟩ := q
      rw [hp] at hr
      simp only at hr
      rw [Res.bind_eq_ok] at hr
      obtain ⟨s2, h2, hr⟩ := hr
      obtain ⟨p1, p2, p3, p4⟩ := popTriangle_mem hp
      have h1 : SWithin D E B s1 :=
        ⟨p2 ▸ h.sound, p2 ▸ h.mesh, p3 ▸ h.edges, fun u hu => h.queue u (p4 u hu)⟩
      obtain ⟨q1, q2⟩ := h.queue t p1
      exact ih (splitStep_within hE hB h1 q2 (fun c => hc t c q1 q2) h2) hr

/-! ## No vertex is lost -/

theorem run_ledger {P : Preds V} {C : List (Edge V)} {fuel : Nat} {s0 s' : SolveState V} (hs : AdjSound s0.mesh)
    (hw : s0.cmap.WF) (hkeys : ∀ t l, (t, l) ∈ s0.cmap → ∀ x, IsCorner t x → InMesh s0.mesh x)
    (hr : Run P C fuel s0 s') :
    (AdjSound s'.mesh ∧ s'.cmap.WF ∧ ∀ t l, (t, l) ∈ s'.cmap → ∀ x, IsCorner t x → InMesh s'.mesh x) ∧
      (∀ x, InMesh s0.mesh x → InMesh s'.mesh x) ∧ Ledger s0 s' [] := by
  induction hr with
  | refl => exact ⟨⟨hs, hw, hkeys⟩, fun _ h => h, ledger_refl _ _⟩
  | @step s1 s2 σ _ _ h2 ih =>
    obtain ⟨⟨a1, a2, a3⟩, a4, a6⟩ := ih
    obtain ⟨v, b1, b2, b3, b4, b5⟩ := solveStep_loose a1 a2 a3 h2
    have hl := solveStep_ledger a1 a2 a3 h2
    refine ⟨⟨b1, b2, b5⟩, fun x hx => (b4 x).2 (Or.inr (a4 x hx)), ?_⟩
    refine ⟨fun t ht => ?_, fun t ht => hl.grows t (a6.grows t ht), fun t ht => ?_, fun t ht => ?_⟩
    · rcases a6.left t ht with k | k
      · exact hl.left t k
      · exact Or.inr (hl.grows t k)
    · rcases hl.inc t ht with k | k
      · exact (a6.inc t k).imp_right fun j x hx =>
          Or.inl ((b4 x).2 (Or.inr ((j x hx).resolve_right not_isEnd_nil)))
      · exact Or.inr k
    · rcases hl.rem t ht with k | k
      · exact (a6.rem t k).imp_right fun j x hx =>
          Or.inl ((b4 x).2 (Or.inr ((j x hx).resolve_right not_isEnd_nil)))
      · exact Or.inr k

/-- All corners of these triangles are vertices of the mesh. -/
abbrev Anchored (m : Mesh V) (I : List (Tri V)) : Prop := ∀ t ∈ I, ∀ x, IsCorner t x → InMesh m x

theorem include_verts {P : Preds V} {C : List (Edge V)} {fuel : Nat} {σ : Sched} {m : Mesh V} {vs : List V}
    {r : SolveState V} (hs : AdjSound m) (h : includeVertices P C fuel σ m vs = .ok r) :
    AdjSound r.mesh ∧ (∀ x, InMesh m x → InMesh r.mesh x) ∧ Anchored r.mesh r.included := by
  obtain ⟨s0, h0, hr, -⟩ := include_run h
  obtain ⟨k1, k2, -, k4, -, k6, -⟩ := startState_spec h0
  obtain ⟨⟨a1, -, -⟩, a2, a4⟩ := run_ledger (k1 ▸ hs) k4 (fun t l ht x hx => ⟨t, k1 ▸ (k6 t l ht).1, hx⟩) hr
  rw [k1] at a2
  refine ⟨a1, a2, fun t ht x hx => ?_⟩
  rcases a4.inc t ht with k | k
  · rw [k2] at k; cases k
  · exact (k x hx).resolve_right not_isEnd_nil

theorem unencLoop_verts {P : RPreds V} {C : List (Edge V)} {fuel n : Nat} :
    ∀ {σ : Sched} {stack : List (Edge V)} {s s' : UnencState V},
    AdjSound s.mesh → Anchored s.mesh s.included → unencLoop P C fuel n σ stack s = .ok s' →
      AdjSound s'.mesh ∧ (∀ x, InMesh s.mesh x → InMesh s'.mesh x) ∧ Anchored s'.mesh s'.included := by
  induction n with
  | zero =>
    intro σ stack s s' h hi hr
    cases stack with
    | nil => rw [unencLoop] at hr; injection hr with hr; subst hr; exact ⟨h, fun _ k => k, hi⟩
    | cons e stack => rw [unencLoop] at hr; cases hr
  | succ n ih =>
    intro σ stack s s' h hi hr
    cases stack with
    | nil => rw [unencLoop] at hr; injection hr with hr; subst hr; exact ⟨h, fun _ k => k, hi⟩
    | cons e stack =>
      rw [unencLoop, Res.bind_eq_ok] at hr
      obtain ⟨r, hstep, hr⟩ := hr
      unfold unencStep at hstep
      rw [Res.bind_eq_ok] at hstep
      obtain ⟨st, hst, hstep⟩ := hstep
      injection hstep with hstep
      subst hstep
      obtain ⟨k1, k2, k3⟩ := include_verts h hst
      obtain ⟨j1, j2, j3⟩ := ih (by exact k1) (by
        intro t ht x hx
        simp only [mem_toSet, List.mem_filter, List.mem_append] at ht
        rcases ht.1 with ht | ht
        · exact k2 x (hi t ht x hx)
        · exact k3 t ht x hx) hr
      exact ⟨j1, fun x hx => j2 x (k2 x hx), j3⟩

theorem unencroachLoop_verts {P : RPreds V} {C : List (Edge V)} {fuel n : Nat} : ∀ {σ : Sched} {m : Mesh V}
    {cs : List (Edge V × List V)} {split : List (Edge V × Edge V)} {r : Mesh V × List (Edge V × Edge V)},
    AdjSound m → unencroachLoop P C fuel n σ m cs split = .ok r →
      AdjSound r.1 ∧ ∀ x, InMesh m x → InMesh r.1 x := by
  induction n with
  | zero =>
    intro σ m cs split r hs h
    cases cs with
    | nil => rw [unencroachLoop] at h; injection h with h; subst h; exact ⟨hs, fun _ k => k⟩
    | cons c cs => rw [unencroachLoop] at h; cases h
  | succ n ih =>
    intro σ m cs split r hs h
    cases cs with
    | nil => rw [unencroachLoop] at h; injection h with h; subst h; exact ⟨hs, fun _ k => k⟩
    | cons c cs =>
      rw [unencroachLoop] at h
      cases hc : choose (σ.sub 0) (c :: cs) with
      | none => rw [hc] at h; cases h
      | some p =>
        obtain ⟨e, vs⟩ := p
        rw [hc] at h
        simp only at h
        rw [Res.bind_eq_ok] at h
        obtain ⟨u, hu, h⟩ := h
        obtain ⟨k1, k2, -⟩ := unencLoop_verts (s := ⟨m, vs, [], [], []⟩) hs (by simp [Anchored]) hu
        obtain ⟨j1, j2⟩ := ih k1 h
        exact ⟨j1, fun x hx => j2 x (k2 x hx)⟩

/-- Between two iterations of `split_irregular`. -/
structure Standing (s : SplitState V) : Prop where
  sound : AdjSound s.mesh
  queue : ∀ t, t ∈ s.irregulars ∨ t ∈ s.larges → ∀ x, IsCorner t x → InMesh s.mesh x

theorem splitEncroached_verts {P : RPreds V} {fuel : Nat} {es : List (Edge V)} :
    ∀ {σ : Sched} {vs : List V} {s s' : SplitState V}, Standing s → splitEncroached P fuel σ es vs s = .ok s' →
      Standing s' ∧ ∀ x, InMesh s.mesh x → InMesh s'.mesh x := by
  induction es with
  | nil =>
    intro σ vs s s' h hr
    rw [splitEncroached] at hr
    injection hr with hr
    subst hr
    exact ⟨h, fun _ k => k⟩
  | cons e es ih =>
    intro σ vs s s' h hr
    rw [splitEncroached, Res.bind_eq_ok] at hr
    obtain ⟨r, hu, hr⟩ := hr
    obtain ⟨k1, k2, k3⟩ := unencLoop_verts (s := ⟨s.mesh, vs, [], [], []⟩) h.sound (by simp [Anchored]) hu
    obtain ⟨j1, j2⟩ := ih ⟨by exact k1, by
      intro t ht x hx
      rcases requeue_mem ht with ht | ht
      · exact k2 x (h.queue t ht x hx)
      · exact k3 t ht x hx⟩ hr
    exact ⟨j1, fun x hx => j2 x (k2 x hx)⟩

section kept

variable {P : RPreds V} (hP : ∀ t x, NoGhost P.ghost t → IsCorner t x → P.inside t x = false)

include hP

/-- Trying a circumcentre loses no vertex, if the circumcentre is not a vertex of the mesh when it is rejected. -/
theorem tryCircumcenter_verts {C : List (Edge V)} {fuel : Nat} {σ : Sched} {m : Mesh V} {t : Tri V} {o : TryRes V}
    (hs : AdjSound m) (ht : ∀ x, IsCorner t x → InMesh m x) (h : tryCircumcenter P fuel σ C m t = .ok o) :
    match o with
    | .inserted m' I _ => AdjSound m' ∧ (∀ x, InMesh m x → InMesh m' x) ∧ ∀ u ∈ I, ∀ x, IsCorner u x → InMesh m' x
    | .rejected m' _ => AdjSound m' ∧
        ((∀ c, P.circumcenter t = some c → ¬ InMesh m c) → ∀ x, InMesh m x → InMesh m' x) := by
  unfold tryCircumcenter at h
  rw [Res.bind_eq_ok] at h
  obtain ⟨c, hcc, h⟩ := h
  rw [Res.unwrap_eq_ok] at hcc
  rw [Res.bind_eq_ok] at h
  obtain ⟨d, hdist, h⟩ := h
  rw [Res.bind_eq_ok] at h
  obtain ⟨s, hsol, h⟩ := h
  rw [Res.bind_eq_ok] at h
  obtain ⟨enc, -, h⟩ := h
  have hdl : distributeOverLoop P.toPreds m fuel [t] [t] [] [c] = .ok d := hdist
  obtain ⟨k1, k2, k3⟩ := distributeOverLoop_gen hs (M := fun u => u ∈ m.tris ∨ u = t) (fun _ => Or.inl)
    (by simp) CMap.wf_nil (by simp) hdl
  have hpend : ∀ w ∈ d.1.flat ++ [], w = c := by
    intro w hw
    rw [List.append_nil] at hw
    have := k2.mem_iff.1 (List.mem_append_left d.2 hw)
    simpa [CMap.flat] using this
  have hrun := (solveLoop_run (show solveLoop P.toPreds C fuel fuel (σ.sub 1) ⟨m, d.1, [], [], []⟩ = .ok s from hsol)).1
  have htrack : Track P.toPreds (· = t) c m ⟨m, d.1, [], [], []⟩ :=
    ⟨hs, k1, hpend, fun u l hu => ⟨(k3 u l hu).1, fun w hw => ((k3 u l hu).2 w hw).1⟩,
      fun u hu => Or.inl hu, by simp, by simp⟩
  have htr := run_track hP htrack hrun
  have hkeys : ∀ u l, (u, l) ∈ d.1 → ∀ x, IsCorner u x → InMesh m x := by
    intro u l hu x hx
    rcases (k3 u l hu).1 with k | rfl
    · exact ⟨u, k, hx⟩
    · exact ht x hx
  obtain ⟨⟨a1, -, -⟩, a2, a4⟩ := run_ledger (s0 := ⟨m, d.1, [], [], []⟩) hs k1 hkeys hrun
  split_ifs at h
  · injection h with h
    subst h
    refine ⟨a1, a2, fun u hu x hx => ?_⟩
    rcases a4.inc u hu with k | k
    · cases k
    · exact (k x hx).resolve_right not_isEnd_nil
  · injection h with h
    subst h
    obtain ⟨b1, b2⟩ := mem_foldl_del (shuffle (σ.sub 2) s.included) s.mesh a1
    obtain ⟨c1, c2⟩ := mem_foldl_add (shuffle (σ.sub 3) s.removed) _ b1
    refine ⟨c1, fun hfresh => ?_⟩
    rintro x ⟨u, hu, hx⟩
    refine ⟨u, (c2 u).2 ?_, hx⟩
    rcases a4.left u hu with k | k
    · exact Or.inl ((b2 u).2 ⟨k, fun hk => hfresh c hcc ⟨u, hu, htr.inc u (mem_shuffle.1 hk)⟩⟩)
    · exact Or.inr (mem_shuffle.2 k)

theorem splitStep_verts {fuel : Nat} {σ : Sched} {t : Tri V} {s s' : SplitState V} (h : Standing s)
    (ht : ∀ x, IsCorner t x → InMesh s.mesh x)
    (hroll : ∀ m' enc, tryCircumcenter P fuel (σ.sub 0) s.segments s.mesh t = .ok (.rejected m' enc) →
      (∀ x, InMesh s.mesh x → InMesh m' x) ∨ ∀ c, P.circumcenter t = some c → ¬ InMesh s.mesh c)
    (hr : splitStep P fuel σ t s = .ok s') : Standing s' ∧ ∀ x, InMesh s.mesh x → InMesh s'.mesh x := by
  unfold splitStep at hr
  rw [Res.bind_eq_ok] at hr
  obtain ⟨o, ho, hr⟩ := hr
  have k := tryCircumcenter_verts hP h.sound ht ho
  cases o with
  | inserted m' I R =>
    simp only at k hr
    injection hr with hr
    subst hr
    refine ⟨⟨k.1, fun u hu x hx => ?_⟩, k.2.1⟩
    rcases requeue_mem hu with hu | hu
    · exact k.2.1 x (h.queue u hu x hx)
    · exact k.2.2 u hu x hx
  | rejected m' enc =>
    simp only at k hr
    rw [Res.bind_eq_ok] at hr
    obtain ⟨c, hcc, hr⟩ := hr
    have hk : ∀ x, InMesh s.mesh x → InMesh m' x := (hroll m' enc ho).elim id k.2
    obtain ⟨j1, j2⟩ := splitEncroached_verts (s := { s with mesh := m' })
      ⟨k.1, fun u hu x hx => hk x (h.queue u hu x hx)⟩ hr
    exact ⟨j1, fun x hx => j2 x (hk x hx)⟩

theorem history_verts {fuel : Nat} {s s' : SplitState V} {l : List (Attempt V)} (hr : History P fuel s l s') :
    Standing s → (∀ a ∈ l, a.Rejected → ∀ c, P.circumcenter a.tri = some c → ¬ InMesh a.before.mesh c) →
    ∀ x, InMesh s.mesh x → InMesh s'.mesh x := by
  induction hr with
  | done s => exact fun _ _ _ h => h
  | @step s s1 s2 s3 t o l σ τ hp ho hst hh ih =>
    intro h hl x hx
    obtain ⟨p1, p2, p3, p4⟩ := popTriangle_mem hp
    have h1 : Standing s1 := ⟨p2 ▸ h.sound, fun u hu x hx => p2 ▸ h.queue u (p4 u hu) x hx⟩
    obtain ⟨k1, k2⟩ := splitStep_verts hP h1 (fun x hx => p2 ▸ h.queue t p1 x hx) (fun m' enc hm => Or.inr fun c hc =>
      hl ⟨s1, t, o⟩ List.mem_cons_self (by
        rw [hm] at ho
        injection ho with ho
        exact ⟨m', enc, ho.symm⟩) c hc) hst
    exact ih k1 (fun a ha => hl a (List.mem_cons_of_mem _ ha)) x (k2 x (p2 ▸ hx))

end kept

end Verif
