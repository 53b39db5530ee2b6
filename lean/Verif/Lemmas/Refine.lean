import Verif.Lemmas.Rollback
import Verif.Spec.Refinement

/-!
# What the refinement loop keeps in its queues
-/

set_option linter.unusedSectionVars false

namespace Verif

open Spec

variable {V : Type*} [DecidableEq V]

/-- A triangle without the ghost vertex. -/
abbrev NoGhost (g : V → Bool) (t : Tri V) : Prop := t.isGhost g = false

/-- State of an insertion of the vertex `v` alone in the mesh `m0`; `X` are triangles outside the mesh that were
given a bucket. -/
structure Track (P : Preds V) (X : Tri V → Prop) (v : V) (m0 : Mesh V) (s : SolveState V) : Prop where
  sound : AdjSound s.mesh
  wf : s.cmap.WF
  pend : ∀ w ∈ s.cmap.flat ++ s.remaining, w = v
  key : ∀ t l, (t, l) ∈ s.cmap → (t ∈ s.mesh.tris ∨ X t) ∧ ∀ w ∈ l, P.inside t w = true
  orig : ∀ t ∈ s.mesh.tris, t ∈ m0.tris ∨ t ∈ s.included
  inc : ∀ t ∈ s.included, IsCorner t v
  rem : ∀ t ∈ s.removed, NoGhost P.ghost t →
    (t ∈ m0.tris ∨ X t) ∧ P.inside t v = true ∧ t ∉ s.mesh.tris

/-- A triangle of the mesh with `v` strictly inside its circle was there from the beginning. -/
theorem Track.old {P : Preds V} {v : V} {m0 : Mesh V} {s : SolveState V} {X : Tri V → Prop} (h : Track P X v m0 s)
    (hP : ∀ t x, NoGhost P.ghost t → IsCorner t x → P.inside t x = false) {t : Tri V}
    (ht : t ∈ s.mesh.tris) (hg : NoGhost P.ghost t) (hi : P.inside t v = true) : t ∈ m0.tris := by
  rcases h.orig t ht with k | k
  · exact k
  · rw [hP t v hg (h.inc t k)] at hi; cases hi

theorem mem_flat {c : CMap V} {w : V} : w ∈ c.flat ↔ ∃ t l, (t, l) ∈ c ∧ w ∈ l := by
  simp [CMap.flat]

theorem cavityStep_track {P : Preds V} {C : List (Edge V)} {v : V} {m0 : Mesh V} {X : Tri V → Prop}
    (hP : ∀ t x, NoGhost P.ghost t → IsCorner t x → P.inside t x = false) {s : SolveState V} {e : Edge V}
    {r : List (Edge V) × SolveState V} (h : Track P X v m0 s) (hr : cavityStep P C v e s = .ok r) :
    Track P X v m0 r.2 ∧ ∀ t ∈ s.removed, t ∈ r.2.removed := by
  unfold cavityStep at hr
  cases hadj : s.mesh.adj e.opposite with
  | none => rw [hadj] at hr; cases hr
  | some t =>
    rw [hadj] at hr
    simp only at hr
    rw [Res.bind_eq_ok] at hr
    obtain ⟨may, -, hr⟩ := hr
    obtain ⟨htm, hside⟩ := h.sound _ _ hadj
    by_cases hcond : (conflicting P t v && !(decide (e.opposite ∈ C) || decide (e ∈ C)) && may) = true
    · rw [if_pos hcond] at hr
      simp only [Res.ok.injEq] at hr
      subst hr
      refine ⟨⟨adjSound_del h.sound, CMap.wf_erase h.wf t, ?_, ?_, ?_, h.inc, ?_⟩, ?_⟩
      · intro w hw
        simp only [List.mem_append] at hw
        rcases hw with hw | hw | hw
        · obtain ⟨u, l, hu, hl⟩ := mem_flat.1 hw
          exact h.pend w (List.mem_append_left _ (mem_flat.2 ⟨u, l, (CMap.mem_erase.1 hu).1, hl⟩))
        · exact h.pend w (List.mem_append_right _ hw)
        · cases hget : s.cmap.get t with
          | none => rw [hget] at hw; cases hw
          | some l =>
            rw [hget] at hw
            exact h.pend w (List.mem_append_left _
              (mem_flat.2 ⟨t, l, (CMap.get_eq_some h.wf).1 hget, hw⟩))
      · intro u l hu
        obtain ⟨hu, hne⟩ := CMap.mem_erase.1 hu
        exact ⟨(h.key u l hu).1.imp_left fun k => mem_del.2 ⟨k, hne⟩, (h.key u l hu).2⟩
      · intro u hu
        exact h.orig u (mem_del.1 hu).1
      · intro u hu hg
        rcases mem_setInsert.1 hu with rfl | hu
        · have hi : P.inside u v = true := by
            simp only [Bool.and_eq_true, conflicting, Bool.or_eq_true] at hcond
            rcases hcond.1.1 with k | k
            · exact k
            · rw [hg] at k; exact absurd k.1 (by simp)
          exact ⟨Or.inl (h.old hP htm hg hi), hi, fun k => (mem_del.1 k).2 rfl⟩
        · obtain ⟨k1, k2, k3⟩ := h.rem u hu hg
          exact ⟨k1, k2, fun k => k3 (mem_del.1 k).1⟩
      · intro u hu
        exact mem_setInsert.2 (Or.inr hu)
    · rw [if_neg hcond, Res.bind_eq_ok] at hr
      obtain ⟨q, hq, hr⟩ := hr
      simp only [Res.ok.injEq] at hr
      subst hr
      obtain ⟨d1, d2, -, -, d5⟩ := distribute_spec h.wf hq
      refine ⟨⟨adjSound_add h.sound, d1, fun w hw => h.pend w (d2.mem_iff.1 hw), ?_, ?_, ?_, ?_⟩,
        fun _ hu => hu⟩
      · intro u l hu
        rcases d5 u l hu with ⟨-, k⟩ | ⟨rfl, old, new, rfl, ho, -, hn⟩
        · exact ⟨(h.key u l k).1.imp_left fun k => mem_add.2 (Or.inr k), (h.key u l k).2⟩
        · refine ⟨Or.inl (mem_add.2 (Or.inl rfl)), fun w hw => ?_⟩
          rcases List.mem_append.1 hw with hw | hw
          · rcases ho with rfl | ho
            · cases hw
            · exact (h.key _ _ ho).2 w hw
          · exact (hn w hw).1
      · intro u hu
        rcases mem_add.1 hu with rfl | hu
        · exact Or.inr (mem_setInsert.2 (Or.inl rfl))
        · exact (h.orig u hu).imp_right fun k => mem_setInsert.2 (Or.inr k)
      · intro u hu
        rcases mem_setInsert.1 hu with rfl | hu
        · exact newTri_isCorner.2 (Or.inr (Or.inr rfl))
        · exact h.inc u hu
      · intro u hu hg
        obtain ⟨k1, k2, k3⟩ := h.rem u hu hg
        refine ⟨k1, k2, fun k => ?_⟩
        rcases mem_add.1 k with rfl | k
        · rw [hP _ v hg (newTri_isCorner.2 (Or.inr (Or.inr rfl)))] at k2; cases k2
        · exact k3 k

theorem cavityLoop_track {P : Preds V} {C : List (Edge V)} {v : V} {m0 : Mesh V} {X : Tri V → Prop}
    (hP : ∀ t x, NoGhost P.ghost t → IsCorner t x → P.inside t x = false) {n : Nat}
    {s s' : SolveState V} {B : List (Edge V)} (h : Track P X v m0 s) (hr : cavityLoop P C v n B s = .ok s') :
    Track P X v m0 s' ∧ ∀ t ∈ s.removed, t ∈ s'.removed := by
  induction n generalizing s B with
  | zero =>
    cases B with
    | nil => rw [cavityLoop] at hr; injection hr with hr; subst hr; exact ⟨h, fun _ k => k⟩
    | cons e B => rw [cavityLoop] at hr; cases hr
  | succ n ih =>
    cases B with
    | nil => rw [cavityLoop] at hr; injection hr with hr; subst hr; exact ⟨h, fun _ k => k⟩
    | cons e B =>
      rw [cavityLoop, Res.bind_eq_ok] at hr
      obtain ⟨r, hstep, hr⟩ := hr
      obtain ⟨k1, k2⟩ := cavityStep_track hP h hstep
      obtain ⟨j1, j2⟩ := ih k1 hr
      exact ⟨j1, fun t ht => j2 t (k2 t ht)⟩

theorem solveStep_track {P : Preds V} {C : List (Edge V)} {v : V} {m0 : Mesh V} {X : Tri V → Prop}
    (hP : ∀ t x, NoGhost P.ghost t → IsCorner t x → P.inside t x = false) {fuel : Nat} {σ : Sched}
    {s s' : SolveState V} (h : Track P X v m0 s) (hr : solveStep P C fuel σ s = .ok s') :
    Track P X v m0 s' ∧ (∀ t ∈ s.removed, t ∈ s'.removed) ∧
      ∃ t l, choose σ s.cmap = some (t, l) ∧ t ∈ s'.removed := by
  unfold solveStep at hr
  cases hc : choose σ s.cmap with
  | none => rw [hc] at hr; cases hr
  | some p =>
    obtain ⟨t, l⟩ := p
    rw [hc] at hr
    simp only at hr
    have hmem := choose_mem hc
    cases hvl : l.getLast? with
    | none => rw [hvl] at hr; cases hr
    | some w =>
      rw [hvl] at hr
      simp only at hr
      obtain ⟨l', rfl⟩ := List.getLast?_eq_some_iff.1 hvl
      have hwv : w = v := h.pend w (List.mem_append_left _ (mem_flat.2 ⟨t, _, hmem, by simp⟩))
      subst hwv
      have hopen : Track P X w m0 (openCavity t (l' ++ [w]) s) := by
        refine ⟨adjSound_del h.sound, CMap.wf_erase h.wf t, ?_, ?_, ?_, h.inc, ?_⟩
        · intro x hx
          simp only [openCavity, List.mem_append, List.dropLast_concat] at hx
          rcases hx with hx | hx | hx
          · obtain ⟨u, l, hu, hl⟩ := mem_flat.1 hx
            exact h.pend x (List.mem_append_left _ (mem_flat.2 ⟨u, l, (CMap.mem_erase.1 hu).1, hl⟩))
          · exact h.pend x (List.mem_append_right _ hx)
          · exact h.pend x (List.mem_append_left _
              (mem_flat.2 ⟨t, _, hmem, List.mem_append_left _ hx⟩))
        · intro u k hu
          obtain ⟨hu, hne⟩ := CMap.mem_erase.1 hu
          exact ⟨(h.key u k hu).1.imp_left fun k => mem_del.2 ⟨k, hne⟩, (h.key u k hu).2⟩
        · intro u hu
          exact h.orig u (mem_del.1 hu).1
        · intro u hu hg
          rcases mem_setInsert.1 hu with rfl | hu
          · have hi := (h.key u _ hmem).2 w (by simp)
            exact ⟨(h.key u _ hmem).1.imp_left fun k => h.old hP k hg hi, hi, fun k => (mem_del.1 k).2 rfl⟩
          · obtain ⟨k1, k2, k3⟩ := h.rem u hu hg
            exact ⟨k1, k2, fun k => k3 (mem_del.1 k).1⟩
      obtain ⟨j1, j2⟩ := cavityLoop_track hP hopen hr
      exact ⟨j1, fun u hu => j2 u (mem_setInsert.2 (Or.inr hu)), t, _, rfl,
        j2 t (mem_setInsert.2 (Or.inl rfl))⟩

theorem run_track {P : Preds V} {C : List (Edge V)} {v : V} {m0 : Mesh V} {X : Tri V → Prop}
    (hP : ∀ t x, NoGhost P.ghost t → IsCorner t x → P.inside t x = false) {fuel : Nat}
    {s s' : SolveState V} (h : Track P X v m0 s) (hr : Run P C fuel s s') : Track P X v m0 s' := by
  induction hr with
  | refl => exact h
  | step σ _ _ h2 ih => exact (solveStep_track hP ih h2).1

/-- Along a run the vertices of the mesh are kept. -/
theorem run_vertices {P : Preds V} {C : List (Edge V)} {fuel : Nat} {s s' : SolveState V}
    (hs : AdjSound s.mesh) (hw : s.cmap.WF)
    (hkeys : ∀ t l, (t, l) ∈ s.cmap → ∀ x, IsCorner t x → InMesh s.mesh x)
    (hr : Run P C fuel s s') :
    (AdjSound s'.mesh ∧ s'.cmap.WF ∧ ∀ t l, (t, l) ∈ s'.cmap → ∀ x, IsCorner t x → InMesh s'.mesh x) ∧
      ∀ x, InMesh s.mesh x → InMesh s'.mesh x := by
  induction hr with
  | refl => exact ⟨⟨hs, hw, hkeys⟩, fun _ h => h⟩
  | step σ _ _ h2 ih =>
    obtain ⟨⟨a1, a2, a3⟩, a4⟩ := ih
    obtain ⟨v, b1, b2, -, b4, b5⟩ := solveStep_loose a1 a2 a3 h2
    exact ⟨⟨b1, b2, b5⟩, fun x hx => (b4 x).2 (Or.inr (a4 x hx))⟩

/-- Inserting one vertex with `include`. -/
theorem includeOne_track {P : Preds V} {C : List (Edge V)} {v : V} {m : Mesh V}
    (hP : ∀ t x, NoGhost P.ghost t → IsCorner t x → P.inside t x = false) {fuel : Nat} {σ : Sched}
    {r : SolveState V} (hs : AdjSound m) (h : includeVertices P C fuel σ m [v] = .ok r) :
    Track P (fun _ => False) v m r ∧ (∀ x, InMesh m x → InMesh r.mesh x) ∧
      (P.ghost v = false → InMesh m v → r.included = []) := by
  obtain ⟨s0, h0, hrun, -⟩ := include_run h
  obtain ⟨k1, k2, k3, k4, k5, k6, -⟩ := startState_spec h0
  have ht : Track P (fun _ => False) v m s0 := by
    refine ⟨k1 ▸ hs, k4, ?_, fun t l hm => ⟨Or.inl (k1 ▸ (k6 t l hm).1), fun w hw => ((k6 t l hm).2 w hw).1⟩,
      fun t ht => Or.inl (k1 ▸ ht), by simp [k2], by simp [k3]⟩
    intro w hw
    have := List.mem_of_mem_filter (k5.mem_iff.1 hw)
    exact List.mem_singleton.1 this
  refine ⟨run_track hP ht hrun, ?_, ?_⟩
  · intro x hx
    exact (run_vertices ht.sound ht.wf (fun t l hm x hx => ⟨t, (ht.key t l hm).1.resolve_right id, hx⟩) hrun).2 x (k1 ▸ hx)
  · intro hg hin
    have hnil : s0.cmap = [] := by
      cases hc : s0.cmap with
      | nil => rfl
      | cons p c =>
        exfalso
        have hne : p.2 ≠ [] := k4.2 p (by rw [hc]; exact List.mem_cons_self)
        obtain ⟨w, hw⟩ := List.exists_mem_of_ne_nil _ hne
        have := k5.mem_iff.1 (List.mem_append_left _ (mem_flat.2 ⟨p.1, p.2, by rw [hc]; exact List.mem_cons_self, hw⟩))
        rw [List.mem_filter, List.mem_singleton] at this
        obtain ⟨rfl, h2⟩ := this
        simp only [Bool.not_eq_true', decide_eq_false_iff_not] at h2
        exact h2 (mem_vertices.2 ⟨hin, hg⟩)
    have : r = s0 := by
      clear h
      induction hrun with
      | refl => rfl
      | step σ hr hne h2 ih =>
        rw [ih] at hne
        exact absurd hnil hne
    rw [this, k2]

/-- State of `unencroach_segment` started on the mesh `m0`. -/
structure UTrack (P : RPreds V) (m0 : Mesh V) (s : UnencState V) : Prop where
  sound : AdjSound s.mesh
  orig : ∀ t ∈ s.mesh.tris, NoGhost P.ghost t → t ∈ m0.tris ∨ t ∈ s.included
  rem : ∀ t ∈ s.removed, NoGhost P.ghost t → (∀ x, IsCorner t x → InMesh s.mesh x) ∧ t ∉ s.mesh.tris

theorem unencStep_track {P : RPreds V} {C : List (Edge V)} {m0 : Mesh V}
    (hP : ∀ t x, NoGhost P.ghost t → IsCorner t x → P.inside t x = false)
    (hmid : ∀ e, P.ghost (P.mid e) = false) {fuel : Nat} {σ : Sched} {e : Edge V} {s : UnencState V}
    {r : List (Edge V) × UnencState V} (h : UTrack P m0 s) (hr : unencStep P fuel σ C e s = .ok r) :
    UTrack P m0 r.2 := by
  unfold unencStep at hr
  rw [Res.bind_eq_ok] at hr
  obtain ⟨st, hst, hr⟩ := hr
  injection hr with hr
  subst hr
  obtain ⟨k1, k2, k3⟩ := includeOne_track hP h.sound hst
  refine ⟨k1.sound, ?_, ?_⟩
  · intro t ht hg
    simp only [mem_toSet, List.mem_filter, List.mem_append, Bool.not_eq_true', decide_eq_false_iff_not]
    have hnr : t ∉ st.removed := fun hk => (k1.rem t hk hg).2.2 ht
    rcases k1.orig t ht with k | k
    · rcases h.orig t k hg with j | j
      · exact Or.inl j
      · exact Or.inr ⟨Or.inl j, hnr⟩
    · exact Or.inr ⟨Or.inr k, hnr⟩
  · intro t ht hg
    rcases mem_setUnion.1 ht with ht | ht
    · obtain ⟨j1, j2⟩ := h.rem t ht hg
      refine ⟨fun x hx => k2 x (j1 x hx), fun hk => ?_⟩
      rcases k1.orig t hk with k | k
      · exact j2 k
      · rw [k3 (hmid e) (j1 _ (k1.inc t k))] at k
        cases k
    · obtain ⟨j1, -, j3⟩ := k1.rem t ht hg
      exact ⟨fun x hx => k2 x ⟨t, j1.resolve_right id, hx⟩, j3⟩

theorem unencLoop_track {P : RPreds V} {C : List (Edge V)} {m0 : Mesh V}
    (hP : ∀ t x, NoGhost P.ghost t → IsCorner t x → P.inside t x = false)
    (hmid : ∀ e, P.ghost (P.mid e) = false) {fuel n : Nat} {σ : Sched} {stack : List (Edge V)}
    {s s' : UnencState V} (h : UTrack P m0 s) (hr : unencLoop P C fuel n σ stack s = .ok s') :
    UTrack P m0 s' := by
  induction n generalizing σ stack s with
  | zero =>
    cases stack with
    | nil => rw [unencLoop] at hr; injection hr with hr; subst hr; exact h
    | cons e stack => rw [unencLoop] at hr; cases hr
  | succ n ih =>
    cases stack with
    | nil => rw [unencLoop] at hr; injection hr with hr; subst hr; exact h
    | cons e stack =>
      rw [unencLoop, Res.bind_eq_ok] at hr
      obtain ⟨r, hstep, hr⟩ := hr
      exact ih (unencStep_track hP hmid h hstep) hr

theorem unencroachSegment_track {P : RPreds V} {C : List (Edge V)} {m : Mesh V}
    (hP : ∀ t x, NoGhost P.ghost t → IsCorner t x → P.inside t x = false)
    (hmid : ∀ e, P.ghost (P.mid e) = false) {fuel : Nat} {σ : Sched} {e : Edge V} {vs : List V}
    {r : UnencState V} (hs : AdjSound m) (h : unencroachSegment P fuel σ C m e vs = .ok r) :
    UTrack P m r :=
  unencLoop_track hP hmid (s := ⟨m, vs, [], [], []⟩)
    ⟨hs, fun t ht _ => Or.inl ht, by simp⟩ h

/-- A triangle that the refinement should split. -/
def Poor (P : RPreds V) (t : Tri V) : Prop := NoGhost P.ghost t ∧ (P.irregular t = true ∨ P.large t = true)

/-- Every poor triangle of the mesh is in a queue, or is excused. -/
structure Queued (P : RPreds V) (E : Tri V → Prop) (s : SplitState V) : Prop where
  sound : AdjSound s.mesh
  all : ∀ t ∈ s.mesh.tris, Poor P t → t ∈ s.irregulars ∨ t ∈ s.larges ∨ E t

theorem requeue_spec {P : RPreds V} {inc rem : List (Tri V)} {s : SplitState V} {t : Tri V}
    (hr : t ∉ rem) (hp : Poor P t) (h : t ∈ s.irregulars ∨ t ∈ s.larges ∨ t ∈ inc) :
    t ∈ (requeue P inc rem s).irregulars ∨ t ∈ (requeue P inc rem s).larges := by
  have f1 : ∀ (l : List (Tri V)) (q : List (Tri V)),
      t ∈ l.foldl (fun l t => if P.irregular t then setInsert t l else l) q ↔
        t ∈ q ∨ (t ∈ l ∧ P.irregular t = true) := by
    intro l
    induction l with
    | nil => simp
    | cons u l ih =>
      intro q
      rw [List.foldl_cons, ih]
      split_ifs with hu
      · rw [mem_setInsert, List.mem_cons]
        constructor
        · rintro ((rfl | h) | h)
          · exact Or.inr ⟨Or.inl rfl, hu⟩
          · exact Or.inl h
          · exact Or.inr ⟨Or.inr h.1, h.2⟩
        · rintro (h | ⟨rfl | h, h2⟩)
          · exact Or.inl (Or.inr h)
          · exact Or.inl (Or.inl rfl)
          · exact Or.inr ⟨h, h2⟩
      · rw [List.mem_cons]
        constructor
        · rintro (h | h)
          · exact Or.inl h
          · exact Or.inr ⟨Or.inr h.1, h.2⟩
        · rintro (h | ⟨rfl | h, h2⟩)
          · exact Or.inl h
          · exact absurd h2 hu
          · exact Or.inr ⟨h, h2⟩
  have f2 : ∀ (l : List (Tri V)) (q : List (Tri V)),
      t ∈ l.foldl (fun l t => if P.irregular t then l else if P.large t then setInsert t l else l) q ↔
        t ∈ q ∨ (t ∈ l ∧ P.irregular t = false ∧ P.large t = true) := by
    intro l
    induction l with
    | nil => simp
    | cons u l ih =>
      intro q
      rw [List.foldl_cons, ih]
      split_ifs with hu hl
      · rw [List.mem_cons]
        constructor
        · rintro (h | h)
          · exact Or.inl h
          · exact Or.inr ⟨Or.inr h.1, h.2⟩
        · rintro (h | ⟨rfl | h, h2⟩)
          · exact Or.inl h
          · rw [hu] at h2; exact absurd h2.1 (by simp)
          · exact Or.inr ⟨h, h2⟩
      · rw [mem_setInsert, List.mem_cons]
        constructor
        · rintro ((rfl | h) | h)
          · exact Or.inr ⟨Or.inl rfl, by simpa using hu, hl⟩
          · exact Or.inl h
          · exact Or.inr ⟨Or.inr h.1, h.2⟩
        · rintro (h | ⟨rfl | h, h2⟩)
          · exact Or.inl (Or.inr h)
          · exact Or.inl (Or.inl rfl)
          · exact Or.inr ⟨h, h2⟩
      · rw [List.mem_cons]
        constructor
        · rintro (h | h)
          · exact Or.inl h
          · exact Or.inr ⟨Or.inr h.1, h.2⟩
        · rintro (h | ⟨rfl | h, h2⟩)
          · exact Or.inl h
          · exact absurd h2.2 hl
          · exact Or.inr ⟨h, h2⟩
  simp only [requeue, List.mem_filter, f1, f2, Bool.not_eq_true', decide_eq_false_iff_not]
  obtain ⟨hg, hb⟩ := hp
  rcases h with h | h | h
  · exact Or.inl ⟨Or.inl h, hr⟩
  · exact Or.inr ⟨Or.inl h, hr⟩
  · cases hi : P.irregular t
    · rw [hi] at hb
      exact Or.inr ⟨Or.inr ⟨⟨h, hg⟩, rfl, hb.resolve_left (by simp)⟩, hr⟩
    · exact Or.inl ⟨Or.inr ⟨⟨h, hg⟩, rfl⟩, hr⟩

theorem splitEncroached_queued {P : RPreds V}
    (hP : ∀ t x, NoGhost P.ghost t → IsCorner t x → P.inside t x = false)
    (hmid : ∀ e, P.ghost (P.mid e) = false) {E : Tri V → Prop} {fuel : Nat} {es : List (Edge V)} :
    ∀ {σ : Sched} {vs : List V} {s s' : SplitState V}, Queued P E s →
      splitEncroached P fuel σ es vs s = .ok s' → Queued P E s' := by
  induction es with
  | nil =>
    intro σ vs s s' h hr
    rw [splitEncroached] at hr
    injection hr with hr
    subst hr
    exact h
  | cons e es ih =>
    intro σ vs s s' h hr
    rw [splitEncroached, Res.bind_eq_ok] at hr
    obtain ⟨r, hu, hr⟩ := hr
    have k := unencroachSegment_track hP hmid h.sound hu
    refine ih ⟨k.sound, ?_⟩ hr
    intro t ht hp
    have ht' : t ∈ r.mesh.tris := ht
    have hnr : t ∉ r.removed := fun hk => (k.rem t hk hp.1).2 ht'
    rcases k.orig t ht' hp.1 with j | j
    · rcases h.all t j hp with q | q | q
      · rcases requeue_spec (inc := r.included) hnr hp (Or.inl q) with w | w
        · exact Or.inl w
        · exact Or.inr (Or.inl w)
      · rcases requeue_spec (inc := r.included) hnr hp (Or.inr (Or.inl q)) with w | w
        · exact Or.inl w
        · exact Or.inr (Or.inl w)
      · exact Or.inr (Or.inr q)
    · rcases requeue_spec (inc := r.included) hnr hp (Or.inr (Or.inr j)) with w | w
      · exact Or.inl w
      · exact Or.inr (Or.inl w)

theorem mem_foldl_del (I : List (Tri V)) (m : Mesh V) (hs : AdjSound m) :
    AdjSound (I.foldl Mesh.del m) ∧ ∀ t, t ∈ (I.foldl Mesh.del m).tris ↔ t ∈ m.tris ∧ t ∉ I := by
  induction I generalizing m with
  | nil => exact ⟨hs, by simp⟩
  | cons u I ih =>
    obtain ⟨k1, k2⟩ := ih (m.del u) (adjSound_del hs)
    refine ⟨k1, fun t => ?_⟩
    rw [List.foldl_cons, k2, mem_del, List.mem_cons]
    tauto

theorem mem_foldl_add (I : List (Tri V)) (m : Mesh V) (hs : AdjSound m) :
    AdjSound (I.foldl Mesh.add m) ∧ ∀ t, t ∈ (I.foldl Mesh.add m).tris ↔ t ∈ m.tris ∨ t ∈ I := by
  induction I generalizing m with
  | nil => exact ⟨hs, by simp⟩
  | cons u I ih =>
    obtain ⟨k1, k2⟩ := ih (m.add u) (adjSound_add hs)
    refine ⟨k1, fun t => ?_⟩
    rw [List.foldl_cons, k2, mem_add, List.mem_cons]
    tauto

/-- The insertion of the circumcentre, before the encroachments are looked at. -/
theorem tryCircumcenter_track {P : RPreds V}
    (hP : ∀ t x, NoGhost P.ghost t → IsCorner t x → P.inside t x = false) {fuel : Nat} {σ : Sched}
    {C : List (Edge V)} {m : Mesh V} {t : Tri V} {o : TryRes V} (hs : AdjSound m)
    (h : tryCircumcenter P fuel σ C m t = .ok o) :
    ∃ c s, P.circumcenter t = some c ∧ Track P.toPreds (· = t) c m s ∧ (SplitsItself P t → t ∈ s.removed) ∧
      (o = .inserted s.mesh s.included s.removed ∨
        ∃ enc, o = .rejected (rollback s.mesh (shuffle (σ.sub 2) s.included)
          (shuffle (σ.sub 3) s.removed)) enc) := by
  unfold tryCircumcenter at h
  rw [Res.bind_eq_ok] at h
  obtain ⟨c, hc, h⟩ := h
  rw [Res.unwrap_eq_ok] at hc
  rw [Res.bind_eq_ok] at h
  obtain ⟨d, hd, h⟩ := h
  rw [Res.bind_eq_ok] at h
  obtain ⟨s, hsol, h⟩ := h
  rw [Res.bind_eq_ok] at h
  obtain ⟨enc, -, h⟩ := h
  have hdl : distributeOverLoop P.toPreds m fuel [t] [t] [] [c] = .ok d := hd
  obtain ⟨k1, k2, k3⟩ := distributeOverLoop_gen hs (M := fun u => u ∈ m.tris ∨ u = t) (fun _ => Or.inl)
    (by simp) CMap.wf_nil (by simp) hdl
  have ht : Track P.toPreds (· = t) c m ⟨m, d.1, [], [], []⟩ := by
    refine ⟨hs, k1, ?_, fun u l hu => ⟨(k3 u l hu).1, fun w hw => ((k3 u l hu).2 w hw).1⟩,
      fun u hu => Or.inl hu, by simp, by simp⟩
    intro w hw
    rw [List.append_nil] at hw
    have := k2.mem_iff.1 (List.mem_append_left d.2 hw)
    simpa [CMap.flat] using this
  have hrun := solveLoop_run (show solveLoop P.toPreds C fuel fuel (σ.sub 1) ⟨m, d.1, [], [], []⟩ = .ok s from hsol)
  refine ⟨c, s, hc, run_track hP ht hrun.1, ?_, ?_⟩
  · rintro ⟨c', hc', hi, hm⟩
    rw [hc] at hc'
    injection hc' with hc'
    subst hc'
    have hd1 : d.1 = [(t, [c])] := by
      cases fuel with
      | zero => simp [distributeOverLoop] at hdl
      | succ n =>
        simp only [distributeOverLoop] at hdl
        rw [Res.bind_eq_ok] at hdl
        obtain ⟨q, hq, hdl⟩ := hdl
        have hq' : q = ([(t, [c])], []) := by
          unfold distribute at hq
          simp only [splitConflicts, hm, Res.bind_ok, hi, Bool.and_self, if_true, CMap.append, CMap.get,
            List.find?_nil, Option.map_none, Res.ok.injEq] at hq
          rw [← hq]
          simp
        subst hq'
        generalize (visitNeighbours P.toPreds m t.outerEdges [] [t]).1 = pend at hdl
        generalize (visitNeighbours P.toPreds m t.outerEdges [] [t]).2 = vis at hdl
        cases n <;> cases pend <;> simp only [distributeOverLoop, Res.ok.injEq] at hdl <;> rw [← hdl]
    have hsol' : solveLoop P.toPreds C fuel fuel (σ.sub 1) ⟨m, d.1, [], [], []⟩ = .ok s := hsol
    have hgrow : ∀ {s1 s2 : SolveState V}, Track P.toPreds (· = t) c m s1 → Run P.toPreds C fuel s1 s2 →
        ∀ u ∈ s1.removed, u ∈ s2.removed := by
      intro s1 s2 hs1 hr
      induction hr with
      | refl => exact fun u hu => hu
      | step σ hr' _ h2 ih => exact fun u hu => (solveStep_track hP (run_track hP hs1 hr') h2).2.1 u (ih u hu)
    cases fuel with
    | zero => rw [solveLoop, if_neg (by simp [hd1])] at hsol'; cases hsol'
    | succ n =>
      rw [solveLoop, if_neg (by simp [hd1]), Res.bind_eq_ok] at hsol'
      obtain ⟨s1, h1, h2⟩ := hsol'
      obtain ⟨j1, -, u, l, hu, hur⟩ := solveStep_track hP ht h1
      have : u = t := by
        have := choose_mem hu
        simp only [hd1, List.mem_singleton, Prod.mk.injEq] at this
        exact this.1
      subst this
      exact hgrow j1 (solveLoop_run h2).1 u hur
  · split_ifs at h
    · injection h with h
      exact Or.inl h.symm
    · injection h with h
      exact Or.inr ⟨enc, h.symm⟩

/-- The edges opposite to the circumcentre that are reported. -/
theorem mem_findEncroachments {P : RPreds V} {C : List (Edge V)} {c : V} {I : List (Tri V)} {enc : List (Edge V)}
    (h : findEncroachments P C c I = .ok enc) (e : Edge V) :
    e ∈ enc ↔ (∃ t ∈ I, t.oppositeEdge P.veq c = some e) ∧ (e ∈ C ∨ e.opposite ∈ C) ∧ P.encroaches e c = true := by
  unfold findEncroachments at h
  rw [Res.bind_eq_ok] at h
  obtain ⟨l, hl, h⟩ := h
  injection h with h
  subst h
  rw [mem_toSet, List.mem_filter, Bool.and_eq_true, Bool.or_eq_true, decide_eq_true_eq, decide_eq_true_eq]
  refine and_congr ?_ Iff.rfl
  induction I generalizing l with
  | nil =>
    simp only [List.foldr_nil, Res.ok.injEq] at hl
    subst hl; simp
  | cons u I ih =>
    rw [List.foldr_cons, Res.bind_eq_ok] at hl
    obtain ⟨f, hf, hl⟩ := hl
    rw [Res.unwrap_eq_ok] at hf
    rw [Res.bind_eq_ok] at hl
    obtain ⟨l', hl', hl⟩ := hl
    injection hl with hl
    subst hl
    rw [List.mem_cons, ih l' hl']
    simp only [List.mem_cons, exists_eq_or_imp, hf, Option.some.injEq]
    exact or_congr eq_comm Iff.rfl

theorem tryCircumcenter_enc {P : RPreds V} {fuel : Nat} {σ : Sched} {C : List (Edge V)} {m : Mesh V} {t : Tri V}
    {o : TryRes V} (h : tryCircumcenter P fuel σ C m t = .ok o) :
    ∃ c I enc, P.circumcenter t = some c ∧ findEncroachments P C c I = .ok enc ∧
      ((enc = [] ∧ ∃ m' R, o = .inserted m' I R) ∨ (enc ≠ [] ∧ ∃ m', o = .rejected m' enc)) := by
  unfold tryCircumcenter at h
  rw [Res.bind_eq_ok] at h
  obtain ⟨c, hc, h⟩ := h
  rw [Res.unwrap_eq_ok] at hc
  rw [Res.bind_eq_ok] at h
  obtain ⟨d, hd, h⟩ := h
  rw [Res.bind_eq_ok] at h
  obtain ⟨s, hsol, h⟩ := h
  rw [Res.bind_eq_ok] at h
  obtain ⟨enc, henc, h⟩ := h
  refine ⟨c, s.included, enc, hc, henc, ?_⟩
  split_ifs at h with h0
  · injection h with h; exact Or.inl ⟨h0, _, _, h.symm⟩
  · injection h with h; exact Or.inr ⟨h0, _, h.symm⟩

/-- Why a popped triangle may stay in the mesh. -/
def Excuse (P : RPreds V) (a : Attempt V) : Prop := a.Rejected ∨ ¬ SplitsItself P a.tri

theorem splitStep_queued {P : RPreds V}
    (hP : ∀ t x, NoGhost P.ghost t → IsCorner t x → P.inside t x = false)
    (hmid : ∀ e, P.ghost (P.mid e) = false) {E : Tri V → Prop} {fuel : Nat} {σ : Sched} {t : Tri V}
    {s s' : SplitState V} (h : Queued P (fun u => u = t ∨ E u) s)
    (hr : splitStep P fuel σ t s = .ok s') :
    ∃ o, tryCircumcenter P fuel (σ.sub 0) s.segments s.mesh t = .ok o ∧
      Queued P (fun u => (u = t ∧ Excuse P ⟨s, t, o⟩) ∨ E u) s' := by
  unfold splitStep at hr
  rw [Res.bind_eq_ok] at hr
  obtain ⟨o, ho, hr⟩ := hr
  refine ⟨o, ho, ?_⟩
  obtain ⟨c, st, -, k, hself, hout⟩ := tryCircumcenter_track hP h.sound ho
  rcases hout with rfl | ⟨enc, rfl⟩
  · simp only at hr
    injection hr with hr
    subst hr
    refine ⟨k.sound, ?_⟩
    intro u hu hp
    have hu' : u ∈ st.mesh.tris := hu
    have hnr : u ∉ st.removed := fun hk => (k.rem u hk hp.1).2.2 hu'
    have lift : (u ∈ s.irregulars ∨ u ∈ s.larges ∨ u ∈ st.included) →
        u ∈ (requeue P st.included st.removed { s with mesh := st.mesh }).irregulars ∨
          u ∈ (requeue P st.included st.removed { s with mesh := st.mesh }).larges :=
      fun hq => requeue_spec (s := { s with mesh := st.mesh }) hnr hp hq
    rcases k.orig u hu' with j | j
    · rcases h.all u j hp with q | q | q | q
      · exact (lift (Or.inl q)).imp_right Or.inl
      · exact (lift (Or.inr (Or.inl q))).imp_right Or.inl
      · subst q
        exact Or.inr (Or.inr (Or.inl ⟨rfl, Or.inr fun hs => hnr (hself hs)⟩))
      · exact Or.inr (Or.inr (Or.inr q))
    · exact (lift (Or.inr (Or.inr j))).imp_right Or.inl
  · simp only at hr
    rw [Res.bind_eq_ok] at hr
    obtain ⟨c', -, hr⟩ := hr
    refine splitEncroached_queued hP hmid ?_ hr
    obtain ⟨a1, a2⟩ := mem_foldl_del (shuffle (σ.sub 0 |>.sub 2) st.included) st.mesh k.sound
    obtain ⟨b1, b2⟩ := mem_foldl_add (shuffle (σ.sub 0 |>.sub 3) st.removed) _ a1
    refine ⟨b1, ?_⟩
    intro u hu hp
    have hu' := (b2 u).1 hu
    have hold : u ∈ s.mesh.tris ∨ u = t := by
      rcases hu' with hu' | hu'
      · obtain ⟨c1, c2⟩ := (a2 u).1 hu'
        rcases k.orig u c1 with j | j
        · exact Or.inl j
        · exact absurd (mem_shuffle.2 j) c2
      · exact (k.rem u (mem_shuffle.1 hu') hp.1).1
    have hex : ∀ u, u = t → (u = t ∧ Excuse P ⟨s, t, .rejected (rollback st.mesh
        (shuffle (σ.sub 0 |>.sub 2) st.included) (shuffle (σ.sub 0 |>.sub 3) st.removed)) enc⟩) ∨ E u :=
      fun u hu => Or.inl ⟨hu, Or.inl ⟨_, _, rfl⟩⟩
    rcases hold with j | j
    · rcases h.all u j hp with q | q | q | q
      · exact Or.inl q
      · exact Or.inr (Or.inl q)
      · exact Or.inr (Or.inr (hex u q))
      · exact Or.inr (Or.inr (Or.inr q))
    · exact Or.inr (Or.inr (hex u j))

theorem popTriangle_queued {P : RPreds V} {E : Tri V → Prop} {σ : Sched} {t : Tri V}
    {s s' : SplitState V} (h : Queued P E s) (hp : popTriangle σ s = some (t, s')) :
    Queued P (fun u => u = t ∨ E u) s' := by
  unfold popTriangle at hp
  cases hc : choose σ s.irregulars with
  | some u =>
    rw [hc] at hp
    simp only [Option.some.injEq, Prod.mk.injEq] at hp
    obtain ⟨rfl, rfl⟩ := hp
    refine ⟨h.sound, fun w hw hpw => ?_⟩
    rcases h.all w hw hpw with k | k | k
    · by_cases hwu : w = u
      · exact Or.inr (Or.inr (Or.inl hwu))
      · exact Or.inl (mem_setErase.2 ⟨k, hwu⟩)
    · exact Or.inr (Or.inl k)
    · exact Or.inr (Or.inr (Or.inr k))
  | none =>
    rw [hc] at hp
    simp only at hp
    cases hc' : choose σ s.larges with
    | none => rw [hc'] at hp; cases hp
    | some u =>
      rw [hc'] at hp
      simp only [Option.some.injEq, Prod.mk.injEq] at hp
      obtain ⟨rfl, rfl⟩ := hp
      refine ⟨h.sound, fun w hw hpw => ?_⟩
      rcases h.all w hw hpw with k | k | k
      · exact Or.inl k
      · by_cases hwu : w = u
        · exact Or.inr (Or.inr (Or.inl hwu))
        · exact Or.inr (Or.inl (mem_setErase.2 ⟨k, hwu⟩))
      · exact Or.inr (Or.inr (Or.inr k))

theorem popTriangle_none {σ : Sched} {s : SplitState V} (h : popTriangle σ s = none) :
    s.irregulars = [] ∧ s.larges = [] := by
  unfold popTriangle at h
  cases hc : choose σ s.irregulars with
  | some u => rw [hc] at h; cases h
  | none =>
    rw [hc] at h
    simp only at h
    cases hc' : choose σ s.larges with
    | some u => rw [hc'] at h; cases h
    | none => exact ⟨choose_eq_none.1 hc, choose_eq_none.1 hc'⟩

theorem splitIrregularLoop_history {P : RPreds V}
    (hP : ∀ t x, NoGhost P.ghost t → IsCorner t x → P.inside t x = false)
    (hmid : ∀ e, P.ghost (P.mid e) = false) {fuel n : Nat} : ∀ {σ : Sched} {s s' : SplitState V}
    {E : Tri V → Prop}, Queued P E s → splitIrregularLoop P fuel n σ s = .ok s' →
    ∃ l, History P fuel s l s' ∧ AdjSound s'.mesh ∧ s'.irregulars = [] ∧ s'.larges = [] ∧
      ∀ t ∈ s'.mesh.tris, Poor P t → E t ∨ ∃ a ∈ l, a.tri = t ∧ Excuse P a := by
  induction n with
  | zero =>
    intro σ s s' E h hr
    rw [splitIrregularLoop] at hr
    cases hp : popTriangle (σ.sub 0) s with
    | some q => obtain ⟨t, s1⟩ := q; rw [hp] at hr; cases hr
    | none =>
      rw [hp] at hr
      injection hr with hr
      subst hr
      obtain ⟨e1, e2⟩ := popTriangle_none hp
      refine ⟨[], History.done _, h.sound, e1, e2, fun t ht hpt => ?_⟩
      rcases h.all t ht hpt with k | k | k
      · rw [e1] at k; cases k
      · rw [e2] at k; cases k
      · exact Or.inl k
  | succ n ih =>
    intro σ s s' E h hr
    rw [splitIrregularLoop] at hr
    cases hp : popTriangle (σ.sub 0) s with
    | none =>
      rw [hp] at hr
      injection hr with hr
      subst hr
      obtain ⟨e1, e2⟩ := popTriangle_none hp
      refine ⟨[], History.done _, h.sound, e1, e2, fun t ht hpt => ?_⟩
      rcases h.all t ht hpt with k | k | k
      · rw [e1] at k; cases k
      · rw [e2] at k; cases k
      · exact Or.inl k
    | some q =>
      obtain ⟨t, s1⟩ := q
      rw [hp] at hr
      simp only at hr
      rw [Res.bind_eq_ok] at hr
      obtain ⟨s2, hstep, hr⟩ := hr
      obtain ⟨o, ho, hq⟩ := splitStep_queued hP hmid (popTriangle_queued h hp) hstep
      obtain ⟨l, k1, k2, k3, k4, k5⟩ := ih hq hr
      refine ⟨⟨s1, t, o⟩ :: l, History.step _ _ hp ho hstep k1, k2, k3, k4, fun u hu hpu => ?_⟩
      rcases k5 u hu hpu with (⟨rfl, k⟩ | k) | ⟨a, ha, h1, h2⟩
      · exact Or.inr ⟨_, List.mem_cons_self, rfl, k⟩
      · exact Or.inl k
      · exact Or.inr ⟨a, List.mem_cons_of_mem _ ha, h1, h2⟩

theorem splitInit_queued {P : RPreds V} {C : List (Edge V)} {m : Mesh V} (hs : AdjSound m) :
    Queued P (fun _ => False) (splitInit P C m) := by
  refine ⟨hs, fun t ht hp => ?_⟩
  obtain ⟨hg, hb⟩ := hp
  simp only [splitInit, List.mem_filter]
  rcases hb with hb | hb
  · exact Or.inl ⟨⟨ht, by simp [hg]⟩, hb⟩
  · exact Or.inr (Or.inl ⟨⟨ht, by simp [hg]⟩, hb⟩)

theorem unencroachLoop_sound {P : RPreds V} {C : List (Edge V)}
    (hP : ∀ t x, NoGhost P.ghost t → IsCorner t x → P.inside t x = false)
    (hmid : ∀ e, P.ghost (P.mid e) = false) {fuel n : Nat} : ∀ {σ : Sched} {m : Mesh V}
    {c : List (Edge V × List V)} {split : List (Edge V × Edge V)} {r : Mesh V × List (Edge V × Edge V)},
    AdjSound m → unencroachLoop P C fuel n σ m c split = .ok r → AdjSound r.1 := by
  induction n with
  | zero =>
    intro σ m c split r hs hr
    cases c with
    | nil => rw [unencroachLoop] at hr; injection hr with hr; subst hr; exact hs
    | cons p c => rw [unencroachLoop] at hr; cases hr
  | succ n ih =>
    intro σ m c split r hs hr
    cases c with
    | nil => rw [unencroachLoop] at hr; injection hr with hr; subst hr; exact hs
    | cons p c =>
      rw [unencroachLoop] at hr
      split at hr
      · cases hr
      · rw [Res.bind_eq_ok] at hr
        obtain ⟨u, hu, hr⟩ := hr
        exact ih (unencroachSegment_track hP hmid hs hu).sound hr

end Verif
