import Verif.Lemmas.Rollback

/-!
# C14, C15, C17, C18, C28, C44: vertex insertion, whatever the predicates answer

`P : Preds V` is an arbitrary table of answers to the geometric questions, so these theorems hold for floating point
predicates as well.
-/

set_option linter.unusedSectionVars false

namespace Verif.Props

open Spec

variable {V : Type*} [DecidableEq V]

/-- The vertices involved. -/
private def Known (m : Mesh V) (vs : List V) (x : V) : Prop := InMesh m x ∨ x ∈ vs

private theorem sep_of {P : Preds V} {m : Mesh V} {vs : List V} (h : GoodRequest P m vs) :
    SepOn P.veq (Known m vs) := h.distinct

private theorem legit_of {P : Preds V} {σ : Sched} {m : Mesh V} {vs : List V} {s0 : SolveState V}
    (h : GoodRequest P m vs) (h0 : startState P σ m vs = .ok s0) : Legit P (Known m vs) s0 :=
  start_legit h.sound h.complete h.nodup h.ordinary (fun _ hx => Or.inl hx) (fun _ hw => Or.inr hw) h0

theorem flat_pos {c : CMap V} (hw : c.WF) (hne : c ≠ []) : 0 < c.flat.length := by
  obtain ⟨p, hp⟩ := List.exists_mem_of_ne_nil _ hne
  obtain ⟨w, hw⟩ := List.exists_mem_of_ne_nil _ (hw.2 p hp)
  exact List.length_pos_of_mem (List.mem_flatMap.2 ⟨p, hp, hw⟩)

/-- With at most one pending vertex a run is empty or one insertion. -/
theorem run_single {P : Preds V} {C : List (Edge V)} {fuel : Nat} {S : V → Prop}
    (hsep : SepOn P.veq S) {s0 s' : SolveState V} (hl : Legit P S s0) (hsim : Simple s0.mesh.tris)
    (h1 : (s0.cmap.flat ++ s0.remaining).length ≤ 1) (hr : Run P C fuel s0 s') :
    s' = s0 ∨ (s'.cmap = [] ∧ ∃ v L O R Z, v ∈ s0.cmap.flat ∧ Inserts P C s0 v s' L O R Z) := by
  induction hr with
  | refl => exact Or.inl rfl
  | step σ hr hne h ih =>
    rcases ih with rfl | ⟨hc, -⟩
    · right
      obtain ⟨l2, v, L, O, R, Z, hv, hi⟩ := solveStep_inv hsep hl hsim h
      refine ⟨?_, v, L, O, R, Z, hv, hi⟩
      have := hi.pend.length_eq
      simp only [List.length_cons, List.length_append] at this h1
      by_contra hne'
      have := flat_pos l2.wf hne'
      omega
    · exact absurd hc hne

/-- C14: inserting vertices in a closed mesh leaves it closed: each directed edge is used as often as its reverse. -/
theorem C14_watertight {P : Preds V} {C : List (Edge V)} {fuel : Nat} {σ : Sched} {m : Mesh V}
    {vs : List V} {r : SolveState V} (hq : GoodRequest P m vs) (hw : Watertight m.tris)
    (hp : NoPinch P C fuel σ m vs) (h : includeVertices P C fuel σ m vs = .ok r) :
    Watertight r.mesh.tris := by
  obtain ⟨s0, h0, hr, -⟩ := include_run h
  refine (run_induct (sep_of hq) (legit_of hq h0) (fun s1 h1 => hp s0 s1 h0 h1)
    (fun s => Watertight s.mesh.tris) ?_ ?_ hr).2
  · rw [(startState_spec h0).1]; exact hw
  · intro s1 v s2 L O R Z _ _ _ hw1 _ hi
    exact hi.cav.watertight hi.fresh hw1

/-- C14, one vertex: no assumption on intermediate meshes is needed. -/
theorem C14_one {P : Preds V} {C : List (Edge V)} {fuel : Nat} {σ : Sched} {m : Mesh V}
    {v : V} {r : SolveState V} (hq : GoodRequest P m [v]) (hw : Watertight m.tris)
    (h : includeVertices P C fuel σ m [v] = .ok r) : Watertight r.mesh.tris := by
  refine C14_watertight hq hw ?_ h
  intro s0 s' h0 hr hne
  obtain ⟨k1, -, -, -, k5, -⟩ := startState_spec h0
  have hlen : (s0.cmap.flat ++ s0.remaining).length ≤ 1 := by
    rw [k5.length_eq]
    exact (List.length_filter_le _ _).trans (by simp)
  have hsim : Simple s0.mesh.tris := by rw [k1]; exact hq.simple
  rcases run_single (sep_of hq) (legit_of hq h0) hsim hlen hr with rfl | ⟨hc, -⟩
  · exact hsim
  · exact absurd hc hne

/-- C15: the vertices of the mesh after an insertion are exactly those before plus some of the requested ones
(`ins`); the requested vertices that were new and are not inserted are reported as remaining. Nothing is assumed
about the predicates nor about the shape of the mesh. -/
theorem C15_vertices {P : Preds V} {C : List (Edge V)} {fuel : Nat} {σ : Sched} {m : Mesh V}
    {vs : List V} {r : SolveState V} (hs : AdjSound m)
    (h : includeVertices P C fuel σ m vs = .ok r) :
    ∃ ins : List V,
      (ins ++ r.remaining).Perm (vs.filter fun v => !decide (v ∈ m.vertices P.ghost)) ∧
      ∀ x, InMesh r.mesh x ↔ InMesh m x ∨ x ∈ ins := by
  obtain ⟨s0, h0, hr, hend⟩ := include_run h
  obtain ⟨k1, -, -, k4, k5, k6, -⟩ := startState_spec h0
  have key : ∀ s', Run P C fuel s0 s' → AdjSound s'.mesh ∧ s'.cmap.WF ∧
      (∀ t l, (t, l) ∈ s'.cmap → ∀ x, IsCorner t x → InMesh s'.mesh x) ∧
      ∃ ins : List V, (ins ++ (s'.cmap.flat ++ s'.remaining)).Perm (s0.cmap.flat ++ s0.remaining) ∧
        ∀ x, InMesh s'.mesh x ↔ InMesh m x ∨ x ∈ ins := by
    intro s' hr
    induction hr with
    | refl =>
      refine ⟨k1 ▸ hs, k4, ?_, [], List.Perm.refl _, by simp [k1]⟩
      intro t l ht x hx
      exact ⟨t, k1 ▸ (k6 t l ht).1, hx⟩
    | step τ _ _ hst ih =>
      obtain ⟨i1, i2, i3, ins, i4, i5⟩ := ih
      obtain ⟨v, j1, j2, j3, j4, j5⟩ := solveStep_loose i1 i2 i3 hst
      refine ⟨j1, j2, j5, v :: ins, ?_, ?_⟩
      · refine List.Perm.trans ?_ i4
        refine List.Perm.trans ?_ (j3.symm.append_left ins)
        exact List.perm_middle.symm
      · intro x
        rw [j4, i5, List.mem_cons]
        tauto
  obtain ⟨-, -, -, ins, h1, h2⟩ := key r hr
  refine ⟨ins, ?_, h2⟩
  refine List.Perm.trans ?_ k5
  simpa [hend, CMap.flat] using h1

/-- C17: a constrained edge that is in the mesh is still in it after the insertion. -/
theorem C17_survives {P : Preds V} {C : List (Edge V)} {fuel : Nat} {σ : Sched} {m : Mesh V}
    {vs : List V} {r : SolveState V} (hs : AdjSound m)
    (hd : ∀ a b, (InMesh m a ∨ a ∈ vs) → (InMesh m b ∨ b ∈ vs) → (P.veq a b = true ↔ a = b))
    (h : includeVertices P C fuel σ m vs = .ok r) (e : Edge V) (he : Constrained C e)
    (hm : ∃ t ∈ m.tris, IsSide t e) : ∃ t ∈ r.mesh.tris, IsSide t e := by
  obtain ⟨s0, h0, hr, -⟩ := include_run h
  obtain ⟨k1, -, -, k4, k5, k6, -⟩ := startState_spec h0
  have key : ∀ s', Run P C fuel s0 s' → AdjSound s'.mesh ∧ s'.cmap.WF ∧
      (∀ t l, (t, l) ∈ s'.cmap → ∀ x, IsCorner t x → InMesh s'.mesh x) ∧
      (∀ x, InMesh s'.mesh x ∨ x ∈ s'.cmap.flat ++ s'.remaining → Known m vs x) ∧
      e ∈ sides s'.mesh.tris := by
    intro s' hr
    induction hr with
    | refl =>
      refine ⟨k1 ▸ hs, k4, ?_, ?_, k1 ▸ mem_sides.2 hm⟩
      · intro t l ht x hx
        exact ⟨t, k1 ▸ (k6 t l ht).1, hx⟩
      · rintro x (hx | hx)
        · exact Or.inl (k1 ▸ hx)
        · rw [k5.mem_iff] at hx
          exact Or.inr (List.mem_of_mem_filter hx)
    | step τ _ _ hst ih =>
      obtain ⟨i1, i2, i3, i4, i5⟩ := ih
      obtain ⟨v, j1, j2, j3, j4, j5⟩ := solveStep_loose i1 i2 i3 hst
      refine ⟨j1, j2, j5, ?_, solveStep_side (S := Known m vs) hd (fun x hx => i4 x (Or.inl hx))
        (fun x hx => i4 x (Or.inr (List.mem_append.2 (Or.inl hx)))) i1 i2 i3 hst he i5⟩
      rintro x (hx | hx)
      · rcases (j4 x).1 hx with rfl | hx
        · exact i4 _ (Or.inr (j3.mem_iff.2 List.mem_cons_self))
        · exact i4 x (Or.inl hx)
      · exact i4 x (Or.inr (j3.mem_iff.2 (List.mem_cons_of_mem _ hx)))
  exact mem_sides.1 (key r hr).2.2.2.2

/-- C17: the number of triangles on each side of a constrained edge does not change. -/
theorem C17_count {P : Preds V} {C : List (Edge V)} {fuel : Nat} {σ : Sched} {m : Mesh V}
    {vs : List V} {r : SolveState V} (hq : GoodRequest P m vs)
    (hp : NoPinch P C fuel σ m vs) (h : includeVertices P C fuel σ m vs = .ok r)
    (e : Edge V) (he : Constrained C e) (h1 : e.v1 ∉ vs) (h2 : e.v2 ∉ vs) :
    sideCount r.mesh.tris e = sideCount m.tris e := by
  obtain ⟨s0, h0, hr, -⟩ := include_run h
  obtain ⟨k1, -, -, -, k5, -⟩ := startState_spec h0
  refine (run_induct (sep_of hq) (legit_of hq h0) (fun s1 h1 => hp s0 s1 h0 h1)
    (fun s => (∀ w ∈ s.cmap.flat ++ s.remaining, w ∈ vs) ∧
      sideCount s.mesh.tris e = sideCount m.tris e) ⟨?_, ?_⟩ ?_ hr).2.2
  · intro w hw
    rw [k5.mem_iff] at hw
    exact List.mem_of_mem_filter hw
  · rw [k1]
  · rintro s1 v s2 L O R Z - - - ⟨q1, q2⟩ hv hi
    have hvv : v ∈ vs := q1 v (List.mem_append.2 (Or.inl hv))
    refine ⟨fun w hw => q1 w (hi.pend.mem_iff.2 (List.mem_cons_of_mem _ hw)), ?_⟩
    rw [hi.cav.count_constrained he, q2]
    · rintro rfl; exact h1 hvv
    · rintro rfl; exact h2 hvv

/-- C18: insertion terminates, within a number of iterations linear in the size of the mesh and of the request. -/
theorem C18_terminates {P : Preds V} {C : List (Edge V)} {fuel : Nat} {σ : Sched} {m : Mesh V}
    {vs : List V} (hq : GoodRequest P m vs) (hp : NoPinch P C fuel σ m vs)
    (hmay : ∀ t w, P.mayInsert t w ≠ .diverged)
    (hf : 2 * (m.tris.length + 2 * vs.length) + 3 ≤ fuel) :
    includeVertices P C fuel σ m vs ≠ .diverged := by
  simp only [includeVertices]
  have hd : ∀ ts (c : CMap V) (l : List V), distributeAll P ts c l ≠ .diverged := by
    intro ts
    induction ts with
    | nil => intro c l; simp [distributeAll]
    | cons t ts ih =>
      intro c l
      rw [distributeAll]
      split_ifs
      · simp
      · cases h1 : distribute P t c l with
        | panic => simp
        | diverged => exact absurd h1 (distribute_total hmay t c l)
        | ok q => simp only [Res.bind_ok]; exact ih _ _
  cases h1 : distributeAll P (shuffle (σ.sub 0) m.tris) []
    (vs.filter fun v => !decide (v ∈ m.vertices P.ghost)) with
  | panic => simp
  | diverged => exact absurd h1 (hd _ _ _)
  | ok q =>
    simp only [Res.bind_ok]
    have h0 : startState P σ m vs = .ok ⟨m, q.1, q.2, [], []⟩ := by
      unfold startState; rw [h1]; rfl
    obtain ⟨-, -, -, -, k5, -⟩ := startState_spec h0
    have hlen : (q.1.flat ++ q.2).length ≤ vs.length := by
      have := k5.length_eq
      simp only at this
      rw [this]; exact List.length_filter_le _ _
    refine solveLoop_total (sep_of hq) hmay (legit_of hq h0) (fun s1 h => hp _ s1 h0 h) ?_ ?_
    · simp only; omega
    · simp only; omega

/-- C44: each inserted vertex adds exactly two triangles (ghost triangles included). -/
theorem C44_two_each {P : Preds V} {C : List (Edge V)} {fuel : Nat} {σ : Sched} {m : Mesh V}
    {vs : List V} {r : SolveState V} (hq : GoodRequest P m vs)
    (hp : NoPinch P C fuel σ m vs) (h : includeVertices P C fuel σ m vs = .ok r) :
    r.mesh.tris.length + 2 * r.remaining.length =
      m.tris.length + 2 * (vs.filter fun v => !decide (v ∈ m.vertices P.ghost)).length := by
  obtain ⟨s0, h0, hr, hend⟩ := include_run h
  obtain ⟨k1, -, -, -, k5, -⟩ := startState_spec h0
  have := (run_induct (sep_of hq) (legit_of hq h0) (fun s1 h1 => hp s0 s1 h0 h1)
    (fun s => s.mesh.tris.length + 2 * (s.cmap.flat ++ s.remaining).length =
      m.tris.length + 2 * (vs.filter fun v => !decide (v ∈ m.vertices P.ghost)).length) ?_ ?_ hr).2
  · simpa [hend, CMap.flat] using this
  · rw [k1, k5.length_eq]
  · rintro s1 v s2 L O R Z - - - q1 - hi
    have h1 := hi.length
    have h2 := hi.pend.length_eq
    simp only [List.length_cons] at h2
    omega

/-- C28: when the insertion of the circumcentre of `t` is rejected, the mesh has the same triangles and the same
adjacency as before. -/
theorem C28_rollback {P : RPreds V} {C : List (Edge V)} {fuel : Nat} {σ : Sched} {m m' : Mesh V}
    {t : Tri V} {enc : List (Edge V)} (hs : AdjSound m) (hc : AdjComplete m) (hsim : Simple m.tris)
    (ht : t ∈ m.tris) (hfresh : ∀ c, P.circumcenter t = some c → ¬ InMesh m c)
    (hd : ∀ a b, InMesh m a → InMesh m b → (P.veq a b = true ↔ a = b))
    (h : tryCircumcenter P fuel σ C m t = .ok (.rejected m' enc)) :
    m'.tris.Perm m.tris ∧ m'.adj = m.adj := by
  unfold tryCircumcenter at h
  rw [Res.bind_eq_ok] at h
  obtain ⟨c, hcc, h⟩ := h
  rw [Res.unwrap_eq_ok] at hcc
  rw [Res.bind_eq_ok] at h
  obtain ⟨d, hdist, h⟩ := h
  rw [Res.bind_eq_ok] at h
  obtain ⟨s, hsolve, h⟩ := h
  rw [Res.bind_eq_ok] at h
  obtain ⟨en, hen, h⟩ := h
  by_cases hen0 : en = []
  · rw [if_pos hen0] at h
    injection h with h
    injection h
  rw [if_neg hen0] at h
  injection h with h
  injection h with h1 h2
  subst h1
  subst h2
  simp only [distributeOver] at hdist
  obtain ⟨w1, w2, w3⟩ := distributeOverLoop_spec hs (by simpa using ht) CMap.wf_nil (by simp) hdist
  have hsub : ∀ w ∈ d.1.flat, w = c := by
    intro w hw
    have : w ∈ d.1.flat ++ d.2 := List.mem_append.2 (Or.inl hw)
    rw [w2.mem_iff] at this
    simpa [CMap.flat] using this
  have hlen : d.1.flat.length ≤ 1 := by
    have := w2.length_eq
    simp only [List.length_append, CMap.flat, List.flatMap_nil, List.length_nil, List.length_cons] at this
    simp only [CMap.flat]
    omega
  have hfr : ¬ InMesh m c := hfresh c hcc
  have hlegit : Legit P.toPreds (fun x => InMesh m x ∨ x = c) ⟨m, d.1, [], [], []⟩ := by
    refine ⟨hs, fun _ => hc, w1, fun u l hu => (w3 u l hu).1, fun u l hu => (w3 u l hu).2, ?_, ?_, ?_, ?_,
      List.nodup_nil, List.nodup_nil⟩
    · simp only [List.append_nil]
      match hfl : d.1.flat, hlen with
      | [], _ => exact List.nodup_nil
      | [a], _ => exact List.nodup_singleton a
      | a :: b :: l, h => simp at h
    · intro w hw u hu hx
      simp only [List.append_nil] at hw
      rw [hsub w hw] at hx
      exact hfr ⟨u, hu, hx⟩
    · intro w hw
      simp only [List.append_nil] at hw
      exact Or.inr (hsub w hw)
    · intro u hu x hx
      exact Or.inl ⟨u, hu, hx⟩
  -- the vertex comparison is only used on corners of the mesh
  obtain ⟨hrun, -⟩ := solveLoop_run hsolve
  have key : ∀ s', Run P.toPreds C fuel ⟨m, d.1, [], [], []⟩ s' →
      s'.included = [] ∨ (s'.cmap = [] ∧ ∃ L O R Z, CavInv P.toPreds C c m.tris s'.mesh [] L O R Z ∧
        (∀ u, u ∈ s'.included ↔ ∃ l ∈ L, u = newTri P.ghost l c) ∧ ∀ u, u ∈ s'.removed ↔ u ∈ R) := by
    intro s' hr
    have : s' = ⟨m, d.1, [], [], []⟩ ∨ (s'.cmap = [] ∧ ∃ L O R Z,
        CavInv P.toPreds C c m.tris s'.mesh [] L O R Z ∧
        (∀ u, u ∈ s'.included ↔ ∃ l ∈ L, u = newTri P.ghost l c) ∧ ∀ u, u ∈ s'.removed ↔ u ∈ R) := by
      induction hr with
      | refl => exact Or.inl rfl
      | step τ _ hne hst ih =>
        rcases ih with rfl | ⟨hc', -⟩
        · right
          unfold solveStep at hst
          cases hch : choose τ d.1 with
          | none => simp only [hch] at hst; cases hst
          | some p =>
            obtain ⟨u, l⟩ := p
            simp only [hch] at hst
            cases hvl : l.getLast? with
            | none => rw [hvl] at hst; cases hst
            | some v =>
              rw [hvl] at hst
              simp only at hst
              obtain ⟨hflat, hcav, W, hW, hbook⟩ := solveStep_open hlegit hsim (choose_mem hch) hvl C
              have hvc : v = c := hsub v hflat
              subst hvc
              obtain ⟨L, O, R, Z, k1, k2, k3⟩ := cavityLoop_inv (S := InMesh m) hsim
                (fun u hu hx => hfr ⟨u, hu, hx⟩) hd (fun u hu x hx => ⟨u, hu, hx⟩) hcav hbook hst
              refine ⟨?_, L, O, R, Z, k1, ?_, ?_⟩
              · have hWl := hW.length_eq
                simp only [List.append_nil, List.length_cons] at hWl
                have hpl := k2.pend.length_eq
                simp only [List.length_append] at hpl
                by_contra hne'
                have := flat_pos k2.wf hne'
                omega
              · intro x; simpa using k2.inc x
              · intro x; simpa using k2.rem x
        · exact absurd hc' hne
    rcases this with rfl | h
    · exact Or.inl rfl
    · exact Or.inr h
  rcases key s hrun with hinc | ⟨-, L, O, R, Z, k1, k2, k3⟩
  · exfalso
    rw [hinc] at hen
    simp only [findEncroachments, List.foldr_nil, Res.bind_ok, List.filter_nil, Res.ok.injEq] at hen
    exact hen0 (by rw [← hen]; rfl)
  · refine rollback_spec hsim hs hc (fun u hu hx => hfr ⟨u, hu, hx⟩) k1 ?_ ?_
    · intro u; rw [mem_shuffle]; exact k2 u
    · intro u; rw [mem_shuffle]; exact k3 u

/-! ## A concrete run: a triangle is built over the initial segment, then a vertex is put inside it -/

namespace Sample

/-- Vertices 0, 1 of the initial segment, 2 above it, 3 inside the triangle 0, 1, 2; 9 is the ghost. -/
def preds : Preds Nat where
  ghost x := x == 9
  veq a b := a == b
  inside t w := (decide (t = ⟨0, 1, 9⟩) && (w == 2 || w == 3)) || (decide (t = ⟨0, 1, 2⟩) && w == 3)
  onEdge _ _ := false
  mayInsert _ _ := .ok true

def mesh0 : Mesh Nat := Mesh.fromInitialSegment 9 0 1

theorem choose_singleton {α : Type*} (σ : Sched) (a : α) : choose σ [a] = some a := by
  simp [choose, Nat.mod_one]

def state0 : SolveState Nat := ⟨mesh0, [(⟨0, 1, 9⟩, [3, 2])], [], [], []⟩

def next (s : SolveState Nat) : SolveState Nat :=
  match solveStep preds [⟨0, 1⟩] 30 Sched.first s with
  | .ok s' => s'
  | _ => s

theorem start (σ : Sched) : startState preds σ mesh0 [3, 2] = .ok state0 ∨
    startState preds σ mesh0 [3, 2] = .ok state0 := by
  left
  have hp : (shuffle (σ.sub 0) mesh0.tris).Perm [⟨1, 0, 9⟩, ⟨0, 1, 9⟩] := shuffle_perm _ _
  unfold startState
  have hl : ∀ l : List (Tri Nat), l.Perm [⟨1, 0, 9⟩, ⟨0, 1, 9⟩] →
      l = [⟨1, 0, 9⟩, ⟨0, 1, 9⟩] ∨ l = [⟨0, 1, 9⟩, ⟨1, 0, 9⟩] := by
    intro l hl
    match l, hl.length_eq with
    | [a, b], _ =>
      have ha : a ∈ [(⟨1, 0, 9⟩ : Tri Nat), ⟨0, 1, 9⟩] := hl.mem_iff.1 (by simp)
      have hb : b ∈ [(⟨1, 0, 9⟩ : Tri Nat), ⟨0, 1, 9⟩] := hl.mem_iff.1 (by simp)
      have hn : [a, b].Nodup := hl.nodup_iff.2 (by decide)
      simp only [List.mem_cons, List.not_mem_nil, or_false] at ha hb
      rcases ha with rfl | rfl <;> rcases hb with rfl | rfl <;> simp_all
  rcases hl _ hp with h | h <;> rw [h] <;> rfl

theorem good : GoodRequest preds mesh0 [3, 2] := by
  refine ⟨?_, ?_, ?_, by decide, by decide, ?_⟩
  · exact adjSound_add (adjSound_add adjSound_empty)
  · have hd : EdgeDisjoint mesh0.tris := by
      intro s hs t ht e h1 h2
      cases e
      simp only [mesh0, Mesh.fromInitialSegment, mem_add, Mesh.empty, List.not_mem_nil, or_false] at hs ht
      rcases hs with rfl | rfl <;> rcases ht with rfl | rfl <;> simp [IsSide] at * <;> omega
    refine adjComplete_add (adjComplete_add adjComplete_empty ?_) hd
    exact edgeDisjoint_mono hd (fun t ht => mem_add.2 (Or.inr ht))
  · rw [simple_iff]; decide
  · intro a b _ _
    exact beq_iff_eq

theorem watertight0 : Watertight mesh0.tris := watertight_of (by decide)

theorem noPinch (σ : Sched) : NoPinch preds [⟨0, 1⟩] 30 σ mesh0 [3, 2] := by
  intro s0 s' h0 hr hne
  have h0' : s0 = state0 := by
    rcases start σ with h | h <;> rw [h] at h0 <;> exact (Res.ok.inj h0).symm
  subst h0'
  have key : s' = state0 ∨ s' = next state0 ∨ s' = next (next state0) := by
    clear hne
    induction hr with
    | refl => exact Or.inl rfl
    | step τ _ hne hst ih =>
      rcases ih with rfl | rfl | rfl
      · right; left
        have : solveStep preds [⟨0, 1⟩] 30 τ state0 = .ok (next state0) := by
          unfold solveStep
          rw [show choose τ state0.cmap = some (⟨0, 1, 9⟩, [3, 2]) from choose_singleton τ _]
          rfl
        rw [this] at hst
        exact (Res.ok.inj hst).symm
      · right; right
        have : solveStep preds [⟨0, 1⟩] 30 τ (next state0) = .ok (next (next state0)) := by
          unfold solveStep
          rw [show choose τ (next state0).cmap = some (⟨0, 1, 2⟩, [3]) from choose_singleton τ _]
          rfl
        rw [this] at hst
        exact (Res.ok.inj hst).symm
      · exact absurd rfl hne
  rw [simple_iff]
  rcases key with rfl | rfl | rfl
  · decide
  · decide
  · exact absurd rfl hne

/-- The hypotheses of the theorems above hold for this run, whatever the schedule; the run ends and builds four solid
triangles' worth of mesh: the two ghosts became three, and three solid triangles surround vertex 3. -/
example : ∃ r, includeVertices preds [⟨0, 1⟩] 30 Sched.first mesh0 [3, 2] = .ok r ∧
    r.mesh.tris.length = 6 ∧ (⟨0, 1, 3⟩ : Tri Nat) ∈ r.mesh.tris ∧ Watertight r.mesh.tris := by
  refine ⟨_, rfl, rfl, by decide, ?_⟩
  exact C14_watertight (σ := Sched.first) good watertight0 (noPinch Sched.first) rfl

example (σ : Sched) : includeVertices preds [⟨0, 1⟩] 30 σ mesh0 [3, 2] ≠ .diverged :=
  C18_terminates good (noPinch σ) (by simp [preds]) (by decide)

/-- The constrained edge (0, 1) is between two triangles before and after. -/
example : ∃ r, includeVertices preds [⟨0, 1⟩] 30 Sched.first mesh0 [3, 2] = .ok r ∧
    sideCount r.mesh.tris ⟨0, 1⟩ = 1 ∧ sideCount r.mesh.tris ⟨1, 0⟩ = 1 := by
  refine ⟨_, rfl, ?_, ?_⟩
  · rw [C17_count good (noPinch Sched.first) rfl ⟨0, 1⟩ (Or.inr (by decide)) (by decide) (by decide)]; decide
  · rw [C17_count good (noPinch Sched.first) rfl ⟨1, 0⟩ (Or.inl (by decide)) (by decide) (by decide)]; decide

/-- A rejected circumcentre: vertex 3 "encroaches" on the constrained edge (0, 1). -/
def rpreds : RPreds Nat where
  toPreds := preds
  encroaches e w := decide (e = ⟨0, 1⟩) && w == 3
  mid _ := 8
  circumcenter _ := some 3
  irregular _ := false
  large _ := false

def mesh1 : Mesh Nat := (next { state0 with cmap := [(⟨0, 1, 9⟩, [2])] }).mesh

example : ∃ m' enc, tryCircumcenter rpreds 30 Sched.first [⟨0, 1⟩] mesh1 ⟨0, 1, 2⟩ =
    .ok (.rejected m' enc) ∧ m'.tris.Perm mesh1.tris ∧ enc = [⟨0, 1⟩] := ⟨_, _, rfl, by decide, by decide⟩

end Sample

end Verif.Props
