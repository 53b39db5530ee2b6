import Verif.Lemmas.NaturalCarve
import Verif.Model.Refine

/-!
# Renaming the vertices: the refinement
-/

set_option linter.unusedSectionVars false

namespace Verif

variable {V W : Type*} [DecidableEq V] [DecidableEq W] {φ : V ≃ W} {P : RPreds V} {Q : RPreds W}

/-- The questions of the refinement have the same answers after renaming. -/
structure NatRPreds (φ : V ≃ W) (P : RPreds V) (Q : RPreds W) : Prop where
  toNat : NatPreds φ P.toPreds Q.toPreds
  encroaches : ∀ e v, Q.encroaches (e.map φ) (φ v) = P.encroaches e v
  mid : ∀ e, Q.mid (e.map φ) = φ (P.mid e)
  circumcenter : ∀ t, Q.circumcenter (t.map φ) = (P.circumcenter t).map φ
  irregular : ∀ t, Q.irregular (t.map φ) = P.irregular t
  large : ∀ t, Q.large (t.map φ) = P.large t

theorem distributeEncroachments_map (h : NatRPreds φ P Q) (C : List (Edge V)) (l : List V) :
    distributeEncroachments Q (C.map (Edge.map φ)) (l.map φ)
      = (distributeEncroachments P C l).map (Prod.map (Edge.map φ) (List.map φ)) := by
  unfold distributeEncroachments
  have : ((C.map (Edge.map φ)).map fun e => (e, (l.map φ).filter fun v => Q.encroaches e v))
      = (C.map fun e => (e, l.filter fun v => P.encroaches e v)).map (Prod.map (Edge.map φ) (List.map φ)) := by
    rw [List.map_map, List.map_map]
    refine List.map_congr_left fun e _ => ?_
    simp only [Function.comp, Prod.map, Prod.mk.injEq, true_and]
    exact filter_map_of _ fun v _ => h.encroaches e v
  rw [this]
  exact filter_map_of _ fun p _ => by simp [Prod.map]

theorem splitSegment_map (h : NatRPreds φ P Q) (fuel : Nat) (σ : Sched) (C : List (Edge V)) (m : Mesh V) (s : Edge V) :
    splitSegment Q fuel σ (C.map (Edge.map φ)) (m.map φ) (s.map φ)
      = (splitSegment P fuel σ C m s).map (SolveState.map φ) := by
  unfold splitSegment
  rw [filter_map_of (q := fun e => !Edge.eqv P.veq e s && !Edge.eqv P.veq e s.opposite) _ fun e _ => by
      rw [Edge.opposite_map, Edge.eqv_map h.toNat.veq, Edge.eqv_map h.toNat.veq], h.mid]
  exact includeVertices_map h.toNat _ fuel σ m [P.mid s]

/-- Renaming in the state of the splitting of a segment. -/
def UnencState.map (φ : V ≃ W) (s : UnencState V) : UnencState W :=
  ⟨s.mesh.map φ, s.vertices.map φ, s.newEdges.map (Edge.map φ), s.included.map (Tri.map φ), s.removed.map (Tri.map φ)⟩

theorem unencStep_map (h : NatRPreds φ P Q) (fuel : Nat) (σ : Sched) (C : List (Edge V)) (e : Edge V)
    (s : UnencState V) : unencStep Q fuel σ (C.map (Edge.map φ)) (e.map φ) (s.map φ)
      = (unencStep P fuel σ C e s).map (Prod.map (List.map (Edge.map φ)) (UnencState.map φ)) := by
  have hE := Edge.map_injective φ.injective
  have hT := Tri.map_injective φ.injective
  unfold unencStep
  have h0 : (s.map φ).mesh = s.mesh.map φ := rfl
  rw [h0, splitSegment_map h, Res.map_bind, Res.bind_map]
  refine Res.bind_congr' fun st => ?_
  have h1 : (⟨(e.map φ).v1, Q.mid (e.map φ)⟩ : Edge W) = Edge.map φ ⟨e.v1, P.mid e⟩ := by rw [h.mid]; rfl
  have h2 : (⟨Q.mid (e.map φ), (e.map φ).v2⟩ : Edge W) = Edge.map φ ⟨P.mid e, e.v2⟩ := by rw [h.mid]; rfl
  have hv : (s.map φ).vertices = s.vertices.map φ := rfl
  have ha : ∀ f : Edge V, ((s.vertices.map φ).any fun v => Q.encroaches (f.map φ) v)
      = s.vertices.any fun v => P.encroaches f v := fun f => any_map_of _ fun v _ => h.encroaches f v
  simp only [h1, h2, hv, ha, Res.map_ok, Prod.map, Res.ok.injEq, Prod.mk.injEq]
  refine ⟨?_, ?_⟩
  · split <;> split <;> rfl
  · simp only [UnencState.map, SolveState.map, UnencState.mk.injEq]
    refine ⟨trivial, ?_, ?_, ?_, ?_⟩
    · exact filter_map_of _ fun v _ => by rw [h.encroaches, h.encroaches]
    · split <;> split <;> simp only [setInsert_map hE]
    · rw [← toSet_map hT, ← List.map_append]
      exact congrArg toSet (filter_notMem_map hT _ _)
    · exact setUnion_map hT _ _

theorem unencLoop_map (h : NatRPreds φ P Q) (C : List (Edge V)) (fuel n : Nat) (σ : Sched) (l : List (Edge V))
    (s : UnencState V) : unencLoop Q (C.map (Edge.map φ)) fuel n σ (l.map (Edge.map φ)) (s.map φ)
      = (unencLoop P C fuel n σ l s).map (UnencState.map φ) := by
  induction n generalizing σ l s with
  | zero => cases l <;> rfl
  | succ n ih =>
    cases l with
    | nil => rfl
    | cons e l =>
      simp only [List.map_cons, unencLoop, unencStep_map h, Res.map_bind, Res.bind_map]
      refine Res.bind_congr' fun r => ?_
      simp only [Prod.map]
      rw [← List.map_append, ih]

theorem unencroachSegment_map (h : NatRPreds φ P Q) (fuel : Nat) (σ : Sched) (C : List (Edge V)) (m : Mesh V)
    (e : Edge V) (l : List V) :
    unencroachSegment Q fuel σ (C.map (Edge.map φ)) (m.map φ) (e.map φ) (l.map φ)
      = (unencroachSegment P fuel σ C m e l).map (UnencState.map φ) :=
  unencLoop_map h C fuel fuel σ [e] ⟨m, l, [], [], []⟩

theorem mapInsert_map {α β α' β' : Type*} [DecidableEq α] [DecidableEq α'] {f : α → α'} {g : β → β'} (hf : f.Injective)
    (k : α) (v : β) (l : List (α × β)) :
    mapInsert (f k) (g v) (l.map (Prod.map f g)) = (mapInsert k v l).map (Prod.map f g) := by
  unfold mapInsert
  rw [List.map_cons, filter_map_of (q := fun p => !decide (p.1 = k)) _ fun p _ => by simp [hf.eq_iff]]
  rfl

theorem foldl_mapInsert_map (es : List (Edge V)) (e : Edge V) (l : List (Edge V × Edge V)) :
    (es.map (Edge.map φ)).foldl (fun s h => mapInsert h (e.map φ) s) (l.map (Prod.map (Edge.map φ) (Edge.map φ)))
      = (es.foldl (fun s h => mapInsert h e s) l).map (Prod.map (Edge.map φ) (Edge.map φ)) := by
  induction es generalizing l with
  | nil => rfl
  | cons f es ih =>
    simp only [List.map_cons, List.foldl_cons]
    rw [mapInsert_map (Edge.map_injective φ.injective), ih]

theorem unencroachLoop_map (h : NatRPreds φ P Q) (C : List (Edge V)) (fuel n : Nat) (σ : Sched) (m : Mesh V)
    (cs : List (Edge V × List V)) (split : List (Edge V × Edge V)) :
    unencroachLoop Q (C.map (Edge.map φ)) fuel n σ (m.map φ) (cs.map (Prod.map (Edge.map φ) (List.map φ)))
        (split.map (Prod.map (Edge.map φ) (Edge.map φ)))
      = (unencroachLoop P C fuel n σ m cs split).map
          (Prod.map (Mesh.map φ) (List.map (Prod.map (Edge.map φ) (Edge.map φ)))) := by
  induction n generalizing σ m cs split with
  | zero => cases cs <;> rfl
  | succ n ih =>
    cases cs with
    | nil => rfl
    | cons c cs =>
      simp only [List.map_cons, unencroachLoop]
      rw [← List.map_cons, choose_map]
      cases choose (σ.sub 0) (c :: cs) with
      | none => rfl
      | some p =>
        simp only [Option.map_some, Prod.map, unencroachSegment_map h, Res.map_bind, Res.bind_map]
        refine Res.bind_congr' fun r => ?_
        have h1 : (r.map φ).mesh = r.mesh.map φ := rfl
        have h2 : (r.map φ).newEdges = r.newEdges.map (Edge.map φ) := rfl
        have h3 := foldl_mapInsert_map (φ := φ) r.newEdges p.1 split
        rw [h1, h2, h3, filter_map_of (q := fun q => !decide (q.1 = p.1)) _ fun q _ => by
          simp [(Edge.map_injective φ.injective).eq_iff], ih]

theorem unencroach_map (h : NatRPreds φ P Q) (fuel : Nat) (σ : Sched) (C : List (Edge V)) (m : Mesh V) :
    unencroach Q fuel σ (C.map (Edge.map φ)) (m.map φ) = (unencroach P fuel σ C m).map
      (Prod.map (Mesh.map φ) (List.map (Prod.map (Edge.map φ) (Edge.map φ)))) := by
  unfold unencroach
  rw [Mesh.vertices_map φ h.toNat.ghost, distributeEncroachments_map h]
  exact unencroachLoop_map h C fuel fuel σ m _ []

/-- Renaming in the outcome of an attempt. -/
def TryRes.map (φ : V ≃ W) : TryRes V → TryRes W
  | inserted m a b => inserted (m.map φ) (a.map (Tri.map φ)) (b.map (Tri.map φ))
  | rejected m es => rejected (m.map φ) (es.map (Edge.map φ))

theorem rollback_map (m : Mesh V) (a b : List (Tri V)) :
    rollback (m.map φ) (a.map (Tri.map φ)) (b.map (Tri.map φ)) = (rollback m a b).map φ := by
  unfold rollback
  rw [Mesh.foldl_del_map, Mesh.foldl_add_map]

theorem Tri.oppositeEdge_map {veq : V → V → Bool} {veq' : W → W → Bool} (hv : ∀ v w, veq' (φ v) (φ w) = veq v w)
    (t : Tri V) (v : V) : (t.map φ).oppositeEdge veq' (φ v) = (t.oppositeEdge veq v).map (Edge.map φ) := by
  unfold Tri.oppositeEdge
  simp only [Tri.map, hv]
  split
  · rfl
  · split
    · rfl
    · split <;> rfl

theorem findEncroachments_map (h : NatRPreds φ P Q) (C : List (Edge V)) (c : V) (l : List (Tri V)) :
    findEncroachments Q (C.map (Edge.map φ)) (φ c) (l.map (Tri.map φ))
      = (findEncroachments P C c l).map (List.map (Edge.map φ)) := by
  have hE := Edge.map_injective φ.injective
  have h1 : ((l.map (Tri.map φ)).foldr
      (fun t r => (Res.unwrap (t.oppositeEdge Q.veq (φ c))).bind fun e => r.bind fun l => .ok (e :: l)) (Res.ok []))
      = (l.foldr (fun t r => (Res.unwrap (t.oppositeEdge P.veq c)).bind fun e => r.bind fun l => .ok (e :: l))
          (Res.ok [])).map (List.map (Edge.map φ)) := by
    induction l with
    | nil => rfl
    | cons t l ih =>
      simp only [List.map_cons, List.foldr_cons]
      rw [ih, Tri.oppositeEdge_map h.toNat.veq, Res.unwrap_map, Res.bind_map, Res.map_bind]
      refine Res.bind_congr' fun e => ?_
      rw [Res.bind_map, Res.map_bind]
      rfl
  unfold findEncroachments
  rw [h1, Res.bind_map, Res.map_bind]
  refine Res.bind_congr' fun r => ?_
  rw [Res.map_ok, ← toSet_map hE, filter_map_of
    (q := fun e => (decide (e ∈ C) || decide (e.opposite ∈ C)) && P.encroaches e c) _ fun e _ => by
      rw [Edge.opposite_map, decide_mem_map hE, decide_mem_map hE, h.encroaches]]

theorem tryCircumcenter_map (h : NatRPreds φ P Q) (fuel : Nat) (σ : Sched) (C : List (Edge V)) (m : Mesh V) (t : Tri V) :
    tryCircumcenter Q fuel σ (C.map (Edge.map φ)) (m.map φ) (t.map φ)
      = (tryCircumcenter P fuel σ C m t).map (TryRes.map φ) := by
  unfold tryCircumcenter
  rw [h.circumcenter, Res.unwrap_map, Res.bind_map, Res.map_bind]
  refine Res.bind_congr' fun c => ?_
  have h1 := distributeOver_map h.toNat fuel (σ.sub 0) m (some t) [] [c]
  simp only [Option.map_some, List.map_cons, List.map_nil] at h1
  change distributeOver Q.toPreds fuel (σ.sub 0) (m.map φ) (some (t.map φ)) [] [φ c] = _ at h1
  rw [h1, Res.bind_map, Res.map_bind]
  refine Res.bind_congr' fun d => ?_
  have h2 := solveConflicts_map h.toNat C fuel (σ.sub 1) m d.1 []
  rw [List.map_nil] at h2
  simp only [Prod.map]
  rw [h2, Res.bind_map, Res.map_bind]
  refine Res.bind_congr' fun s => ?_
  have h3 : (s.map φ).included = s.included.map (Tri.map φ) := rfl
  have h4 : (s.map φ).removed = s.removed.map (Tri.map φ) := rfl
  have h5 : (s.map φ).mesh = s.mesh.map φ := rfl
  rw [h3, h4, h5, findEncroachments_map h, Res.bind_map, Res.map_bind]
  refine Res.bind_congr' fun enc => ?_
  simp only [List.map_eq_nil_iff]
  split
  · rfl
  · rw [shuffle_map, shuffle_map, rollback_map]
    rfl

/-- Renaming in the state of the refinement. -/
def SplitState.map (φ : V ≃ W) (s : SplitState V) : SplitState W :=
  ⟨s.mesh.map φ, s.segments.map (Edge.map φ), s.irregulars.map (Tri.map φ), s.larges.map (Tri.map φ),
    s.split.map (Prod.map (Edge.map φ) (Edge.map φ))⟩

theorem requeue_map (h : NatRPreds φ P Q) (a b : List (Tri V)) (s : SplitState V) :
    requeue Q (a.map (Tri.map φ)) (b.map (Tri.map φ)) (s.map φ) = (requeue P a b s).map φ := by
  have hT := Tri.map_injective φ.injective
  have h1 : (a.map (Tri.map φ)).filter (fun t => !t.isGhost Q.ghost)
      = (a.filter fun t => !t.isGhost P.ghost).map (Tri.map φ) :=
    filter_map_of _ fun t _ => by rw [Tri.isGhost_map h.toNat.ghost]
  have h2 : ∀ (l acc : List (Tri V)),
      (l.map (Tri.map φ)).foldl (fun l t => if Q.irregular t then setInsert t l else l) (acc.map (Tri.map φ))
        = (l.foldl (fun l t => if P.irregular t then setInsert t l else l) acc).map (Tri.map φ) := by
    intro l
    induction l with
    | nil => exact fun _ => rfl
    | cons t l ih =>
      intro acc
      simp only [List.map_cons, List.foldl_cons, h.irregular]
      rw [← ih]
      congr 1
      split
      · exact setInsert_map hT _ _
      · rfl
  have h3 : ∀ (l acc : List (Tri V)),
      (l.map (Tri.map φ)).foldl (fun l t => if Q.irregular t then l else if Q.large t then setInsert t l else l)
          (acc.map (Tri.map φ))
        = (l.foldl (fun l t => if P.irregular t then l else if P.large t then setInsert t l else l) acc).map
            (Tri.map φ) := by
    intro l
    induction l with
    | nil => exact fun _ => rfl
    | cons t l ih =>
      intro acc
      simp only [List.map_cons, List.foldl_cons, h.irregular, h.large]
      rw [← ih]
      congr 1
      split
      · rfl
      · split
        · exact setInsert_map hT _ _
        · rfl
  unfold requeue
  rw [h1]
  simp only [SplitState.map, h2, h3, filter_notMem_map hT]

theorem foldl_setInsert_map' {α β : Type*} [DecidableEq α] [DecidableEq β] {f : α → β} (hf : f.Injective) (l acc : List α) :
    (l.map f).foldl (fun l h => setInsert h l) (acc.map f) = (l.foldl (fun l h => setInsert h l) acc).map f :=
  foldl_setInsert_map hf l acc

theorem splitEncroached_map (h : NatRPreds φ P Q) (fuel : Nat) (σ : Sched) (es : List (Edge V)) (vs : List V)
    (s : SplitState V) : splitEncroached Q fuel σ (es.map (Edge.map φ)) (vs.map φ) (s.map φ)
      = (splitEncroached P fuel σ es vs s).map (SplitState.map φ) := by
  have hE := Edge.map_injective φ.injective
  induction es generalizing σ vs s with
  | nil => rfl
  | cons e es ih =>
    simp only [List.map_cons, splitEncroached]
    have h1 := unencroachSegment_map h fuel (σ.sub 0) s.segments s.mesh e vs
    change unencroachSegment Q fuel (σ.sub 0) (s.map φ).segments (s.map φ).mesh (e.map φ) (vs.map φ) = _ at h1
    rw [h1, Res.bind_map, Res.map_bind]
    refine Res.bind_congr' fun r => ?_
    rw [← ih, ← requeue_map h]
    congr 2
    simp only [SplitState.map, UnencState.map, SplitState.mk.injEq, true_and]
    refine ⟨?_, ?_⟩
    · rw [← foldl_setInsert_map hE, setErase_map hE]
    · rw [← foldl_mapInsert_map, filter_map_of (q := fun p => !decide (p.1 = e)) _ fun p _ => by simp [hE.eq_iff]]

theorem popTriangle_map (σ : Sched) (s : SplitState V) :
    popTriangle σ (s.map φ) = (popTriangle σ s).map (Prod.map (Tri.map φ) (SplitState.map φ)) := by
  have hT := Tri.map_injective φ.injective
  unfold popTriangle
  have h1 : (s.map φ).irregulars = s.irregulars.map (Tri.map φ) := rfl
  have h2 : (s.map φ).larges = s.larges.map (Tri.map φ) := rfl
  rw [h1, h2, choose_map, choose_map]
  cases choose σ s.irregulars with
  | some t =>
    simp only [Option.map_some, setErase_map hT]
    rfl
  | none =>
    cases choose σ s.larges with
    | some t =>
      simp only [Option.map_some, Option.map_none, setErase_map hT]
      rfl
    | none => rfl

theorem splitStep_map (h : NatRPreds φ P Q) (fuel : Nat) (σ : Sched) (t : Tri V) (s : SplitState V) :
    splitStep Q fuel σ (t.map φ) (s.map φ) = (splitStep P fuel σ t s).map (SplitState.map φ) := by
  unfold splitStep
  have h1 := tryCircumcenter_map h fuel (σ.sub 0) s.segments s.mesh t
  change tryCircumcenter Q fuel (σ.sub 0) (s.map φ).segments (s.map φ).mesh (t.map φ) = _ at h1
  rw [h1, Res.bind_map, Res.map_bind]
  refine Res.bind_congr' fun r => ?_
  cases r with
  | inserted m a b =>
    simp only [TryRes.map, Res.map_ok, ← requeue_map h]
    rfl
  | rejected m enc =>
    simp only [TryRes.map, h.circumcenter, Res.unwrap_map, Res.bind_map, Res.map_bind, shuffle_map]
    refine Res.bind_congr' fun c => ?_
    rw [← splitEncroached_map h]
    rfl

theorem splitIrregularLoop_map (h : NatRPreds φ P Q) (fuel n : Nat) (σ : Sched) (s : SplitState V) :
    splitIrregularLoop Q fuel n σ (s.map φ) = (splitIrregularLoop P fuel n σ s).map (SplitState.map φ) := by
  induction n generalizing σ s with
  | zero =>
    unfold splitIrregularLoop
    rw [popTriangle_map]
    cases popTriangle (σ.sub 0) s <;> rfl
  | succ n ih =>
    unfold splitIrregularLoop
    rw [popTriangle_map]
    cases popTriangle (σ.sub 0) s with
    | none => rfl
    | some p =>
      simp only [Option.map_some, Prod.map, splitStep_map h, Res.bind_map, Res.map_bind, ih]

theorem splitInit_map (h : NatRPreds φ P Q) (C : List (Edge V)) (m : Mesh V) :
    splitInit Q (C.map (Edge.map φ)) (m.map φ) = (splitInit P C m).map φ := by
  have h1 : (m.map φ).tris.filter (fun t => !t.isGhost Q.ghost)
      = (m.tris.filter fun t => !t.isGhost P.ghost).map (Tri.map φ) :=
    filter_map_of _ fun t _ => by rw [Tri.isGhost_map h.toNat.ghost]
  unfold splitInit
  simp only [h1, SplitState.map, SplitState.mk.injEq, true_and]
  exact ⟨filter_map_of _ fun t _ => h.irregular t, filter_map_of _ fun t _ => h.large t, rfl⟩

theorem splitIrregular_map (h : NatRPreds φ P Q) (fuel : Nat) (σ : Sched) (C : List (Edge V)) (m : Mesh V) :
    splitIrregular Q fuel σ (C.map (Edge.map φ)) (m.map φ) = (splitIrregular P fuel σ C m).map (SplitState.map φ) := by
  unfold splitIrregular
  rw [splitInit_map h, splitIrregularLoop_map h]

end Verif
