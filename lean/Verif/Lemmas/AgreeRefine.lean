import Verif.Lemmas.Agree
import Verif.Model.Refine

/-!
# Tables of predicates that agree on proper arguments: boundaries, holes and the refinement
-/

set_option linter.unusedSectionVars false

namespace Verif

open Res

variable {V : Type*} [DecidableEq V] {g : V → Bool}

section carve

theorem boundaryFirst_proper (S es : List (Edge V)) {m : Mesh V} (hm : m.Proper g) (pending : List (Edge V)) :
    (boundaryFirst S es m pending).1.Proper g := by
  induction es generalizing m pending with
  | nil => exact hm
  | cons e es ih =>
    simp only [boundaryFirst]
    cases m.adj e with
    | none => exact ih hm _
    | some t => exact ih (hm.del t) _

theorem flood_proper (S : List (Edge V)) (n : Nat) (pending : List (Edge V)) {m : Mesh V} (hm : m.Proper g) {m' : Mesh V}
    (h : flood S n pending m = .ok m') : m'.Proper g := by
  induction n generalizing pending m with
  | zero =>
    cases pending with
    | nil =>
      cases h
      exact hm
    | cons e l => cases h
  | succ n ih =>
    cases pending with
    | nil =>
      cases h
      exact hm
    | cons e l =>
      simp only [flood] at h
      cases ha : m.adj e with
      | none =>
        rw [ha] at h
        exact ih _ hm h
      | some t =>
        rw [ha] at h
        exact ih _ (hm.del t) h

theorem addGhosts_proper (gh : V) {es : List (Edge V)} (he : ∀ e ∈ es, e.Real g) {m : Mesh V} (hm : m.Proper g) :
    (addGhosts gh es m).Proper g := by
  unfold addGhosts
  induction es generalizing m with
  | nil => exact hm
  | cons e es ih =>
    exact ih (fun f hf => he f (List.mem_cons_of_mem _ hf)) (hm.add (he e List.mem_cons_self))

theorem carveBoundary_proper (gh : V) (fuel : Nat) {order : List (Edge V)} (ho : ∀ e ∈ order, e.Real g) {m m' : Mesh V}
    (hm : m.Proper g) (h : carveBoundary gh fuel order m = .ok m') : m'.Proper g := by
  unfold carveBoundary at h
  simp only [Res.bind_eq_ok] at h
  obtain ⟨m1, h1, h⟩ := h
  cases h
  exact addGhosts_proper gh ho (flood_proper _ _ _ (boundaryFirst_proper _ _ hm _) h1)

theorem consecutivePairs_real {l : List V} (hl : ∀ v ∈ l, g v = false) :
    ∀ p ∈ consecutivePairs l, g p.1 = false ∧ g p.2 = false := by
  induction l with
  | nil => simp [consecutivePairs]
  | cons a l ih =>
    cases l with
    | nil => simp [consecutivePairs]
    | cons b l =>
      intro p hp
      simp only [consecutivePairs, List.mem_cons] at hp
      rcases hp with rfl | hp
      · exact ⟨hl _ (by simp), hl _ (by simp)⟩
      · exact ih (fun v hv => hl v (List.mem_cons_of_mem _ hv)) p hp

theorem pairs_real {l : List V} (hl : ∀ v ∈ l, g v = false) (o : Bool) :
    ∀ p ∈ pairs l o, g p.1 = false ∧ g p.2 = false := by
  intro p hp
  unfold pairs at hp
  rcases List.mem_append.1 hp with hp | hp
  · exact consecutivePairs_real hl p hp
  · split at hp
    · simp at hp
    · split at hp
      · rename_i a b ha hb
        simp only [List.mem_singleton] at hp
        subst hp
        exact ⟨hl _ (List.mem_of_getLast? ha), hl _ (List.mem_of_mem_head? hb)⟩
      · simp at hp

theorem Polyline.intoEdges_real {p : Polyline V} (hp : ∀ v ∈ p.vertices, g v = false) : ∀ e ∈ p.intoEdges, e.Real g := by
  intro e he
  simp only [Polyline.intoEdges, List.mem_map] at he
  obtain ⟨q, hq, rfl⟩ := he
  exact pairs_real hp _ q hq

theorem includeBoundary_twin {P Q : Preds V} (h : Agree P Q) (gh : V) (C : List (Edge V)) (fuel : Nat) (σ : Sched)
    {m : Mesh V} (hm : m.Proper P.ghost) {b : Polyline V} (hb : ∀ v ∈ b.vertices, P.ghost v = false) :
    Twin (Mesh.Proper P.ghost) (includeBoundary Q gh C fuel σ m b) (includeBoundary P gh C fuel σ m b) := by
  unfold includeBoundary
  refine Twin.bind (includeVertices_twin h C fuel (σ.sub 0) hm hb) fun s hs => Twin.of_eq rfl fun m' hm' => ?_
  refine carveBoundary_proper gh fuel (fun e he => ?_) hs.mesh hm'
  simp only [mem_shuffle, reversedEdges, mem_toSet, List.mem_map] at he
  obtain ⟨f, hf, rfl⟩ := he
  have := Polyline.intoEdges_real hb f hf
  exact ⟨this.2, this.1⟩

theorem holeFirst_proper (gh : V) (S : List (Edge V)) {es : List (Edge V)} (he : ∀ e ∈ es, e.Real g) {m : Mesh V}
    (hm : m.Proper g) (pending : List (Edge V)) : (holeFirst gh S es m pending).1.Proper g := by
  induction es generalizing m pending with
  | nil => exact hm
  | cons e es ih =>
    have h1 : (⟨e.v1, e.v2, gh⟩ : Tri V).Proper g := he e List.mem_cons_self
    have h2 := fun f hf => he f (List.mem_cons_of_mem e hf)
    simp only [holeFirst]
    cases m.adj e with
    | none => exact ih h2 (hm.add h1) _
    | some t => exact ih h2 ((hm.del t).add h1) _

theorem carveHole_proper (gh : V) (fuel : Nat) {order : List (Edge V)} (ho : ∀ e ∈ order, e.Real g) {m m' : Mesh V}
    (hm : m.Proper g) (h : carveHole gh fuel order m = .ok m') : m'.Proper g :=
  flood_proper _ _ _ (holeFirst_proper gh order ho hm []) h

end carve

section refine

/-- The three corners are true vertices. -/
def Tri.Solid (g : V → Bool) (t : Tri V) : Prop := t.isGhost g = false

theorem Tri.Solid.proper {t : Tri V} (h : t.Solid g) : t.Proper g := by
  simp only [Tri.Solid, Tri.isGhost, Bool.or_eq_false_iff] at h
  exact h.1

/-- The two tables of the refinement agree on proper arguments. -/
structure AgreeR (P Q : RPreds V) : Prop where
  toAgree : Agree P.toPreds Q.toPreds
  encroaches : ∀ e v, e.Real P.ghost → P.ghost v = false → Q.encroaches e v = P.encroaches e v
  mid : ∀ e, e.Real P.ghost → Q.mid e = P.mid e ∧ P.ghost (P.mid e) = false
  circumcenter : ∀ t, t.Solid P.ghost → Q.circumcenter t = P.circumcenter t
  center_real : ∀ t c, t.Solid P.ghost → P.circumcenter t = some c → P.ghost c = false
  irregular : ∀ t, t.Solid P.ghost → Q.irregular t = P.irregular t
  large : ∀ t, t.Solid P.ghost → Q.large t = P.large t

variable {P Q : RPreds V}

/-- Edges between true vertices, with true vertices. -/
def RealPairs (g : V → Bool) (cs : List (Edge V × List V)) : Prop := ∀ p ∈ cs, p.1.Real g ∧ ∀ v ∈ p.2, g v = false

theorem distributeEncroachments_agree (h : AgreeR P Q) {C : List (Edge V)} (hC : ∀ e ∈ C, e.Real P.ghost) {l : List V}
    (hl : ∀ v ∈ l, P.ghost v = false) : distributeEncroachments Q C l = distributeEncroachments P C l
      ∧ RealPairs P.ghost (distributeEncroachments P C l) := by
  constructor
  · unfold distributeEncroachments
    congr 1
    refine List.map_congr_left fun e he => ?_
    rw [List.filter_congr fun v hv => h.encroaches e v (hC e he) (hl v hv)]
  · intro p hp
    simp only [distributeEncroachments, List.mem_filter, List.mem_map] at hp
    obtain ⟨⟨e, he, rfl⟩, -⟩ := hp
    exact ⟨hC e he, fun v hv => hl v (List.mem_filter.1 hv).1⟩

theorem splitSegment_twin (h : AgreeR P Q) (fuel : Nat) (σ : Sched) (C : List (Edge V)) {m : Mesh V} (hm : m.Proper P.ghost)
    {s : Edge V} (hs : s.Real P.ghost) :
    Twin (SolveState.Proper P.ghost) (splitSegment Q fuel σ C m s) (splitSegment P fuel σ C m s) := by
  unfold splitSegment
  rw [h.toAgree.veq, (h.mid s hs).1]
  exact includeVertices_twin h.toAgree _ fuel σ hm (by simpa using (h.mid s hs).2)

/-- True vertices and proper triangles in the state of the splitting of a segment. -/
structure UnencState.Proper (g : V → Bool) (s : UnencState V) : Prop where
  mesh : s.mesh.Proper g
  vertices : ∀ v ∈ s.vertices, g v = false
  newEdges : ∀ e ∈ s.newEdges, e.Real g

theorem unencStep_twin (h : AgreeR P Q) (fuel : Nat) (σ : Sched) (C : List (Edge V)) {e : Edge V} (he : e.Real P.ghost)
    {s : UnencState V} (hs : s.Proper P.ghost) :
    Twin (fun r => (∀ f ∈ r.1, f.Real P.ghost) ∧ r.2.Proper P.ghost) (unencStep Q fuel σ C e s)
      (unencStep P fuel σ C e s) := by
  unfold unencStep
  refine Twin.bind (splitSegment_twin h fuel σ C hs.mesh he) fun st hst => ?_
  rw [(h.mid e he).1]
  have h1 : (⟨e.v1, P.mid e⟩ : Edge V).Real P.ghost := ⟨he.1, (h.mid e he).2⟩
  have h2 : (⟨P.mid e, e.v2⟩ : Edge V).Real P.ghost := ⟨(h.mid e he).2, he.2⟩
  have a1 : (s.vertices.any fun v => Q.encroaches ⟨e.v1, P.mid e⟩ v)
      = s.vertices.any fun v => P.encroaches ⟨e.v1, P.mid e⟩ v := by
    rw [Bool.eq_iff_iff, List.any_eq_true, List.any_eq_true]
    exact exists_congr fun v => and_congr_right fun hv => by rw [h.encroaches _ _ h1 (hs.vertices v hv)]
  have a2 : (s.vertices.any fun v => Q.encroaches ⟨P.mid e, e.v2⟩ v)
      = s.vertices.any fun v => P.encroaches ⟨P.mid e, e.v2⟩ v := by
    rw [Bool.eq_iff_iff, List.any_eq_true, List.any_eq_true]
    exact exists_congr fun v => and_congr_right fun hv => by rw [h.encroaches _ _ h2 (hs.vertices v hv)]
  have a3 : (s.vertices.filter fun v => Q.encroaches ⟨e.v1, P.mid e⟩ v || Q.encroaches ⟨P.mid e, e.v2⟩ v)
      = s.vertices.filter fun v => P.encroaches ⟨e.v1, P.mid e⟩ v || P.encroaches ⟨P.mid e, e.v2⟩ v :=
    List.filter_congr fun v hv => by rw [h.encroaches _ _ h1 (hs.vertices v hv), h.encroaches _ _ h2 (hs.vertices v hv)]
  simp only [a1, a2, a3]
  refine Twin.ok ⟨fun f hf => ?_, hst.mesh, fun v hv => hs.vertices v (List.mem_filter.1 hv).1, fun f hf => ?_⟩
  · rcases List.mem_append.1 hf with hf | hf
    · split at hf
      · rw [List.mem_singleton] at hf
        rw [hf]
        exact h2
      · simp at hf
    · split at hf
      · rw [List.mem_singleton] at hf
        rw [hf]
        exact h1
      · simp at hf
  · have hn : ∀ f ∈ (if (s.vertices.any fun v => P.encroaches ⟨e.v1, P.mid e⟩ v) = true then s.newEdges
        else setInsert ⟨e.v1, P.mid e⟩ s.newEdges), f.Real P.ghost := by
      intro f hf
      split at hf
      · exact hs.newEdges f hf
      · rcases mem_setInsert.1 hf with rfl | hf
        exacts [h1, hs.newEdges f hf]
    simp only at hf
    split at hf
    · exact hn f hf
    · rcases mem_setInsert.1 hf with rfl | hf
      exacts [h2, hn f hf]

theorem unencLoop_twin (h : AgreeR P Q) (C : List (Edge V)) (fuel n : Nat) (σ : Sched) {l : List (Edge V)}
    (hl : ∀ e ∈ l, e.Real P.ghost) {s : UnencState V} (hs : s.Proper P.ghost) :
    Twin (UnencState.Proper P.ghost) (unencLoop Q C fuel n σ l s) (unencLoop P C fuel n σ l s) := by
  induction n generalizing σ l s with
  | zero =>
    cases l with
    | nil => exact Twin.ok hs
    | cons e l => exact Twin.diverged
  | succ n ih =>
    cases l with
    | nil => exact Twin.ok hs
    | cons e l =>
      simp only [unencLoop]
      refine Twin.bind (unencStep_twin h fuel (σ.sub 0) C (hl e List.mem_cons_self) hs) fun r hr => ih (σ.sub 1) (fun f hf => ?_)
        hr.2
      rcases List.mem_append.1 hf with hf | hf
      exacts [hr.1 f hf, hl f (List.mem_cons_of_mem _ hf)]

theorem unencroachSegment_twin (h : AgreeR P Q) (fuel : Nat) (σ : Sched) (C : List (Edge V)) {m : Mesh V}
    (hm : m.Proper P.ghost) {e : Edge V} (he : e.Real P.ghost) {l : List V} (hl : ∀ v ∈ l, P.ghost v = false) :
    Twin (UnencState.Proper P.ghost) (unencroachSegment Q fuel σ C m e l) (unencroachSegment P fuel σ C m e l) :=
  unencLoop_twin h C fuel fuel σ (by simpa using he) ⟨hm, hl, by simp⟩

/-- Edges between true vertices on both sides. -/
def RealEdges (g : V → Bool) (l : List (Edge V × Edge V)) : Prop := ∀ p ∈ l, p.1.Real g ∧ p.2.Real g

theorem foldl_mapInsert_real {es : List (Edge V)} (hes : ∀ e ∈ es, e.Real g) {e : Edge V} (he : e.Real g)
    {l : List (Edge V × Edge V)} (hl : RealEdges g l) : RealEdges g (es.foldl (fun s h => mapInsert h e s) l) := by
  induction es generalizing l with
  | nil => exact hl
  | cons f es ih =>
    refine ih (fun x hx => hes x (List.mem_cons_of_mem _ hx)) fun p hp => ?_
    rcases List.mem_cons.1 hp with rfl | hp
    exacts [⟨hes f List.mem_cons_self, he⟩, hl p (List.mem_filter.1 hp).1]

theorem unencroachLoop_twin (h : AgreeR P Q) (C : List (Edge V)) (fuel n : Nat) (σ : Sched) {m : Mesh V}
    (hm : m.Proper P.ghost) {cs : List (Edge V × List V)} (hcs : RealPairs P.ghost cs) {split : List (Edge V × Edge V)}
    (hsp : RealEdges P.ghost split) : Twin (fun r => r.1.Proper P.ghost ∧ RealEdges P.ghost r.2)
      (unencroachLoop Q C fuel n σ m cs split) (unencroachLoop P C fuel n σ m cs split) := by
  induction n generalizing σ m cs split with
  | zero =>
    cases cs with
    | nil => exact Twin.ok ⟨hm, hsp⟩
    | cons c cs => exact Twin.diverged
  | succ n ih =>
    cases cs with
    | nil => exact Twin.ok ⟨hm, hsp⟩
    | cons c cs =>
      simp only [unencroachLoop]
      cases hc : choose (σ.sub 0) (c :: cs) with
      | none => exact Twin.panic
      | some p =>
        have hp := hcs p (choose_mem hc)
        exact Twin.bind (unencroachSegment_twin h fuel (σ.sub 1) C hm hp.1 hp.2) fun r hr =>
          ih (σ.sub 2) hr.mesh (fun q hq => hcs q (List.mem_filter.1 hq).1) (foldl_mapInsert_real hr.newEdges hp.1 hsp)

theorem Mesh.vertices_real (m : Mesh V) : ∀ v ∈ m.vertices g, g v = false := by
  intro v hv
  simp only [Mesh.vertices, mem_toSet, List.mem_filter] at hv
  simpa using hv.2

theorem unencroach_twin (h : AgreeR P Q) (fuel : Nat) (σ : Sched) {C : List (Edge V)} (hC : ∀ e ∈ C, e.Real P.ghost)
    {m : Mesh V} (hm : m.Proper P.ghost) : Twin (fun r => r.1.Proper P.ghost ∧ RealEdges P.ghost r.2)
      (unencroach Q fuel σ C m) (unencroach P fuel σ C m) := by
  unfold unencroach
  have hd := distributeEncroachments_agree h hC m.vertices_real
  rw [h.toAgree.ghost, hd.1]
  exact unencroachLoop_twin h C fuel fuel σ hm hd.2 (fun p hp => by simp at hp)

theorem findEncroachments_twin (h : AgreeR P Q) {C : List (Edge V)} (hC : ∀ e ∈ C, e.Real P.ghost) {c : V}
    (hc : P.ghost c = false) (l : List (Tri V)) :
    Twin (fun r => ∀ e ∈ r, e.Real P.ghost) (findEncroachments Q C c l) (findEncroachments P C c l) := by
  unfold findEncroachments
  rw [h.toAgree.veq]
  refine Twin.bind (Twin.any rfl) fun r _ => ?_
  have hreal : ∀ e : Edge V, (decide (e ∈ C) || decide (e.opposite ∈ C)) = true → e.Real P.ghost := by
    intro e he
    simp only [Bool.or_eq_true, decide_eq_true_eq] at he
    rcases he with he | he
    · exact hC e he
    · exact ⟨(hC _ he).2, (hC _ he).1⟩
  have e1 : (r.filter fun e => (decide (e ∈ C) || decide (e.opposite ∈ C)) && Q.encroaches e c)
      = r.filter fun e => (decide (e ∈ C) || decide (e.opposite ∈ C)) && P.encroaches e c := by
    refine List.filter_congr fun e _ => ?_
    cases hm : (decide (e ∈ C) || decide (e.opposite ∈ C)) with
    | false => rfl
    | true => rw [h.encroaches e c (hreal e hm) hc]
  rw [e1]
  refine Twin.ok fun e he => ?_
  simp only [mem_toSet, List.mem_filter, Bool.and_eq_true] at he
  exact hreal e he.2.1

/-- Proper meshes and edges between true vertices in the outcome of an attempt. -/
def TryRes.Proper (g : V → Bool) : TryRes V → Prop
  | inserted m _ _ => m.Proper g
  | rejected m es => m.Proper g ∧ ∀ e ∈ es, e.Real g

theorem tryCircumcenter_twin (h : AgreeR P Q) (fuel : Nat) (σ : Sched) {C : List (Edge V)} (hC : ∀ e ∈ C, e.Real P.ghost)
    {m : Mesh V} (hm : m.Proper P.ghost) {t : Tri V} (ht : t.Solid P.ghost) :
    Twin (TryRes.Proper P.ghost) (tryCircumcenter Q fuel σ C m t) (tryCircumcenter P fuel σ C m t) := by
  unfold tryCircumcenter
  rw [h.circumcenter t ht]
  refine Twin.bind (S := fun c => P.ghost c = false) (Twin.of_eq rfl fun c hc => h.center_real t c ht (Res.unwrap_eq_ok.1 hc))
    fun c hc => ?_
  refine Twin.bind (distributeOver_twin h.toAgree fuel (σ.sub 0) hm ht.proper (fun p hp => by simp at hp) (by simpa using hc))
    fun d hd => ?_
  refine Twin.bind (solveConflicts_twin h.toAgree C fuel (σ.sub 1) hm hd.1 (by simp)) fun s hs => ?_
  refine Twin.bind (findEncroachments_twin h hC hc s.included) fun enc henc => ?_
  split
  · exact Twin.ok hs.mesh
  · refine Twin.ok ⟨?_, henc⟩
    exact Mesh.Proper.foldl_add (fun t ht => hs.removed t (mem_shuffle.1 ht)) (Mesh.Proper.foldl_del _ hs.mesh)

/-- Proper meshes, true edges and solid triangles in the state of the refinement. -/
structure SplitState.Proper (g : V → Bool) (s : SplitState V) : Prop where
  mesh : s.mesh.Proper g
  segments : ∀ e ∈ s.segments, e.Real g
  irregulars : ∀ t ∈ s.irregulars, t.Solid g
  larges : ∀ t ∈ s.larges, t.Solid g

theorem foldl_agree {α β : Type*} {f f' : β → α → β} {l : List α} (h : ∀ b, ∀ a ∈ l, f' b a = f b a) (b : β) :
    l.foldl f' b = l.foldl f b := by
  induction l generalizing b with
  | nil => rfl
  | cons a l ih =>
    rw [List.foldl_cons, List.foldl_cons, h b a List.mem_cons_self, ih fun b a ha => h b a (List.mem_cons_of_mem _ ha)]

theorem foldl_queue_solid {l : List (Tri V)} (hl : ∀ t ∈ l, t.Solid g) {f : List (Tri V) → Tri V → List (Tri V)}
    (hf : ∀ acc t s, s ∈ f acc t → s = t ∨ s ∈ acc) {acc : List (Tri V)} (ha : ∀ t ∈ acc, t.Solid g) :
    ∀ t ∈ l.foldl f acc, t.Solid g := by
  induction l generalizing acc with
  | nil => exact ha
  | cons t l ih =>
    refine ih (fun s hs => hl s (List.mem_cons_of_mem _ hs)) fun s hs => ?_
    rcases hf _ _ _ hs with rfl | hs
    exacts [hl s List.mem_cons_self, ha s hs]

theorem requeue_agree (h : AgreeR P Q) (a b : List (Tri V)) (s : SplitState V) : requeue Q a b s = requeue P a b s := by
  unfold requeue
  have hs : ∀ t ∈ a.filter (fun t => !t.isGhost P.ghost), t.Solid P.ghost := fun t ht => by
    simpa [Tri.Solid] using (List.mem_filter.1 ht).2
  have h1 := fun acc => foldl_agree (f := fun l t => if P.irregular t then setInsert t l else l)
    (f' := fun l t => if Q.irregular t then setInsert t l else l) (b := acc)
    fun b t ht => by rw [h.irregular t (hs t ht)]
  have h2 := fun acc => foldl_agree (f := fun l t => if P.irregular t then l else if P.large t then setInsert t l else l)
    (f' := fun l t => if Q.irregular t then l else if Q.large t then setInsert t l else l) (b := acc)
    fun b t ht => by rw [h.irregular t (hs t ht), h.large t (hs t ht)]
  simp only [h.toAgree.ghost, h1, h2]

theorem requeue_proper (a b : List (Tri V)) {s : SplitState V} (hs : s.Proper P.ghost) :
    (requeue P a b s).Proper P.ghost := by
  have hsol : ∀ t ∈ a.filter (fun t => !t.isGhost P.ghost), t.Solid P.ghost := fun t ht => by
    simpa [Tri.Solid] using (List.mem_filter.1 ht).2
  refine ⟨hs.mesh, hs.segments, fun t ht => ?_, fun t ht => ?_⟩
  · refine foldl_queue_solid hsol (fun acc t s hs => ?_) hs.irregulars t (List.mem_filter.1 ht).1
    split at hs
    · exact mem_setInsert.1 hs
    · exact Or.inr hs
  · refine foldl_queue_solid hsol (fun acc t s hs => ?_) hs.larges t (List.mem_filter.1 ht).1
    split at hs
    · exact Or.inr hs
    · split at hs
      · exact mem_setInsert.1 hs
      · exact Or.inr hs

theorem splitEncroached_twin (h : AgreeR P Q) (fuel : Nat) (σ : Sched) {es : List (Edge V)} (hes : ∀ e ∈ es, e.Real P.ghost)
    {vs : List V} (hvs : ∀ v ∈ vs, P.ghost v = false) {s : SplitState V} (hs : s.Proper P.ghost) :
    Twin (SplitState.Proper P.ghost) (splitEncroached Q fuel σ es vs s) (splitEncroached P fuel σ es vs s) := by
  induction es generalizing σ vs s with
  | nil => exact Twin.ok hs
  | cons e es ih =>
    simp only [splitEncroached, requeue_agree h]
    refine Twin.bind (unencroachSegment_twin h fuel (σ.sub 0) s.segments hs.mesh (hes e List.mem_cons_self) hvs) fun r hr => ?_
    refine ih (σ.sub 1) (fun f hf => hes f (List.mem_cons_of_mem _ hf)) hr.vertices (requeue_proper _ _ ?_)
    refine ⟨hr.mesh, fun f hf => ?_, hs.irregulars, hs.larges⟩
    rcases (mem_foldl_setInsert _ _ _).1 hf with hf | hf
    · exact hr.newEdges f hf
    · exact hs.segments f (mem_setErase.1 hf).1

theorem popTriangle_proper {σ : Sched} {s : SplitState V} (hs : s.Proper g) {t : Tri V} {s' : SplitState V}
    (h : popTriangle σ s = some (t, s')) : t.Solid g ∧ s'.Proper g := by
  unfold popTriangle at h
  split at h
  · rename_i u hu
    simp only [Option.some.injEq, Prod.mk.injEq] at h
    obtain ⟨rfl, rfl⟩ := h
    exact ⟨hs.irregulars _ (choose_mem hu), hs.mesh, hs.segments, fun w hw => hs.irregulars w (mem_setErase.1 hw).1, hs.larges⟩
  · split at h
    · rename_i u hu
      simp only [Option.some.injEq, Prod.mk.injEq] at h
      obtain ⟨rfl, rfl⟩ := h
      exact ⟨hs.larges _ (choose_mem hu), hs.mesh, hs.segments, hs.irregulars, fun w hw => hs.larges w (mem_setErase.1 hw).1⟩
    · cases h

theorem splitStep_twin (h : AgreeR P Q) (fuel : Nat) (σ : Sched) {t : Tri V} (ht : t.Solid P.ghost) {s : SplitState V}
    (hs : s.Proper P.ghost) : Twin (SplitState.Proper P.ghost) (splitStep Q fuel σ t s) (splitStep P fuel σ t s) := by
  unfold splitStep
  refine Twin.bind (tryCircumcenter_twin h fuel (σ.sub 0) hs.segments hs.mesh ht) fun r hr => ?_
  cases r with
  | inserted m a b =>
    simp only [requeue_agree h]
    exact Twin.ok (requeue_proper _ _ ⟨hr, hs.segments, hs.irregulars, hs.larges⟩)
  | rejected m enc =>
    simp only [h.circumcenter t ht]
    refine Twin.bind (S := fun c => P.ghost c = false)
      (Twin.of_eq rfl fun c hc => h.center_real t c ht (Res.unwrap_eq_ok.1 hc)) fun c hc => ?_
    exact splitEncroached_twin h fuel (σ.sub 1) (fun e he => hr.2 e (mem_shuffle.1 he)) (by simpa using hc)
      ⟨hr.1, hs.segments, hs.irregulars, hs.larges⟩

theorem splitIrregularLoop_twin (h : AgreeR P Q) (fuel n : Nat) (σ : Sched) {s : SplitState V} (hs : s.Proper P.ghost) :
    Twin (SplitState.Proper P.ghost) (splitIrregularLoop Q fuel n σ s) (splitIrregularLoop P fuel n σ s) := by
  induction n generalizing σ s with
  | zero =>
    unfold splitIrregularLoop
    cases popTriangle (σ.sub 0) s with
    | none => exact Twin.ok hs
    | some p => exact Twin.diverged
  | succ n ih =>
    unfold splitIrregularLoop
    cases hp : popTriangle (σ.sub 0) s with
    | none => exact Twin.ok hs
    | some p =>
      obtain ⟨t, s'⟩ := p
      have := popTriangle_proper hs hp
      exact Twin.bind (splitStep_twin h fuel (σ.sub 1) this.1 this.2) fun r hr => ih (σ.sub 2) hr

theorem splitIrregular_twin (h : AgreeR P Q) (fuel : Nat) (σ : Sched) {C : List (Edge V)} (hC : ∀ e ∈ C, e.Real P.ghost)
    {m : Mesh V} (hm : m.Proper P.ghost) :
    Twin (SplitState.Proper P.ghost) (splitIrregular Q fuel σ C m) (splitIrregular P fuel σ C m) := by
  have hsol : ∀ t ∈ m.tris.filter (fun t => !t.isGhost P.ghost), t.Solid P.ghost := fun t ht => by
    simpa [Tri.Solid] using (List.mem_filter.1 ht).2
  have he : splitInit Q C m = splitInit P C m := by
    simp only [splitInit, h.toAgree.ghost, SplitState.mk.injEq, true_and, and_true]
    exact ⟨List.filter_congr fun t ht => h.irregular t (hsol t ht), List.filter_congr fun t ht => h.large t (hsol t ht)⟩
  unfold splitIrregular
  rw [he]
  exact splitIrregularLoop_twin h fuel fuel σ ⟨hm, hC, fun t ht => hsol t (List.mem_filter.1 ht).1,
    fun t ht => hsol t (List.mem_filter.1 ht).1⟩

end refine

end Verif
