import Verif.Lemmas.Natural
import Verif.Lemmas.Sets

/-!
# Tables of predicates that agree on proper arguments: the insertion

In the meshes of the code a ghost is never the first or second corner of a triangle, and only true vertices are inserted.
Two tables of predicates that agree on such arguments give the same runs.
-/

set_option linter.unusedSectionVars false

namespace Verif

namespace Res

variable {α β : Type*}

/-- The two computations are the same, and a returned value satisfies `S`. -/
def Twin (S : α → Prop) (x y : Res α) : Prop := x = y ∧ ∀ r, y = .ok r → S r

theorem Twin.bind {S : α → Prop} {S' : β → Prop} {x y : Res α} {f g : α → Res β} (h : Twin S x y)
    (hf : ∀ r, S r → Twin S' (f r) (g r)) : Twin S' (x.bind f) (y.bind g) := by
  obtain ⟨rfl, h⟩ := h
  cases x with
  | ok r => exact hf r (h r rfl)
  | panic => exact ⟨rfl, fun r h => by cases h⟩
  | diverged => exact ⟨rfl, fun r h => by cases h⟩

theorem Twin.ok {S : α → Prop} {r : α} (h : S r) : Twin S (.ok r) (.ok r) :=
  ⟨rfl, fun s e => by cases e; exact h⟩

theorem Twin.panic {S : α → Prop} : Twin S (.panic : Res α) .panic := ⟨rfl, fun r h => by cases h⟩

theorem Twin.diverged {S : α → Prop} : Twin S (.diverged : Res α) .diverged := ⟨rfl, fun r h => by cases h⟩

theorem Twin.of_eq {S : α → Prop} {x y : Res α} (h : x = y) (hS : ∀ r, y = .ok r → S r) : Twin S x y := ⟨h, hS⟩

theorem Twin.any {x y : Res α} (h : x = y) : Twin (fun _ => True) x y := ⟨h, fun _ _ => trivial⟩

theorem Twin.mono {S S' : α → Prop} {x y : Res α} (h : Twin S x y) (hS : ∀ r, S r → S' r) : Twin S' x y :=
  ⟨h.1, fun r e => hS r (h.2 r e)⟩

end Res

open Res

section insertion

variable {V : Type*} [DecidableEq V]

/-- No ghost among the first two corners. -/
def Tri.Proper (g : V → Bool) (t : Tri V) : Prop := g t.v1 = false ∧ g t.v2 = false

/-- The two ends are true vertices. -/
def Edge.Real (g : V → Bool) (e : Edge V) : Prop := g e.v1 = false ∧ g e.v2 = false

/-- One of the ends, at least, is a true vertex. -/
def Edge.Half (g : V → Bool) (e : Edge V) : Prop := g e.v1 = false ∨ g e.v2 = false

/-- Every triangle is proper. -/
structure Mesh.Proper (g : V → Bool) (m : Mesh V) : Prop where
  tris : ∀ t ∈ m.tris, t.Proper g
  adj : ∀ e t, m.adj e = some t → t.Proper g

/-- The two tables agree on proper arguments. -/
structure Agree (P Q : Preds V) : Prop where
  ghost : Q.ghost = P.ghost
  veq : Q.veq = P.veq
  inside : ∀ t v, t.Proper P.ghost → P.ghost v = false → Q.inside t v = P.inside t v
  onEdge : ∀ e v, e.Real P.ghost → P.ghost v = false → Q.onEdge e v = P.onEdge e v
  mayInsert : ∀ t v, t.Proper P.ghost → P.ghost v = false → Q.mayInsert t v = P.mayInsert t v

variable {g : V → Bool}

theorem Tri.Proper.half {t : Tri V} (h : t.Proper g) : ∀ e ∈ t.innerEdges, e.Half g := by
  intro e he
  simp only [Tri.innerEdges, List.mem_cons, List.not_mem_nil, or_false] at he
  rcases he with rfl | rfl | rfl
  · exact Or.inl h.1
  · exact Or.inl h.2
  · exact Or.inr h.1

theorem newTri_proper {e : Edge V} {v : V} (he : e.Half g) (hv : g v = false) : (newTri g e v).Proper g := by
  unfold newTri
  split
  · rename_i h
    exact ⟨he.resolve_left (by simp [h]), hv⟩
  · rename_i h
    split
    · exact ⟨hv, by simpa using h⟩
    · rename_i h'
      exact ⟨by simpa using h, by simpa using h'⟩

theorem Mesh.Proper.add {m : Mesh V} {t : Tri V} (hm : m.Proper g) (ht : t.Proper g) : (m.add t).Proper g := by
  unfold Mesh.add Mesh.include
  split
  · exact hm
  · constructor
    · intro s hs
      rcases List.mem_cons.1 hs with rfl | hs
      · exact ht
      · exact hm.tris s hs
    · intro e s hs
      simp only at hs
      split at hs
      · cases hs
        exact ht
      · exact hm.adj e s hs

theorem Mesh.Proper.del {m : Mesh V} (hm : m.Proper g) (t : Tri V) : (m.del t).Proper g := by
  unfold Mesh.del Mesh.remove
  split
  · constructor
    · intro s hs
      exact hm.tris s (by simp only [setErase, List.mem_filter] at hs; exact hs.1)
    · intro e s hs
      simp only at hs
      split at hs
      · cases hs
      · exact hm.adj e s hs
  · exact hm

theorem Mesh.Proper.empty : (Mesh.empty : Mesh V).Proper g :=
  ⟨fun t h => by simp [Mesh.empty] at h, fun e t h => by simp [Mesh.empty] at h⟩

theorem Mesh.Proper.fromInitialSegment {gh a b : V} (ha : g a = false) (hb : g b = false) :
    (Mesh.fromInitialSegment gh a b).Proper g :=
  (Mesh.Proper.empty.add (t := ⟨a, b, gh⟩) ⟨ha, hb⟩).add (t := ⟨b, a, gh⟩) ⟨hb, ha⟩

theorem Mesh.Proper.foldl_add {l : List (Tri V)} (hl : ∀ t ∈ l, t.Proper g) {m : Mesh V} (hm : m.Proper g) :
    (l.foldl Mesh.add m).Proper g := by
  induction l generalizing m with
  | nil => exact hm
  | cons t l ih =>
    exact ih (fun s hs => hl s (List.mem_cons_of_mem _ hs)) (hm.add (hl t List.mem_cons_self))

theorem Mesh.Proper.foldl_del (l : List (Tri V)) {m : Mesh V} (hm : m.Proper g) : (l.foldl Mesh.del m).Proper g := by
  induction l generalizing m with
  | nil => exact hm
  | cons t l ih => exact ih (hm.del t)

/-- Proper triangles and true vertices only. -/
def CMap.Proper (g : V → Bool) (c : CMap V) : Prop := ∀ p ∈ c, p.1.Proper g ∧ ∀ v ∈ p.2, g v = false

theorem CMap.Proper.get {c : CMap V} (hc : c.Proper g) {t : Tri V} {l : List V} (h : c.get t = some l) :
    ∀ v ∈ l, g v = false := by
  unfold CMap.get at h
  rw [Option.map_eq_some_iff] at h
  obtain ⟨p, hp, rfl⟩ := h
  exact (hc p (List.mem_of_find?_eq_some hp)).2

theorem CMap.Proper.erase {c : CMap V} (hc : c.Proper g) (t : Tri V) : (c.erase t).Proper g :=
  fun p hp => hc p (List.mem_filter.1 hp).1

theorem CMap.Proper.append {c : CMap V} (hc : c.Proper g) {t : Tri V} (ht : t.Proper g) {l : List V}
    (hl : ∀ v ∈ l, g v = false) : (c.append t l).Proper g := by
  unfold CMap.append
  split
  · exact hc
  · split
    · rename_i old ho
      intro p hp
      rcases List.mem_cons.1 hp with rfl | hp
      · refine ⟨ht, fun v hv => ?_⟩
        rcases List.mem_append.1 hv with hv | hv
        · exact hc.get ho v hv
        · exact hl v hv
      · exact hc.erase t p hp
    · intro p hp
      rcases List.mem_cons.1 hp with rfl | hp
      · exact ⟨ht, hl⟩
      · exact hc p hp

variable {P Q : Preds V}

theorem splitConflicts_twin (h : Agree P Q) {t : Tri V} (ht : t.Proper P.ghost) {l : List V}
    (hl : ∀ v ∈ l, P.ghost v = false) :
    Twin (fun r => (∀ v ∈ r.1, P.ghost v = false) ∧ ∀ v ∈ r.2, P.ghost v = false) (splitConflicts Q t l)
      (splitConflicts P t l) := by
  induction l with
  | nil => exact Twin.ok ⟨by simp, by simp⟩
  | cons v l ih =>
    have hv := hl v List.mem_cons_self
    simp only [splitConflicts]
    rw [h.mayInsert t v ht hv, h.inside t v ht hv]
    refine Twin.bind (Twin.any rfl) fun may _ => Twin.bind (ih fun w hw => hl w (List.mem_cons_of_mem _ hw)) fun r hr => ?_
    split
    · refine Twin.ok ⟨fun w hw => ?_, hr.2⟩
      rcases List.mem_cons.1 hw with rfl | hw
      exacts [hv, hr.1 w hw]
    · refine Twin.ok ⟨hr.1, fun w hw => ?_⟩
      rcases List.mem_cons.1 hw with rfl | hw
      exacts [hv, hr.2 w hw]

theorem distribute_twin (h : Agree P Q) {t : Tri V} (ht : t.Proper P.ghost) {c : CMap V} (hc : c.Proper P.ghost) {l : List V}
    (hl : ∀ v ∈ l, P.ghost v = false) :
    Twin (fun r => r.1.Proper P.ghost ∧ ∀ v ∈ r.2, P.ghost v = false) (distribute Q t c l) (distribute P t c l) :=
  Twin.bind (splitConflicts_twin h ht hl) fun _ hr => Twin.ok ⟨hc.append ht hr.1, hr.2⟩

/-- Proper triangles and true vertices in the state of the insertion. -/
structure SolveState.Proper (g : V → Bool) (s : SolveState V) : Prop where
  mesh : s.mesh.Proper g
  cmap : s.cmap.Proper g
  remaining : ∀ v ∈ s.remaining, g v = false
  included : ∀ t ∈ s.included, t.Proper g
  removed : ∀ t ∈ s.removed, t.Proper g

theorem conflicting_agree (h : Agree P Q) {t : Tri V} (ht : t.Proper P.ghost) {v : V} (hv : P.ghost v = false) :
    conflicting Q t v = conflicting P t v := by
  unfold conflicting
  rw [h.inside t v ht hv, h.ghost, h.onEdge ⟨t.v1, t.v2⟩ v ht hv]

theorem cavityPushes_half {t : Tri V} (ht : t.Proper g) (veq : V → V → Bool) (e : Edge V) :
    ∀ f ∈ cavityPushes veq t e, f.Half g := by
  have := ht.half
  simp only [Tri.innerEdges, List.mem_cons, List.not_mem_nil, or_false, forall_eq_or_imp, forall_eq] at this
  obtain ⟨h1, h2, h3⟩ := this
  unfold cavityPushes
  intro f hf
  split at hf
  · simp only [List.mem_cons, List.not_mem_nil, or_false] at hf
    rcases hf with rfl | rfl <;> assumption
  · split at hf
    · simp only [List.mem_cons, List.not_mem_nil, or_false] at hf
      rcases hf with rfl | rfl <;> assumption
    · simp only [List.mem_cons, List.not_mem_nil, or_false] at hf
      rcases hf with rfl | rfl <;> assumption

theorem cavityStep_twin (h : Agree P Q) (C : List (Edge V)) {v : V} (hv : P.ghost v = false) {e : Edge V}
    (he : e.Half P.ghost) {s : SolveState V} (hs : s.Proper P.ghost) :
    Twin (fun r => (∀ f ∈ r.1, f.Half P.ghost) ∧ r.2.Proper P.ghost) (cavityStep Q C v e s) (cavityStep P C v e s) := by
  unfold cavityStep
  cases ha : s.mesh.adj e.opposite with
  | none => exact Twin.panic
  | some t =>
    have ht := hs.mesh.adj _ t ha
    simp only
    rw [h.mayInsert t v ht hv]
    refine Twin.bind (Twin.any rfl) fun may _ => ?_
    rw [conflicting_agree h ht hv, h.ghost, h.veq]
    split
    · refine Twin.ok ⟨cavityPushes_half ht _ _, hs.mesh.del t, hs.cmap.erase t, ?_, hs.included, ?_⟩
      · intro w hw
        rcases List.mem_append.1 hw with hw | hw
        · exact hs.remaining w hw
        · cases hg : s.cmap.get t with
          | none => simp [hg] at hw
          | some l =>
            rw [hg] at hw
            exact hs.cmap.get hg w hw
      · intro w hw
        rcases mem_setInsert.1 hw with rfl | hw
        exacts [ht, hs.removed w hw]
    · have hn := newTri_proper he hv
      refine Twin.bind (distribute_twin h hn hs.cmap hs.remaining) fun r hr => Twin.ok ⟨by simp, hs.mesh.add hn, hr.1, hr.2, ?_,
        hs.removed⟩
      intro w hw
      rcases mem_setInsert.1 hw with rfl | hw
      exacts [hn, hs.included w hw]

theorem cavityLoop_twin (h : Agree P Q) (C : List (Edge V)) {v : V} (hv : P.ghost v = false) (n : Nat) {l : List (Edge V)}
    (hl : ∀ e ∈ l, e.Half P.ghost) {s : SolveState V} (hs : s.Proper P.ghost) :
    Twin (SolveState.Proper P.ghost) (cavityLoop Q C v n l s) (cavityLoop P C v n l s) := by
  induction n generalizing l s with
  | zero =>
    cases l with
    | nil => exact Twin.ok hs
    | cons e l => exact Twin.diverged
  | succ n ih =>
    cases l with
    | nil => exact Twin.ok hs
    | cons e l =>
      simp only [cavityLoop]
      refine Twin.bind (cavityStep_twin h C hv (hl e List.mem_cons_self) hs) fun r hr => ih (fun f hf => ?_) hr.2
      rcases List.mem_append.1 hf with hf | hf
      exacts [hr.1 f hf, hl f (List.mem_cons_of_mem _ hf)]

theorem solveStep_twin (h : Agree P Q) (C : List (Edge V)) (fuel : Nat) (σ : Sched) {s : SolveState V}
    (hs : s.Proper P.ghost) : Twin (SolveState.Proper P.ghost) (solveStep Q C fuel σ s) (solveStep P C fuel σ s) := by
  unfold solveStep
  cases hc : choose σ s.cmap with
  | none => exact Twin.panic
  | some p =>
    obtain ⟨t, vs⟩ := p
    have hp := hs.cmap _ (choose_mem hc)
    simp only
    cases hv : vs.getLast? with
    | none => exact Twin.panic
    | some v =>
      refine cavityLoop_twin h C (hp.2 v (List.mem_of_getLast? hv)) fuel ?_ ?_
      · intro e he
        refine hp.1.half e ?_
        simp only [openEdges, List.mem_cons, List.not_mem_nil, or_false] at he
        simp only [Tri.innerEdges, List.mem_cons, List.not_mem_nil, or_false]
        tauto
      · refine ⟨hs.mesh.del t, hs.cmap.erase t, fun w hw => ?_, hs.included, fun w hw => ?_⟩
        · rcases List.mem_append.1 hw with hw | hw
          exacts [hs.remaining w hw, hp.2 w (List.dropLast_subset _ hw)]
        · rcases mem_setInsert.1 hw with rfl | hw
          exacts [hp.1, hs.removed w hw]

theorem solveLoop_twin (h : Agree P Q) (C : List (Edge V)) (fuel n : Nat) (σ : Sched) {s : SolveState V}
    (hs : s.Proper P.ghost) : Twin (SolveState.Proper P.ghost) (solveLoop Q C fuel n σ s) (solveLoop P C fuel n σ s) := by
  induction n generalizing σ s with
  | zero =>
    simp only [solveLoop]
    split
    exacts [Twin.ok hs, Twin.diverged]
  | succ n ih =>
    simp only [solveLoop]
    split
    · exact Twin.ok hs
    · exact Twin.bind (solveStep_twin h C fuel (σ.sub 0) hs) fun r hr => ih (σ.sub 1) hr

theorem solveConflicts_twin (h : Agree P Q) (C : List (Edge V)) (fuel : Nat) (σ : Sched) {m : Mesh V} {c : CMap V}
    {l : List V} (hm : m.Proper P.ghost) (hc : c.Proper P.ghost) (hl : ∀ v ∈ l, P.ghost v = false) :
    Twin (SolveState.Proper P.ghost) (solveConflicts Q C fuel σ m c l) (solveConflicts P C fuel σ m c l) :=
  solveLoop_twin h C fuel fuel σ ⟨hm, hc, hl, by simp, by simp⟩

theorem distributeAll_twin (h : Agree P Q) {ts : List (Tri V)} (ht : ∀ t ∈ ts, t.Proper P.ghost) {c : CMap V}
    (hc : c.Proper P.ghost) {l : List V} (hl : ∀ v ∈ l, P.ghost v = false) :
    Twin (fun r => r.1.Proper P.ghost ∧ ∀ v ∈ r.2, P.ghost v = false) (distributeAll Q ts c l) (distributeAll P ts c l) := by
  induction ts generalizing c l with
  | nil => exact Twin.ok ⟨hc, hl⟩
  | cons t ts ih =>
    simp only [distributeAll]
    split
    · exact Twin.ok ⟨hc, hl⟩
    · exact Twin.bind (distribute_twin h (ht t List.mem_cons_self) hc hl) fun r hr =>
        ih (fun s hs => ht s (List.mem_cons_of_mem _ hs)) hr.1 hr.2

theorem includeVertices_twin (h : Agree P Q) (C : List (Edge V)) (fuel : Nat) (σ : Sched) {m : Mesh V}
    (hm : m.Proper P.ghost) {l : List V} (hl : ∀ v ∈ l, P.ghost v = false) :
    Twin (SolveState.Proper P.ghost) (includeVertices Q C fuel σ m l) (includeVertices P C fuel σ m l) := by
  unfold includeVertices
  rw [h.ghost]
  refine Twin.bind (distributeAll_twin h (fun t ht => hm.tris t (mem_shuffle.1 ht)) (c := []) (fun p hp => by simp at hp)
    fun v hv => hl v (List.mem_filter.1 hv).1) fun r hr => solveConflicts_twin h C fuel (σ.sub 1) hm hr.1 hr.2

theorem visitNeighbours_agree (hg : Q.ghost = P.ghost) (m : Mesh V) (es : List (Edge V)) (pending visited : List (Tri V)) :
    visitNeighbours Q m es pending visited = visitNeighbours P m es pending visited := by
  induction es generalizing pending visited with
  | nil => rfl
  | cons e es ih => simp only [visitNeighbours, hg, ih]

theorem visitNeighbours_proper {m : Mesh V} (hm : m.Proper g) (es : List (Edge V)) {pending : List (Tri V)}
    (hp : ∀ t ∈ pending, t.Proper g) (visited : List (Tri V)) :
    ∀ t ∈ (visitNeighbours P m es pending visited).1, t.Proper g := by
  induction es generalizing pending visited with
  | nil => exact hp
  | cons e es ih =>
    simp only [visitNeighbours]
    cases ha : m.adj e with
    | none => exact ih hp visited
    | some t =>
      simp only
      split
      · refine ih (fun s hs => ?_) _
        rcases List.mem_cons.1 hs with rfl | hs
        exacts [hm.adj e s ha, hp s hs]
      · exact ih hp visited

theorem distributeOverLoop_twin (h : Agree P Q) {m : Mesh V} (hm : m.Proper P.ghost) (n : Nat) {pending : List (Tri V)}
    (hp : ∀ t ∈ pending, t.Proper P.ghost) (visited : List (Tri V)) {c : CMap V} (hc : c.Proper P.ghost) {l : List V}
    (hl : ∀ v ∈ l, P.ghost v = false) :
    Twin (fun r => r.1.Proper P.ghost ∧ ∀ v ∈ r.2, P.ghost v = false) (distributeOverLoop Q m n pending visited c l)
      (distributeOverLoop P m n pending visited c l) := by
  induction n generalizing pending visited c l with
  | zero =>
    cases pending with
    | nil => cases l <;> exact Twin.ok ⟨hc, hl⟩
    | cons t pending =>
      cases l with
      | nil => exact Twin.ok ⟨hc, hl⟩
      | cons v l => exact Twin.diverged
  | succ n ih =>
    cases pending with
    | nil => cases l <;> exact Twin.ok ⟨hc, hl⟩
    | cons t pending =>
      cases l with
      | nil => exact Twin.ok ⟨hc, hl⟩
      | cons v l =>
        simp only [distributeOverLoop, visitNeighbours_agree h.ghost]
        exact Twin.bind (distribute_twin h (hp t List.mem_cons_self) hc hl) fun r hr =>
          ih (visitNeighbours_proper hm _ (fun s hs => hp s (List.mem_cons_of_mem _ hs)) _) _ hr.1 hr.2

theorem distributeOver_twin (h : Agree P Q) (fuel : Nat) (σ : Sched) {m : Mesh V} (hm : m.Proper P.ghost) {t : Tri V}
    (ht : t.Proper P.ghost) {c : CMap V} (hc : c.Proper P.ghost) {l : List V} (hl : ∀ v ∈ l, P.ghost v = false) :
    Twin (fun r => r.1.Proper P.ghost ∧ ∀ v ∈ r.2, P.ghost v = false) (distributeOver Q fuel σ m (some t) c l)
      (distributeOver P fuel σ m (some t) c l) :=
  distributeOverLoop_twin h hm fuel (by simpa using ht) _ hc hl

end insertion

end Verif
