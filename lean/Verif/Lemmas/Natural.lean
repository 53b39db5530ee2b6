import Verif.Model.Carve
import Mathlib.Logic.Equiv.Basic
import Mathlib.Data.List.Basic

/-!
# Renaming the vertices: containers, meshes and the insertion

A bijection between two types of vertices that respects the answers of the predicates commutes with every procedure on
meshes.
-/

set_option linter.unusedSectionVars false

namespace Verif

namespace Res

variable {α β γ : Type*}

/-- The value, changed. -/
def map (f : α → β) : Res α → Res β
  | ok a => ok (f a)
  | panic => panic
  | diverged => diverged

@[simp] theorem map_ok (f : α → β) (a : α) : map f (.ok a) = .ok (f a) := rfl
@[simp] theorem map_panic (f : α → β) : map f .panic = .panic := rfl
@[simp] theorem map_diverged (f : α → β) : map f .diverged = .diverged := rfl

theorem map_bind (f : β → γ) (r : Res α) (g : α → Res β) : map f (r.bind g) = r.bind fun a => map f (g a) := by
  cases r <;> rfl

theorem bind_map (f : α → β) (r : Res α) (g : β → Res γ) : (map f r).bind g = r.bind fun a => g (f a) := by
  cases r <;> rfl

theorem bind_congr' {r : Res α} {f g : α → Res β} (h : ∀ a, f a = g a) : r.bind f = r.bind g := by
  cases r <;> simp [Res.bind, h]

theorem unwrap_map (f : α → β) (o : Option α) : unwrap (o.map f) = map f (unwrap o) := by cases o <;> rfl

end Res

section containers

variable {α β : Type*} {f : α → β}

theorem choose_map (σ : Sched) (l : List α) : choose σ (l.map f) = (choose σ l).map f := by
  simp [choose]

theorem eraseIdx_map (l : List α) (n : Nat) : (l.map f).eraseIdx n = (l.eraseIdx n).map f := by
  induction l generalizing n with
  | nil => rfl
  | cons a l ih => cases n with
    | zero => rfl
    | succ n => simp [ih]

theorem shuffleAux_map (σ : Sched) (n : Nat) (l : List α) :
    shuffleAux σ n (l.map f) = (shuffleAux σ n l).map f := by
  induction n generalizing l with
  | zero => rfl
  | succ n ih =>
    simp only [shuffleAux, List.length_map, List.getElem?_map]
    cases l[(σ.sub n).here % l.length]? with
    | none => rfl
    | some a => simp [eraseIdx_map, ih]

theorem shuffle_map (σ : Sched) (l : List α) : shuffle σ (l.map f) = (shuffle σ l).map f := by
  unfold shuffle
  rw [List.length_map, shuffleAux_map]

variable [DecidableEq α] [DecidableEq β]

theorem mem_map_iff (hf : f.Injective) {a : α} {l : List α} : f a ∈ l.map f ↔ a ∈ l :=
  List.mem_map_of_injective hf

theorem decide_mem_map (hf : f.Injective) (a : α) (l : List α) : decide (f a ∈ l.map f) = decide (a ∈ l) :=
  decide_eq_decide.2 (mem_map_iff hf)

theorem setInsert_map (hf : f.Injective) (a : α) (l : List α) : setInsert (f a) (l.map f) = (setInsert a l).map f := by
  unfold setInsert
  simp only [mem_map_iff hf]
  split <;> rfl

theorem setErase_map (hf : f.Injective) (a : α) (l : List α) : setErase (f a) (l.map f) = (setErase a l).map f := by
  unfold setErase
  rw [List.filter_map]
  congr 1
  refine List.filter_congr fun b _ => ?_
  simp [hf.eq_iff]

theorem foldl_setInsert_map (hf : f.Injective) (l acc : List α) :
    (l.map f).foldl (fun s a => setInsert a s) (acc.map f) = (l.foldl (fun s a => setInsert a s) acc).map f := by
  induction l generalizing acc with
  | nil => rfl
  | cons a l ih =>
    simp only [List.map_cons, List.foldl_cons]
    rw [setInsert_map hf, ih]

theorem toSet_map (hf : f.Injective) (l : List α) : toSet (l.map f) = (toSet l).map f :=
  foldl_setInsert_map hf l []

theorem setUnion_map (hf : f.Injective) (a b : List α) : setUnion (a.map f) (b.map f) = (setUnion a b).map f := by
  unfold setUnion
  rw [← List.map_append, toSet_map hf]

theorem filter_notMem_map (hf : f.Injective) (l r : List α) :
    (l.map f).filter (fun a => !decide (a ∈ r.map f)) = (l.filter fun a => !decide (a ∈ r)).map f := by
  rw [List.filter_map]
  congr 1
  refine List.filter_congr fun b _ => ?_
  simp only [Function.comp, mem_map_iff hf]

end containers

section lists

variable {α β : Type*} {f : α → β}

theorem filter_map_of {p : β → Bool} {q : α → Bool} (l : List α) (h : ∀ a ∈ l, p (f a) = q a) :
    (l.map f).filter p = (l.filter q).map f := by
  rw [List.filter_map]
  congr 1
  exact List.filter_congr fun b hb => h b hb

theorem flatMap_map_of {γ δ : Type*} {g : γ → δ} {p : β → List δ} {q : α → List γ} (l : List α)
    (h : ∀ a ∈ l, p (f a) = (q a).map g) : (l.map f).flatMap p = (l.flatMap q).map g := by
  induction l with
  | nil => rfl
  | cons a l ih =>
    rw [List.map_cons, List.flatMap_cons, List.flatMap_cons, List.map_append, h a List.mem_cons_self,
      ih fun b hb => h b (List.mem_cons_of_mem _ hb)]

theorem any_map_of {p : β → Bool} {q : α → Bool} (l : List α) (h : ∀ a ∈ l, p (f a) = q a) :
    (l.map f).any p = l.any q := by
  induction l with
  | nil => rfl
  | cons a l ih =>
    rw [List.map_cons, List.any_cons, List.any_cons, h a List.mem_cons_self, ih fun b hb => h b (List.mem_cons_of_mem _ hb)]

theorem find_map_of {p : β → Bool} {q : α → Bool} (l : List α) (h : ∀ a ∈ l, p (f a) = q a) :
    (l.map f).find? p = (l.find? q).map f := by
  induction l with
  | nil => rfl
  | cons a l ih =>
    rw [List.map_cons, List.find?_cons, List.find?_cons, h a List.mem_cons_self,
      ih fun b hb => h b (List.mem_cons_of_mem _ hb)]
    cases q a <;> rfl

theorem findIdx_map_of {p : β → Bool} {q : α → Bool} (l : List α) (h : ∀ a ∈ l, p (f a) = q a) :
    (l.map f).findIdx? p = l.findIdx? q := by
  induction l with
  | nil => rfl
  | cons a l ih =>
    rw [List.map_cons, List.findIdx?_cons, List.findIdx?_cons, h a List.mem_cons_self,
      ih fun b hb => h b (List.mem_cons_of_mem _ hb)]

theorem filterRes_map_of {p : β → Res Bool} {q : α → Res Bool} (l : List α) (h : ∀ a ∈ l, p (f a) = q a) :
    filterRes p (l.map f) = (filterRes q l).map (List.map f) := by
  induction l with
  | nil => rfl
  | cons a l ih =>
    simp only [List.map_cons, filterRes]
    rw [h a List.mem_cons_self, ih fun b hb => h b (List.mem_cons_of_mem _ hb), Res.map_bind]
    refine Res.bind_congr' fun b => ?_
    rw [Res.map_bind, Res.bind_map]
    refine Res.bind_congr' fun r => ?_
    cases b <;> rfl

end lists

section elements

variable {V W : Type*}

/-- Renaming the ends. -/
def Edge.map (f : V → W) (e : Edge V) : Edge W := ⟨f e.v1, f e.v2⟩

/-- Renaming the corners. -/
def Tri.map (f : V → W) (t : Tri V) : Tri W := ⟨f t.v1, f t.v2, f t.v3⟩

/-- Renaming the vertices. -/
def Polyline.map (f : V → W) (p : Polyline V) : Polyline W := ⟨p.vertices.map f, p.opened, by simpa using p.two_le⟩

/-- Renaming the vertices. -/
def Mesh.map (φ : V ≃ W) (m : Mesh V) : Mesh W :=
  ⟨m.tris.map (Tri.map φ), fun e => (m.adj (e.map φ.symm)).map (Tri.map φ)⟩

variable {f : V → W}

theorem Edge.map_injective (hf : f.Injective) : (Edge.map f).Injective := by
  rintro ⟨a, b⟩ ⟨c, d⟩ h
  simp only [Edge.map, Edge.mk.injEq] at h
  rw [hf h.1, hf h.2]

theorem Tri.map_injective (hf : f.Injective) : (Tri.map f).Injective := by
  rintro ⟨a, b, c⟩ ⟨d, e, g⟩ h
  simp only [Tri.map, Tri.mk.injEq] at h
  rw [hf h.1, hf h.2.1, hf h.2.2]

theorem Polyline.map_injective (hf : f.Injective) : (Polyline.map f).Injective := by
  rintro ⟨a, b, c⟩ ⟨d, e, g⟩ h
  simp only [Polyline.map, Polyline.mk.injEq] at h
  obtain ⟨h1, h2⟩ := h
  have := List.map_injective_iff.2 hf h1
  subst this h2
  rfl

theorem Edge.opposite_map (e : Edge V) : (e.map f).opposite = e.opposite.map f := rfl

theorem Tri.innerEdges_map (t : Tri V) : (t.map f).innerEdges = t.innerEdges.map (Edge.map f) := rfl

theorem Tri.outerEdges_map (t : Tri V) : (t.map f).outerEdges = t.outerEdges.map (Edge.map f) := rfl

theorem Tri.corners_map (t : Tri V) : (t.map f).corners = t.corners.map f := rfl

theorem Edge.map_symm_map (φ : V ≃ W) (e : Edge V) : (e.map φ).map φ.symm = e := by simp [Edge.map]

theorem Edge.map_map_symm (φ : V ≃ W) (e : Edge W) : (e.map φ.symm).map φ = e := by simp [Edge.map]

@[simp] theorem Mesh.map_tris (φ : V ≃ W) (m : Mesh V) : (m.map φ).tris = m.tris.map (Tri.map φ) := rfl

theorem Mesh.map_adj (φ : V ≃ W) (m : Mesh V) (e : Edge V) : (m.map φ).adj (e.map φ) = (m.adj e).map (Tri.map φ) := by
  simp [Mesh.map, Edge.map_symm_map]

variable [DecidableEq V] [DecidableEq W]

theorem Mesh.add_map (φ : V ≃ W) (m : Mesh V) (t : Tri V) : (m.map φ).add (t.map φ) = (m.add t).map φ := by
  simp only [Mesh.add, Mesh.include, Mesh.map_tris, mem_map_iff (Tri.map_injective φ.injective)]
  split
  · rfl
  · simp only [Mesh.map, List.map_cons, Mesh.mk.injEq, true_and]
    funext e
    have : e ∈ (t.map φ).innerEdges ↔ e.map φ.symm ∈ t.innerEdges := by
      rw [Tri.innerEdges_map, ← mem_map_iff (Edge.map_injective φ.injective) (l := t.innerEdges), Edge.map_map_symm]
    simp only [this]
    split <;> rfl

theorem Mesh.del_map (φ : V ≃ W) (m : Mesh V) (t : Tri V) : (m.map φ).del (t.map φ) = (m.del t).map φ := by
  simp only [Mesh.del, Mesh.remove, Mesh.map_tris, mem_map_iff (Tri.map_injective φ.injective)]
  split
  · simp only [Mesh.map, Mesh.mk.injEq]
    refine ⟨setErase_map (Tri.map_injective φ.injective) _ _, ?_⟩
    funext e
    have : e ∈ (t.map φ).innerEdges ↔ e.map φ.symm ∈ t.innerEdges := by
      rw [Tri.innerEdges_map, ← mem_map_iff (Edge.map_injective φ.injective) (l := t.innerEdges), Edge.map_map_symm]
    simp only [this]
    split <;> rfl
  · rfl

theorem Mesh.empty_map (φ : V ≃ W) : (Mesh.empty : Mesh V).map φ = Mesh.empty := rfl

theorem Mesh.fromInitialSegment_map (φ : V ≃ W) (g a b : V) :
    Mesh.fromInitialSegment (φ g) (φ a) (φ b) = (Mesh.fromInitialSegment g a b).map φ := by
  unfold Mesh.fromInitialSegment
  rw [← Mesh.add_map, ← Mesh.add_map, Mesh.empty_map]
  rfl

theorem Mesh.foldl_add_map (φ : V ≃ W) (l : List (Tri V)) (m : Mesh V) :
    (l.map (Tri.map φ)).foldl Mesh.add (m.map φ) = (l.foldl Mesh.add m).map φ := by
  induction l generalizing m with
  | nil => rfl
  | cons t l ih =>
    simp only [List.map_cons, List.foldl_cons]
    rw [Mesh.add_map, ih]

theorem Mesh.foldl_del_map (φ : V ≃ W) (l : List (Tri V)) (m : Mesh V) :
    (l.map (Tri.map φ)).foldl Mesh.del (m.map φ) = (l.foldl Mesh.del m).map φ := by
  induction l generalizing m with
  | nil => rfl
  | cons t l ih =>
    simp only [List.map_cons, List.foldl_cons]
    rw [Mesh.del_map, ih]

theorem Mesh.vertices_map (φ : V ≃ W) {g : V → Bool} {h : W → Bool} (hg : ∀ v, h (φ v) = g v) (m : Mesh V) :
    (m.map φ).vertices h = (m.vertices g).map φ := by
  unfold Mesh.vertices
  rw [← toSet_map φ.injective, Mesh.map_tris,
    flatMap_map_of (q := Tri.corners) (g := φ) _ fun t _ => Tri.corners_map t,
    filter_map_of (q := fun v => !g v) _ fun v _ => by rw [hg]]

theorem Mesh.edges_map (φ : V ≃ W) (m : Mesh V) : (m.map φ).edges = m.edges.map (Edge.map φ) := by
  unfold Mesh.edges
  rw [← toSet_map (Edge.map_injective φ.injective), Mesh.map_tris,
    flatMap_map_of (q := Tri.innerEdges) (g := Edge.map φ) _ fun t _ => Tri.innerEdges_map t]

end elements

section insertion

variable {V W : Type*} [DecidableEq V] [DecidableEq W] {φ : V ≃ W} {P : Preds V} {Q : Preds W}

/-- The predicates answer the same after renaming. -/
structure NatPreds (φ : V ≃ W) (P : Preds V) (Q : Preds W) : Prop where
  ghost : ∀ v, Q.ghost (φ v) = P.ghost v
  veq : ∀ v w, Q.veq (φ v) (φ w) = P.veq v w
  inside : ∀ t v, Q.inside (t.map φ) (φ v) = P.inside t v
  onEdge : ∀ e v, Q.onEdge (e.map φ) (φ v) = P.onEdge e v
  mayInsert : ∀ t v, Q.mayInsert (t.map φ) (φ v) = P.mayInsert t v

theorem Tri.isGhost_map {g : V → Bool} {h : W → Bool} (hg : ∀ v, h (φ v) = g v) (t : Tri V) :
    (t.map φ).isGhost h = t.isGhost g := by simp [Tri.isGhost, Tri.map, hg]

/-- Renaming in a conflict map. -/
def CMap.map (φ : V ≃ W) (c : CMap V) : CMap W := List.map (Prod.map (Tri.map φ) (List.map φ)) c

theorem CMap.map_injective (φ : V ≃ W) : (Prod.map (Tri.map φ) (List.map φ)).Injective :=
  (Tri.map_injective φ.injective).prodMap (List.map_injective_iff.2 φ.injective)

theorem CMap.get_map (c : CMap V) (t : Tri V) : (c.map φ).get (t.map φ) = (c.get t).map (List.map φ) := by
  unfold CMap.get CMap.map
  rw [find_map_of (q := fun p => decide (p.1 = t)) _ fun p _ => by
    simp [(Tri.map_injective φ.injective).eq_iff]]
  simp [Option.map_map, Function.comp_def]

theorem CMap.erase_map (c : CMap V) (t : Tri V) : (c.map φ).erase (t.map φ) = (c.erase t).map φ := by
  unfold CMap.erase CMap.map
  rw [filter_map_of (q := fun p => !decide (p.1 = t)) _ fun p _ => by
    simp [(Tri.map_injective φ.injective).eq_iff]]

theorem CMap.append_map (c : CMap V) (t : Tri V) (vs : List V) :
    (c.map φ).append (t.map φ) (vs.map φ) = (c.append t vs).map φ := by
  unfold CMap.append
  rw [CMap.get_map, CMap.erase_map]
  by_cases h : vs = []
  · simp [h]
  · rw [if_neg (by simpa using h), if_neg h]
    cases c.get t with
    | none => rfl
    | some old => simp [CMap.map]

theorem splitConflicts_map (h : NatPreds φ P Q) (t : Tri V) (l : List V) :
    splitConflicts Q (t.map φ) (l.map φ) = (splitConflicts P t l).map (Prod.map (List.map φ) (List.map φ)) := by
  induction l with
  | nil => rfl
  | cons v l ih =>
    simp only [List.map_cons, splitConflicts, h.mayInsert, h.inside, ih, Res.map_bind, Res.bind_map]
    refine Res.bind_congr' fun may => Res.bind_congr' fun r => ?_
    split <;> rfl

theorem distribute_map (h : NatPreds φ P Q) (t : Tri V) (c : CMap V) (l : List V) :
    distribute Q (t.map φ) (c.map φ) (l.map φ) = (distribute P t c l).map (Prod.map (CMap.map φ) (List.map φ)) := by
  simp only [distribute, splitConflicts_map h, Res.map_bind, Res.bind_map]
  refine Res.bind_congr' fun r => ?_
  simp only [Prod.map, CMap.append_map, Res.map_ok]

/-- Renaming in the state of the insertion. -/
def SolveState.map (φ : V ≃ W) (s : SolveState V) : SolveState W :=
  ⟨s.mesh.map φ, s.cmap.map φ, s.remaining.map φ, s.included.map (Tri.map φ), s.removed.map (Tri.map φ)⟩

theorem conflicting_map (h : NatPreds φ P Q) (t : Tri V) (v : V) :
    conflicting Q (t.map φ) (φ v) = conflicting P t v := by
  unfold conflicting
  rw [h.inside, Tri.isGhost_map h.ghost]
  congr 2
  exact h.onEdge ⟨t.v1, t.v2⟩ v

theorem newTri_map (h : NatPreds φ P Q) (e : Edge V) (v : V) :
    newTri Q.ghost (e.map φ) (φ v) = (newTri P.ghost e v).map φ := by
  unfold newTri
  simp only [Edge.map, h.ghost]
  split
  · rfl
  · split <;> rfl

theorem Edge.eqv_map {veq : V → V → Bool} {veq' : W → W → Bool} (h : ∀ v w, veq' (φ v) (φ w) = veq v w) (e f : Edge V) :
    Edge.eqv veq' (e.map φ) (f.map φ) = Edge.eqv veq e f := by simp [Edge.eqv, Edge.map, h]

theorem cavityPushes_map (h : NatPreds φ P Q) (t : Tri V) (e : Edge V) :
    cavityPushes Q.veq (t.map φ) (e.map φ) = (cavityPushes P.veq t e).map (Edge.map φ) := by
  have k := fun f => Edge.eqv_map (φ := φ) h.veq e f
  have k1 := k ⟨t.v1, t.v2⟩
  have k2 := k ⟨t.v2, t.v3⟩
  simp only [Edge.map] at k1 k2
  unfold cavityPushes
  simp only [Tri.map, Edge.map, k1, k2]
  split
  · rfl
  · split <;> rfl

theorem cavityStep_map (h : NatPreds φ P Q) (C : List (Edge V)) (v : V) (e : Edge V) (s : SolveState V) :
    cavityStep Q (C.map (Edge.map φ)) (φ v) (e.map φ) (s.map φ)
      = (cavityStep P C v e s).map (Prod.map (List.map (Edge.map φ)) (SolveState.map φ)) := by
  unfold cavityStep
  have ha : (s.map φ).mesh.adj (e.map φ).opposite = (s.mesh.adj e.opposite).map (Tri.map φ) := by
    rw [Edge.opposite_map]
    exact Mesh.map_adj _ _ _
  rw [ha]
  cases s.mesh.adj e.opposite with
  | none => rfl
  | some t =>
    simp only [Option.map_some, h.mayInsert, Res.map_bind, conflicting_map h, Edge.opposite_map,
      mem_map_iff (Edge.map_injective φ.injective)]
    refine Res.bind_congr' fun may => ?_
    split
    · simp only [Res.map_ok, Prod.map, Res.ok.injEq, Prod.mk.injEq]
      refine ⟨cavityPushes_map h _ _, ?_⟩
      simp only [SolveState.map, SolveState.mk.injEq]
      refine ⟨Mesh.del_map _ _ _, CMap.erase_map _ _, ?_, trivial, setInsert_map (Tri.map_injective φ.injective) _ _⟩
      rw [CMap.get_map, List.map_append]
      cases s.cmap.get t <;> rfl
    · simp only [newTri_map h, SolveState.map, distribute_map h, Res.map_bind, Res.bind_map]
      refine Res.bind_congr' fun r => ?_
      simp only [Res.map_ok, Prod.map, Res.ok.injEq, Prod.mk.injEq, List.map_nil, true_and, SolveState.map]
      rw [Mesh.add_map, setInsert_map (Tri.map_injective φ.injective)]

theorem cavityLoop_map (h : NatPreds φ P Q) (C : List (Edge V)) (v : V) (n : Nat) (l : List (Edge V)) (s : SolveState V) :
    cavityLoop Q (C.map (Edge.map φ)) (φ v) n (l.map (Edge.map φ)) (s.map φ)
      = (cavityLoop P C v n l s).map (SolveState.map φ) := by
  induction n generalizing l s with
  | zero => cases l <;> rfl
  | succ n ih =>
    cases l with
    | nil => rfl
    | cons e l =>
      simp only [List.map_cons, cavityLoop, cavityStep_map h, Res.map_bind, Res.bind_map]
      refine Res.bind_congr' fun r => ?_
      simp only [Prod.map]
      rw [← List.map_append, ih]

theorem solveStep_map (h : NatPreds φ P Q) (C : List (Edge V)) (fuel : Nat) (σ : Sched) (s : SolveState V) :
    solveStep Q (C.map (Edge.map φ)) fuel σ (s.map φ) = (solveStep P C fuel σ s).map (SolveState.map φ) := by
  unfold solveStep
  have : choose σ (s.map φ).cmap = (choose σ s.cmap).map (Prod.map (Tri.map φ) (List.map φ)) := choose_map σ _
  rw [this]
  cases choose σ s.cmap with
  | none => rfl
  | some w =>
    obtain ⟨t, vs⟩ := w
    simp only [Option.map_some, Prod.map, List.getLast?_map]
    cases vs.getLast? with
    | none => rfl
    | some v =>
      simp only [Option.map_some]
      rw [← cavityLoop_map h]
      congr 1
      simp only [openCavity, SolveState.map, SolveState.mk.injEq]
      refine ⟨Mesh.del_map _ _ _, CMap.erase_map _ _, ?_, trivial, setInsert_map (Tri.map_injective φ.injective) _ _⟩
      rw [List.map_append, List.map_dropLast]

theorem solveLoop_map (h : NatPreds φ P Q) (C : List (Edge V)) (fuel n : Nat) (σ : Sched) (s : SolveState V) :
    solveLoop Q (C.map (Edge.map φ)) fuel n σ (s.map φ) = (solveLoop P C fuel n σ s).map (SolveState.map φ) := by
  have hc : ∀ s : SolveState V, (s.map φ).cmap = [] ↔ s.cmap = [] := fun s => by
    simp [SolveState.map, CMap.map]
  induction n generalizing σ s with
  | zero =>
    simp only [solveLoop, hc]
    split <;> rfl
  | succ n ih =>
    simp only [solveLoop, hc]
    split
    · rfl
    · simp only [solveStep_map h, Res.map_bind, Res.bind_map, ih]

theorem solveConflicts_map (h : NatPreds φ P Q) (C : List (Edge V)) (fuel : Nat) (σ : Sched) (m : Mesh V) (c : CMap V)
    (l : List V) : solveConflicts Q (C.map (Edge.map φ)) fuel σ (m.map φ) (c.map φ) (l.map φ)
      = (solveConflicts P C fuel σ m c l).map (SolveState.map φ) :=
  solveLoop_map h C fuel fuel σ ⟨m, c, l, [], []⟩

theorem distributeAll_map (h : NatPreds φ P Q) (ts : List (Tri V)) (c : CMap V) (l : List V) :
    distributeAll Q (ts.map (Tri.map φ)) (c.map φ) (l.map φ)
      = (distributeAll P ts c l).map (Prod.map (CMap.map φ) (List.map φ)) := by
  induction ts generalizing c l with
  | nil => rfl
  | cons t ts ih =>
    simp only [List.map_cons, distributeAll, List.map_eq_nil_iff]
    split
    · rfl
    · simp only [distribute_map h, Res.map_bind, Res.bind_map, Prod.map, ih]

theorem includeVertices_map (h : NatPreds φ P Q) (C : List (Edge V)) (fuel : Nat) (σ : Sched) (m : Mesh V) (l : List V) :
    includeVertices Q (C.map (Edge.map φ)) fuel σ (m.map φ) (l.map φ)
      = (includeVertices P C fuel σ m l).map (SolveState.map φ) := by
  unfold includeVertices
  simp only [Mesh.vertices_map φ h.ghost, filter_notMem_map φ.injective, Mesh.map_tris, shuffle_map]
  have := distributeAll_map h (shuffle (σ.sub 0) m.tris) [] (l.filter fun v => !decide (v ∈ m.vertices P.ghost))
  change distributeAll Q _ [] _ = _ at this
  rw [this]
  simp only [Res.map_bind, Res.bind_map, Prod.map, solveConflicts_map h]

theorem visitNeighbours_map (h : NatPreds φ P Q) (m : Mesh V) (es : List (Edge V)) (pending visited : List (Tri V)) :
    visitNeighbours Q (m.map φ) (es.map (Edge.map φ)) (pending.map (Tri.map φ)) (visited.map (Tri.map φ))
      = Prod.map (List.map (Tri.map φ)) (List.map (Tri.map φ)) (visitNeighbours P m es pending visited) := by
  induction es generalizing pending visited with
  | nil => rfl
  | cons e es ih =>
    simp only [List.map_cons, visitNeighbours, Mesh.map_adj]
    cases m.adj e with
    | none => exact ih _ _
    | some t =>
      simp only [Option.map_some, mem_map_iff (Tri.map_injective φ.injective), Tri.isGhost_map h.ghost]
      split
      · exact ih (t :: pending) (t :: visited)
      · exact ih _ _

theorem distributeOverLoop_map (h : NatPreds φ P Q) (m : Mesh V) (n : Nat) (pending visited : List (Tri V)) (c : CMap V)
    (l : List V) : distributeOverLoop Q (m.map φ) n (pending.map (Tri.map φ)) (visited.map (Tri.map φ)) (c.map φ) (l.map φ)
      = (distributeOverLoop P m n pending visited c l).map (Prod.map (CMap.map φ) (List.map φ)) := by
  induction n generalizing pending visited c l with
  | zero => cases pending <;> cases l <;> rfl
  | succ n ih =>
    cases pending with
    | nil => cases l <;> rfl
    | cons t pending =>
      cases l with
      | nil => rfl
      | cons v l =>
        simp only [List.map_cons, distributeOverLoop, Tri.outerEdges_map, visitNeighbours_map h]
        have := distribute_map h t c (v :: l)
        rw [List.map_cons] at this
        rw [this]
        simp only [Res.map_bind, Res.bind_map, Prod.map, ih]

theorem distributeOver_map (h : NatPreds φ P Q) (fuel : Nat) (σ : Sched) (m : Mesh V) (t : Option (Tri V)) (c : CMap V)
    (l : List V) : distributeOver Q fuel σ (m.map φ) (t.map (Tri.map φ)) (c.map φ) (l.map φ)
      = (distributeOver P fuel σ m t c l).map (Prod.map (CMap.map φ) (List.map φ)) := by
  unfold distributeOver
  cases t with
  | some t => exact distributeOverLoop_map h m fuel [t] [t] c l
  | none =>
    simp only [Option.map_none, Mesh.map_tris, choose_map]
    cases choose σ m.tris with
    | none => rfl
    | some t => exact distributeOverLoop_map h m fuel [t] [t] c l

end insertion

end Verif
