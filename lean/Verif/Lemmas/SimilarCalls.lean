import Verif.Lemmas.SimilarProgram

/-!
# Changing the unit of length and the origin: refining, inserting, and sequences of calls
-/

set_option linter.unusedSectionVars false

namespace Verif

open Res

variable {K : Type*} [Field K] [LinearOrder K] [IsStrictOrderedRing K] {eps k a b : K}

/-- Distances are multiplied by `k`. -/
def DistMoves (k a b : K) (dist : Vertex K → Vertex K → K) : Prop :=
  ∀ u v : Vertex K, dist (u.sim k a b) (v.sim k a b) = k * dist u v

/-- The same parameters in the new unit: areas are multiplied by the square of the factor. -/
def RefineParams.scale (k : K) (p : RefineParams K) : RefineParams K := ⟨p.maxArea.map (k ^ 2 * ·), p.qualityRatio⟩

section tables

variable (h : Rescale eps k)

include h in
theorem areaTriangle_sim (u v w : Vertex K) :
    areaTriangle (u.sim k a b) (v.sim k a b) (w.sim k a b) = k ^ 2 * areaTriangle u v w := by
  simp only [areaTriangle, orientDet, det3, Vertex.sim]
  ring

include h in
theorem Tri.quality_sim {dist : Vertex K → Vertex K → K} (hd : DistMoves k a b dist) (t : Tri (Vertex K)) :
    (t.map (Vertex.sim k a b)).quality dist = t.quality dist := by
  have hk := h.pos.ne'
  unfold Tri.quality
  rw [Tri.isGhost_sim]
  simp only [Tri.map, hd _ _, areaTriangle_sim h, mul_le_mul_iff_right₀ h.pos]
  have e : ∀ u v w : K, k * u * (k * v) / (4 * (k ^ 2 * w)) = u * v / (4 * w) := fun u v w => by
    by_cases hw : w = 0
    · simp [hw]
    · field_simp
  simp only [e]

include h in
theorem isIrregular_sim {dist : Vertex K → Vertex K → K} (hd : DistMoves k a b dist) (p : RefineParams K)
    (t : Tri (Vertex K)) : isIrregular eps dist (p.scale k) (t.map (Vertex.sim k a b)) = isIrregular eps dist p t := by
  unfold isIrregular
  rw [Tri.quality_sim h hd]
  rfl

include h in
theorem isLarge_sim (p : RefineParams K) (t : Tri (Vertex K)) :
    isLarge eps (p.scale k) (t.map (Vertex.sim k a b)) = isLarge eps p t := by
  have e : (t.map (Vertex.sim k a b)).area = t.area.map (k ^ 2 * ·) := by
    unfold Tri.area
    rw [Tri.isGhost_sim]
    split
    · rfl
    · exact congrArg some (areaTriangle_sim h _ _ _)
  unfold isLarge
  rw [e]
  cases t.area with
  | none => rfl
  | some u =>
    cases hm : p.maxArea with
    | none => simp [RefineParams.scale, hm]
    | some v =>
      have h2 : (0 : K) < k ^ 2 := pow_pos h.pos 2
      simp only [RefineParams.scale, hm, Option.map_some, h.approxEq h2 (fun hk => by rw [hk, one_pow]), ge_iff_le,
        mul_le_mul_iff_right₀ h2]

/-- The table seen through a renaming. -/
def RPreds.push {V W : Type*} (φ : V ≃ W) (P : RPreds V) : RPreds W where
  toPreds := P.toPreds.push φ
  encroaches e v := P.encroaches (e.map φ.symm) (φ.symm v)
  mid e := φ (P.mid (e.map φ.symm))
  circumcenter t := (P.circumcenter (t.map φ.symm)).map φ
  irregular t := P.irregular (t.map φ.symm)
  large t := P.large (t.map φ.symm)

theorem RPreds.push_nat {V W : Type*} (φ : V ≃ W) (P : RPreds V) : NatRPreds φ P (P.push φ) := by
  constructor
  · exact Preds.push_nat φ P.toPreds
  all_goals intros; simp [RPreds.push, Edge.map_symm_map, Tri.map_symm_map]

set_option quotPrecheck false in
local notation "φ" => Vertex.moveEquiv k a b (Ne.symm (ne_of_lt (Rescale.pos h)))

theorem Tri.circumcenter_real {t : Tri (Vertex K)} {c : Vertex K} (hc : t.circumcenter = some c) : c.isGhost = false := by
  simp only [Tri.circumcenter, Verif.circumcenter] at hc
  split at hc
  · cases hc
  · split at hc
    · cases hc
    · cases hc
      rfl

theorem geoRPreds_self (fuel : Nat) (dist : Vertex K → Vertex K → K) (p : RefineParams K)
    (bd : Option (Polyline (Vertex K))) (hs : List (Polyline (Vertex K))) :
    AgreeR (geoRPreds eps fuel dist p bd hs) (geoRPreds eps fuel dist p bd hs) :=
  ⟨Agree.refl _, fun _ _ _ _ => rfl, fun _ _ => ⟨rfl, rfl⟩, fun _ _ => rfl, fun _ _ _ hc => Tri.circumcenter_real hc,
    fun _ _ => rfl, fun _ _ => rfl⟩

theorem geoRPreds_agree (fuel : Nat) {dist : Vertex K → Vertex K → K} (hd : DistMoves k a b dist) (p : RefineParams K)
    {bd : Option (Polyline (Vertex K))} (hb : ∀ p ∈ bd, p.Real) {hs : List (Polyline (Vertex K))} (hh : ∀ p ∈ hs, p.Real) :
    AgreeR ((geoRPreds eps fuel dist p bd hs).push φ)
      (geoRPreds eps fuel dist (p.scale k) (bd.map (Polyline.map φ)) (hs.map (Polyline.map φ))) := by
  have hE : ∀ e : Edge (Vertex K), e.Real (fun w => (Equiv.symm φ w).isGhost) → (e.map (Equiv.symm φ)).Real Vertex.isGhost :=
    fun e he => he
  have hT : ∀ t : Tri (Vertex K), t.Solid (fun w => (Equiv.symm φ w).isGhost) → (t.map (Equiv.symm φ)).Solid Vertex.isGhost :=
    fun t ht => ht
  have eE : ∀ e : Edge (Vertex K), e.Real (fun w => (Equiv.symm φ w).isGhost) →
      e = (e.map (Equiv.symm φ)).map (Vertex.sim k a b) := fun e he => by
    rw [← Edge.map_move (hE e he) (hk := Ne.symm (ne_of_lt h.pos)), Edge.map_map_symm]
  have eT : ∀ t : Tri (Vertex K), t.Solid (fun w => (Equiv.symm φ w).isGhost) →
      t = (t.map (Equiv.symm φ)).map (Vertex.sim k a b) := fun t ht => by
    rw [← Tri.map_move (hT t ht) (hk := Ne.symm (ne_of_lt h.pos)), Tri.map_map_symm]
  have eV : ∀ v : Vertex K, (Equiv.symm φ v).isGhost = false → v = (Equiv.symm φ v).sim k a b := fun v hv => by
    rw [← Vertex.move_real hv, ← Vertex.moveEquiv_apply (Ne.symm (ne_of_lt h.pos)), Equiv.apply_symm_apply]
  have eM : ∀ v : Vertex K, v.isGhost = false → φ v = v.sim k a b := fun v hv => Vertex.move_real hv
  constructor
  · exact geoPreds_agree h fuel hb hh
  · intro e v he hv
    change decide (e.encroach eps v = .inside) = decide ((e.map (Equiv.symm φ)).encroach eps (Equiv.symm φ v) = .inside)
    have : e.encroach eps v = (e.map (Equiv.symm φ)).encroach eps (Equiv.symm φ v) := by
      conv_lhs => rw [eE e he, eV v hv]
      exact encroach_sim h _ _ _
    rw [this]
  · intro e he
    constructor
    · change e.midpoint = φ (e.map (Equiv.symm φ)).midpoint
      rw [eM _ rfl, ← midpoint_edge_sim h, ← eE e he]
    · change (Equiv.symm φ (φ _)).isGhost = false
      rw [Equiv.symm_apply_apply]
      rfl
  · intro t ht
    change t.circumcenter = ((t.map (Equiv.symm φ)).circumcenter).map φ
    conv_lhs => rw [eT t ht, Tri.circumcenter_sim h]
    cases hc : (t.map (Equiv.symm φ)).circumcenter with
    | none => rfl
    | some c => exact congrArg some (eM c (Tri.circumcenter_real hc)).symm
  · intro t c ht hc
    change ((t.map (Equiv.symm φ)).circumcenter).map φ = some c at hc
    rw [Option.map_eq_some_iff] at hc
    obtain ⟨d, hd, rfl⟩ := hc
    change (Equiv.symm φ (φ d)).isGhost = false
    rw [Equiv.symm_apply_apply]
    exact Tri.circumcenter_real hd
  · intro t ht
    change isIrregular eps dist (p.scale k) t = isIrregular eps dist p (t.map (Equiv.symm φ))
    conv_lhs => rw [eT t ht, isIrregular_sim h hd]
  · intro t ht
    change isLarge eps (p.scale k) t = isLarge eps p (t.map (Equiv.symm φ))
    conv_lhs => rw [eT t ht, isLarge_sim h]

theorem unencroach_move (fuel : Nat) {dist : Vertex K → Vertex K → K} (hd : DistMoves k a b dist) (p : RefineParams K)
    {bd : Option (Polyline (Vertex K))} (hb : ∀ p ∈ bd, p.Real) {hs : List (Polyline (Vertex K))} (hh : ∀ p ∈ hs, p.Real)
    (σ : Sched) {C : List (Edge (Vertex K))} (hC : ∀ e ∈ C, e.Real Vertex.isGhost) {m : Mesh (Vertex K)}
    (hm : m.Proper Vertex.isGhost) :
    Image (Prod.map (Mesh.map φ) (List.map (Prod.map (Edge.map φ) (Edge.map φ))))
      (fun r => r.1.Proper Vertex.isGhost ∧ RealEdges Vertex.isGhost r.2)
      (unencroach (geoRPreds eps fuel dist (p.scale k) (bd.map (Polyline.map φ)) (hs.map (Polyline.map φ))) fuel σ
        (C.map (Edge.map φ)) (m.map φ)) (unencroach (geoRPreds eps fuel dist p bd hs) fuel σ C m) := by
  refine ⟨?_, fun r hr => (unencroach_twin (geoRPreds_self fuel dist p bd hs) fuel σ hC hm).2 r hr⟩
  rw [← unencroach_map (RPreds.push_nat φ (geoRPreds eps fuel dist p bd hs))]
  have hg : ((geoRPreds eps fuel dist p bd hs).push φ).ghost = Vertex.isGhost := push_ghost h fuel bd hs
  refine (unencroach_twin (geoRPreds_agree h fuel hd p hb hh) fuel σ ?_ ?_).1
  · rw [hg]
    intro e he
    rw [List.mem_map] at he
    obtain ⟨e, he, rfl⟩ := he
    exact ⟨(move_flag h _).trans (hC e he).1, (move_flag h _).trans (hC e he).2⟩
  · rw [hg]
    exact hm.map (move_flag h)

theorem splitIrregular_move (fuel : Nat) {dist : Vertex K → Vertex K → K} (hd : DistMoves k a b dist) (p : RefineParams K)
    {bd : Option (Polyline (Vertex K))} (hb : ∀ p ∈ bd, p.Real) {hs : List (Polyline (Vertex K))} (hh : ∀ p ∈ hs, p.Real)
    (σ : Sched) {C : List (Edge (Vertex K))} (hC : ∀ e ∈ C, e.Real Vertex.isGhost) {m : Mesh (Vertex K)}
    (hm : m.Proper Vertex.isGhost) :
    Image (SplitState.map φ) (SplitState.Proper Vertex.isGhost)
      (splitIrregular (geoRPreds eps fuel dist (p.scale k) (bd.map (Polyline.map φ)) (hs.map (Polyline.map φ))) fuel σ
        (C.map (Edge.map φ)) (m.map φ)) (splitIrregular (geoRPreds eps fuel dist p bd hs) fuel σ C m) := by
  refine ⟨?_, fun r hr => (splitIrregular_twin (geoRPreds_self fuel dist p bd hs) fuel σ hC hm).2 r hr⟩
  rw [← splitIrregular_map (RPreds.push_nat φ (geoRPreds eps fuel dist p bd hs))]
  have hg : ((geoRPreds eps fuel dist p bd hs).push φ).ghost = Vertex.isGhost := push_ghost h fuel bd hs
  refine (splitIrregular_twin (geoRPreds_agree h fuel hd p hb hh) fuel σ ?_ ?_).1
  · rw [hg]
    intro e he
    rw [List.mem_map] at he
    obtain ⟨e, he, rfl⟩ := he
    exact ⟨(move_flag h _).trans (hC e he).1, (move_flag h _).trans (hC e he).2⟩
  · rw [hg]
    exact hm.map (move_flag h)

namespace Triangulator

theorem updateConstraints_move (C : List (Edge (Vertex K))) (split : List (Edge (Vertex K) × Edge (Vertex K))) :
    updateConstraints (C.map (Edge.map φ)) (split.map (Prod.map (Edge.map φ) (Edge.map φ)))
      = (updateConstraints C split).map (Edge.map φ) := by
  have hE := Edge.map_injective (Equiv.injective φ)
  have h1 : (split.map (Prod.map (Edge.map φ) (Edge.map φ))).map (·.1) = (split.map (·.1)).map (Edge.map φ) := by
    simp only [List.map_map]
    rfl
  have h2 : (split.map (Prod.map (Edge.map φ) (Edge.map φ))).map (·.2) = (split.map (·.2)).map (Edge.map φ) := by
    simp only [List.map_map]
    rfl
  unfold updateConstraints
  simp only [h1, h2]
  rw [filter_map_of (q := fun s => !decide (s ∈ split.map (·.2)) && !decide (s.opposite ∈ split.map (·.2))) _ fun e _ => by
    rw [Edge.opposite_map, decide_mem_map hE, decide_mem_map hE], ← List.map_append, toSet_map hE]

theorem updateConstraints_real {C : List (Edge (Vertex K))} (hC : ∀ e ∈ C, e.Real Vertex.isGhost)
    {split : List (Edge (Vertex K) × Edge (Vertex K))} (hs : RealEdges Vertex.isGhost split) :
    ∀ e ∈ updateConstraints C split, e.Real Vertex.isGhost := by
  intro e he
  simp only [updateConstraints, mem_toSet, List.mem_append, List.mem_filter, List.mem_map] at he
  rcases he with he | ⟨q, hq, rfl⟩
  exacts [hC e he.1, (hs q hq).1]

theorem constraints_move (T : Triangulator K) : (T.map φ).constraints = T.constraints.map (Edge.map φ) := by
  have hE := Edge.map_injective (Equiv.injective φ)
  unfold constraints
  have h1 : (T.map φ).holes.flatMap Polyline.intoEdges = (T.holes.flatMap Polyline.intoEdges).map (Edge.map φ) :=
    flatMap_map_of _ fun p _ => Polyline.intoEdges_map _ p
  have h2 : (T.map φ).boundary.intoEdges = T.boundary.intoEdges.map (Edge.map φ) := Polyline.intoEdges_map _ _
  have h3 : (T.map φ).segments = T.segments.map (Edge.map φ) := rfl
  rw [h1, h2, h3, ← List.map_append, ← List.map_append, toSet_map hE]

theorem constraints_real {T : Triangulator K} (hT : T.Real) : ∀ e ∈ T.constraints, e.Real Vertex.isGhost := by
  intro e he
  simp only [constraints, mem_toSet, List.mem_append, List.mem_flatMap] at he
  rcases he with (⟨p, hp, he⟩ | he) | he
  · exact Polyline.intoEdges_real (hT.holes p hp) e he
  · exact Polyline.intoEdges_real hT.boundary e he
  · exact hT.segments e he

theorem refine_move (fuel : Nat) {dist : Vertex K → Vertex K → K} (hd : DistMoves k a b dist) (p : RefineParams K)
    (σ : Sched) {T : Triangulator K} (hT : T.Real) : Image (Triangulator.map φ) Triangulator.Real
      (refine eps fuel dist (p.scale k) σ (T.map φ)) (refine eps fuel dist p σ T) := by
  have hb : ∀ p ∈ some T.boundary, p.Real := by simpa using hT.boundary
  unfold refine
  simp only [constraints_move h T]
  refine Image.bind (unencroach_move h fuel hd p hb hT.holes (σ.sub 0) (constraints_real hT) hT.mesh) fun r hr => ?_
  simp only [Prod.map, updateConstraints_move h]
  refine Image.bind (splitIrregular_move h fuel hd p hb hT.holes (σ.sub 1)
    (updateConstraints_real (constraints_real hT) hr.2) hr.1) fun s hs => ?_
  exact Image.ok (f := Triangulator.map φ) (r := { T with mesh := s.mesh })
    ⟨hs.mesh, hT.boundary, hT.holes, hT.vertices, hT.segments⟩

/-- The vertex is rejected before the change exactly when it is afterwards. -/
theorem vertexRejected_move {T : Triangulator K} (hT : T.Real) {v : Vertex K} (hv : v.isGhost = false) :
    vertexRejected eps (T.map φ) (φ v) = vertexRejected eps T v := by
  have e : φ v = v.sim k a b := Vertex.move_real hv
  unfold vertexRejected
  congr 1
  · have : (T.map φ).boundary = T.boundary.map (Vertex.sim k a b) := Polyline.map_move hT.boundary _
    rw [this, e, Polyline.contains_sim h]
  · refine any_map_of _ fun p hp => ?_
    rw [Polyline.map_move (hT.holes p hp), e, Polyline.contains_sim h]

/-- What becomes of a placement. -/
def Placement.map (ψ : Vertex K ≃ Vertex K) : Placement K → Placement K
  | .store => .store
  | .ignore => .ignore
  | .split s => .split (s.map ψ)

theorem placeVertex_move {v : Vertex K} (hv : v.isGhost = false) {l : List (Edge (Vertex K))}
    (hl : ∀ e ∈ l, e.Real Vertex.isGhost) : placeVertex eps (φ v) (l.map (Edge.map φ)) = (placeVertex eps v l).map φ := by
  induction l with
  | nil => rfl
  | cons s l ih =>
    have e1 : Vertex.eqv eps (s.map φ).v1 (φ v) = Vertex.eqv eps s.v1 v := eqv_moveEquiv h _ _
    have e2 : Vertex.eqv eps (s.map φ).v2 (φ v) = Vertex.eqv eps s.v2 v := eqv_moveEquiv h _ _
    have e3 : (s.map φ).contains eps (φ v) = s.contains eps v := Edge.contains_move h (hl s List.mem_cons_self) hv
    simp only [List.map_cons, placeVertex, e1, e2, e3, ih fun e he => hl e (List.mem_cons_of_mem _ he)]
    split
    · rfl
    · split <;> rfl

theorem placeVertex_mem {v : Vertex K} {l : List (Edge (Vertex K))} {s : Edge (Vertex K)} (hs : placeVertex eps v l = .split s) :
    s ∈ l := by
  induction l with
  | nil => cases hs
  | cons e l ih =>
    simp only [placeVertex] at hs
    split at hs
    · cases hs
    · split at hs
      · cases hs
        exact List.mem_cons_self
      · exact List.mem_cons_of_mem _ (ih hs)

theorem insertVerticesLoop_move (σ : Sched) {l : List (Vertex K)} (hl : ∀ v ∈ l, v.isGhost = false) {T : Triangulator K}
    (hT : T.Real) : insertVerticesLoop eps σ (l.map φ) (T.map φ) = (insertVerticesLoop eps σ l T).map φ
      ∧ (insertVerticesLoop eps σ l T).Real := by
  have hE := Edge.map_injective (Equiv.injective φ)
  induction l generalizing σ T with
  | nil => exact ⟨rfl, hT⟩
  | cons v l ih =>
    have hv := hl v List.mem_cons_self
    have hl' : ∀ w ∈ l, w.isGhost = false := fun w hw => hl w (List.mem_cons_of_mem _ hw)
    have hr : ∀ e ∈ shuffle (σ.sub 0) T.segments, e.Real Vertex.isGhost := fun e he => hT.segments e (mem_shuffle.1 he)
    have e1 : shuffle (σ.sub 0) (T.map φ).segments = (shuffle (σ.sub 0) T.segments).map (Edge.map φ) := shuffle_map _ _
    simp only [List.map_cons, insertVerticesLoop, e1, placeVertex_move h hv hr]
    cases hp : placeVertex eps v (shuffle (σ.sub 0) T.segments) with
    | ignore => exact ih (σ.sub 1) hl' hT
    | store =>
      have hT' : ({ T with vertices := setInsert v T.vertices } : Triangulator K).Real :=
        ⟨hT.mesh, hT.boundary, hT.holes, fun w hw => (mem_setInsert.1 hw).elim (fun e => e ▸ hv) (hT.vertices w), hT.segments⟩
      have := ih (σ.sub 1) hl' hT'
      refine ⟨?_, this.2⟩
      rw [← this.1]
      simp only [Placement.map, Triangulator.map, setInsert_map (Equiv.injective φ)]
    | split s =>
      have hs := hr s (placeVertex_mem hp)
      have hT' : ({ T with segments := setInsert ⟨v, s.v2⟩ (setInsert ⟨s.v1, v⟩ (setErase s T.segments)) } : Triangulator K).Real :=
        ⟨hT.mesh, hT.boundary, hT.holes, hT.vertices, fun e he => by
          rw [mem_setInsert, mem_setInsert, mem_setErase] at he
          rcases he with rfl | rfl | he
          exacts [⟨hv, hs.2⟩, ⟨hs.1, hv⟩, hT.segments e he.1]⟩
      have := ih (σ.sub 1) hl' hT'
      refine ⟨?_, this.2⟩
      rw [← this.1]
      simp only [Placement.map, Triangulator.map]
      rw [← setInsert_map hE, ← setInsert_map hE, ← setErase_map hE]
      rfl

end Triangulator

/-- The answer after the change. -/
def InsertRes.map {α : Type*} (ψ : Vertex K ≃ Vertex K) (f : α → α) : InsertRes K α → InsertRes K α
  | .ok T => .ok (T.map ψ)
  | .err T l => .err (T.map ψ) (l.map f)

/-- The triangulator that is left. -/
def InsertRes.left {α : Type*} : InsertRes K α → Triangulator K
  | .ok T => T
  | .err T _ => T

namespace Triangulator

theorem insertVertices_move (σ : Sched) {vs : List (Vertex K)} (hl : ∀ v ∈ vs, v.isGhost = false) {T : Triangulator K}
    (hT : T.Real) : insertVertices eps σ (T.map φ) (vs.map φ) = (insertVertices eps σ T vs).map φ φ
      ∧ (insertVertices eps σ T vs).left.Real := by
  have e1 : (vs.map φ).filter (vertexRejected eps (T.map φ)) = (vs.filter (vertexRejected eps T)).map φ :=
    filter_map_of _ fun v hv => vertexRejected_move h hT (hl v hv)
  have hsh : ∀ v ∈ shuffle (σ.sub 0) vs, v.isGhost = false := fun v hv => hl v (mem_shuffle.1 hv)
  unfold insertVertices
  simp only [e1, ne_eq, List.map_eq_nil_iff, shuffle_map]
  split
  · exact ⟨rfl, hT⟩
  · rw [(insertVerticesLoop_move h (σ.sub 1) hsh hT).1]
    exact ⟨rfl, (insertVerticesLoop_move (a := a) (b := b) h (σ.sub 1) hsh hT).2⟩

theorem segmentRejected_move (fuel : Nat) {T : Triangulator K} (hT : T.Real) {s : Edge (Vertex K)}
    (hs : s.Real Vertex.isGhost) : segmentRejected eps fuel (T.map φ) (s.map φ) = segmentRejected eps fuel T s := by
  have e0 : s.map φ = s.map (Vertex.sim k a b) := Edge.map_move hs _
  have e1 : (T.map φ).boundary = T.boundary.map (Vertex.sim k a b) := Polyline.map_move hT.boundary _
  have e2 : (⟨[(s.map φ).v1, (s.map φ).v2], true, by simp⟩ : Polyline (Vertex K))
      = (⟨[s.v1, s.v2], true, by simp⟩ : Polyline (Vertex K)).map (Vertex.sim k a b) := by
    simp only [e0]
    rfl
  unfold segmentRejected
  simp only [e1, e2, Polyline.continence_sim h]
  refine Res.bind_congr' fun c => ?_
  split
  · rfl
  · have e3 := filterRes_map_of (f := Polyline.map φ)
      (p := fun q => (Polyline.continence eps fuel q ((⟨[s.v1, s.v2], true, by simp⟩ : Polyline (Vertex K)).map
        (Vertex.sim k a b))).bind fun c => .ok (decide (c ≠ some (.outside, .opened))))
      (q := fun q => (Polyline.continence eps fuel q ⟨[s.v1, s.v2], true, by simp⟩).bind fun c =>
        .ok (decide (c ≠ some (.outside, .opened)))) T.holes fun q hq => by
          simp only [Polyline.map_move (hT.holes q hq), Polyline.continence_sim h]
    have e4 : (T.map φ).holes = T.holes.map (Polyline.map φ) := rfl
    rw [e4, e3, Res.bind_map]
    simp

theorem scanVertices_move {s : Edge (Vertex K)} (hs : s.Real Vertex.isGhost) {l : List (Vertex K)}
    (hl : ∀ v ∈ l, v.isGhost = false) (stored : List (Vertex K)) :
    scanVertices eps (s.map φ) (l.map φ) (stored.map φ)
      = ((scanVertices eps s l stored).1.map φ, (scanVertices eps s l stored).2.map φ) := by
  induction l generalizing stored with
  | nil => rfl
  | cons v l ih =>
    have e1 : Vertex.eqv eps (s.map φ).v1 (φ v) = Vertex.eqv eps s.v1 v := eqv_moveEquiv h _ _
    have e2 : Vertex.eqv eps (s.map φ).v2 (φ v) = Vertex.eqv eps s.v2 v := eqv_moveEquiv h _ _
    have e3 : (s.map φ).contains eps (φ v) = s.contains eps v := Edge.contains_move h hs (hl v List.mem_cons_self)
    have e4 : ∀ c : Bool, (if c = true then setErase (φ v) (stored.map φ) else stored.map φ)
        = (if c = true then setErase v stored else stored).map φ := fun c => by
      cases c
      · rfl
      · exact setErase_map (Equiv.injective φ) _ _
    simp only [List.map_cons, scanVertices, e1, e2, e3, e4]
    rw [ih fun w hw => hl w (List.mem_cons_of_mem _ hw)]
    split
    · simp only [setErase_map (Equiv.injective φ), Option.map_some]
    · rfl

theorem scanVertices_mem (s : Edge (Vertex K)) (l stored : List (Vertex K)) :
    (∀ v ∈ (scanVertices eps s l stored).1, v ∈ stored) ∧ ∀ v ∈ (scanVertices eps s l stored).2, v ∈ l := by
  induction l generalizing stored with
  | nil => exact ⟨fun v hv => hv, fun v hv => by simp [scanVertices] at hv⟩
  | cons w l ih =>
    have hsub : ∀ v ∈ (if Vertex.eqv eps s.v1 w || Vertex.eqv eps s.v2 w then setErase w stored else stored), v ∈ stored := by
      intro v hv
      split at hv
      · exact (mem_setErase.1 hv).1
      · exact hv
    simp only [scanVertices]
    split
    · exact ⟨fun v hv => hsub v (mem_setErase.1 hv).1, fun v hv => by
        rw [Option.mem_def, Option.some.injEq] at hv
        exact hv ▸ List.mem_cons_self⟩
    · exact ⟨fun v hv => hsub v ((ih _).1 v hv), fun v hv => List.mem_cons_of_mem _ ((ih _).2 v hv)⟩

theorem absorbLoop_move (n : Nat) (σ : Sched) {aux : List (Edge (Vertex K))} (ha : ∀ e ∈ aux, e.Real Vertex.isGhost)
    {stored : List (Vertex K)} (hs : ∀ v ∈ stored, v.isGhost = false) {acc : List (Edge (Vertex K))}
    (hc : ∀ e ∈ acc, e.Real Vertex.isGhost) :
    Image (Prod.map (List.map φ) (List.map (Edge.map φ)))
      (fun r => (∀ v ∈ r.1, v.isGhost = false) ∧ ∀ e ∈ r.2, e.Real Vertex.isGhost)
      (absorbLoop eps n σ (aux.map (Edge.map φ)) (stored.map φ) (acc.map (Edge.map φ))) (absorbLoop eps n σ aux stored acc) := by
  induction n generalizing σ aux stored acc with
  | zero =>
    cases aux with
    | nil => exact Image.ok (f := Prod.map (List.map φ) (List.map (Edge.map φ))) (r := (stored, acc)) ⟨hs, hc⟩
    | cons s aux => exact Image.diverged
  | succ n ih =>
    cases aux with
    | nil => exact Image.ok (f := Prod.map (List.map φ) (List.map (Edge.map φ))) (r := (stored, acc)) ⟨hs, hc⟩
    | cons s aux =>
      have hs0 := ha s List.mem_cons_self
      have ha' : ∀ e ∈ aux, e.Real Vertex.isGhost := fun e he => ha e (List.mem_cons_of_mem _ he)
      have hsh : ∀ v ∈ shuffle (σ.sub 0) stored, v.isGhost = false := fun v hv => hs v (mem_shuffle.1 hv)
      have hmem := scanVertices_mem (eps := eps) s (shuffle (σ.sub 0) stored) stored
      simp only [List.map_cons, absorbLoop, shuffle_map, scanVertices_move h hs0 hsh]
      cases hr : (scanVertices eps s (shuffle (σ.sub 0) stored) stored).2 with
      | none =>
        simp only [Option.map_none, setInsert_map (Edge.map_injective (Equiv.injective φ))]
        refine ih (σ.sub 1) ha' (fun v hv => hs v (hmem.1 v hv)) fun e he => ?_
        rcases mem_setInsert.1 he with rfl | he
        exacts [hs0, hc e he]
      | some v =>
        have hv : v.isGhost = false := hsh v (hmem.2 v hr)
        exact ih (σ.sub 1) (aux := ⟨v, s.v2⟩ :: ⟨s.v1, v⟩ :: aux) (fun e he => by
          rcases List.mem_cons.1 he with rfl | he
          · exact ⟨hv, hs0.2⟩
          · rcases List.mem_cons.1 he with rfl | he
            · exact ⟨hs0.1, hv⟩
            · exact ha' e he) (fun v hv => hs v (hmem.1 v hv)) hc

end Triangulator

theorem intersection_flag {u v w z p : Vertex K} (hp : intersection eps u v w z = some p) : p.isGhost = false := by
  unfold intersection at hp
  split at hp
  · cases hp
  · split at hp
    · cases hp
    · rename_i hv
      split at hp
      · cases hp
        unfold intersectionVertex at hv
        simp only at hv
        split at hv
        · split at hv
          · cases hv
            rfl
          · cases hv
        · cases hv
          rfl
      · cases hp

theorem splitLoop_flag (n : Nat) {aux acc r : List (Vertex K × Vertex K)}
    (ha : ∀ s ∈ aux, s.1.isGhost = false ∧ s.2.isGhost = false) (hc : ∀ s ∈ acc, s.1.isGhost = false ∧ s.2.isGhost = false)
    (hr : splitLoop eps n aux acc = .ok r) : ∀ s ∈ r, s.1.isGhost = false ∧ s.2.isGhost = false := by
  induction n generalizing aux acc with
  | zero =>
    cases aux with
    | nil =>
      cases hr
      exact hc
    | cons s aux => cases hr
  | succ n ih =>
    cases aux with
    | nil =>
      cases hr
      exact hc
    | cons s aux =>
      obtain ⟨v1, v2⟩ := s
      have h0 := ha (v1, v2) List.mem_cons_self
      have ha' : ∀ s ∈ aux, s.1.isGhost = false ∧ s.2.isGhost = false := fun s hs => ha s (List.mem_cons_of_mem _ hs)
      simp only [splitLoop] at hr
      split at hr
      · refine ih ha' (fun s hs => ?_) hr
        rcases List.mem_append.1 hs with hs | hs
        · exact hc s hs
        · rw [List.mem_singleton] at hs
          exact hs ▸ h0
      · split at hr
        · cases hr
        · rename_i i hi v3 v4 hq
          split at hr
          · cases hr
          · rename_i p hp
            have hg := intersection_flag hp
            have hq' := hc _ (List.mem_of_getElem? hq)
            refine ih (fun s hs => ?_) (fun s hs => hc s (List.mem_of_mem_eraseIdx hs)) hr
            simp only [List.mem_append] at hs
            rcases hs with (((hs | hs) | hs) | hs) | hs
            · split at hs
              · cases hs
              · rw [List.mem_singleton] at hs
                exact hs ▸ ⟨hg, h0.2⟩
            · split at hs
              · cases hs
              · rw [List.mem_singleton] at hs
                exact hs ▸ ⟨h0.1, hg⟩
            · split at hs
              · cases hs
              · rw [List.mem_singleton] at hs
                exact hs ▸ ⟨hg, hq'.2⟩
            · split at hs
              · cases hs
              · rw [List.mem_singleton] at hs
                exact hs ▸ ⟨hq'.1, hg⟩
            · exact ha' s hs

namespace Triangulator

theorem insertSegments_move (fuel : Nat) (σ : Sched) {ss : List (Edge (Vertex K))} (hl : ∀ e ∈ ss, e.Real Vertex.isGhost)
    {T : Triangulator K} (hT : T.Real) : Image (InsertRes.map φ (Edge.map φ)) (fun r => r.left.Real)
      (insertSegments eps fuel σ (T.map φ) (ss.map (Edge.map φ))) (insertSegments eps fuel σ T ss) := by
  have hE := Edge.map_injective (Equiv.injective φ)
  unfold insertSegments
  simp only [List.map_eq_nil_iff]
  split
  · exact Image.ok (f := InsertRes.map φ (Edge.map φ)) (r := InsertRes.ok T) hT
  · refine Image.bind (f := List.map (Edge.map φ)) (S := fun _ => True)
      ⟨filterRes_map_of _ fun e he => segmentRejected_move h fuel hT (hl e he), fun _ _ => trivial⟩ fun bad _ => ?_
    simp only [ne_eq, List.map_eq_nil_iff]
    split
    · exact Image.ok (f := InsertRes.map φ (Edge.map φ)) (r := InsertRes.err T bad) hT
    · have e1 : (T.map φ).vertices = T.vertices.map φ := rfl
      have e2 : (T.map φ).segments = T.segments.map (Edge.map φ) := rfl
      simp only [shuffle_map, e1, e2]
      refine Image.bind (absorbLoop_move h fuel (σ.sub 0) (fun e he => hl e (mem_shuffle.1 he)) hT.vertices (acc := [])
        (by simp)) fun r hr => ?_
      have hreal : ∀ s ∈ Edge.intoVertexPairs (shuffle (σ.sub 2) r.2) ++ Edge.intoVertexPairs (shuffle (σ.sub 3) T.segments),
          s.1.isGhost = false ∧ s.2.isGhost = false := by
        intro s hs
        simp only [Edge.intoVertexPairs, List.mem_append, List.mem_map, mem_shuffle] at hs
        rcases hs with ⟨e, he, rfl⟩ | ⟨e, he, rfl⟩
        exacts [hr.2 e he, hT.segments e he]
      have e3 : Edge.intoVertexPairs ((shuffle (σ.sub 2) r.2).map (Edge.map φ))
            ++ Edge.intoVertexPairs ((shuffle (σ.sub 3) T.segments).map (Edge.map φ))
          = (Edge.intoVertexPairs (shuffle (σ.sub 2) r.2) ++ Edge.intoVertexPairs (shuffle (σ.sub 3) T.segments)).map
              (Prod.map (Vertex.sim k a b) (Vertex.sim k a b)) := by
        rw [List.map_append]
        simp only [Edge.intoVertexPairs, List.map_map]
        congr 1
        · refine List.map_congr_left fun e he => ?_
          have := Edge.map_move (k := k) (a := a) (b := b) (hr.2 e (mem_shuffle.1 he)) (Ne.symm (ne_of_lt h.pos))
          simp only [Function.comp, this]
          rfl
        · refine List.map_congr_left fun e he => ?_
          have := Edge.map_move (k := k) (a := a) (b := b) (hT.segments e (mem_shuffle.1 he)) (Ne.symm (ne_of_lt h.pos))
          simp only [Function.comp, this]
          rfl
      simp only [Prod.map, shuffle_map, e3]
      refine Image.bind (f := List.map (Prod.map (Vertex.sim k a b) (Vertex.sim k a b)))
        (S := fun l => ∀ s ∈ l, s.1.isGhost = false ∧ s.2.isGhost = false) ⟨splitIntersections_sim h fuel _, fun sp hsp =>
          splitLoop_flag fuel (fun s hs => hreal s (List.mem_reverse.1 hs)) (by simp) hsp⟩ fun sp hsp => ?_
      have hre : ∀ e ∈ toSet (Edge.fromVertexPairs sp), e.Real Vertex.isGhost := by
        intro e he
        simp only [mem_toSet, Edge.fromVertexPairs, List.mem_map] at he
        obtain ⟨s, hs, rfl⟩ := he
        exact hsp s hs
      have e4 : toSet (Edge.fromVertexPairs (sp.map (Prod.map (Vertex.sim k a b) (Vertex.sim k a b))))
          = (toSet (Edge.fromVertexPairs sp)).map (Edge.map φ) := by
        rw [← toSet_map hE]
        congr 1
        simp only [Edge.fromVertexPairs, List.map_map]
        refine List.map_congr_left fun s hs => ?_
        simp only [Function.comp, Prod.map]
        exact (Edge.map_move (e := ⟨s.1, s.2⟩) (hsp s hs) _).symm
      rw [e4]
      exact Image.ok (f := InsertRes.map φ (Edge.map φ))
        (r := InsertRes.ok { T with vertices := r.1, segments := toSet (Edge.fromVertexPairs sp) })
        ⟨hT.mesh, hT.boundary, hT.holes, hr.1, hre⟩

theorem holeConflicts_move (fuel : Nat) {T : Triangulator K} (hT : T.Real) {p : Polyline (Vertex K)} (hp : p.Real) :
    holeConflicts eps fuel (T.map φ) (p.map φ) = (holeConflicts eps fuel T p).map (List.map φ) := by
  have e1 : (T.map φ).boundary = T.boundary.map (Vertex.sim k a b) := Polyline.map_move hT.boundary _
  have e2 : p.map φ = p.map (Vertex.sim k a b) := Polyline.map_move hp _
  have e3 : T.boundary.map (Vertex.sim k a b) = T.boundary.map φ := (Polyline.map_move hT.boundary _).symm
  have e4 : (T.map φ).holes = T.holes.map (Polyline.map φ) := rfl
  have e5 := filterRes_map_of (f := Polyline.map φ)
    (p := fun e => (Polyline.continence eps fuel e (p.map (Vertex.sim k a b))).bind fun c =>
      .ok (decide (c ≠ some (.outside, .opened))))
    (q := fun e => (Polyline.continence eps fuel e p).bind fun c => .ok (decide (c ≠ some (.outside, .opened))))
    T.holes fun q hq => by simp only [Polyline.map_move (hT.holes q hq), Polyline.continence_sim h]
  unfold holeConflicts
  simp only [e1, e2, e4, e5, Polyline.continence_sim h, Res.map_bind, Res.bind_map]
  refine Res.bind_congr' fun c => ?_
  refine Res.bind_congr' fun l => ?_
  rw [e3]
  simp only [Res.map]
  rw [← toSet_map (Equiv.injective φ), List.map_append, ← flatMap_map_of (f := Polyline.map φ) (p := Polyline.vertices)
    (q := Polyline.vertices) (g := φ) l fun q _ => rfl]
  congr 2
  split <;> rfl

theorem insertHole_move (fuel : Nat) {T : Triangulator K} (hT : T.Real) {p : Polyline (Vertex K)} (hp : p.Real) :
    Image (InsertRes.map φ φ) (fun r => r.left.Real) (insertHole eps fuel (T.map φ) (p.map φ)) (insertHole eps fuel T p) := by
  unfold insertHole
  refine Image.bind (f := List.map φ) (S := fun _ => True) ⟨holeConflicts_move h fuel hT hp, fun _ _ => trivial⟩ fun bad _ => ?_
  simp only [ne_eq, List.map_eq_nil_iff]
  split
  · exact Image.ok (f := InsertRes.map φ φ) (r := InsertRes.err T bad) hT
  · refine Image.bind (f := List.map (Edge.map φ)) (S := fun _ => True)
      ⟨filterRes_map_of _ fun e he => ?_, fun _ _ => trivial⟩ fun l _ => ?_
    · have e1 : (⟨[(e.map φ).v1, (e.map φ).v2], true, by simp⟩ : Polyline (Vertex K))
          = (⟨[e.v1, e.v2], true, by simp⟩ : Polyline (Vertex K)).map (Vertex.sim k a b) := by
        simp only [Edge.map_move (hT.segments e he)]
        rfl
      simp only [e1, Polyline.map_move hp, Polyline.continence_sim h]
    · have e1 : toSet ((l.map (Edge.map φ)).flatMap fun s => [s.v1, s.v2]) = (toSet (l.flatMap fun s => [s.v1, s.v2])).map φ := by
        rw [← toSet_map (Equiv.injective φ), ← flatMap_map_of (f := Edge.map φ) (p := fun s => [s.v1, s.v2])
          (q := fun s => [s.v1, s.v2]) (g := φ) l fun q _ => rfl]
      simp only [e1, List.map_eq_nil_iff]
      split
      · exact Image.ok (f := InsertRes.map φ φ) (S := fun r => r.left.Real) (r := InsertRes.err T (toSet (l.flatMap fun s => [s.v1, s.v2]))) hT
      · have e2 : setInsert (p.map φ) (T.map φ).holes = (setInsert p T.holes).map (Polyline.map φ) :=
          setInsert_map (Polyline.map_injective (Equiv.injective φ)) p T.holes
        rw [e2]
        exact Image.ok (f := InsertRes.map φ φ) (r := InsertRes.ok { T with holes := setInsert p T.holes })
          ⟨hT.mesh, hT.boundary, fun q hq => (mem_setInsert.1 hq).elim (fun e => e ▸ hp) (hT.holes q), hT.vertices, hT.segments⟩

end Triangulator

/-- The request after the change of unit and origin. -/
def Request.map (ψ : Vertex K ≃ Vertex K) (k : K) : Request K → Request K
  | .vertices vs => .vertices (vs.map ψ)
  | .segments ss => .segments (ss.map (Edge.map ψ))
  | .hole p => .hole (p.map ψ)
  | .triangulate => .triangulate
  | .refine p => .refine (p.scale k)

/-- No ghost is handed over. -/
def Request.Real : Request K → Prop
  | .vertices vs => ∀ v ∈ vs, v.isGhost = false
  | .segments ss => ∀ e ∈ ss, e.Real Vertex.isGhost
  | .hole p => p.Real
  | .triangulate => True
  | .refine _ => True

theorem Triangulator.perform_move (fuel : Nat) {dist : Vertex K → Vertex K → K} (hd : DistMoves k a b dist) (σ : Sched)
    {T : Triangulator K} (hT : T.Real) {q : Request K} (hq : q.Real) :
    Image (Prod.map (Triangulator.map φ) id) (fun r => r.1.Real) ((T.map φ).perform eps fuel dist σ (q.map φ k))
      (T.perform eps fuel dist σ q) := by
  cases q with
  | vertices vs =>
    have := insertVertices_move (a := a) (b := b) h σ hq hT
    simp only [Request.map, perform, this.1]
    cases hr : insertVertices eps σ T vs with
    | ok T' =>
      rw [hr] at this
      exact Image.ok (f := Prod.map (Triangulator.map φ) id) (r := (T', true)) this.2
    | err T' l =>
      rw [hr] at this
      exact Image.ok (f := Prod.map (Triangulator.map φ) id) (r := (T', false)) this.2
  | segments ss =>
    refine Image.bind (insertSegments_move h fuel σ hq hT) fun r hr => ?_
    cases r with
    | ok T' => exact Image.ok (f := Prod.map (Triangulator.map φ) id) (r := (T', true)) hr
    | err T' l => exact Image.ok (f := Prod.map (Triangulator.map φ) id) (r := (T', false)) hr
  | hole p =>
    refine Image.bind (insertHole_move h fuel hT hq) fun r hr => ?_
    cases r with
    | ok T' => exact Image.ok (f := Prod.map (Triangulator.map φ) id) (r := (T', true)) hr
    | err T' l => exact Image.ok (f := Prod.map (Triangulator.map φ) id) (r := (T', false)) hr
  | triangulate =>
    exact Image.bind (triangulate_move h fuel σ hT) fun T' hr =>
      Image.ok (f := Prod.map (Triangulator.map φ) id) (r := (T', true)) hr
  | refine p =>
    exact Image.bind (refine_move h fuel hd p σ hT) fun T' hr =>
      Image.ok (f := Prod.map (Triangulator.map φ) id) (r := (T', true)) hr

end tables

end Verif
