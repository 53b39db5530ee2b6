import Verif.Lemmas.Similar
import Verif.Lemmas.AgreeRefine

/-!
# Changing the unit of length and the origin: polylines and the tables of predicates
-/

set_option linter.unusedSectionVars false

namespace Verif

open Res

variable {K : Type*} [Field K] [LinearOrder K] [IsStrictOrderedRing K] {eps k a b : K}

local notation "Φ" => Vertex.sim k a b

section polylines

variable (h : Rescale eps k)
include h

theorem splitLoop_sim (n : Nat) (aux acc : List (Vertex K × Vertex K)) :
    splitLoop eps n (aux.map (Prod.map Φ Φ)) (acc.map (Prod.map Φ Φ))
      = (splitLoop eps n aux acc).map (List.map (Prod.map Φ Φ)) := by
  induction n generalizing aux acc with
  | zero => cases aux <;> rfl
  | succ n ih =>
    cases aux with
    | nil => rfl
    | cons s aux =>
      obtain ⟨v1, v2⟩ := s
      simp only [List.map_cons, Prod.map, splitLoop]
      have hf : (acc.map (Prod.map Φ Φ)).findIdx? (fun s => crosses eps (Φ v1) (Φ v2) s.1 s.2)
          = acc.findIdx? fun s => crosses eps v1 v2 s.1 s.2 := by
        refine findIdx_map_of acc fun s _ => ?_
        simp only [Prod.map, crosses_sim h]
      rw [hf]
      cases acc.findIdx? (fun s => crosses eps v1 v2 s.1 s.2) with
      | none =>
        simp only
        rw [← ih]
        simp [Prod.map]
      | some i =>
        simp only [List.getElem?_map]
        cases acc[i]? with
        | none => rfl
        | some q =>
          obtain ⟨v3, v4⟩ := q
          simp only [Option.map_some, Prod.map, intersection_sim h]
          cases intersection eps v1 v2 v3 v4 with
          | none => rfl
          | some p =>
            simp only [Option.map_some, Vertex.eqv_sim h]
            rw [← ih, eraseIdx_map]
            congr 1
            simp only [List.map_append]
            congr 1
            split <;> split <;> split <;> split <;> rfl

theorem splitIntersections_sim (fuel : Nat) (l : List (Vertex K × Vertex K)) :
    splitIntersections eps fuel (l.map (Prod.map Φ Φ)) = (splitIntersections eps fuel l).map (List.map (Prod.map Φ Φ)) := by
  unfold splitIntersections
  rw [← List.map_reverse]
  exact splitLoop_sim h fuel l.reverse []

theorem continenceLoop_sim (p : Polyline (Vertex K)) (l : List (Vertex K)) (s : Polyline.ContState) :
    Polyline.continenceLoop eps (p.map Φ) (l.map Φ) s = Polyline.continenceLoop eps p l s := by
  induction l generalizing s with
  | nil => rfl
  | cons v l ih => simp only [List.map_cons, Polyline.continenceLoop, Polyline.contains_sim h, ih]

theorem continenceSplitLoop_sim (p : Polyline (Vertex K)) (c : Option Continence) (l : List (Edge (Vertex K))) :
    Polyline.continenceSplitLoop eps (p.map Φ) c (l.map (Edge.map Φ)) = Polyline.continenceSplitLoop eps p c l := by
  induction l with
  | nil => rfl
  | cons e l ih =>
    simp only [List.map_cons, Polyline.continenceSplitLoop, midpoint_edge_sim h, Polyline.contains_sim h, ih]

theorem criticalVertices_sim (p : Polyline (Vertex K)) : (p.map Φ).criticalVertices = p.criticalVertices.map Φ := by
  unfold Polyline.criticalVertices
  rw [Polyline.intoEdges_map, flatMap_map_of (q := fun e => [e.midpoint, e.v1]) (g := Φ) _ fun e _ => by
    rw [midpoint_edge_sim h]
    rfl]

theorem Polyline.continence_sim (fuel : Nat) (p q : Polyline (Vertex K)) :
    Polyline.continence eps fuel (p.map Φ) (q.map Φ) = Polyline.continence eps fuel p q := by
  unfold Polyline.continence
  have h1 : (p.map Φ).opened = p.opened := rfl
  have h2 : (q.map Φ).opened = q.opened := rfl
  have h3 : (p.map Φ).vertices = p.vertices.map Φ := rfl
  have h4 : (q.map Φ).vertices = q.vertices.map Φ := rfl
  simp only [h1, h2, h3, h4, criticalVertices_sim h, continenceLoop_sim h, pairs_map]
  split
  · rfl
  · refine Res.bind_congr' fun r => ?_
    cases r with
    | none => rfl
    | some s =>
      obtain ⟨pc, pb⟩ := s
      simp only
      rw [← List.map_append, splitIntersections_sim h, Res.bind_map]
      refine Res.bind_congr' fun split => ?_
      have h5 : Edge.fromVertexPairs (split.map (Prod.map Φ Φ)) = (Edge.fromVertexPairs split).map (Edge.map Φ) := by
        simp only [Edge.fromVertexPairs, List.map_map]
        rfl
      rw [h5, continenceSplitLoop_sim h]

theorem outsideHoles_sim (fuel : Nat) (p : Polyline (Vertex K)) (hs : List (Polyline (Vertex K))) (flag : Bool) :
    outsideHoles eps fuel (p.map Φ) (hs.map (Polyline.map Φ)) flag = outsideHoles eps fuel p hs flag := by
  induction hs generalizing flag with
  | nil => rfl
  | cons q hs ih =>
    simp only [List.map_cons, outsideHoles, Polyline.continence_sim h]
    refine Res.bind_congr' fun r => ?_
    cases r with
    | none => exact ih _
    | some c => exact ih _

end polylines

section move

/-- Multiply the coordinates by `k`, then move by `(a, b)`; ghosts stay. -/
def Vertex.move (k a b : K) (v : Vertex K) : Vertex K := if v.isGhost then v else v.sim k a b

theorem Vertex.move_isGhost (v : Vertex K) : (v.move k a b).isGhost = v.isGhost := by
  unfold Vertex.move
  split <;> rfl

theorem Vertex.move_real {v : Vertex K} (h : v.isGhost = false) : v.move k a b = v.sim k a b := by
  rw [Vertex.move, h]
  rfl

theorem Vertex.move_ghost {v : Vertex K} (h : v.isGhost = true) : v.move k a b = v := by
  rw [Vertex.move, h]
  rfl

theorem Vertex.move_back (hk : k ≠ 0) (v : Vertex K) : (v.move k a b).move k⁻¹ (-(k⁻¹ * a)) (-(k⁻¹ * b)) = v := by
  obtain ⟨x, y, g⟩ := v
  cases g with
  | true => rfl
  | false =>
    simp only [Vertex.move, Bool.false_eq_true, if_false, Vertex.sim, Vertex.mk.injEq, and_true]
    constructor <;> field_simp <;> ring

/-- The change is a bijection. -/
def Vertex.moveEquiv (k a b : K) (hk : k ≠ 0) : Vertex K ≃ Vertex K where
  toFun := Vertex.move k a b
  invFun := Vertex.move k⁻¹ (-(k⁻¹ * a)) (-(k⁻¹ * b))
  left_inv := Vertex.move_back hk
  right_inv v := by
    obtain ⟨x, y, g⟩ := v
    cases g with
    | true => rfl
    | false =>
      simp only [Vertex.move, Bool.false_eq_true, if_false, Vertex.sim, Vertex.mk.injEq, and_true]
      constructor <;> field_simp <;> ring

theorem Vertex.moveEquiv_apply (hk : k ≠ 0) (v : Vertex K) : Vertex.moveEquiv k a b hk v = v.move k a b := rfl

theorem Vertex.moveEquiv_ghost (hk : k ≠ 0) : Vertex.moveEquiv k a b hk Vertex.ghost = Vertex.ghost := rfl

theorem Edge.map_move {e : Edge (Vertex K)} (h : e.Real Vertex.isGhost) (hk : k ≠ 0) :
    e.map (Vertex.moveEquiv k a b hk) = e.map Φ := by
  simp only [Edge.map, Vertex.moveEquiv_apply, Vertex.move_real h.1, Vertex.move_real h.2]

theorem List.map_move {l : List (Vertex K)} (h : ∀ v ∈ l, v.isGhost = false) (hk : k ≠ 0) :
    l.map (Vertex.moveEquiv k a b hk) = l.map Φ :=
  List.map_congr_left fun v hv => by rw [Vertex.moveEquiv_apply, Vertex.move_real (h v hv)]

/-- No ghost among the vertices. -/
def Polyline.Real (p : Polyline (Vertex K)) : Prop := ∀ v ∈ p.vertices, v.isGhost = false

theorem Polyline.map_move {p : Polyline (Vertex K)} (h : p.Real) (hk : k ≠ 0) :
    p.map (Vertex.moveEquiv k a b hk) = p.map Φ := by
  simp only [Polyline.map, Polyline.mk.injEq, and_true]
  exact List.map_move h hk

theorem Polyline.list_map_move {l : List (Polyline (Vertex K))} (h : ∀ p ∈ l, p.Real) (hk : k ≠ 0) :
    l.map (Polyline.map (Vertex.moveEquiv k a b hk)) = l.map (Polyline.map Φ) :=
  List.map_congr_left fun p hp => Polyline.map_move (h p hp) hk

theorem Tri.map_move {t : Tri (Vertex K)} (h : t.Solid Vertex.isGhost) (hk : k ≠ 0) :
    t.map (Vertex.moveEquiv k a b hk) = t.map Φ := by
  simp only [Tri.Solid, Tri.isGhost, Bool.or_eq_false_iff] at h
  simp only [Tri.map, Vertex.moveEquiv_apply, Vertex.move_real h.1.1, Vertex.move_real h.1.2, Vertex.move_real h.2]

theorem Tri.isGhost_move (t : Tri (Vertex K)) (hk : k ≠ 0) :
    (t.map (Vertex.moveEquiv k a b hk)).isGhost Vertex.isGhost = t.isGhost Vertex.isGhost :=
  Tri.isGhost_map (φ := Vertex.moveEquiv k a b hk) Vertex.move_isGhost t

theorem Tri.Proper.ghost_last {t : Tri (Vertex K)} (h : t.Proper Vertex.isGhost) :
    t.isGhost Vertex.isGhost = t.v3.isGhost := by simp [Tri.isGhost, h.1, h.2]

variable (h : Rescale eps k)
include h

theorem Tri.encircles_move {t : Tri (Vertex K)} (ht : t.Proper Vertex.isGhost) {v : Vertex K} (hv : v.isGhost = false) :
    (t.map (Vertex.moveEquiv k a b h.pos.ne')).encircles eps (v.move k a b) = t.encircles eps v := by
  rw [Vertex.move_real hv]
  cases h3 : t.isGhost Vertex.isGhost with
  | false => rw [Tri.map_move h3, Tri.encircles_sim h]
  | true =>
    unfold Tri.encircles
    simp only [Tri.isGhost_move, h3]
    simp only [Tri.map, Vertex.moveEquiv_apply, Vertex.move_real ht.1, Vertex.move_real ht.2, orientation_sim h, Bool.not_true,
      Bool.false_eq_true, if_false]

theorem probe_move {t : Tri (Vertex K)} (ht : t.Proper Vertex.isGhost) {v : Vertex K} (hv : v.isGhost = false) :
    probe (t.map (Vertex.moveEquiv k a b h.pos.ne')) (v.move k a b) = (probe t v).map Φ := by
  rw [Vertex.move_real hv]
  cases h3 : t.isGhost Vertex.isGhost with
  | false =>
    rw [Tri.map_move h3]
    unfold probe
    simp only [Tri.isGhost_sim, h3, Bool.false_eq_true, if_false, Tri.center_sim]
    rfl
  | true =>
    unfold probe
    simp only [Tri.isGhost_move, h3, if_true]
    simp only [Tri.map, Vertex.moveEquiv_apply, Vertex.move_real ht.1, Vertex.move_real ht.2]
    rfl

theorem mayInsertTriangle_move (fuel : Nat) {bd : Option (Polyline (Vertex K))} (hb : ∀ p ∈ bd, p.Real)
    {hs : List (Polyline (Vertex K))} (hh : ∀ p ∈ hs, p.Real) {t : Tri (Vertex K)} (ht : t.Proper Vertex.isGhost)
    {v : Vertex K} (hv : v.isGhost = false) :
    mayInsertTriangle eps fuel (bd.map (Polyline.map (Vertex.moveEquiv k a b h.pos.ne')))
        (hs.map (Polyline.map (Vertex.moveEquiv k a b h.pos.ne'))) (t.map (Vertex.moveEquiv k a b h.pos.ne')) (v.move k a b)
      = mayInsertTriangle eps fuel bd hs t v := by
  unfold mayInsertTriangle
  rw [probe_move h ht hv, Polyline.list_map_move hh]
  simp only [outsideHoles_sim h]
  cases bd with
  | none => rfl
  | some p =>
    simp only [Option.map_some, Polyline.map_move (hb p rfl), Polyline.continence_sim h]

omit h in
/-- The table seen through a renaming. -/
def Preds.push {V W : Type*} (φ : V ≃ W) (P : Preds V) : Preds W where
  ghost w := P.ghost (φ.symm w)
  veq v w := P.veq (φ.symm v) (φ.symm w)
  inside t w := P.inside (t.map φ.symm) (φ.symm w)
  onEdge e w := P.onEdge (e.map φ.symm) (φ.symm w)
  mayInsert t w := P.mayInsert (t.map φ.symm) (φ.symm w)

omit h in
theorem Tri.map_symm_map {V W : Type*} (φ : V ≃ W) (t : Tri V) : (t.map φ).map φ.symm = t := by simp [Tri.map]

omit h in
theorem Tri.map_map_symm {V W : Type*} (φ : V ≃ W) (t : Tri W) : (t.map φ.symm).map φ = t := by simp [Tri.map]

omit h in
theorem Preds.push_nat {V W : Type*} (φ : V ≃ W) (P : Preds V) : NatPreds φ P (P.push φ) := by
  constructor <;> intros <;> simp [Preds.push, Edge.map_symm_map, Tri.map_symm_map]

theorem Vertex.eqv_move (v w : Vertex K) : Vertex.eqv eps (v.move k a b) (w.move k a b) = Vertex.eqv eps v w := by
  cases hv : v.isGhost <;> cases hw : w.isGhost
  · rw [Vertex.move_real hv, Vertex.move_real hw, Vertex.eqv_sim h]
  · simp [Vertex.eqv, Vertex.move_isGhost, hv, hw]
  · simp [Vertex.eqv, Vertex.move_isGhost, hv, hw]
  · simp [Vertex.eqv, Vertex.move_isGhost, hv, hw]

theorem Edge.contains_move {e : Edge (Vertex K)} (he : e.Real Vertex.isGhost) {v : Vertex K} (hv : v.isGhost = false) :
    (e.map (Vertex.moveEquiv k a b h.pos.ne')).contains eps (v.move k a b) = e.contains eps v := by
  rw [Edge.map_move he, Vertex.move_real hv, Edge.contains_sim h]

theorem geoPreds_agree (fuel : Nat) {bd : Option (Polyline (Vertex K))} (hb : ∀ p ∈ bd, p.Real)
    {hs : List (Polyline (Vertex K))} (hh : ∀ p ∈ hs, p.Real) :
    Agree ((geoPreds eps fuel bd hs).push (Vertex.moveEquiv k a b h.pos.ne'))
      (geoPreds eps fuel (bd.map (Polyline.map (Vertex.moveEquiv k a b h.pos.ne')))
        (hs.map (Polyline.map (Vertex.moveEquiv k a b h.pos.ne')))) := by
  let φ := Vertex.moveEquiv k a b h.pos.ne'
  have hg : ∀ v : Vertex K, (φ.symm v).isGhost = v.isGhost := fun v => by
    have := Vertex.move_isGhost (k := k) (a := a) (b := b) (φ.symm v)
    rw [← this]
    exact congrArg Vertex.isGhost (φ.apply_symm_apply v)
  have hP : ∀ t : Tri (Vertex K), t.Proper (fun w => (φ.symm w).isGhost) → (t.map φ.symm).Proper Vertex.isGhost :=
    fun t ht => ht
  constructor
  · funext v
    exact (hg v).symm
  · funext v w
    have := Vertex.eqv_move (a := a) (b := b) h (φ.symm v) (φ.symm w)
    simp only [← Vertex.moveEquiv_apply h.pos.ne'] at this
    change Vertex.eqv eps (φ (φ.symm v)) (φ (φ.symm w)) = _ at this
    rw [Equiv.apply_symm_apply, Equiv.apply_symm_apply] at this
    exact this
  · intro t v ht hv
    have := Tri.encircles_move (a := a) (b := b) h (hP t ht) (v := φ.symm v) hv
    rw [← Vertex.moveEquiv_apply h.pos.ne'] at this
    change Tri.encircles eps ((t.map φ.symm).map φ) (φ (φ.symm v)) = _ at this
    rw [Tri.map_map_symm, Equiv.apply_symm_apply] at this
    exact congrArg (fun c => decide (c = Continence.inside)) this
  · intro e v he hv
    have := Edge.contains_move (a := a) (b := b) h (e := e.map φ.symm) he (v := φ.symm v) hv
    rw [← Vertex.moveEquiv_apply h.pos.ne'] at this
    change Edge.contains eps ((e.map φ.symm).map φ) (φ (φ.symm v)) = _ at this
    rw [Edge.map_map_symm, Equiv.apply_symm_apply] at this
    exact this
  · intro t v ht hv
    have := mayInsertTriangle_move (a := a) (b := b) h fuel hb hh (hP t ht) (v := φ.symm v) hv
    rw [← Vertex.moveEquiv_apply h.pos.ne'] at this
    change mayInsertTriangle eps fuel _ _ ((t.map φ.symm).map φ) (φ (φ.symm v)) = _ at this
    rw [Tri.map_map_symm, Equiv.apply_symm_apply] at this
    exact this

end move

end Verif
