import Verif.Lemmas.Natural

/-!
# Renaming the vertices: outlines, boundaries and holes
-/

set_option linter.unusedSectionVars false

namespace Verif

section outlines

variable {V W : Type*}

theorem consecutivePairs_map (f : V → W) (l : List V) :
    consecutivePairs (l.map f) = (consecutivePairs l).map (Prod.map f f) := by
  induction l with
  | nil => rfl
  | cons a l ih =>
    cases l with
    | nil => rfl
    | cons b l =>
      simp only [List.map_cons, consecutivePairs] at ih ⊢
      rw [ih]
      rfl

theorem pairs_map (f : V → W) (l : List V) (o : Bool) : pairs (l.map f) o = (pairs l o).map (Prod.map f f) := by
  unfold pairs
  rw [consecutivePairs_map, List.map_append]
  congr 1
  cases o with
  | true => rfl
  | false =>
    simp only [Bool.false_eq_true, if_false, List.getLast?_map, List.head?_map]
    cases l.getLast? <;> cases l.head? <;> rfl

theorem Polyline.intoEdges_map (f : V → W) (p : Polyline V) :
    (p.map f).intoEdges = p.intoEdges.map (Edge.map f) := by
  simp only [Polyline.intoEdges, Polyline.map, pairs_map, List.map_map]
  rfl

theorem Polyline.newClosed_map (f : V → W) (l : List V) :
    Polyline.newClosed (l.map f) = (Polyline.newClosed l).map (Polyline.map f) := by
  unfold Polyline.newClosed
  by_cases h : 3 ≤ l.length
  · rw [dif_pos (by simpa using h), dif_pos h]
    rfl
  · rw [dif_neg (by simpa using h), dif_neg h]
    rfl

theorem Polyline.newOpened_map (f : V → W) (l : List V) :
    Polyline.newOpened (l.map f) = (Polyline.newOpened l).map (Polyline.map f) := by
  unfold Polyline.newOpened
  by_cases h : 2 ≤ l.length
  · rw [dif_pos (by simpa using h), dif_pos h]
    rfl
  · rw [dif_neg (by simpa using h), dif_neg h]
    rfl

variable [DecidableEq V] [DecidableEq W] {φ : V ≃ W}

theorem arrangeMap_map (es : List (Edge V)) (v : V) :
    arrangeMap (es.map (Edge.map φ)) (φ v) = (arrangeMap es v).map φ := by
  unfold arrangeMap
  rw [← List.map_reverse, find_map_of (q := fun e => decide (e.v1 = v)) _ fun e _ => by
    simp [Edge.map], Option.map_map, Option.map_map]
  rfl

theorem arrangeLoop_map {veq : V → V → Bool} {veq' : W → W → Bool} (hv : ∀ v w, veq' (φ v) (φ w) = veq v w)
    {next : V → Option V} {next' : W → Option W} (hn : ∀ v, next' (φ v) = (next v).map φ) (head : V) (n : Nat) (tail : V)
    (acc : List V) : arrangeLoop veq' next' (φ head) n (φ tail) (acc.map φ)
      = (arrangeLoop veq next head n tail acc).map (List.map φ) := by
  induction n generalizing tail acc with
  | zero => rfl
  | succ n ih =>
    simp only [arrangeLoop, hn]
    cases next tail with
    | none => rfl
    | some w =>
      simp only [Option.map_some, hv]
      split
      · rfl
      · rw [← ih]
        simp

theorem Polyline.arrange_map {veq : V → V → Bool} {veq' : W → W → Bool} (hv : ∀ v w, veq' (φ v) (φ w) = veq v w)
    (σ : Sched) (fuel : Nat) (es : List (Edge V)) :
    Polyline.arrange veq' σ fuel (es.map (Edge.map φ))
      = (Polyline.arrange veq σ fuel es).map (Option.map (Polyline.map φ)) := by
  unfold Polyline.arrange
  simp only [shuffle_map, List.length_map]
  have h1 : ((shuffle (σ.sub 0) es).map (Edge.map φ)).map (·.v1) = ((shuffle (σ.sub 0) es).map (·.v1)).map φ := by
    rw [List.map_map, List.map_map]
    rfl
  rw [h1, toSet_map φ.injective, choose_map]
  cases choose (σ.sub 1) (toSet ((shuffle (σ.sub 0) es).map (·.v1))) with
  | none => rfl
  | some head =>
    have h2 := arrangeLoop_map hv (arrangeMap_map (φ := φ) (shuffle (σ.sub 0) es)) head fuel head [head]
    simp only [List.map_cons, List.map_nil] at h2
    simp only [Option.map_some, h2, Res.map_bind, Res.bind_map, List.length_map]
    refine Res.bind_congr' fun vs => ?_
    split
    · rw [Polyline.newClosed_map]
      cases Polyline.newClosed vs <;> rfl
    · rfl

theorem hullLoop_map (es acc : List (Edge V)) :
    hullLoop (es.map (Edge.map φ)) (acc.map (Edge.map φ)) = (hullLoop es acc).map (Edge.map φ) := by
  have hi := Edge.map_injective φ.injective
  induction es generalizing acc with
  | nil => rfl
  | cons e es ih =>
    simp only [List.map_cons, hullLoop, Edge.opposite_map, mem_map_iff hi]
    split
    · rw [← ih, filter_map_of (q := fun f => !decide (f = e.opposite)) _ fun f _ => by simp [hi.eq_iff]]
    · exact ih (e :: acc)

theorem Polyline.trianglesHull_map {veq : V → V → Bool} {veq' : W → W → Bool} (hv : ∀ v w, veq' (φ v) (φ w) = veq v w)
    (σ : Sched) (fuel : Nat) (ts : List (Tri V)) :
    Polyline.trianglesHull veq' σ fuel (ts.map (Tri.map φ))
      = (Polyline.trianglesHull veq σ fuel ts).map (Option.map (Polyline.map φ)) := by
  unfold Polyline.trianglesHull
  rw [← Polyline.arrange_map hv]
  congr 1
  unfold hullEdges
  rw [flatMap_map_of (q := Tri.innerEdges) (g := Edge.map φ) _ fun t _ => Tri.innerEdges_map t,
    toSet_map (Edge.map_injective φ.injective), shuffle_map, ← hullLoop_map]
  rfl

end outlines

section carve

variable {V W : Type*} [DecidableEq V] [DecidableEq W] {φ : V ≃ W} {P : Preds V} {Q : Preds W}

theorem carvePushes_map (S : List (Edge V)) (t : Tri V) :
    carvePushes (S.map (Edge.map φ)) (t.map φ) = (carvePushes S t).map (Edge.map φ) := by
  unfold carvePushes
  rw [Tri.innerEdges_map, filter_notMem_map (Edge.map_injective φ.injective), List.map_reverse, List.map_map, List.map_map]
  rfl

theorem boundaryFirst_map (S es : List (Edge V)) (m : Mesh V) (pending : List (Edge V)) :
    boundaryFirst (S.map (Edge.map φ)) (es.map (Edge.map φ)) (m.map φ) (pending.map (Edge.map φ))
      = Prod.map (Mesh.map φ) (List.map (Edge.map φ)) (boundaryFirst S es m pending) := by
  induction es generalizing m pending with
  | nil => rfl
  | cons e es ih =>
    simp only [List.map_cons, boundaryFirst, Mesh.map_adj]
    cases m.adj e with
    | none => exact ih _ _
    | some t =>
      simp only [Option.map_some]
      rw [carvePushes_map, ← List.map_append, Mesh.del_map, ih]

theorem flood_map (S : List (Edge V)) (n : Nat) (pending : List (Edge V)) (m : Mesh V) :
    flood (S.map (Edge.map φ)) n (pending.map (Edge.map φ)) (m.map φ) = (flood S n pending m).map (Mesh.map φ) := by
  induction n generalizing pending m with
  | zero => cases pending <;> rfl
  | succ n ih =>
    cases pending with
    | nil => rfl
    | cons e pending =>
      simp only [List.map_cons, flood, Mesh.map_adj]
      cases m.adj e with
      | none => exact ih _ _
      | some t =>
        simp only [Option.map_some]
        rw [carvePushes_map, ← List.map_append, Mesh.del_map, ih]

theorem addGhosts_map (g : V) (es : List (Edge V)) (m : Mesh V) :
    addGhosts (φ g) (es.map (Edge.map φ)) (m.map φ) = (addGhosts g es m).map φ := by
  unfold addGhosts
  induction es generalizing m with
  | nil => rfl
  | cons e es ih =>
    simp only [List.map_cons, List.foldl_cons]
    rw [← ih, ← Mesh.add_map]
    rfl

theorem carveBoundary_map (g : V) (fuel : Nat) (order : List (Edge V)) (m : Mesh V) :
    carveBoundary (φ g) fuel (order.map (Edge.map φ)) (m.map φ) = (carveBoundary g fuel order m).map (Mesh.map φ) := by
  unfold carveBoundary
  have := boundaryFirst_map (φ := φ) order order m []
  simp only [List.map_nil] at this
  simp only [this, Prod.map, flood_map, Res.map_bind, Res.bind_map, addGhosts_map, Res.map_ok]

theorem reversedEdges_map (b : Polyline V) : reversedEdges (b.map φ) = (reversedEdges b).map (Edge.map φ) := by
  unfold reversedEdges
  rw [Polyline.intoEdges_map, ← toSet_map (Edge.map_injective φ.injective), List.map_map, List.map_map]
  rfl

theorem includeBoundary_map (h : NatPreds φ P Q) (g : V) (C : List (Edge V)) (fuel : Nat) (σ : Sched) (m : Mesh V)
    (b : Polyline V) : includeBoundary Q (φ g) (C.map (Edge.map φ)) fuel σ (m.map φ) (b.map φ)
      = (includeBoundary P g C fuel σ m b).map (Mesh.map φ) := by
  unfold includeBoundary
  have : (b.map φ).vertices = b.vertices.map φ := rfl
  simp only [this, includeVertices_map h, Res.map_bind, Res.bind_map, reversedEdges_map, shuffle_map]
  exact Res.bind_congr' fun s => carveBoundary_map g fuel _ s.mesh

theorem holeFirst_map (g : V) (S es : List (Edge V)) (m : Mesh V) (pending : List (Edge V)) :
    holeFirst (φ g) (S.map (Edge.map φ)) (es.map (Edge.map φ)) (m.map φ) (pending.map (Edge.map φ))
      = Prod.map (Mesh.map φ) (List.map (Edge.map φ)) (holeFirst g S es m pending) := by
  induction es generalizing m pending with
  | nil => rfl
  | cons e es ih =>
    have ht : (⟨(e.map φ).v1, (e.map φ).v2, φ g⟩ : Tri W) = Tri.map φ ⟨e.v1, e.v2, g⟩ := rfl
    simp only [List.map_cons, holeFirst, Mesh.map_adj, ht]
    cases m.adj e with
    | none =>
      simp only [Option.map_none]
      rw [Mesh.add_map, ih]
    | some t =>
      simp only [Option.map_some]
      rw [carvePushes_map, ← List.map_append, Mesh.del_map, Mesh.add_map, ih]

theorem carveHole_map (g : V) (fuel : Nat) (order : List (Edge V)) (m : Mesh V) :
    carveHole (φ g) fuel (order.map (Edge.map φ)) (m.map φ) = (carveHole g fuel order m).map (Mesh.map φ) := by
  unfold carveHole
  have h1 := holeFirst_map (φ := φ) g order order m []
  simp only [List.map_nil] at h1
  have h2 := flood_map (φ := φ) [] fuel (holeFirst g order order m []).2 (holeFirst g order order m []).1
  simp only [List.map_nil] at h2
  simp only [h1, Prod.map, h2]

end carve

end Verif
