import Verif.Lemmas.Endless
import Verif.Model.Cli
import Verif.Model.EdgeOps
import Verif.Model.Histories

/-!
# The number of steps a computation is allowed makes no difference to its answer
-/

set_option linter.unusedSectionVars false

namespace Verif

/-- The second computation gives the same as the first one, unless the first one ran out of steps. -/
def Ext {α : Type*} (x y : Res α) : Prop := x ≠ .diverged → y = x

namespace Ext

variable {α β : Type*}

theorem refl (x : Res α) : Ext x x := fun _ => rfl

theorem stop (y : Res α) : Ext .diverged y := fun h => absurd rfl h

theorem bind {x y : Res α} {f g : α → Res β} (h : Ext x y) (hf : ∀ a, Ext (f a) (g a)) :
    Ext (x.bind f) (y.bind g) := by
  intro hd
  cases x with
  | ok a =>
    rw [h (by simp)]
    exact hf a hd
  | panic =>
    rw [h (by simp)]
    rfl
  | diverged => exact absurd rfl hd

theorem bind' {x y : Res α} {f : α → Res β} (h : Ext x y) : Ext (x.bind f) (y.bind f) := h.bind fun _ => refl _

theorem ite {p : Prop} [Decidable p] {x y x' y' : Res α} (h : Ext x x') (h' : Ext y y') :
    Ext (if p then x else y) (if p then x' else y') := by
  split_ifs
  · exact h
  · exact h'

end Ext

theorem lasting_iff {α : Type*} {x : Nat → Res α} : Lasting x ↔ ∀ n k, n ≤ k → Ext (x n) (x k) :=
  ⟨fun h n k hk hd => h n k hd hk, fun h n k hd hk => h n k hk hd⟩

section insertion

variable {V : Type*} [DecidableEq V] {P : Preds V} {q : Tri V → V → Res Bool}

theorem splitConflicts_ext (h : ∀ t v, Ext (P.mayInsert t v) (q t v)) (t : Tri V) (l : List V) :
    Ext (splitConflicts P t l) (splitConflicts { P with mayInsert := q } t l) := by
  induction l with
  | nil => exact Ext.refl _
  | cons v l ih => exact (h t v).bind fun may => ih.bind'

theorem distribute_ext (h : ∀ t v, Ext (P.mayInsert t v) (q t v)) (t : Tri V) (c : CMap V) (l : List V) :
    Ext (distribute P t c l) (distribute { P with mayInsert := q } t c l) :=
  (splitConflicts_ext h t l).bind'

theorem cavityStep_ext (h : ∀ t v, Ext (P.mayInsert t v) (q t v)) (C : List (Edge V)) (v : V) (e : Edge V)
    (s : SolveState V) : Ext (cavityStep P C v e s) (cavityStep { P with mayInsert := q } C v e s) := by
  unfold cavityStep
  cases s.mesh.adj e.opposite with
  | none => exact Ext.refl _
  | some t => exact (h t v).bind fun may => Ext.ite (Ext.refl _) (distribute_ext h _ _ _).bind'

theorem cavityLoop_ext (h : ∀ t v, Ext (P.mayInsert t v) (q t v)) (C : List (Edge V)) (v : V) {n k : Nat} (hk : n ≤ k)
    (l : List (Edge V)) (s : SolveState V) :
    Ext (cavityLoop P C v n l s) (cavityLoop { P with mayInsert := q } C v k l s) := by
  induction n generalizing k l s with
  | zero =>
    cases l with
    | nil => cases k <;> exact Ext.refl _
    | cons e l => exact Ext.stop _
  | succ n ih =>
    cases l with
    | nil => cases k <;> exact Ext.refl _
    | cons e l =>
      obtain ⟨k, rfl⟩ : ∃ j, k = j + 1 := ⟨k - 1, by omega⟩
      exact (cavityStep_ext h C v e s).bind fun r => ih (by omega) _ _

theorem solveStep_ext (h : ∀ t v, Ext (P.mayInsert t v) (q t v)) (C : List (Edge V)) {f f' : Nat} (hf : f ≤ f') (σ : Sched)
    (s : SolveState V) : Ext (solveStep P C f σ s) (solveStep { P with mayInsert := q } C f' σ s) := by
  unfold solveStep
  cases choose σ s.cmap with
  | none => exact Ext.refl _
  | some r =>
    obtain ⟨t, vs⟩ := r
    simp only
    cases vs.getLast? with
    | none => exact Ext.refl _
    | some v => exact cavityLoop_ext h C v hf _ _

theorem solveLoop_ext (h : ∀ t v, Ext (P.mayInsert t v) (q t v)) (C : List (Edge V)) {f f' : Nat} (hf : f ≤ f') {n k : Nat}
    (hk : n ≤ k) (σ : Sched) (s : SolveState V) :
    Ext (solveLoop P C f n σ s) (solveLoop { P with mayInsert := q } C f' k σ s) := by
  induction n generalizing k σ s with
  | zero =>
    by_cases hc : s.cmap = []
    · cases k <;> simp only [solveLoop, hc, if_true] <;> exact Ext.refl _
    · simp only [solveLoop, hc, if_false]
      exact Ext.stop _
  | succ n ih =>
    obtain ⟨k, rfl⟩ : ∃ j, k = j + 1 := ⟨k - 1, by omega⟩
    exact Ext.ite (Ext.refl _) ((solveStep_ext h C hf _ s).bind fun r => ih (by omega) _ _)

theorem solveConflicts_ext (h : ∀ t v, Ext (P.mayInsert t v) (q t v)) (C : List (Edge V)) {f f' : Nat} (hf : f ≤ f')
    (σ : Sched) (m : Mesh V) (c : CMap V) (l : List V) :
    Ext (solveConflicts P C f σ m c l) (solveConflicts { P with mayInsert := q } C f' σ m c l) :=
  solveLoop_ext h C hf hf _ _

theorem distributeAll_ext (h : ∀ t v, Ext (P.mayInsert t v) (q t v)) (ts : List (Tri V)) (c : CMap V) (l : List V) :
    Ext (distributeAll P ts c l) (distributeAll { P with mayInsert := q } ts c l) := by
  induction ts generalizing c l with
  | nil => exact Ext.refl _
  | cons t ts ih => exact Ext.ite (Ext.refl _) ((distribute_ext h t c l).bind fun r => ih _ _)

theorem includeVertices_ext (h : ∀ t v, Ext (P.mayInsert t v) (q t v)) (C : List (Edge V)) {f f' : Nat} (hf : f ≤ f')
    (σ : Sched) (m : Mesh V) (l : List V) :
    Ext (includeVertices P C f σ m l) (includeVertices { P with mayInsert := q } C f' σ m l) :=
  (distributeAll_ext h _ _ _).bind fun _ => solveConflicts_ext h C hf _ _ _ _

theorem visitNeighbours_may (m : Mesh V) (es : List (Edge V)) (a b : List (Tri V)) :
    visitNeighbours { P with mayInsert := q } m es a b = visitNeighbours P m es a b := by
  induction es generalizing a b with
  | nil => rfl
  | cons e es ih =>
    simp only [visitNeighbours]
    cases m.adj e with
    | none => exact ih _ _
    | some t =>
      simp only
      split_ifs
      · exact ih _ _
      · exact ih _ _

theorem distributeOverLoop_ext (h : ∀ t v, Ext (P.mayInsert t v) (q t v)) (m : Mesh V) {n k : Nat} (hk : n ≤ k)
    (a b : List (Tri V)) (c : CMap V) (l : List V) :
    Ext (distributeOverLoop P m n a b c l) (distributeOverLoop { P with mayInsert := q } m k a b c l) := by
  induction n generalizing k a b c l with
  | zero =>
    cases a with
    | nil => cases k <;> exact Ext.refl _
    | cons t a =>
      cases l with
      | nil => cases k <;> exact Ext.refl _
      | cons v l => exact Ext.stop _
  | succ n ih =>
    cases a with
    | nil => cases k <;> exact Ext.refl _
    | cons t a =>
      cases l with
      | nil => cases k <;> exact Ext.refl _
      | cons v l =>
        obtain ⟨k, rfl⟩ : ∃ j, k = j + 1 := ⟨k - 1, by omega⟩
        simp only [distributeOverLoop]
        rw [visitNeighbours_may]
        exact (distribute_ext h t c _).bind fun r => ih (by omega) _ _ _ _

theorem distributeOver_ext (h : ∀ t v, Ext (P.mayInsert t v) (q t v)) {n k : Nat} (hk : n ≤ k) (σ : Sched) (m : Mesh V)
    (o : Option (Tri V)) (c : CMap V) (l : List V) :
    Ext (distributeOver P n σ m o c l) (distributeOver { P with mayInsert := q } k σ m o c l) := by
  unfold distributeOver
  cases o with
  | some t => exact distributeOverLoop_ext h m hk _ _ _ _
  | none =>
    simp only
    cases choose σ m.tris with
    | none => exact Ext.refl _
    | some t => exact distributeOverLoop_ext h m hk _ _ _ _

theorem flood_ext (S : List (Edge V)) {n k : Nat} (hk : n ≤ k) (l : List (Edge V)) (m : Mesh V) :
    Ext (flood S n l m) (flood S k l m) := lasting_iff.1 flood_lasting n k hk

theorem includeBoundary_ext (h : ∀ t v, Ext (P.mayInsert t v) (q t v)) (g : V) (C : List (Edge V)) {f f' : Nat}
    (hf : f ≤ f') (σ : Sched) (m : Mesh V) (b : Polyline V) :
    Ext (includeBoundary P g C f σ m b) (includeBoundary { P with mayInsert := q } g C f' σ m b) :=
  (includeVertices_ext h C hf _ _ _).bind fun _ => (flood_ext _ hf _ _).bind'

theorem filterRes_ext {α : Type*} {p p' : α → Res Bool} (h : ∀ a, Ext (p a) (p' a)) (l : List α) :
    Ext (filterRes p l) (filterRes p' l) := by
  induction l with
  | nil => exact Ext.refl _
  | cons a l ih => exact (h a).bind fun b => ih.bind'

theorem polylineArrangeLoop_ext {veq : V → V → Bool} {next : V → Option V} {head : V} {n k : Nat} (hk : n ≤ k) (v : V)
    (acc : List V) : Ext (arrangeLoop veq next head n v acc) (arrangeLoop veq next head k v acc) := by
  induction n generalizing k v acc with
  | zero => exact Ext.stop _
  | succ n ih =>
    obtain ⟨k, rfl⟩ : ∃ j, k = j + 1 := ⟨k - 1, by omega⟩
    simp only [arrangeLoop]
    cases next v with
    | none => exact Ext.refl _
    | some w => exact Ext.ite (Ext.refl _) (ih (by omega) _ _)

theorem polylineArrange_ext (veq : V → V → Bool) (σ : Sched) {n k : Nat} (hk : n ≤ k) (l : List (Edge V)) :
    Ext (Polyline.arrange veq σ n l) (Polyline.arrange veq σ k l) := by
  unfold Polyline.arrange
  simp only
  cases choose (σ.sub 1) (toSet ((shuffle (σ.sub 0) l).map (·.v1))) with
  | none => exact Ext.refl _
  | some head => exact (polylineArrangeLoop_ext hk _ _).bind'

theorem trianglesHull_ext (veq : V → V → Bool) (σ : Sched) {n k : Nat} (hk : n ≤ k) (l : List (Tri V)) :
    Ext (Polyline.trianglesHull veq σ n l) (Polyline.trianglesHull veq σ k l) := polylineArrange_ext _ _ hk _

end insertion

section refinement

variable {V : Type*} [DecidableEq V] {P : RPreds V} {q : Tri V → V → Res Bool}

theorem splitSegment_ext (h : ∀ t v, Ext (P.mayInsert t v) (q t v)) {f f' : Nat} (hf : f ≤ f') (σ : Sched)
    (C : List (Edge V)) (m : Mesh V) (s : Edge V) :
    Ext (splitSegment P f σ C m s) (splitSegment { P with mayInsert := q } f' σ C m s) :=
  includeVertices_ext (P := P.toPreds) h _ hf _ _ _

theorem unencStep_ext (h : ∀ t v, Ext (P.mayInsert t v) (q t v)) {f f' : Nat} (hf : f ≤ f') (σ : Sched)
    (C : List (Edge V)) (e : Edge V) (s : UnencState V) :
    Ext (unencStep P f σ C e s) (unencStep { P with mayInsert := q } f' σ C e s) :=
  (splitSegment_ext h hf _ _ _ _).bind'

theorem unencLoop_ext (h : ∀ t v, Ext (P.mayInsert t v) (q t v)) (C : List (Edge V)) {f f' : Nat} (hf : f ≤ f') {n k : Nat}
    (hk : n ≤ k) (σ : Sched) (l : List (Edge V)) (s : UnencState V) :
    Ext (unencLoop P C f n σ l s) (unencLoop { P with mayInsert := q } C f' k σ l s) := by
  induction n generalizing k σ l s with
  | zero =>
    cases l with
    | nil => cases k <;> exact Ext.refl _
    | cons e l => exact Ext.stop _
  | succ n ih =>
    cases l with
    | nil => cases k <;> exact Ext.refl _
    | cons e l =>
      obtain ⟨k, rfl⟩ : ∃ j, k = j + 1 := ⟨k - 1, by omega⟩
      exact (unencStep_ext h hf _ C e s).bind fun r => ih (by omega) _ _ _

theorem unencroachSegment_ext (h : ∀ t v, Ext (P.mayInsert t v) (q t v)) {f f' : Nat} (hf : f ≤ f') (σ : Sched)
    (C : List (Edge V)) (m : Mesh V) (e : Edge V) (l : List V) :
    Ext (unencroachSegment P f σ C m e l) (unencroachSegment { P with mayInsert := q } f' σ C m e l) :=
  unencLoop_ext h C hf hf _ _ _

theorem unencroachLoop_ext (h : ∀ t v, Ext (P.mayInsert t v) (q t v)) (C : List (Edge V)) {f f' : Nat} (hf : f ≤ f')
    {n k : Nat} (hk : n ≤ k) (σ : Sched) (m : Mesh V) (l : List (Edge V × List V)) (s : List (Edge V × Edge V)) :
    Ext (unencroachLoop P C f n σ m l s) (unencroachLoop { P with mayInsert := q } C f' k σ m l s) := by
  induction n generalizing k σ m l s with
  | zero =>
    cases l with
    | nil => cases k <;> exact Ext.refl _
    | cons e l => exact Ext.stop _
  | succ n ih =>
    cases l with
    | nil => cases k <;> exact Ext.refl _
    | cons c l =>
      obtain ⟨k, rfl⟩ : ∃ j, k = j + 1 := ⟨k - 1, by omega⟩
      simp only [unencroachLoop]
      cases choose (σ.sub 0) (c :: l) with
      | none => exact Ext.refl _
      | some r => exact (unencroachSegment_ext h hf _ C m _ _).bind fun r => ih (by omega) _ _ _ _

theorem unencroach_ext (h : ∀ t v, Ext (P.mayInsert t v) (q t v)) {f f' : Nat} (hf : f ≤ f') (σ : Sched)
    (C : List (Edge V)) (m : Mesh V) :
    Ext (unencroach P f σ C m) (unencroach { P with mayInsert := q } f' σ C m) :=
  unencroachLoop_ext h C hf hf _ _ _ _

theorem tryCircumcenter_ext (h : ∀ t v, Ext (P.mayInsert t v) (q t v)) {f f' : Nat} (hf : f ≤ f') (σ : Sched)
    (C : List (Edge V)) (m : Mesh V) (t : Tri V) :
    Ext (tryCircumcenter P f σ C m t) (tryCircumcenter { P with mayInsert := q } f' σ C m t) :=
  (Ext.refl (Res.unwrap (P.circumcenter t))).bind fun _ =>
    (distributeOver_ext (P := P.toPreds) h hf _ _ _ _ _).bind fun _ =>
      (solveConflicts_ext (P := P.toPreds) h C hf _ _ _ _).bind'

theorem splitEncroached_ext (h : ∀ t v, Ext (P.mayInsert t v) (q t v)) {f f' : Nat} (hf : f ≤ f') (σ : Sched)
    (es : List (Edge V)) (l : List V) (s : SplitState V) :
    Ext (splitEncroached P f σ es l s) (splitEncroached { P with mayInsert := q } f' σ es l s) := by
  induction es generalizing σ l s with
  | nil => exact Ext.refl _
  | cons e es ih => exact (unencroachSegment_ext h hf _ _ _ _ _).bind fun r => ih _ _ _

theorem splitStep_ext (h : ∀ t v, Ext (P.mayInsert t v) (q t v)) {f f' : Nat} (hf : f ≤ f') (σ : Sched)
    (t : Tri V) (s : SplitState V) :
    Ext (splitStep P f σ t s) (splitStep { P with mayInsert := q } f' σ t s) := by
  refine (tryCircumcenter_ext h hf _ _ _ _).bind fun r => ?_
  cases r with
  | inserted m a b => exact Ext.refl _
  | rejected m enc =>
    exact (Ext.refl (Res.unwrap (P.circumcenter t))).bind fun c => splitEncroached_ext h hf _ _ _ _

theorem splitIrregularLoop_ext (h : ∀ t v, Ext (P.mayInsert t v) (q t v)) {f f' : Nat} (hf : f ≤ f') {n k : Nat}
    (hk : n ≤ k) (σ : Sched) (s : SplitState V) :
    Ext (splitIrregularLoop P f n σ s) (splitIrregularLoop { P with mayInsert := q } f' k σ s) := by
  induction n generalizing k σ s with
  | zero =>
    unfold splitIrregularLoop
    cases popTriangle (σ.sub 0) s with
    | none => exact Ext.refl _
    | some r => exact Ext.stop _
  | succ n ih =>
    obtain ⟨k, rfl⟩ : ∃ j, k = j + 1 := ⟨k - 1, by omega⟩
    unfold splitIrregularLoop
    cases popTriangle (σ.sub 0) s with
    | none => exact Ext.refl _
    | some r => exact (splitStep_ext h hf _ _ _).bind fun s => ih (by omega) _ _

theorem splitIrregular_ext (h : ∀ t v, Ext (P.mayInsert t v) (q t v)) {f f' : Nat} (hf : f ≤ f') (σ : Sched)
    (C : List (Edge V)) (m : Mesh V) :
    Ext (splitIrregular P f σ C m) (splitIrregular { P with mayInsert := q } f' σ C m) :=
  splitIrregularLoop_ext h hf hf _ _

end refinement

section geometry

variable {K : Type*} [Field K] [LinearOrder K] {eps : K} {f f' : Nat}

theorem splitIntersections_ext (hf : f ≤ f') (l : List (Vertex K × Vertex K)) :
    Ext (splitIntersections eps f l) (splitIntersections eps f' l) := lasting_iff.1 splitLoop_lasting f f' hf

theorem continence_ext (hf : f ≤ f') (a b : Polyline (Vertex K)) :
    Ext (Polyline.continence eps f a b) (Polyline.continence eps f' a b) := lasting_iff.1 continence_lasting f f' hf

theorem outsideHoles_ext (hf : f ≤ f') (p : Polyline (Vertex K)) (hs : List (Polyline (Vertex K))) (flag : Bool) :
    Ext (outsideHoles eps f p hs flag) (outsideHoles eps f' p hs flag) := by
  induction hs generalizing flag with
  | nil => exact Ext.refl _
  | cons h hs ih =>
    refine (continence_ext hf h p).bind fun r => ?_
    cases r with
    | none => exact ih _
    | some c => exact ih _

theorem mayInsert_ext (hf : f ≤ f') (b : Option (Polyline (Vertex K))) (hs : List (Polyline (Vertex K)))
    (t : Tri (Vertex K)) (v : Vertex K) : Ext (mayInsertTriangle eps f b hs t v) (mayInsertTriangle eps f' b hs t v) := by
  unfold mayInsertTriangle
  refine Ext.bind ?_ fun r => (outsideHoles_ext hf _ hs true).bind'
  cases b with
  | none => exact Ext.refl _
  | some b => exact (continence_ext hf b _).bind'

theorem segmentConflicts_ext (hf : f ≤ f') (C : List (Edge (Vertex K))) (s : Edge (Vertex K)) (m : Mesh (Vertex K)) :
    Ext (segmentConflicts eps f C s m) (segmentConflicts eps f' C s m) := lasting_iff.1 segmentConflicts_lasting f f' hf

theorem includeSegment_ext (hf : f ≤ f') (σ : Sched) (C : List (Edge (Vertex K))) (m : Mesh (Vertex K))
    (s : Edge (Vertex K)) : Ext (includeSegment eps f σ C m s) (includeSegment eps f' σ C m s) := by
  unfold includeSegment
  refine (segmentConflicts_ext hf C s m).bind fun conf => (trianglesHull_ext _ _ hf conf).bind fun o =>
    (Ext.refl (Res.unwrap o)).bind fun hull => ?_
  exact (includeBoundary_ext (P := geoPreds eps f none []) (fun t v => mayInsert_ext hf none [] t v) _ _ hf _ _ _).bind
    fun m1 => (includeVertices_ext (P := geoPreds eps f (some hull) []) (fun t v => mayInsert_ext hf (some hull) [] t v) _ hf _ _ _).bind'

theorem holeSegmentsLoop_ext (hf : f ≤ f') (C order : List (Edge (Vertex K))) {n k : Nat} (hk : n ≤ k) (σ : Sched)
    (m : Mesh (Vertex K)) :
    Ext (holeSegmentsLoop eps C order f n σ m) (holeSegmentsLoop eps C order f' k σ m) := by
  induction n generalizing k σ m with
  | zero =>
    unfold holeSegmentsLoop
    cases order.find? fun e => !decide (e ∈ m.edges) with
    | none => exact Ext.refl _
    | some e => exact Ext.stop _
  | succ n ih =>
    obtain ⟨k, rfl⟩ : ∃ j, k = j + 1 := ⟨k - 1, by omega⟩
    unfold holeSegmentsLoop
    cases order.find? fun e => !decide (e ∈ m.edges) with
    | none => exact Ext.refl _
    | some e => exact (includeSegment_ext hf _ _ _ _).bind fun m' => ih (by omega) _ _

theorem includeHole_ext (hf : f ≤ f') (σ : Sched) (C : List (Edge (Vertex K))) (m : Mesh (Vertex K))
    (h : Polyline (Vertex K)) : Ext (includeHole eps f σ C m h) (includeHole eps f' σ C m h) := by
  unfold includeHole
  exact (includeVertices_ext (P := geoPreds eps f none []) (fun t v => mayInsert_ext hf none [] t v) _ hf _ _ _).bind
    fun st => (holeSegmentsLoop_ext hf _ _ hf _ _).bind fun m1 => flood_ext _ hf _ _

namespace Triangulator

theorem includeHoles_ext (hf : f ≤ f') (σ : Sched) (hs : List (Polyline (Vertex K))) (m : Mesh (Vertex K))
    (C : List (Edge (Vertex K))) : Ext (includeHoles eps f σ hs m C) (includeHoles eps f' σ hs m C) := by
  induction hs generalizing σ m C with
  | nil => exact Ext.refl _
  | cons h hs ih => exact (includeHole_ext hf _ _ _ _).bind fun m' => ih _ _ _

theorem includeSegments_ext (hf : f ≤ f') (σ : Sched) (ss : List (Edge (Vertex K))) (m : Mesh (Vertex K))
    (C : List (Edge (Vertex K))) : Ext (includeSegments eps f σ ss m C) (includeSegments eps f' σ ss m C) := by
  induction ss generalizing σ m C with
  | nil => exact Ext.refl _
  | cons h hs ih => exact (includeSegment_ext hf _ _ _ _).bind fun m' => ih _ _ _

theorem triangulate_ext (hf : f ≤ f') (σ : Sched) (T : Triangulator K) :
    Ext (T.triangulate eps f σ) (T.triangulate eps f' σ) := by
  unfold triangulate
  split
  · exact (includeBoundary_ext (P := geoPreds eps f none []) (fun t v => mayInsert_ext hf none [] t v) _ _ hf _ _ _).bind
      fun m0 => (includeHoles_ext hf _ _ _ _).bind fun r1 => (includeSegments_ext hf _ _ _ _).bind fun r2 =>
        (includeVertices_ext (P := geoPreds eps f (some T.boundary) (shuffle (σ.sub 1) T.holes))
          (fun t v => mayInsert_ext hf (some T.boundary) (shuffle (σ.sub 1) T.holes) t v) _ hf _ _ _).bind'
  · exact Ext.refl _

theorem refine_ext (hf : f ≤ f') (dist : Vertex K → Vertex K → K) (p : RefineParams K) (σ : Sched) (T : Triangulator K) :
    Ext (T.refine eps f dist p σ) (T.refine eps f' dist p σ) := by
  unfold refine
  exact (unencroach_ext (P := geoRPreds eps f dist p (some T.boundary) T.holes)
    (fun t v => mayInsert_ext hf (some T.boundary) T.holes t v) hf _ _ _).bind fun r =>
      (splitIrregular_ext (P := geoRPreds eps f dist p (some T.boundary) T.holes)
        (fun t v => mayInsert_ext hf (some T.boundary) T.holes t v) hf _ _ _).bind'

theorem segmentRejected_ext (hf : f ≤ f') (T : Triangulator K) (s : Edge (Vertex K)) :
    Ext (segmentRejected eps f T s) (segmentRejected eps f' T s) :=
  (continence_ext hf _ _).bind fun _ => Ext.ite (Ext.refl _)
    (filterRes_ext (fun _ => (continence_ext hf _ _).bind') _).bind'

theorem absorbLoop_ext {n k : Nat} (hk : n ≤ k) (σ : Sched) (a : List (Edge (Vertex K))) (b : List (Vertex K))
    (c : List (Edge (Vertex K))) : Ext (absorbLoop eps n σ a b c) (absorbLoop eps k σ a b c) := by
  induction n generalizing k σ a b c with
  | zero =>
    cases a with
    | nil => cases k <;> exact Ext.refl _
    | cons e a => exact Ext.stop _
  | succ n ih =>
    cases a with
    | nil => cases k <;> exact Ext.refl _
    | cons e a =>
      obtain ⟨k, rfl⟩ : ∃ j, k = j + 1 := ⟨k - 1, by omega⟩
      simp only [absorbLoop]
      cases (scanVertices eps e (shuffle (σ.sub 0) b) b).2 with
      | none => exact ih (by omega) _ _ _ _
      | some v => exact ih (by omega) _ _ _ _

theorem insertSegments_ext (hf : f ≤ f') (σ : Sched) (T : Triangulator K) (l : List (Edge (Vertex K))) :
    Ext (T.insertSegments eps f σ l) (T.insertSegments eps f' σ l) :=
  Ext.ite (Ext.refl _) ((filterRes_ext (segmentRejected_ext hf T) l).bind fun _ => Ext.ite (Ext.refl _)
    ((absorbLoop_ext hf _ _ _ _).bind fun _ => (splitIntersections_ext hf _).bind'))

theorem insertHole_ext (hf : f ≤ f') (T : Triangulator K) (h : Polyline (Vertex K)) :
    Ext (T.insertHole eps f h) (T.insertHole eps f' h) :=
  ((continence_ext hf _ _).bind fun _ => (filterRes_ext (fun _ => (continence_ext hf _ _).bind') _).bind').bind fun _ =>
    Ext.ite (Ext.refl _) (filterRes_ext (fun _ => (continence_ext hf _ _).bind') _).bind'

theorem perform_ext (hf : f ≤ f') (dist : Vertex K → Vertex K → K) (σ : Sched) (T : Triangulator K) (r : Request K) :
    Ext (T.perform eps f dist σ r) (T.perform eps f' dist σ r) := by
  cases r with
  | vertices vs => exact Ext.refl _
  | segments ss => exact (insertSegments_ext hf σ T ss).bind'
  | hole h => exact (insertHole_ext hf T h).bind'
  | triangulate => exact (triangulate_ext hf σ T).bind'
  | refine p => exact (refine_ext hf dist p σ T).bind'

end Triangulator

namespace Polyline

theorem cancelLoop_ext {n k : Nat} (hk : n ≤ k) (p1 p2 : Polyline (Vertex K)) (a b c : List (Seg K)) :
    Ext (cancelLoop eps p1 p2 n a b c) (cancelLoop eps p1 p2 k a b c) := by
  induction n generalizing k a b c with
  | zero =>
    cases a with
    | nil => cases k <;> exact Ext.refl _
    | cons e a => exact Ext.stop _
  | succ n ih =>
    cases a with
    | nil => cases k <;> exact Ext.refl _
    | cons e a =>
      obtain ⟨k, rfl⟩ : ∃ j, k = j + 1 := ⟨k - 1, by omega⟩
      simp only [cancelLoop]
      cases b.findIdx? (opposed eps p1 p2 e) with
      | none => exact ih (by omega) _ _ _
      | some i =>
        simp only
        cases b[i]? with
        | none => exact Ext.refl _
        | some t => exact ih (by omega) _ _ _

theorem combine_ext (hf : f ≤ f') (σ : Sched) (p1 p2 : Polyline (Vertex K)) (keep : Seg K → Bool) (l : List (Seg K)) :
    Ext (combine eps f σ p1 p2 keep l) (combine eps f' σ p1 p2 keep l) := by
  unfold combine
  cases l.reverse with
  | nil => exact Ext.refl _
  | cons s stack => exact (cancelLoop_ext hf p1 p2 _ _ _).bind'

theorem intersection_ext (hf : f ≤ f') (σ : Sched) (p1 p2 : Polyline (Vertex K)) :
    Ext (intersection eps f σ p1 p2) (intersection eps f' σ p1 p2) :=
  (splitIntersections_ext hf _).bind fun _ => Ext.ite (Ext.refl _)
    ((Ext.refl (boxesDisjoint p1 p2)).bind fun _ => Ext.ite (Ext.refl _) (combine_ext hf _ _ _ _ _))

theorem union_ext (hf : f ≤ f') (σ : Sched) (p1 p2 : Polyline (Vertex K)) :
    Ext (union eps f σ p1 p2) (union eps f' σ p1 p2) :=
  Ext.ite (Ext.refl _) ((Ext.refl (boxesDisjoint p1 p2)).bind fun _ => Ext.ite (Ext.refl _) (splitIntersections_ext hf _).bind')

theorem subtraction_ext (hf : f ≤ f') (σ : Sched) (p1 p2 : Polyline (Vertex K)) :
    Ext (subtraction eps f σ p1 p2) (subtraction eps f' σ p1 p2) :=
  (splitIntersections_ext hf _).bind fun _ => (Ext.refl (boxesDisjoint p1 p2)).bind fun _ =>
    (continence_ext hf p1 p2).bind fun _ => Ext.ite (Ext.refl _) (combine_ext hf _ _ _ _ _)

end Polyline

namespace Edge

theorem decomposeLoop_ext {V : Type*} (veq : V → V → Bool) (next : V → Option V) (tail : V) {n k : Nat} (hk : n ≤ k) (v : V)
    (acc : List (Edge V)) : Ext (decomposeLoop veq next tail n v acc) (decomposeLoop veq next tail k v acc) := by
  induction n generalizing k v acc with
  | zero =>
    unfold decomposeLoop
    refine Ext.ite (Ext.refl _) ?_
    cases next v with
    | none => exact Ext.refl _
    | some w => exact Ext.stop _
  | succ n ih =>
    obtain ⟨k, rfl⟩ : ∃ j, k = j + 1 := ⟨k - 1, by omega⟩
    unfold decomposeLoop
    refine Ext.ite (Ext.refl _) ?_
    cases next v with
    | none => exact Ext.refl _
    | some w => exact ih (by omega) _ _

theorem decompose_ext (hf : f ≤ f') (σ : Sched) (base : List (Edge (Vertex K))) (e : Edge (Vertex K)) :
    Ext (decompose eps f σ base e) (decompose eps f' σ base e) := decomposeLoop_ext _ _ _ hf _ _

theorem edgeArrangeLoop_ext {n k : Nat} (hk : n ≤ k) (σ : Sched) (o : Option (Edge (Vertex K)))
    (rest acc : List (Edge (Vertex K))) : Ext (arrangeLoop eps n σ o rest acc) (arrangeLoop eps k σ o rest acc) := by
  induction n generalizing k σ o rest acc with
  | zero =>
    cases o with
    | some e => cases rest <;> exact Ext.stop _
    | none =>
      cases rest with
      | cons e rest => exact Ext.stop _
      | nil => cases k <;> exact Ext.refl _
  | succ n ih =>
    obtain ⟨k, rfl⟩ : ∃ j, k = j + 1 := ⟨k - 1, by omega⟩
    cases o with
    | none =>
      simp only [arrangeLoop]
      cases choose (σ.sub 0) rest with
      | none => exact Ext.refl _
      | some e => exact ih (by omega) _ _ _ _
    | some e =>
      simp only [arrangeLoop]
      cases extendOnce eps (σ.sub 0) e rest with
      | none => exact ih (by omega) _ _ _ _
      | some r => exact ih (by omega) _ _ _ _

end Edge

section program

theorem parsePolyline_ext (hf : f ≤ f') (a : Action K) : Ext (parsePolyline eps f a) (parsePolyline eps f' a) :=
  Ext.ite (Ext.refl _) ((Ext.refl (vertexPairs (a.points.map pointToVertex) false)).bind fun _ =>
    (splitIntersections_ext hf _).bind')

theorem parseAction_ext (hf : f ≤ f') (F : CircleFns K) (a : Action K) (d : Domains K) :
    Ext (parseAction eps f F a d) (parseAction eps f' F a d) :=
  Ext.ite (parsePolyline_ext hf a).bind' (Ext.refl _)

theorem parseActions_ext (hf : f ≤ f') (F : CircleFns K) (l : List (Action K)) (d : Domains K) :
    Ext (parseActions eps f F l d) (parseActions eps f' F l d) := by
  induction l generalizing d with
  | nil => exact Ext.refl _
  | cons a l ih =>
    refine (parseAction_ext hf F a d).bind fun r => ?_
    cases r with
    | ok d => exact ih d
    | err => exact Ext.refl _

/-- The operations of one table agree with those of the other, unless they ran out of steps. -/
structure OpsExt {Q : Type*} (O O' : DomainOps Q) : Prop where
  union : ∀ σ a b, Ext (O.union σ a b) (O'.union σ a b)
  subtraction : ∀ σ a b, Ext (O.subtraction σ a b) (O'.subtraction σ a b)
  strictlyInside : ∀ a b, Ext (O.strictlyInside a b) (O'.strictlyInside a b)

variable {Q : Type*} [DecidableEq Q] {O O' : DomainOps Q}

theorem absorbOne_ext (h : OpsExt O O') (σ : Sched) (b : Q) (l : List Q) :
    Ext (absorbOne O σ b l) (absorbOne O' σ b l) := by
  induction l generalizing σ with
  | nil => exact Ext.refl _
  | cons p l ih =>
    refine (h.union _ b p).bind fun r => ?_
    cases r with
    | none => exact ih _
    | some u => exact Ext.refl _

theorem absorbPasses_ext (h : OpsExt O O') (n : Nat) (σ : Sched) (b : Q) (l : List Q) :
    Ext (absorbPasses O n σ b l) (absorbPasses O' n σ b l) := by
  induction n generalizing σ b l with
  | zero => exact Ext.refl _
  | succ n ih =>
    refine (absorbOne_ext h _ b _).bind fun r => ?_
    cases r with
    | none => exact ih _ _ _
    | some u => exact ih _ _ _

theorem subtractAll_ext (h : OpsExt O O') (σ : Sched) (l : List Q) (b : Q) (u : List Q) :
    Ext (subtractAll O σ l b u) (subtractAll O' σ l b u) := by
  induction l generalizing σ b u with
  | nil => exact Ext.refl _
  | cons p l ih =>
    refine (h.subtraction _ b p).bind fun r => ?_
    match r with
    | [] => exact ih _ _ _
    | [s] => exact ih _ _ _
    | _ :: _ :: _ => exact Ext.refl _

theorem evalBoundary_ext (h : OpsExt O O') (σ : Sched) (a b : List Q) :
    Ext (evalBoundary O σ a b) (evalBoundary O' σ a b) := by
  unfold evalBoundary
  simp only
  cases choose (σ.sub 0) (toSet a) with
  | none => exact Ext.refl _
  | some c => exact (absorbPasses_ext h _ _ _ _).bind fun r => Ext.ite (Ext.refl _) (subtractAll_ext h _ _ _ _)

theorem uniteHole_ext (h : OpsExt O O') (σ : Sched) (b : Q) (l : List Q) :
    Ext (uniteHole O σ b l) (uniteHole O' σ b l) := by
  induction l generalizing σ with
  | nil => exact Ext.refl _
  | cons p l ih =>
    refine (h.union _ p b).bind fun r => ?_
    cases r with
    | none => exact ih _
    | some u => exact Ext.refl _

theorem holesLoop_ext (h : OpsExt O O') (b : Q) {n k : Nat} (hk : n ≤ k) (σ : Sched) (l hs : List Q) :
    Ext (holesLoop O b n σ l hs) (holesLoop O' b k σ l hs) := by
  induction n generalizing k σ l hs with
  | zero =>
    cases l with
    | nil => cases k <;> exact Ext.refl _
    | cons e a => exact Ext.stop _
  | succ n ih =>
    cases l with
    | nil => cases k <;> exact Ext.refl _
    | cons r l =>
      obtain ⟨k, rfl⟩ : ∃ j, k = j + 1 := ⟨k - 1, by omega⟩
      refine (h.strictlyInside b r).bind fun c => Ext.ite (ih (by omega) _ _ _) ((uniteHole_ext h _ _ _).bind fun q => ?_)
      cases q with
      | none => exact ih (by omega) _ _ _
      | some q => exact ih (by omega) _ _ _

theorem polylineOps_ext (hf : f ≤ f') : OpsExt (polylineOps eps f) (polylineOps eps f') :=
  ⟨fun σ a b => (Polyline.union_ext hf σ a b).bind', fun σ a b => (Polyline.subtraction_ext hf σ a b).bind',
    fun a b => (continence_ext hf a b).bind'⟩

theorem insertHoles_ext (hf : f ≤ f') (l : List (Polyline (Vertex K))) (T : Triangulator K) :
    Ext (insertHoles eps f l T) (insertHoles eps f' l T) := by
  induction l generalizing T with
  | nil => exact Ext.refl _
  | cons h l ih =>
    refine (Triangulator.insertHole_ext hf T h).bind fun r => ?_
    cases r with
    | ok T => exact ih T
    | err T l => exact Ext.refl _

theorem buildTriangulator_ext (hf : f ≤ f') (σ : Sched) (d : Domains K) :
    Ext (buildTriangulator eps f σ d) (buildTriangulator eps f' σ d) := by
  refine (evalBoundary_ext (polylineOps_ext hf) _ _ _).bind fun r => ?_
  cases r with
  | err => exact Ext.refl _
  | ok r =>
    refine (holesLoop_ext (polylineOps_ext hf) _ hf _ _ _).bind fun holes => (insertHoles_ext hf _ _).bind fun r => ?_
    cases r with
    | err => exact Ext.refl _
    | ok T1 => exact (Triangulator.insertSegments_ext hf _ _ _).bind'

theorem parseInput_ext (hf : f ≤ f') (F : CircleFns K) (σ : Sched) (i : Input K) :
    Ext (parseInput eps f F σ i) (parseInput eps f' F σ i) := by
  refine (parseActions_ext hf F _ _).bind fun r => ?_
  cases r with
  | err => exact Ext.refl _
  | ok d => exact (buildTriangulator_ext hf σ d).bind'

theorem runProgram_ext (hf : f ≤ f') (F : CircleFns K) (dist : Vertex K → Vertex K → K) (σ : Sched) (i : Input K) :
    Ext (runProgram eps f F dist σ i) (runProgram eps f' F dist σ i) := by
  refine (parseInput_ext hf F _ i).bind fun r => ?_
  cases r with
  | err => exact Ext.refl _
  | ok r =>
    exact (Triangulator.triangulate_ext hf _ _).bind fun T1 => (Triangulator.refine_ext hf _ _ _ _).bind'

end program

end geometry

end Verif
