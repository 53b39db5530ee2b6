import Verif.Lemmas.Steady

/-!
# The geometric tests are steady
-/

set_option linter.unusedSectionVars false

namespace Verif

variable {K : Type*} [Field K] [LinearOrder K] [IsStrictOrderedRing K]

namespace Steady

theorem approxEq (a b : K) : Steady (fun (e : K) (_ : Sched) => Verif.approxEq e a b) := by
  refine ⟨?_, ((Set.finite_singleton true).union (Set.finite_singleton false)).subset ?_⟩
  · by_cases h : a = b
    · refine ⟨1, one_pos, fun e he _ _ => ?_⟩
      simp [Verif.approxEq, h, he]
    · have hp : 0 < |a - b| := abs_pos.2 (sub_ne_zero.2 h)
      refine ⟨|a - b|, hp, fun e he hlt _ => ?_⟩
      simp only [Verif.approxEq, not_le.2 hlt, not_le.2 hp]
  · rintro x -
    cases x <;> simp

theorem eqv (a b : Vertex K) : Steady (fun (e : K) (_ : Sched) => Vertex.eqv e a b) := by
  unfold Vertex.eqv
  exact ite' (const _) (and (and (const _) (approxEq _ _)) (approxEq _ _))

theorem orientation (a b c : Vertex K) : Steady (fun (e : K) (_ : Sched) => Verif.orientation e a b c) := by
  unfold Verif.orientation
  exact ite (approxEq _ _) (const _) (const _)

theorem circle (a b c d : Vertex K) : Steady (fun (e : K) (_ : Sched) => Verif.continence e a b c d) := by
  unfold Verif.continence
  exact ite (approxEq _ _) (const _) (const _)

theorem encroach (a b c : Vertex K) : Steady (fun (e : K) (_ : Sched) => Verif.encroach e a b c) := by
  unfold Verif.encroach
  exact ite (approxEq _ _) (const _) (const _)

theorem encircles (t : Tri (Vertex K)) (v : Vertex K) : Steady (fun (e : K) (_ : Sched) => t.encircles e v) := by
  unfold Tri.encircles
  refine ite' (circle _ _ _ _) ?_
  exact map (orientation t.v1 t.v2 v) (fun o => match o with
    | .counterclockwise => Continence.inside
    | .clockwise => .outside
    | .colinear => .boundary)

theorem edgeContains (s : Edge (Vertex K)) (v : Vertex K) : Steady (fun (e : K) (_ : Sched) => s.contains e v) := by
  unfold Edge.contains
  cases BBox.fromVertices [s.v1, s.v2] with
  | none => exact const _
  | some b => exact and (const _) (map (orientation s.v1 s.v2 v) fun o => decide (o = .colinear))

theorem inInterval (lo hi v : K) : Steady (fun (e : K) (_ : Sched) => Verif.inInterval e lo hi v) := by
  unfold Verif.inInterval
  exact or (or (const _) (approxEq _ _)) (approxEq _ _)

theorem intersectionVertex (a b c d : Vertex K) (box : BBox K) :
    Steady (fun (e : K) (_ : Sched) => Verif.intersectionVertex e a b c d box) := by
  unfold Verif.intersectionVertex
  exact ite' (ite (and (approxEq _ _) (approxEq _ _)) (const _) (const _)) (const _)

theorem intersection (a b c d : Vertex K) :
    Steady (fun (e : K) (_ : Sched) => Verif.intersection e a b c d) := by
  unfold Verif.intersection
  cases intersectionRegion a b c d with
  | none => exact const _
  | some box =>
    refine (seq (f := fun e _ => Verif.intersectionVertex e a b c d box) (g := fun o e _ => match o with
      | none => none
      | some v => if Verif.inInterval e box.origin.x box.destin.x v.x
          && Verif.inInterval e box.origin.y box.destin.y v.y then some v else none)
      (intersectionVertex _ _ _ _ _) fun o => ?_)
    cases o with
    | none => exact const _
    | some v => exact ite (and (inInterval _ _ _) (inInterval _ _ _)) (const _) (const _)

theorem crosses (a b c d : Vertex K) : Steady (fun (e : K) (_ : Sched) => Verif.crosses e a b c d) := by
  unfold Verif.crosses
  exact and (map (intersection _ _ _ _) _) (and (and (and (and (not (eqv _ _)) (not (eqv _ _))) (not (eqv _ _)))
    (not (eqv _ _))) (const _))

theorem containsLoop (v : Vertex K) (l : List (Vertex K × Vertex K)) (n : Int) :
    Steady (fun (e : K) (_ : Sched) => Polyline.containsLoop e v l n) := by
  induction l generalizing n with
  | nil => exact const _
  | cons s l ih =>
    obtain ⟨a, b⟩ := s
    simp only [Polyline.containsLoop]
    refine ite' (ite' (const _) (ih n)) (ite' (ih n) ?_)
    refine seq (f := fun e _ => Verif.orientation e a b v) (g := fun o e _ => match o with
      | .colinear => Continence.boundary
      | .counterclockwise =>
        if a.x = v.x ∨ b.x = v.x then Polyline.containsLoop e v l (n + 1)
        else Polyline.containsLoop e v l (n + 2)
      | .clockwise =>
        if a.x = v.x ∨ b.x = v.x then Polyline.containsLoop e v l (n - 1)
        else Polyline.containsLoop e v l (n - 2)) (orientation _ _ _) fun o => ?_
    cases o with
    | colinear => exact const _
    | counterclockwise => exact ite' (ih _) (ih _)
    | clockwise => exact ite' (ih _) (ih _)

theorem contains (p : Polyline (Vertex K)) (v : Vertex K) :
    Steady (fun (e : K) (_ : Sched) => p.contains e v) := by
  unfold Polyline.contains
  exact ite' (const _) (map (containsLoop v _ 0) some)

theorem splitLoop (n : Nat) (aux acc : List (Vertex K × Vertex K)) :
    Steady (fun (e : K) (_ : Sched) => Verif.splitLoop e n aux acc) := by
  induction n generalizing aux acc with
  | zero => cases aux <;> exact const _
  | succ n ih =>
    cases aux with
    | nil => exact const _
    | cons s aux =>
      obtain ⟨v1, v2⟩ := s
      simp only [Verif.splitLoop]
      refine Steady.cases (findIdx acc fun a _ => crosses v1 v2 a.1 a.2) fun o => ?_
      cases o with
      | none => exact ⟨_, fun e σ h => by rw [h], ih _ _⟩
      | some i =>
        refine ⟨_, fun e σ h => by rw [h], ?_⟩
        cases hw : acc[i]? with
        | none => simp only [hw]; exact const _
        | some w =>
          obtain ⟨v3, v4⟩ := w
          simp only [hw]
          refine Steady.cases (intersection v1 v2 v3 v4) fun o => ?_
          cases o with
          | none => exact ⟨_, fun e σ h => by rw [h], const _⟩
          | some p =>
            refine ⟨_, fun e σ h => by rw [h], ?_⟩
            refine seq (f := fun e _ => (if Vertex.eqv e v2 p then [] else [(p, v2)])
                    ++ (if Vertex.eqv e v1 p then [] else [(v1, p)])
                    ++ (if Vertex.eqv e v4 p then [] else [(p, v4)])
                    ++ (if Vertex.eqv e v3 p then [] else [(v3, p)]) ++ aux)
              (g := fun l e _ => Verif.splitLoop e n l (acc.eraseIdx i)) ?_ fun l => ih _ _
            have k : ∀ a b : Vertex K, ∀ l, Steady (fun (e : K) (_ : Sched) =>
              if Vertex.eqv e a b then ([] : List (Vertex K × Vertex K)) else l) :=
                fun a b l => ite (eqv _ _) (const _) (const _)
            exact map (map2 (map2 (map2 (k _ _ _) (k _ _ _) (· ++ ·)) (k _ _ _) (· ++ ·)) (k _ _ _) (· ++ ·)) (· ++ aux)

theorem splitIntersections (fuel : Nat) (l : List (Vertex K × Vertex K)) :
    Steady (fun (e : K) (_ : Sched) => Verif.splitIntersections e fuel l) := splitLoop _ _ _

theorem continenceLoop (p : Polyline (Vertex K)) (l : List (Vertex K)) (s : Polyline.ContState) :
    Steady (fun (e : K) (_ : Sched) => Polyline.continenceLoop e p l s) := by
  induction l generalizing s with
  | nil => exact const _
  | cons v l ih =>
    simp only [Polyline.continenceLoop]
    refine seq (f := fun e _ => p.contains e v) (g := fun o e _ => match o with
      | none => Res.panic
      | some .boundary => Polyline.continenceLoop e p l (s.1, .closed)
      | some c =>
        match s.1 with
        | none => Polyline.continenceLoop e p l (some c, s.2)
        | some c' => if c' = c then Polyline.continenceLoop e p l s else .ok none) (contains _ _) fun o => ?_
    cases o with
    | none => exact const _
    | some c =>
      cases c with
      | boundary => exact ih _
      | inside =>
        simp only
        cases s.1 with
        | none => exact ih _
        | some c' => exact ite' (ih _) (const _)
      | outside =>
        simp only
        cases s.1 with
        | none => exact ih _
        | some c' => exact ite' (ih _) (const _)

theorem continenceSplitLoop (p : Polyline (Vertex K)) (c : Option Continence) (l : List (Edge (Vertex K))) :
    Steady (fun (e : K) (_ : Sched) => Polyline.continenceSplitLoop e p c l) := by
  induction l with
  | nil => exact const _
  | cons s l ih =>
    simp only [Polyline.continenceSplitLoop]
    refine seq (f := fun e _ => p.contains e s.midpoint) (g := fun o e _ => match o with
      | none => Res.panic
      | some .boundary => Polyline.continenceSplitLoop e p c l
      | some c' => if some c' = c then Polyline.continenceSplitLoop e p c l else .ok false) (contains _ _) fun o => ?_
    cases o with
    | none => exact const _
    | some d =>
      cases d with
      | boundary => exact ih
      | inside => exact ite' ih (const _)
      | outside => exact ite' ih (const _)

theorem continence (fuel : Nat) (p q : Polyline (Vertex K)) :
    Steady (fun (e : K) (_ : Sched) => Polyline.continence e fuel p q) := by
  unfold Polyline.continence
  refine ite' (const _) (bind (continenceLoop _ _ _) fun r => ?_)
  cases r with
  | none => exact const _
  | some s =>
    obtain ⟨pc, pb⟩ := s
    refine bind (splitIntersections _ _) fun sp => bind (continenceSplitLoop _ _ _) fun b => ?_
    exact const _

theorem outsideHoles (fuel : Nat) (p : Polyline (Vertex K)) (l : List (Polyline (Vertex K))) (b : Bool) :
    Steady (fun (e : K) (_ : Sched) => Verif.outsideHoles e fuel p l b) := by
  induction l generalizing b with
  | nil => exact const _
  | cons h l ih =>
    simp only [Verif.outsideHoles]
    refine bind (continence _ _ _) fun r => ?_
    cases r with
    | none => exact ih _
    | some c => exact ih _

theorem mayInsert (fuel : Nat) (b : Option (Polyline (Vertex K))) (l : List (Polyline (Vertex K)))
    (t : Tri (Vertex K)) (v : Vertex K) :
    Steady (fun (e : K) (_ : Sched) => mayInsertTriangle e fuel b l t v) := by
  unfold mayInsertTriangle
  refine bind ?_ fun inB => bind (outsideHoles _ _ _ _) fun outH => const _
  cases b with
  | none => exact const _
  | some b =>
    refine bind (continence _ _ _) fun r => ?_
    cases r <;> exact const _

end Steady

end Verif
