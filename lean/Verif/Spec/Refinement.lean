import Verif.Model.Refine
import Verif.Spec.Mesh

/-!
# Histories of the refinement loop
-/

namespace Verif.Spec

variable {V : Type*} [DecidableEq V]

/-- One attempt of the refinement to split a triangle: the state after the triangle was taken from the queues, the
triangle, and what came of inserting its circumcentre. -/
structure Attempt (V : Type*) where
  before : SplitState V
  tri : Tri V
  outcome : TryRes V

/-- The attempt ended with the circumcentre taken out again, because it encroached on some segments. -/
def Attempt.Rejected (a : Attempt V) : Prop := ∃ m enc, a.outcome = .rejected m enc

/-- From `s`, the refinement loop made these attempts, in order, and reached `s'`. -/
inductive History (P : RPreds V) (fuel : Nat) : SplitState V → List (Attempt V) → SplitState V → Prop
  | done (s) : History P fuel s [] s
  | step {s s1 s2 s3 : SplitState V} {t : Tri V} {o : TryRes V} {l : List (Attempt V)} (σ τ : Sched) :
      popTriangle σ s = some (t, s1) →
      tryCircumcenter P fuel (τ.sub 0) s1.segments s1.mesh t = .ok o →
      splitStep P fuel τ t s1 = .ok s2 → History P fuel s2 l s3 → History P fuel s (⟨s1, t, o⟩ :: l) s3

/-- The circumcentre of the triangle exists, is inside its circumcircle according to the predicates, and the triangle
may be replaced because of it. -/
def SplitsItself (P : RPreds V) (t : Tri V) : Prop :=
  ∃ c, P.circumcenter t = some c ∧ P.inside t c = true ∧ P.mayInsert t c = .ok true

end Verif.Spec
