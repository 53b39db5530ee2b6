import Verif.Model.Edge

/-!
# Repeated bisection of a segment
-/

namespace Verif.Spec

variable {V : Type*}

/-- The segments of the list, in order, are what is left of `e` after cutting it, and some of the pieces, in two at the
point `mid`. -/
inductive Bisects (mid : Edge V → V) : Edge V → List (Edge V) → Prop
  | whole (e : Edge V) : Bisects mid e [e]
  | halves {e : Edge V} {l1 l2 : List (Edge V)} : Bisects mid ⟨e.v1, mid e⟩ l1 →
      Bisects mid ⟨mid e, e.v2⟩ l2 → Bisects mid e (l1 ++ l2)

end Verif.Spec
