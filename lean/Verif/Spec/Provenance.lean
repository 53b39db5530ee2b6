import Verif.Model.Mesh
import Verif.Spec.Geometry

/-!
# Where the vertices of a refined mesh come from
-/

namespace Verif.Spec

variable {K : Type*} [Field K] [LinearOrder K]

/-- The middle of two points. -/
def halfway (a b : Vertex K) : Vertex K := ⟨(a.x + b.x) / 2, (a.y + b.y) / 2, false⟩

/-- What can be obtained by cutting some given edges in two, again and again. -/
inductive PieceOf (C : Edge (Vertex K) → Prop) : Edge (Vertex K) → Prop
  | given {e : Edge (Vertex K)} : C e → PieceOf C e
  | first {a b : Vertex K} : PieceOf C ⟨a, b⟩ → PieceOf C ⟨a, halfway a b⟩
  | second {a b : Vertex K} : PieceOf C ⟨a, b⟩ → PieceOf C ⟨halfway a b, b⟩

/-- A vertex that was there (`Old`), or is the middle of a piece of an edge of `C`, or is the circumcentre of a triangle
of the class `Bad` of which all corners are accounted for. -/
inductive Accounted (Old : Vertex K → Prop) (C : Edge (Vertex K) → Prop) (Bad : Tri (Vertex K) → Prop) :
    Vertex K → Prop
  | old {v : Vertex K} : Old v → Accounted Old C Bad v
  | cut {a b : Vertex K} : PieceOf C ⟨a, b⟩ → Accounted Old C Bad (halfway a b)
  | centre {t : Tri (Vertex K)} {v : Vertex K} : Bad t → Accounted Old C Bad t.v1 → Accounted Old C Bad t.v2 →
      Accounted Old C Bad t.v3 → Equidistant v t.v1 t.v2 t.v3 → v.isGhost = false → Accounted Old C Bad v

end Verif.Spec
