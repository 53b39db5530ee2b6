import Verif.Model.Vertices
import Verif.Spec.Mesh

/-!
# Vocabulary about runs of the vertex insertion
-/

namespace Verif.Spec

variable {V : Type*} [DecidableEq V]

/-- The state in which `include` (src/planar/triangulation_procedures/vertices.rs:11-47) starts its loop: the requested
vertices that are not in the mesh were distributed over its triangles. -/
def startState (P : Preds V) (σ : Sched) (m : Mesh V) (vs : List V) : Res (SolveState V) :=
  (distributeAll P (shuffle (σ.sub 0) m.tris) []
    (vs.filter fun v => !decide (v ∈ m.vertices P.ghost))).bind fun r =>
      .ok ⟨m, r.1, r.2, [], []⟩

/-- Between `s` and `s'` the insertion loop ran some iterations, each inserting one vertex. -/
inductive Run (P : Preds V) (C : List (Edge V)) (fuel : Nat) : SolveState V → SolveState V → Prop
  | refl (s) : Run P C fuel s s
  | step {s s1 s2 : SolveState V} (σ : Sched) : Run P C fuel s s1 → s1.cmap ≠ [] →
      solveStep P C fuel σ s1 = .ok s2 → Run P C fuel s s2

/-- The mesh and the requested vertices make sense: the adjacency map is right, each directed edge is used once,
requested vertices are distinct ordinary vertices, and `==` on vertices tells apart all vertices involved. -/
structure GoodRequest (P : Preds V) (m : Mesh V) (vs : List V) : Prop where
  sound : AdjSound m
  complete : AdjComplete m
  simple : Simple m.tris
  nodup : vs.Nodup
  ordinary : ∀ w ∈ vs, P.ghost w = false
  distinct : ∀ a b, (InMesh m a ∨ a ∈ vs) → (InMesh m b ∨ b ∈ vs) → (P.veq a b = true ↔ a = b)

/-- Whenever a vertex is inserted while `vs` are inserted in `m`, no directed edge is used twice at that moment. -/
def NoPinch (P : Preds V) (C : List (Edge V)) (fuel : Nat) (σ : Sched) (m : Mesh V) (vs : List V) :
    Prop :=
  ∀ s0 s', startState P σ m vs = .ok s0 → Run P C fuel s0 s' → s'.cmap ≠ [] → Simple s'.mesh.tris

end Verif.Spec
