import Verif.Lemmas.Stokes
import Verif.Props.Insertion

/-!
# C16: total area
-/

set_option linter.unusedSectionVars false

namespace Verif.Props

open Spec

variable {K : Type*} [Field K] [LinearOrder K] [IsStrictOrderedRing K]

/-- Twice the sum of the signed areas of the triangles without ghost corner. -/
def solidArea2 (T : List (Tri (Vertex K))) : K :=
  ((T.filter fun t => !t.isGhost Vertex.isGhost).map fun t => cross t.v1 t.v2 t.v3).sum

/-- Twice the area enclosed by the outer border: shoelace sum over the ghost triangles, each of which lies over the
border edge `v2 → v1`. -/
def borderArea2 (T : List (Tri (Vertex K))) : K :=
  ((T.filter fun t => t.isGhost Vertex.isGhost).map fun t => t.v2.x * t.v1.y - t.v1.x * t.v2.y).sum

/-- Ghost triangles have their ghost corner last and only there. -/
def GhostLast (T : List (Tri (Vertex K))) : Prop :=
  ∀ t ∈ T, t.v1.isGhost = false ∧ t.v2.isGhost = false

/-- The shoelace term of an edge between ordinary vertices. -/
private def term (e : Edge (Vertex K)) : K :=
  if e.v1.isGhost || e.v2.isGhost then 0 else e.v1.x * e.v2.y - e.v2.x * e.v1.y

/-- C16: in a closed mesh the areas of the solid triangles add up to the area enclosed by the outer border. -/
theorem C16_enclosed {T : List (Tri (Vertex K))} (hw : Watertight T) (hg : GhostLast T) :
    solidArea2 T = borderArea2 T := by
  have h0 : ((sides T).map (term (K := K))).sum = 0 := by
    refine (balanced_of_watertight hw).sum_eq_zero ?_
    intro e
    simp only [term, Edge.opposite, Bool.or_eq_true]
    by_cases h1 : e.v1.isGhost = true <;> by_cases h2 : e.v2.isGhost = true <;> simp [h1, h2]
  rw [sum_sides] at h0
  have h1 : ∀ l : List (Tri (Vertex K)), GhostLast l →
      (l.map fun t => (t.innerEdges.map (term (K := K))).sum).sum = solidArea2 l - borderArea2 l := by
    intro l hl
    induction l with
    | nil => simp [solidArea2, borderArea2]
    | cons t l ih =>
      have ih := ih (fun s hs => hl s (List.mem_cons_of_mem _ hs))
      obtain ⟨g1, g2⟩ := hl t List.mem_cons_self
      rw [List.map_cons, List.sum_cons, ih]
      cases g3 : t.v3.isGhost
      · simp [solidArea2, borderArea2, Tri.isGhost, g1, g2, g3, term, Tri.innerEdges,
          cross]
        ring
      · simp [solidArea2, borderArea2, Tri.isGhost, g1, g2, g3, term, Tri.innerEdges]
        ring
  rw [h1 T hg] at h0
  linarith

/-- C16: an insertion that removes only solid triangles keeps the total area. -/
theorem C16_preserved {P : Preds (Vertex K)} (hP : P.ghost = Vertex.isGhost)
    {C : List (Edge (Vertex K))} {fuel : Nat} {σ : Sched} {m : Mesh (Vertex K)}
    {vs : List (Vertex K)} {r : SolveState (Vertex K)} (hq : GoodRequest P m vs)
    (hw : Watertight m.tris) (hg : GhostLast m.tris) (hp : NoPinch P C fuel σ m vs)
    (h : includeVertices P C fuel σ m vs = .ok r)
    (hsolid : ∀ t ∈ r.removed, t.isGhost Vertex.isGhost = false) :
    solidArea2 r.mesh.tris = solidArea2 m.tris := by
  obtain ⟨s0, h0, hr, -⟩ := include_run h
  obtain ⟨k1, -, k3, -, k5, -⟩ := startState_spec h0
  have hl : Legit P (fun x => InMesh m x ∨ x ∈ vs) s0 :=
    start_legit hq.sound hq.complete hq.nodup hq.ordinary (fun _ hx => Or.inl hx) (fun _ hw => Or.inr hw) h0
  obtain ⟨-, -, hQ⟩ := run_induct hq.distinct hl (fun s1 h1 => hp s0 s1 h0 h1)
    (fun s => (∀ w ∈ s.cmap.flat ++ s.remaining, w ∈ vs) ∧
      ((∀ t ∈ s.removed, t.isGhost Vertex.isGhost = false) →
      (s.mesh.tris.filter fun t => t.isGhost Vertex.isGhost).Perm
        (m.tris.filter fun t => t.isGhost Vertex.isGhost)))
    ⟨by
      intro w hw
      rw [k5.mem_iff] at hw
      exact List.mem_of_mem_filter hw, fun _ => by rw [k1]⟩ (by
      rintro s1 v s2 L O R Z - - - ⟨q1, q2⟩ hv hi
      refine ⟨fun w hw => q1 w (hi.pend.mem_iff.2 (List.mem_cons_of_mem _ hw)), fun hs => ?_⟩
      have hR : ∀ t ∈ R, t.isGhost Vertex.isGhost = false := fun t ht => hs t ((hi.rem t).2 (Or.inr ht))
      have hs1 := q2 (fun t ht => hs t ((hi.rem t).2 (Or.inl ht)))
      refine List.Perm.trans ?_ hs1
      refine List.Perm.trans (l₂ := O.filter fun t => t.isGhost Vertex.isGhost) ?_
        (List.Perm.trans ?_ (hi.cav.old.filter _).symm)
      · refine (hi.cav.now.filter _).trans ?_
        rw [List.filter_append]
        have : (L.map (newTri P.ghost · v)).filter (fun t => t.isGhost Vertex.isGhost) = [] := by
          rw [List.filter_eq_nil_iff]
          intro t ht
          obtain ⟨l, hl, rfl⟩ := List.mem_map.1 ht
          obtain ⟨u, hu, hul⟩ := hi.cav.mem_side_old (e := l) (by simpa using hl)
          have hgu := hR u hu
          simp only [Tri.isGhost, Bool.or_eq_false_iff] at hgu
          have hgv : v.isGhost = false := by
            have := hq.ordinary v (q1 v (List.mem_append.2 (Or.inl hv)))
            rwa [hP] at this
          have h1 : l.v1.isGhost = false := by
            rcases hul with ⟨e, -⟩ | ⟨e, -⟩ | ⟨e, -⟩ <;> rw [e] <;> tauto
          have h2 : l.v2.isGhost = false := by
            rcases hul with ⟨-, e⟩ | ⟨-, e⟩ | ⟨-, e⟩ <;> rw [e] <;> tauto
          rw [hP]
          simp [newTri, h1, h2, Tri.isGhost, hgv]
        rw [this]; simp
      · rw [List.filter_append]
        have : R.filter (fun t => t.isGhost Vertex.isGhost) = [] := by
          rw [List.filter_eq_nil_iff]
          intro t ht
          simp [hR t ht]
        rw [this]; simp) hr
  have hperm := hQ hsolid
  have hg' : GhostLast r.mesh.tris := by
    intro t ht
    by_cases hgt : t.isGhost Vertex.isGhost = true
    · have : t ∈ m.tris.filter fun t => t.isGhost Vertex.isGhost :=
        hperm.mem_iff.1 (List.mem_filter.2 ⟨ht, hgt⟩)
      exact hg t (List.mem_of_mem_filter this)
    · simp only [Tri.isGhost, Bool.not_eq_true, Bool.or_eq_false_iff] at hgt
      exact ⟨hgt.1.1, hgt.1.2⟩
  rw [C16_enclosed (C14_watertight hq hw hp h) hg', C16_enclosed hw hg]
  exact (hperm.map _).sum_eq

/-- A triangle with its three ghosts: the area is enclosed by the border. -/
example : let a : Vertex ℚ := ⟨0, 0, false⟩; let b : Vertex ℚ := ⟨4, 0, false⟩
    let c : Vertex ℚ := ⟨0, 3, false⟩; let g : Vertex ℚ := ⟨0, 0, true⟩
    let T := [(⟨a, b, c⟩ : Tri (Vertex ℚ)), ⟨b, a, g⟩, ⟨c, b, g⟩, ⟨a, c, g⟩]
    Watertight T ∧ GhostLast T ∧ solidArea2 T = 12 := by
  refine ⟨watertight_of (by decide), ?_, ?_⟩
  · intro t ht
    simp only [List.mem_cons, List.not_mem_nil, or_false] at ht
    rcases ht with rfl | rfl | rfl | rfl <;> simp
  · simp [solidArea2, Tri.isGhost, cross]
    norm_num

end Verif.Props
