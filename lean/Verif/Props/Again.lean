import Verif.Props.Settled
import Verif.Props.Histories

/-!
# C78: refining again

The full claim, that a second call of `refine` with the same parameters changes nothing, is false (`C78_false`): the
second call starts again from the sides as the user gave them, and from every poor triangle the first call gave up.
What holds (`C78_partial`): a second call changes nothing when the first one left no poor triangle and no vertex inside
the circle over a side or a segment.
-/

set_option linter.unusedSectionVars false

namespace Verif.Props

open Spec

variable {K : Type*} [Field K] [LinearOrder K] [IsStrictOrderedRing K]

/-- C78, when the first call reached its goal: a second call, in any order of the hash tables, returns the same
triangulator. Missing: the cases in which the first call left a poor triangle, or a vertex inside the circle over a side
or a segment, where the claim is false in general (`C78_false`). -/
theorem C78_partial {fuel fuel' : Nat} {dist : Vertex K → Vertex K → K} {p : RefineParams K} {σ σ' : Sched}
    {T T' : Triangulator K} (h : T.refine 0 fuel dist p σ = .ok T')
    (hsides : ∀ q ∈ T.boundary :: T.holes, ∀ s ∈ pairs q.vertices q.opened, ∀ v, InMesh T'.mesh v → v.isGhost = false →
      dist2 s.1 s.2 ≤ 4 * dist2 (centre s.1 s.2) v)
    (hsegs : ∀ s ∈ T.segments, ∀ v, InMesh T'.mesh v → v.isGhost = false →
      dist2 s.v1 s.v2 ≤ 4 * dist2 (centre s.v1 s.v2) v)
    (hpoor : ∀ t ∈ T'.mesh.tris, ¬ PoorTriangle dist p t) :
    T'.refine 0 fuel' dist p σ' = .ok T' := by
  obtain ⟨m, rfl⟩ := refine_only_mesh h
  exact C68_unchanged hsides hsegs hpoor

namespace ValidityExample

/-- A square with the bound 8 on the area: the first call of `refine` inserts the centre, a second call does nothing. -/
example : ∃ T1 T2, (Triangulator.new square).triangulate 0 60 (order 3) = .ok T1 ∧
    T1.refine 0 60 blocks ⟨some 8, 10⟩ (order 3) = .ok T2 ∧ T1.mesh.tris.length = 6 ∧ T2.mesh.tris.length = 8 ∧
    ∀ fuel σ, T2.refine 0 fuel blocks ⟨some 8, 10⟩ σ = .ok T2 := by
  have key : (refined (order 3) ⟨some 8, 10⟩ (Triangulator.new square)).any (fun q =>
      decide (q.1.length = 6 ∧ q.2.length = 8 ∧
      (∀ s ∈ pairs square.vertices false, ∀ t ∈ q.2, ∀ v ∈ [t.v1, t.v2, t.v3], v.isGhost = false →
        dist2 s.1 s.2 ≤ 4 * dist2 (centre s.1 s.2) v) ∧
      ∀ t ∈ q.2, (∀ q ∈ t.quality blocks, q < 10) ∧ ∀ a ∈ t.area, a < 8)) = true := by decide +kernel
  obtain ⟨T1, T2, h1, h2, e⟩ := ok_of_refined (σ := order 3) (p := ⟨some 8, 10⟩) (T := Triangulator.new square) (by
    cases hh : refined (order 3) ⟨some 8, 10⟩ (Triangulator.new square) with
    | none => rw [hh] at key; simp at key
    | some q => rfl)
  rw [e, Option.any_some, decide_eq_true_eq] at key
  obtain ⟨k1, k2, hm, hq⟩ := key
  refine ⟨T1, T2, h1, h2, k1, k2, fun fuel σ => ?_⟩
  obtain ⟨m, rfl⟩ := triangulate_only_mesh h1
  refine C78_partial h2 (fun q hq s hs v hv hg => ?_) (fun s hs => ?_) (fun t ht hp => ?_)
  · simp only [Triangulator.new, List.mem_cons, List.not_mem_nil, or_false] at hq
    subst hq
    obtain ⟨t, ht, hc⟩ := hv
    refine hm s hs t ht v ?_ hg
    rcases hc with rfl | rfl | rfl <;> simp
  · simp [Triangulator.new] at hs
  · obtain ⟨-, ⟨q, h2, h3⟩ | ⟨a, mx, h2, h3, h4⟩⟩ := hp
    · have := (hq t ht).1 q h2
      simp only at h3
      linarith
    · have := (hq t ht).2 a h2
      simp only [Option.some.injEq] at h3
      linarith

end ValidityExample

namespace RefineSample

/-- The triangles after a second call of `refine`. -/
def again : Res (Triangulator ℚ) := final.bind fun T => T.refine 0 100 dist ⟨none, 10⟩ Sched.first

theorem again_tris : (tris final).length < (tris again).length := by decide +kernel

end RefineSample

open RefineSample in
/-- C78 is false: for a domain of five vertices, `triangulate`, `refine` and `refine` again with the same parameters
return, and the second call adds triangles. -/
theorem C78_false : ∃ T1 T2 T3, T.triangulate 0 100 Sched.first = .ok T1 ∧
    T1.refine 0 100 dist ⟨none, 10⟩ Sched.first = .ok T2 ∧ T2.refine 0 100 dist ⟨none, 10⟩ Sched.first = .ok T3 ∧
    T2.mesh.tris.length < T3.mesh.tris.length := by
  have hl := again_tris
  obtain ⟨T1, T2, h1, h2, -⟩ := C30_false
  have hf : final = .ok T2 := by unfold final; rw [h1, Res.bind_ok, h2]
  unfold again at hl
  rw [hf, Res.bind_ok] at hl
  cases h3 : T2.refine 0 100 dist ⟨none, 10⟩ Sched.first with
  | panic => rw [h3] at hl; exact absurd hl (Nat.not_lt_zero _)
  | diverged => rw [h3] at hl; exact absurd hl (Nat.not_lt_zero _)
  | ok T3 => rw [h3] at hl; exact ⟨T1, T2, T3, h1, h2, h3, hl⟩

end Verif.Props
