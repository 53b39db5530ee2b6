import Verif.Lemmas.Refine
import Verif.Model.Triangulator

/-!
# The adjacency map stays truthful through all the procedures
-/

set_option linter.unusedSectionVars false

namespace Verif

open Spec

section generic

variable {V : Type*} [DecidableEq V]

theorem include_sound {P : Preds V} {C : List (Edge V)} {fuel : Nat} {σ : Sched} {m : Mesh V}
    {vs : List V} {r : SolveState V} (hs : AdjSound m) (h : includeVertices P C fuel σ m vs = .ok r) :
    AdjSound r.mesh := by
  obtain ⟨s0, h0, hr, -⟩ := include_run h
  obtain ⟨k1, -, -, k4, -, k6, -⟩ := startState_spec h0
  exact (run_vertices (k1 ▸ hs) k4 (fun t l ht x hx => ⟨t, k1 ▸ (k6 t l ht).1, hx⟩) hr).1.1

theorem boundaryFirst_sound (S : List (Edge V)) (es : List (Edge V)) : ∀ {m : Mesh V} {p : List (Edge V)},
    AdjSound m → AdjSound (boundaryFirst S es m p).1 := by
  induction es with
  | nil => intro m p h; exact h
  | cons e es ih =>
    intro m p h
    rw [boundaryFirst]
    split
    · exact ih (adjSound_del h)
    · exact ih h

theorem holeFirst_sound (g : V) (S : List (Edge V)) (es : List (Edge V)) : ∀ {m : Mesh V} {p : List (Edge V)},
    AdjSound m → AdjSound (holeFirst g S es m p).1 := by
  induction es with
  | nil => intro m p h; exact h
  | cons e es ih =>
    intro m p h
    rw [holeFirst]
    split
    · exact ih (adjSound_add (adjSound_del h))
    · exact ih (adjSound_add h)

theorem flood_sound (S : List (Edge V)) (n : Nat) : ∀ {m m' : Mesh V} {p : List (Edge V)},
    AdjSound m → flood S n p m = .ok m' → AdjSound m' := by
  induction n with
  | zero =>
    intro m m' p h hr
    cases p with
    | nil => rw [flood] at hr; injection hr with hr; subst hr; exact h
    | cons e p => rw [flood] at hr; cases hr
  | succ n ih =>
    intro m m' p h hr
    cases p with
    | nil => rw [flood] at hr; injection hr with hr; subst hr; exact h
    | cons e p =>
      rw [flood] at hr
      split at hr
      · exact ih (adjSound_del h) hr
      · exact ih h hr

theorem includeBoundary_sound {P : Preds V} {g : V} {C : List (Edge V)} {fuel : Nat} {σ : Sched}
    {m m' : Mesh V} {b : Polyline V} (hs : AdjSound m)
    (h : includeBoundary P g C fuel σ m b = .ok m') : AdjSound m' := by
  unfold includeBoundary at h
  rw [Res.bind_eq_ok] at h
  obtain ⟨s, h1, h⟩ := h
  unfold carveBoundary at h
  simp only at h
  rw [Res.bind_eq_ok] at h
  obtain ⟨m1, h2, h⟩ := h
  injection h with h
  subst h
  have := flood_sound _ _ (boundaryFirst_sound _ _ (include_sound hs h1)) h2
  unfold addGhosts
  generalize shuffle (σ.sub 1) (reversedEdges b) = es
  clear h2
  induction es generalizing m1 with
  | nil => exact this
  | cons e es ih => exact ih _ (adjSound_add this)

theorem fromInitialSegment_sound (g v1 v2 : V) : AdjSound (Mesh.fromInitialSegment g v1 v2) :=
  adjSound_add (adjSound_add adjSound_empty)

end generic

section geometry

variable {K : Type*} [Field K] [LinearOrder K]

theorem includeSegment_sound {eps : K} {fuel : Nat} {σ : Sched} {C : List (Edge (Vertex K))}
    {m m' : Mesh (Vertex K)} {s : Edge (Vertex K)} (hs : AdjSound m)
    (h : includeSegment eps fuel σ C m s = .ok m') : AdjSound m' := by
  unfold includeSegment at h
  rw [Res.bind_eq_ok] at h
  obtain ⟨conf, -, h⟩ := h
  rw [Res.bind_eq_ok] at h
  obtain ⟨hull?, -, h⟩ := h
  rw [Res.bind_eq_ok] at h
  obtain ⟨hull, -, h⟩ := h
  simp only at h
  rw [Res.bind_eq_ok] at h
  obtain ⟨m1, -, h⟩ := h
  rw [Res.bind_eq_ok] at h
  obtain ⟨st, -, h⟩ := h
  injection h with h
  subst h
  exact (mem_foldl_add _ _ (mem_foldl_del _ _ hs).1).1

theorem holeSegmentsLoop_sound {eps : K} {C order : List (Edge (Vertex K))} {fuel n : Nat} :
    ∀ {σ : Sched} {m m' : Mesh (Vertex K)}, AdjSound m →
      holeSegmentsLoop eps C order fuel n σ m = .ok m' → AdjSound m' := by
  induction n with
  | zero =>
    intro σ m m' hs h
    rw [holeSegmentsLoop] at h
    split at h
    · injection h with h; subst h; exact hs
    · cases h
  | succ n ih =>
    intro σ m m' hs h
    rw [holeSegmentsLoop] at h
    split at h
    · injection h with h; subst h; exact hs
    · simp only at h
      rw [Res.bind_eq_ok] at h
      obtain ⟨m1, h1, h⟩ := h
      exact ih (includeSegment_sound hs h1) h

theorem includeHole_sound {eps : K} {fuel : Nat} {σ : Sched} {C : List (Edge (Vertex K))}
    {m m' : Mesh (Vertex K)} {p : Polyline (Vertex K)} (hs : AdjSound m)
    (h : includeHole eps fuel σ C m p = .ok m') : AdjSound m' := by
  unfold includeHole at h
  simp only at h
  rw [Res.bind_eq_ok] at h
  obtain ⟨st, h1, h⟩ := h
  rw [Res.bind_eq_ok] at h
  obtain ⟨m1, h2, h⟩ := h
  exact flood_sound _ _ (holeFirst_sound _ _ _ (holeSegmentsLoop_sound (include_sound hs h1) h2)) h

theorem includeHoles_sound {eps : K} {fuel : Nat} {hs : List (Polyline (Vertex K))} : ∀ {σ : Sched}
    {m : Mesh (Vertex K)} {C : List (Edge (Vertex K))} {r : Mesh (Vertex K) × List (Edge (Vertex K))},
    AdjSound m → Triangulator.includeHoles eps fuel σ hs m C = .ok r → AdjSound r.1 := by
  induction hs with
  | nil => intro σ m C r h hr; rw [Triangulator.includeHoles] at hr; injection hr with hr; subst hr; exact h
  | cons p hs ih =>
    intro σ m C r h hr
    rw [Triangulator.includeHoles, Res.bind_eq_ok] at hr
    obtain ⟨m1, h1, hr⟩ := hr
    exact ih (includeHole_sound h h1) hr

theorem includeSegments_sound {eps : K} {fuel : Nat} {ss : List (Edge (Vertex K))} : ∀ {σ : Sched}
    {m : Mesh (Vertex K)} {C : List (Edge (Vertex K))} {r : Mesh (Vertex K) × List (Edge (Vertex K))},
    AdjSound m → Triangulator.includeSegments eps fuel σ ss m C = .ok r → AdjSound r.1 := by
  induction ss with
  | nil => intro σ m C r h hr; rw [Triangulator.includeSegments] at hr; injection hr with hr; subst hr; exact h
  | cons p hs ih =>
    intro σ m C r h hr
    rw [Triangulator.includeSegments, Res.bind_eq_ok] at hr
    obtain ⟨m1, h1, hr⟩ := hr
    exact ih (includeSegment_sound h h1) hr

theorem triangulate_sound {eps : K} {fuel : Nat} {σ : Sched} {T T' : Triangulator K}
    (h : T.triangulate eps fuel σ = .ok T') : AdjSound T'.mesh := by
  unfold Triangulator.triangulate at h
  split at h
  · rw [Res.bind_eq_ok] at h
    obtain ⟨m0, h0, h⟩ := h
    simp only at h
    rw [Res.bind_eq_ok] at h
    obtain ⟨r1, h1, h⟩ := h
    rw [Res.bind_eq_ok] at h
    obtain ⟨r2, h2, h⟩ := h
    rw [Res.bind_eq_ok] at h
    obtain ⟨st, h3, h⟩ := h
    injection h with h
    subst h
    exact include_sound (includeSegments_sound (includeHoles_sound
      (includeBoundary_sound (fromInitialSegment_sound _ _ _) h0) h1) h2) h3
  · cases h

end geometry

end Verif
