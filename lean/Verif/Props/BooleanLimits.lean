import Verif.Lemmas.CancelCycle
import Verif.Props.Regions

/-!
# Intersection and subtraction of any two polygons, and their limits (C48, C49)

Exact arithmetic (tolerance zero), polygons between ordinary vertices, every order of iteration of the hash sets. The
limits are simple counterclockwise polygons that touch, for which the code does not return, or loses the result.
-/

namespace Verif.Props

open Spec

section Any

variable {K : Type*} [Field K] [LinearOrder K] [IsStrictOrderedRing K]

theorem pieces_on {l1 l2 : List (Vertex K)} {o1 o2 : Bool} {fuel : Nat} {segments : List (Vertex K × Vertex K)}
    (g1 : ∀ v ∈ l1, v.isGhost = false) (g2 : ∀ v ∈ l2, v.isGhost = false)
    (hs : splitIntersections 0 fuel (pairs l1 o1 ++ pairs l2 o2) = .ok segments) :
    ∀ s ∈ segments, OnSome (pairs l1 o1 ++ pairs l2 o2) s.1 ∧ OnSome (pairs l1 o1 ++ pairs l2 o2) s.2 := by
  have hcut := splitIntersections_cuts (Polyline.two_solid g1 g2) hs
  exact fun s hs => ⟨hcut.onSome.1 ⟨s, hs, onSegment_left _ _⟩, hcut.onSome.1 ⟨s, hs, onSegment_right _ _⟩⟩

/-- C48, for any two polygons: if the intersection returns, its polygons are closed, no side occurs twice, the ends of each
side are on one of the given polygons and its midpoint is outside neither. -/
theorem C48_sides {fuel : Nat} {σ : Sched} {p1 p2 : Polyline (Vertex K)} (g1 : ∀ v ∈ p1.vertices, v.isGhost = false)
    (g2 : ∀ v ∈ p2.vertices, v.isGhost = false) {polys : List (Polyline (Vertex K))}
    {unused : List (Vertex K × Vertex K)} (h : Polyline.intersection 0 fuel σ p1 p2 = .ok (polys, unused)) :
    (∀ p ∈ polys, p.opened = false) ∧ (polys.flatMap fun p => pairs p.vertices false).Nodup ∧
    ∀ p ∈ polys, ∀ s ∈ pairs p.vertices false,
      (∀ e, e = s.1 ∨ e = s.2 → p1.contains 0 e = some .boundary ∨ p2.contains 0 e = some .boundary) ∧
      p1.contains 0 (midpoint s.1 s.2) ≠ some .outside ∧ p2.contains 0 (midpoint s.1 s.2) ≠ some .outside := by
  unfold Polyline.intersection Polyline.splitTwo at h
  obtain ⟨segments, hs, h⟩ := Res.bind_eq_ok.1 h
  split at h
  · injection h with h; injection h with h1 h2; subst h1; simp
  · rename_i ho
    simp only [Bool.or_eq_true, not_or, Bool.not_eq_true] at ho
    obtain ⟨d, hd, h⟩ := Res.bind_eq_ok.1 h
    split at h
    · injection h with h; injection h with h1 h2; subst h1; simp
    · obtain ⟨a, b, c⟩ := Polyline.combine_spec (Polyline.segments_solid (Polyline.two_solid g1 g2) hs)
        (pieces_on g1 g2 hs) h
      refine ⟨a, b, fun p hp s hs => ?_⟩
      obtain ⟨k, e1, e2⟩ := c p hp s hs
      have on : ∀ e, OnSome (pairs p1.vertices p1.opened ++ pairs p2.vertices p2.opened) e →
          p1.contains 0 e = some .boundary ∨ p2.contains 0 e = some .boundary := by
        rw [ho.1, ho.2]
        rintro e ⟨t, ht, hte⟩
        rcases List.mem_append.1 ht with ht | ht
        · exact Or.inl ((contains_boundary ho.1).2 ⟨t, ht, hte⟩)
        · exact Or.inr ((contains_boundary ho.2).2 ⟨t, ht, hte⟩)
      unfold Polyline.keepIntersection at k
      rw [Bool.and_eq_true, decide_eq_true_eq, decide_eq_true_eq] at k
      exact ⟨fun e he => he.elim (fun he => on e (he ▸ e1)) fun he => on e (he ▸ e2), k⟩

/-- C49, for any two polygons: if the subtraction returns, its polygons are closed, no side occurs twice, the ends of each
side are on one of the given polygons and its midpoint is not outside the first and not inside the second. -/
theorem C49_sides {fuel : Nat} {σ : Sched} {p1 p2 : Polyline (Vertex K)} (g1 : ∀ v ∈ p1.vertices, v.isGhost = false)
    (g2 : ∀ v ∈ p2.vertices, v.isGhost = false) {polys : List (Polyline (Vertex K))}
    {unused : List (Vertex K × Vertex K)} (h : Polyline.subtraction 0 fuel σ p1 p2 = .ok (polys, unused)) :
    (∀ p ∈ polys, p.opened = false) ∧ (polys.flatMap fun p => pairs p.vertices false).Nodup ∧
    ∀ p ∈ polys, ∀ s ∈ pairs p.vertices false,
      (∀ e, e = s.1 ∨ e = s.2 → p1.contains 0 e = some .boundary ∨ p2.contains 0 e = some .boundary) ∧
      p1.contains 0 (midpoint s.1 s.2) ≠ some .outside ∧ p2.contains 0 (midpoint s.1 s.2) ≠ some .inside := by
  have g2' : ∀ v ∈ p2.vertices.reverse, v.isGhost = false := fun v hv => g2 v (List.mem_reverse.1 hv)
  unfold Polyline.subtraction Polyline.splitTwo at h
  obtain ⟨segments, hs, h⟩ := Res.bind_eq_ok.1 h
  obtain ⟨d, hd, h⟩ := Res.bind_eq_ok.1 h
  obtain ⟨c, hc, h⟩ := Res.bind_eq_ok.1 h
  split at h
  · injection h with h; injection h with h1 h2; subst h1; simp
  · rename_i ho
    simp only [Bool.or_eq_true, not_or, Bool.not_eq_true] at ho
    obtain ⟨a, b, c⟩ := Polyline.combine_spec (Polyline.segments_solid (Polyline.two_solid g1 g2') hs)
      (pieces_on g1 g2' hs) h
    refine ⟨a, b, fun p hp s hs => ?_⟩
    obtain ⟨k, e1, e2⟩ := c p hp s hs
    have on : ∀ e, OnSome (pairs p1.vertices p1.opened ++ pairs p2.vertices.reverse p2.opened) e →
        p1.contains 0 e = some .boundary ∨ p2.contains 0 e = some .boundary := by
      rw [ho.1.1.1, ho.1.1.2]
      rintro e ⟨t, ht, hte⟩
      rcases List.mem_append.1 ht with ht | ht
      · exact Or.inl ((contains_boundary ho.1.1.1).2 ⟨t, ht, hte⟩)
      · exact Or.inr ((contains_boundary ho.1.1.2).2 (onSome_reverse.1 ⟨t, ht, hte⟩))
    unfold Polyline.keepSubtraction at k
    rw [Bool.and_eq_true, decide_eq_true_eq, decide_eq_true_eq] at k
    exact ⟨fun e he => he.elim (fun he => on e (he ▸ e1)) fun he => on e (he ▸ e2), k⟩

end Any

/-- A triangle. -/
def leftTriangle : Polyline (Vertex ℚ) := ⟨[⟨0, 0, false⟩, ⟨1, 0, false⟩, ⟨1/2, 1, false⟩], false, by simp⟩
/-- A triangle that shares one vertex with it. -/
def rightTriangle : Polyline (Vertex ℚ) := ⟨[⟨2, 0, false⟩, ⟨1, 0, false⟩, ⟨3/2, -1, false⟩], false, by simp⟩
/-- The square on the right of `plate`. -/
def nextPlate : Polyline (Vertex ℚ) :=
  ⟨[⟨2, 0, false⟩, ⟨4, 0, false⟩, ⟨4, 2, false⟩, ⟨2, 2, false⟩], false, by simp⟩

/-- The two squares `plate` and `sidePlate` meet the hypotheses of `C48_sides`, and something is returned. -/
example : (∀ v ∈ plate.vertices, v.isGhost = false) ∧ (∀ v ∈ sidePlate.vertices, v.isGhost = false) ∧
    (Polyline.intersection 0 100 Sched.first plate sidePlate).toOption.map (·.1.length) = some 1 ∧
    (Polyline.subtraction 0 100 Sched.first plate cornerPlate).toOption.map (·.1.length) = some 1 := by
  decide +kernel

/-- C48, its limit: the intersection of two simple counterclockwise triangles that touch at a vertex, where two of their
sides meet head on, never returns. -/
theorem C48_touching_false :
    SimplePolygon leftTriangle.vertices ∧ SimplePolygon rightTriangle.vertices ∧
    0 < shoelace leftTriangle.vertices ∧ 0 < shoelace rightTriangle.vertices ∧
    ∃ n, ∀ fuel, n ≤ fuel → ∀ σ, Polyline.intersection 0 fuel σ leftTriangle rightTriangle = .diverged := by
  refine ⟨simple_of_check (by decide +kernel), simple_of_check (by decide +kernel), by decide +kernel,
    by decide +kernel, 100, fun fuel hf σ => ?_⟩
  have hs : splitIntersections 0 fuel (pairs leftTriangle.vertices false ++ pairs rightTriangle.vertices false) =
      .ok ((splitIntersections 0 100 (pairs leftTriangle.vertices false ++
        pairs rightTriangle.vertices false)).toOption.getD []) :=
    splitLoop_mono (n := 100) (by decide +kernel) hf
  have hd : Polyline.boxesDisjoint leftTriangle rightTriangle = .ok false := by decide +kernel
  have hcyc : ∃ s stack, ((splitIntersections 0 100 (pairs leftTriangle.vertices false ++
      pairs rightTriangle.vertices false)).toOption.getD []).reverse = s :: stack ∧ ∃ x,
      Polyline.cancelRun 0 leftTriangle rightTriangle 3 (stack, [s]) = some x ∧
      Polyline.cancelRun 0 leftTriangle rightTriangle (3 + 1) x = some x :=
    ⟨(⟨0, 0, false⟩, ⟨1, 0, false⟩),
      [(⟨1, 0, false⟩, ⟨1/2, 1, false⟩), (⟨1/2, 1, false⟩, ⟨0, 0, false⟩), (⟨2, 0, false⟩, ⟨1, 0, false⟩),
        (⟨1, 0, false⟩, ⟨3/2, -1, false⟩), (⟨3/2, -1, false⟩, ⟨2, 0, false⟩)], by decide +kernel,
      ([(⟨2, 0, false⟩, ⟨1, 0, false⟩), (⟨0, 0, false⟩, ⟨1, 0, false⟩), (⟨1, 0, false⟩, ⟨3/2, -1, false⟩),
        (⟨3/2, -1, false⟩, ⟨2, 0, false⟩)], [(⟨1, 0, false⟩, ⟨1/2, 1, false⟩), (⟨1/2, 1, false⟩, ⟨0, 0, false⟩)]),
      by decide +kernel, by decide +kernel⟩
  unfold Polyline.intersection Polyline.splitTwo
  rw [show leftTriangle.opened = false from rfl, show rightTriangle.opened = false from rfl, hs, Res.bind_ok,
    if_neg (by simp), hd, Res.bind_ok, if_neg (by simp)]
  obtain ⟨s, stack, e, x, h1, h2⟩ := hcyc
  unfold Polyline.combine
  rw [e]
  simp only
  rw [Polyline.cancelLoop_cycle h1 h2 fuel []]
  rfl

/-- C49, its limit: the subtraction of a square from the one next to it, with which it shares a side, never returns. -/
theorem C49_adjacent_false :
    SimplePolygon plate.vertices ∧ SimplePolygon nextPlate.vertices ∧
    0 < shoelace plate.vertices ∧ 0 < shoelace nextPlate.vertices ∧
    ∃ n, ∀ fuel, n ≤ fuel → ∀ σ, Polyline.subtraction 0 fuel σ plate nextPlate = .diverged := by
  refine ⟨simple_of_check (by decide +kernel), simple_of_check (by decide +kernel), by decide +kernel,
    by decide +kernel, 100, fun fuel hf σ => ?_⟩
  have hs : splitIntersections 0 fuel (pairs plate.vertices false ++ pairs nextPlate.vertices.reverse false) =
      .ok ((splitIntersections 0 100 (pairs plate.vertices false ++
        pairs nextPlate.vertices.reverse false)).toOption.getD []) :=
    splitLoop_mono (n := 100) (by decide +kernel) hf
  have hd : Polyline.boxesDisjoint plate nextPlate = .ok false := by decide +kernel
  have hc : Polyline.continence 0 fuel plate nextPlate = .ok (some (.outside, .closed)) :=
    continence_mono (n := 100) (by decide +kernel) hf
  have hcyc : ∃ s stack, ((splitIntersections 0 100 (pairs plate.vertices false ++
      pairs nextPlate.vertices.reverse false)).toOption.getD []).reverse = s :: stack ∧ ∃ x,
      Polyline.cancelRun 0 plate nextPlate 4 (stack, [s]) = some x ∧
      Polyline.cancelRun 0 plate nextPlate (1 + 1) x = some x :=
    ⟨(⟨0, 0, false⟩, ⟨2, 0, false⟩),
      [(⟨2, 0, false⟩, ⟨2, 2, false⟩), (⟨2, 2, false⟩, ⟨0, 2, false⟩), (⟨0, 2, false⟩, ⟨0, 0, false⟩), (⟨2, 2, false⟩, ⟨4, 2, false⟩), (⟨4, 2, false⟩, ⟨4, 0, false⟩), (⟨4, 0, false⟩, ⟨2, 0, false⟩), (⟨2, 0, false⟩, ⟨2, 2, false⟩)],
      by decide +kernel,
      ([(⟨2, 2, false⟩, ⟨0, 2, false⟩), (⟨2, 2, false⟩, ⟨4, 2, false⟩), (⟨4, 2, false⟩, ⟨4, 0, false⟩), (⟨4, 0, false⟩, ⟨2, 0, false⟩), (⟨2, 0, false⟩, ⟨2, 2, false⟩)],
        [(⟨0, 0, false⟩, ⟨2, 0, false⟩), (⟨2, 0, false⟩, ⟨2, 2, false⟩), (⟨0, 2, false⟩, ⟨0, 0, false⟩)]),
      by decide +kernel, by decide +kernel⟩
  unfold Polyline.subtraction Polyline.splitTwo
  rw [show plate.opened = false from rfl, show nextPlate.opened = false from rfl, hs, Res.bind_ok, hd, Res.bind_ok, hc,
    Res.bind_ok, if_neg (by decide)]
  obtain ⟨s, stack, e, x, h1, h2⟩ := hcyc
  unfold Polyline.combine
  rw [e]
  simp only
  rw [Polyline.cancelLoop_cycle h1 h2 fuel []]
  rfl

/-- The position of a corner on the open chain that is left of the boundary of a plate with a notch. -/
def notchRank (v : Vertex ℚ) : ℤ :=
  if v = ⟨1/2, 0, false⟩ then 0 else if v = ⟨1/2, 1, false⟩ then 1 else if v = ⟨3/2, 1, false⟩ then 2
  else if v = ⟨3/2, 0, false⟩ then 3 else if v = ⟨2, 0, false⟩ then 4 else if v = ⟨2, 2, false⟩ then 5
  else if v = ⟨0, 2, false⟩ then 6 else 7

/-- C49, its limit: a notch cut in a plate. The subtraction of a square that stands on a side of the plate returns no
polygon, although a point of the plate is outside the square. -/
theorem C49_notch_false :
    SimplePolygon plate.vertices ∧ SimplePolygon sidePlate.vertices ∧
    0 < shoelace plate.vertices ∧ 0 < shoelace sidePlate.vertices ∧
    plate.contains 0 ⟨1/4, 1/2, false⟩ = some .inside ∧ sidePlate.contains 0 ⟨1/4, 1/2, false⟩ = some .outside ∧
    ∃ n, ∀ fuel, n ≤ fuel → ∀ σ, ∃ unused, Polyline.subtraction 0 fuel σ plate sidePlate = .ok ([], unused) := by
  refine ⟨simple_of_check (by decide +kernel), simple_of_check (by decide +kernel), by decide +kernel,
    by decide +kernel, by decide +kernel, by decide +kernel, 100, fun fuel hf σ => ?_⟩
  have hs : splitIntersections 0 fuel (pairs plate.vertices false ++ pairs sidePlate.vertices.reverse false) =
      .ok ((splitIntersections 0 100 (pairs plate.vertices false ++
        pairs sidePlate.vertices.reverse false)).toOption.getD []) :=
    splitLoop_mono (n := 100) (by decide +kernel) hf
  have hd : Polyline.boxesDisjoint plate sidePlate = .ok false := by decide +kernel
  have hc : Polyline.continence 0 fuel plate sidePlate = .ok (some (.inside, .closed)) :=
    continence_mono (n := 100) (by decide +kernel) hf
  have hrun : ∃ s stack, ((splitIntersections 0 100 (pairs plate.vertices false ++
      pairs sidePlate.vertices.reverse false)).toOption.getD []).reverse = s :: stack ∧ ∃ x,
      Polyline.cancelLoop 0 plate sidePlate 100 stack [s] [] = .ok x ∧
      ∀ t ∈ (Polyline.sieve (Polyline.keepSubtraction 0 plate sidePlate) x.1 x.2).1,
        Solid t ∧ notchRank t.1 < notchRank t.2 :=
    ⟨(⟨1/2, 0, false⟩, ⟨1/2, 1, false⟩),
      [(⟨0, 0, false⟩, ⟨1/2, 0, false⟩), (⟨3/2, 1, false⟩, ⟨3/2, 0, false⟩), (⟨1/2, 0, false⟩, ⟨3/2, 0, false⟩), (⟨3/2, 0, false⟩, ⟨2, 0, false⟩), (⟨2, 0, false⟩, ⟨2, 2, false⟩), (⟨2, 2, false⟩, ⟨0, 2, false⟩), (⟨0, 2, false⟩, ⟨0, 0, false⟩), (⟨1/2, 1, false⟩, ⟨3/2, 1, false⟩), (⟨3/2, 0, false⟩, ⟨1/2, 0, false⟩)],
      by decide +kernel,
      ([(⟨1/2, 0, false⟩, ⟨1/2, 1, false⟩), (⟨3/2, 1, false⟩, ⟨3/2, 0, false⟩), (⟨3/2, 0, false⟩, ⟨2, 0, false⟩), (⟨2, 0, false⟩, ⟨2, 2, false⟩), (⟨2, 2, false⟩, ⟨0, 2, false⟩), (⟨0, 2, false⟩, ⟨0, 0, false⟩), (⟨1/2, 1, false⟩, ⟨3/2, 1, false⟩)],
        [(⟨1/2, 0, false⟩, ⟨3/2, 0, false⟩), (⟨0, 0, false⟩, ⟨1/2, 0, false⟩), (⟨3/2, 0, false⟩, ⟨1/2, 0, false⟩)]),
      by decide +kernel, by unfold Solid; decide +kernel⟩
  unfold Polyline.subtraction Polyline.splitTwo
  rw [show plate.opened = false from rfl, show sidePlate.opened = false from rfl, hs, Res.bind_ok, hd, Res.bind_ok, hc,
    Res.bind_ok, if_neg (by decide)]
  obtain ⟨s, stack, e, x, h1, h2⟩ := hrun
  unfold Polyline.combine
  rw [e]
  simp only
  rw [Polyline.cancelLoop_mono h1 hf, Res.bind_ok]
  obtain ⟨polys, u', gone, e1, e2, e3, -, -⟩ := Polyline.buildAll_spec _ σ
    (Polyline.sieve (Polyline.keepSubtraction 0 plate sidePlate) x.1 x.2).1 []
    (Polyline.sieve (Polyline.keepSubtraction 0 plate sidePlate) x.1 x.2).2 le_rfl (nodup_toSet _) fun t ht => (h2 t ht).1
  rw [e1, List.nil_append]
  refine ⟨u', ?_⟩
  cases polys with
  | nil => rfl
  | cons p polys =>
    refine (Polyline.no_polygon_of_rank notchRank (l := p.vertices) ?_ fun t ht => (h2 t (e3.mem_iff.1 ?_)).2).elim
    · intro h; have := p.two_le; simp [h] at this
    · exact List.mem_append_left _ (List.mem_flatMap.2 ⟨p, by simp, ht⟩)

end Verif.Props
