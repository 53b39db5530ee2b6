import Verif.Lemmas.ContinenceGeo
import Mathlib.Algebra.Order.Ring.Rat
import Mathlib.Algebra.Field.Rat

/-!
# Properties C42 and C45: a polyline against a polygon
-/

set_option linter.unusedSectionVars false

namespace Verif.Props

open Spec

variable {K : Type*} [Field K] [LinearOrder K] [IsStrictOrderedRing K]

/-- C42 (part): in exact arithmetic, if the test reports `c`, then **every** point of every edge of the
second polyline is on the polygon or is classified `c` by it. In particular no edge crosses the polygon
from inside to outside. The polygon must have no side of length zero and no side folded back on the
previous one; it may cross itself. Missing: the strict answer, see `C42_strict_partial` and
`C42_strict_false`. -/
theorem C42_everywhere_partial {p q : Polyline (Vertex K)} {fuel : Nat} {c : Continence}
    {b : BoundaryInclusion} (hp : ∀ v ∈ p.vertices, v.isGhost = false)
    (hq : ∀ v ∈ q.vertices, v.isGhost = false) (hfold : NoFold p.vertices)
    (h : Polyline.continence 0 fuel p q = .ok (some (c, b))) :
    ∀ s ∈ pairs q.vertices q.opened, ∀ x, OnSegment s.1 s.2 x →
      p.contains 0 x = some .boundary ∨ p.contains 0 x = some c :=
  continence_everywhere (by
    have := p.two_le
    intro he
    rw [he] at this
    simp at this) hp hq hfold h

/-- C42 (part): for every tolerance, a strict answer means that the midpoint and the first vertex of each
edge are strictly on the reported side. For a closed second polyline these are all its vertices. Missing:
the last vertex of an opened one (`C42_strict_false`) and the other points of the edges. -/
theorem C42_strict_partial {eps : K} {p q : Polyline (Vertex K)} {fuel : Nat} {c : Continence}
    (h : Polyline.continence eps fuel p q = .ok (some (c, .opened))) :
    c ≠ .boundary ∧ ∀ s ∈ pairs q.vertices q.opened,
      p.contains eps s.1 = some c ∧ p.contains eps (Edge.midpoint ⟨s.1, s.2⟩) = some c := by
  obtain ⟨-, -, h2, -⟩ := continence_ok h
  obtain ⟨h3, h4⟩ := h2 rfl
  refine ⟨h3, fun s hs => ⟨h4 _ ?_, h4 _ ?_⟩⟩
  all_goals
    unfold Polyline.criticalVertices Polyline.intoEdges
    exact List.mem_flatMap.2 ⟨⟨s.1, s.2⟩, fromVertexPairs_mem.1 hs, by simp⟩

/-- The square with corners (0,0) and (4,4). -/
def bigSquare : Polyline (Vertex ℚ) :=
  ⟨[⟨0, 0, false⟩, ⟨4, 0, false⟩, ⟨4, 4, false⟩, ⟨0, 4, false⟩], false, by simp⟩

/-- The segment from the centre of the square to the middle of its right side. -/
def centreToSide : Polyline (Vertex ℚ) := ⟨[⟨2, 2, false⟩, ⟨4, 2, false⟩], true, by simp⟩

/-- C42 fails in full: a segment whose last vertex is on the polygon is reported strictly inside, the
reversed segment is not. -/
theorem C42_strict_false :
    ∃ (p q q' : Polyline (Vertex ℚ)) (v : Vertex ℚ), v ∈ q.vertices ∧
      q'.vertices = q.vertices.reverse ∧ q'.opened = q.opened ∧
      p.contains 0 v = some .boundary ∧
      ∃ n, ∀ fuel, n ≤ fuel →
        Polyline.continence 0 fuel p q = .ok (some (.inside, .opened)) ∧
        Polyline.continence 0 fuel p q' = .ok (some (.inside, .closed)) := by
  refine ⟨bigSquare, centreToSide, ⟨[⟨4, 2, false⟩, ⟨2, 2, false⟩], true, by simp⟩, ⟨4, 2, false⟩,
    by decide +kernel, by decide +kernel, rfl, by decide +kernel, 30, ?_⟩
  exact fun fuel h => ⟨continence_mono (n := 30) (by decide +kernel) h,
    continence_mono (n := 30) (by decide +kernel) h⟩

/-- C42: the test never panics, and in exact arithmetic it always returns. -/
theorem C42_terminates {p q : Polyline (Vertex K)} (hp : ∀ v ∈ p.vertices, v.isGhost = false)
    (hq : ∀ v ∈ q.vertices, v.isGhost = false) :
    ∃ n, ∀ fuel, n ≤ fuel → ∃ r, Polyline.continence 0 fuel p q = .ok r :=
  continence_total hp hq

theorem C42_no_panic (eps : K) (fuel : Nat) (p q : Polyline (Vertex K)) :
    Polyline.continence eps fuel p q ≠ .panic :=
  continence_ne_panic eps fuel p q

/-- C42: in exact arithmetic, a polyline all of whose points are strictly on one side is reported to be
strictly on that side. -/
theorem C42_complete {p q : Polyline (Vertex K)} (hp : ∀ v ∈ p.vertices, v.isGhost = false)
    (hq : ∀ v ∈ q.vertices, v.isGhost = false) (hc : p.opened = false) {c : Continence}
    (hb : c ≠ .boundary)
    (h : ∀ s ∈ pairs q.vertices q.opened, ∀ x, OnSegment s.1 s.2 x → p.contains 0 x = some c) :
    ∃ n, ∀ fuel, n ≤ fuel → Polyline.continence 0 fuel p q = .ok (some (c, .opened)) :=
  continence_complete hp hq hc hb h

/-- C42: an opened first polyline has no inside; the test says so. -/
theorem C42_opened (eps : K) (fuel : Nat) (p q : Polyline (Vertex K)) (h : p.opened = true) :
    Polyline.continence eps fuel p q = .ok none := by
  unfold Polyline.continence; rw [if_pos h]

/-- A square with a notch: the polygon of the examples is not convex. -/
def notched : Polyline (Vertex ℚ) :=
  ⟨[⟨0, 0, false⟩, ⟨6, 0, false⟩, ⟨6, 6, false⟩, ⟨3, 2, false⟩, ⟨0, 6, false⟩], false, by simp⟩

/-- The hypotheses of `C42_everywhere_partial` are met by a polygon with a notch and a triangle that
touches its bottom side along a segment. -/
example : NoFold notched.vertices ∧ (∀ v ∈ notched.vertices, v.isGhost = false) ∧
    Polyline.continence 0 200 notched
      ⟨[⟨1, 0, false⟩, ⟨5, 0, false⟩, ⟨3, 1, false⟩], false, by simp⟩ =
        .ok (some (.inside, .closed)) := by
  refine ⟨?_, by decide +kernel, by decide +kernel⟩
  intro i u v w
  have h : ∀ k < 5, ∀ u v w : Vertex ℚ, notched.vertices[k]? = some u →
      notched.vertices[(k + 1) % 5]? = some v → notched.vertices[(k + 2) % 5]? = some w →
      ¬ SamePoint u v ∧
      (cross u v w = 0 → 0 < (v.x - u.x) * (w.x - v.x) + (v.y - u.y) * (w.y - v.y)) := by
    intro k hk u v w hu hv hw
    have hk' : k = 0 ∨ k = 1 ∨ k = 2 ∨ k = 3 ∨ k = 4 := by omega
    rcases hk' with rfl | rfl | rfl | rfl | rfl <;>
    · simp [notched] at hu hv hw
      subst hu; subst hv; subst hw
      refine ⟨fun hs => absurd hs (by unfold SamePoint; norm_num), fun hc => ?_⟩
      exact absurd hc (by unfold cross; norm_num)
  have e1 : notched.vertices.length = 5 := rfl
  rw [e1]
  have e2 : (i + 1) % 5 = (i % 5 + 1) % 5 := by omega
  have e3 : (i + 2) % 5 = (i % 5 + 2) % 5 := by omega
  rw [e2, e3]
  exact h _ (Nat.mod_lt _ (by omega)) u v w

/-- The same polygon rejects a triangle that sticks out through the notch. -/
example : Polyline.continence 0 200 notched
    ⟨[⟨1, 3, false⟩, ⟨5, 3, false⟩, ⟨3, 1, false⟩], false, by simp⟩ = .ok none := by
  decide +kernel

/-- C45: in exact arithmetic, moving a point along a segment that does not touch the polygon never changes
the answer of the point-in-polygon test. -/
theorem C45_locally_constant {p : Polyline (Vertex K)} (hp : p.opened = false) {v w : Vertex K}
    (hmiss : ∀ s ∈ pairs p.vertices false, ∀ x, OnSegment s.1 s.2 x → ¬ OnSegment v w x) :
    p.contains 0 v = p.contains 0 w ∧ p.contains 0 v ≠ some .boundary :=
  contains_const hp hmiss

/-- C45: consequently, any segment from a point reported inside to a point reported outside meets the
polygon. -/
theorem C45_separation {p : Polyline (Vertex K)} (hp : p.opened = false) {v w : Vertex K}
    (hv : p.contains 0 v = some .inside) (hw : p.contains 0 w = some .outside) :
    ∃ s ∈ pairs p.vertices false, ∃ x, OnSegment s.1 s.2 x ∧ OnSegment v w x := by
  by_contra h
  have := (contains_const hp (v := v) (w := w) (fun s hs x hx hx' => h ⟨s, hs, x, hx, hx'⟩)).1
  rw [hv, hw] at this
  simp at this

/-- Far away everything is outside: a point to the right of all vertices. -/
theorem C45_far {p : Polyline (Vertex K)} (hp : p.opened = false) {v : Vertex K}
    (h : ∀ u ∈ p.vertices, u.x < v.x) : p.contains 0 v = some .outside := by
  have hnot : ∀ s ∈ pairs p.vertices false, s.1.x < v.x ∧ s.2.x < v.x := fun s hs =>
    ⟨h _ (mem_pairs hs).1, h _ (mem_pairs hs).2⟩
  obtain ⟨h1, h2⟩ := C08_winding le_rfl p hp v
  have hb : ¬ ∃ s ∈ pairs p.vertices false, NearSegment 0 s.1 s.2 v := by
    rw [← h1, C08_boundary_exact p hp]
    rintro ⟨s, hs, t, t0, t1, tx, -⟩
    obtain ⟨g1, g2⟩ := hnot s hs
    have e : (1 - t) * (v.x - s.1.x) + t * (v.x - s.2.x) = 0 := by rw [tx]; ring
    rcases t0.eq_or_lt with ht | ht
    · rw [← ht] at tx
      linarith
    · have := mul_nonneg (sub_nonneg.2 t1) (sub_pos.2 g1).le
      have := mul_pos ht (sub_pos.2 g2)
      linarith
  rw [(h2 hb).2]
  unfold windingNumber
  apply List.sum_eq_zero
  intro z hz
  obtain ⟨s, hs, rfl⟩ := List.mem_map.1 hz
  obtain ⟨g1, g2⟩ := hnot s hs
  unfold crossingAbove
  rw [if_neg (fun h => absurd h.2.1 (not_lt.2 g1.le)), if_neg (fun h => absurd h.2.1 (not_lt.2 g2.le))]

/-- The notch separates the two tips of the notched polygon. -/
example : notched.contains 0 ⟨1 / 2, 4, false⟩ = some .inside ∧
    notched.contains 0 ⟨3, 4, false⟩ = some .outside ∧
    notched.contains 0 ⟨11 / 2, 4, false⟩ = some .inside := by
  decide +kernel

end Verif.Props
