import Verif.Props.Triangulator
import Verif.Model.Vertices

/-!
# Which triangles may be created (C25)
-/

set_option linter.unusedSectionVars false

namespace Verif.Props

open Spec

variable {K : Type*} [Field K] [LinearOrder K]

theorem outsideHoles_append {eps : K} {fuel : Nat} {p : Polyline (Vertex K)}
    {hs : List (Polyline (Vertex K))} {h : Polyline (Vertex K)} {flag : Bool}
    (hok : outsideHoles eps fuel p (hs ++ [h]) flag = .ok true) :
    ∃ c b, Polyline.continence eps fuel h p = .ok (some (c, b)) ∧ c ≠ .inside := by
  induction hs generalizing flag with
  | nil =>
    simp only [List.nil_append, outsideHoles, Res.bind_eq_ok] at hok
    obtain ⟨r, hr, hok⟩ := hok
    cases r with
    | none => simp at hok
    | some cb =>
      obtain ⟨c, b⟩ := cb
      simp only [Res.ok.injEq, decide_eq_true_eq] at hok
      exact ⟨c, b, hr, hok⟩
  | cons k hs ih =>
    simp only [List.cons_append, outsideHoles, Res.bind_eq_ok] at hok
    obtain ⟨r, hr, hok⟩ := hok
    cases r with
    | none => exact ih hok
    | some cb => exact ih hok

/-- C25 (part): if the triangle is admitted, the probe polyline is not outside the boundary and not inside
the **last** hole visited. Missing: the other holes, see `C25_order_false`. -/
theorem C25_last_partial {eps : K} {fuel : Nat} {boundary : Option (Polyline (Vertex K))}
    {holes : List (Polyline (Vertex K))} {t : Tri (Vertex K)} {v : Vertex K}
    (h : mayInsertTriangle eps fuel boundary holes t v = .ok true) :
    (∀ b ∈ boundary, ∃ c i, Polyline.continence eps fuel b (probe t v) = .ok (some (c, i)) ∧
      c ≠ .outside) ∧
    ∀ p ∈ holes.getLast?, ∃ c i, Polyline.continence eps fuel p (probe t v) = .ok (some (c, i)) ∧
      c ≠ .inside := by
  unfold mayInsertTriangle at h
  simp only [Res.bind_eq_ok] at h
  obtain ⟨inB, hB, outH, hH, h⟩ := h
  simp only [Res.ok.injEq, Bool.and_eq_true] at h
  obtain ⟨rfl, rfl⟩ := h
  constructor
  · intro b hb
    have hb' : boundary = some b := hb
    subst hb'
    simp only [Res.bind_eq_ok] at hB
    obtain ⟨r, hr, hB⟩ := hB
    cases r with
    | none => simp at hB
    | some cb =>
      obtain ⟨c, i⟩ := cb
      simp only [Res.ok.injEq, decide_eq_true_eq] at hB
      exact ⟨c, i, hr, hB⟩
  · intro p hp
    rcases List.eq_nil_or_concat' holes with rfl | ⟨l, q, rfl⟩
    · simp at hp
    · simp only [List.getLast?_append, List.getLast?_singleton, Option.some_or] at hp
      have hpq : q = p := by simpa using hp
      subst hpq
      exact outsideHoles_append hH

/-- C25 (part): with at most one hole, in exact arithmetic and for polygons that are not folded back, every
point of the probe (the segment from the centre of the triangle to the new vertex, or the triangle on the
ghost's edge) is inside or on the boundary and outside or on the hole. -/
theorem C25_single_partial [IsStrictOrderedRing K] {fuel : Nat} {b p : Polyline (Vertex K)}
    {t : Tri (Vertex K)} {v : Vertex K} (h : mayInsertTriangle 0 fuel (some b) [p] t v = .ok true)
    (hb : NoFold b.vertices ∧ ∀ u ∈ b.vertices, u.isGhost = false)
    (hp : NoFold p.vertices ∧ ∀ u ∈ p.vertices, u.isGhost = false)
    (ht : ∀ u ∈ (probe t v).vertices, u.isGhost = false) :
    ∀ s ∈ pairs (probe t v).vertices (probe t v).opened, ∀ q, OnSegment s.1 s.2 q →
      (b.contains 0 q = some .boundary ∨ b.contains 0 q = some .inside) ∧
      (p.contains 0 q = some .boundary ∨ p.contains 0 q = some .outside) := by
  obtain ⟨h1, h2⟩ := C25_last_partial h
  obtain ⟨c, i, hc, hc'⟩ := h1 b rfl
  obtain ⟨d, j, hd, hd'⟩ := h2 p rfl
  intro s hs q hq
  have e1 := C42_everywhere_partial hb.2 ht hb.1 hc s hs q hq
  have e2 := C42_everywhere_partial hp.2 ht hp.1 hd s hs q hq
  constructor
  · cases c with
    | inside => exact e1
    | outside => exact absurd rfl hc'
    | boundary => tauto
  · cases d with
    | inside => exact absurd rfl hd'
    | outside => exact e2
    | boundary => tauto

/-- Two disjoint holes. -/
def leftHole : Polyline (Vertex ℚ) :=
  ⟨[⟨1, 1, false⟩, ⟨3, 1, false⟩, ⟨3, 3, false⟩, ⟨1, 3, false⟩], false, by simp⟩
def rightHole : Polyline (Vertex ℚ) :=
  ⟨[⟨5, 1, false⟩, ⟨7, 1, false⟩, ⟨7, 3, false⟩, ⟨5, 3, false⟩], false, by simp⟩
/-- A boundary around them. -/
def wideBox : Polyline (Vertex ℚ) :=
  ⟨[⟨0, 0, false⟩, ⟨8, 0, false⟩, ⟨8, 4, false⟩, ⟨0, 4, false⟩], false, by simp⟩
/-- A triangle inside the left hole. -/
def inLeft : Tri (Vertex ℚ) := ⟨⟨1, 1, false⟩, ⟨3, 1, false⟩, ⟨2, 3, false⟩⟩

/-- C25 fails in full: whether a triangle strictly inside one of two holes is admitted depends on the order
in which the holes are visited. -/
theorem C25_order_false :
    ∃ (b p q : Polyline (Vertex ℚ)) (t : Tri (Vertex ℚ)) (v : Vertex ℚ) (fuel : Nat),
      p.contains 0 t.center = some .inside ∧ p.contains 0 v = some .inside ∧
      mayInsertTriangle 0 fuel (some b) [p, q] t v = .ok true ∧
      mayInsertTriangle 0 fuel (some b) [q, p] t v = .ok false :=
  ⟨wideBox, leftHole, rightHole, inLeft, ⟨2, 3 / 2, false⟩, 80, by decide +kernel, by decide +kernel,
    by decide +kernel, by decide +kernel⟩

/-- The hypotheses of the partial theorems are met by a triangle between the holes. -/
example : mayInsertTriangle 0 80 (some wideBox) [leftHole]
      ⟨⟨4, 0, false⟩, ⟨5, 1, false⟩, ⟨3, 1, false⟩⟩ (⟨4, 3, false⟩ : Vertex ℚ) = .ok true ∧
    ∀ u ∈ (probe ⟨⟨4, 0, false⟩, ⟨5, 1, false⟩, ⟨3, 1, false⟩⟩ (⟨4, 3, false⟩ : Vertex ℚ)).vertices,
      u.isGhost = false := by
  decide +kernel

end Verif.Props
