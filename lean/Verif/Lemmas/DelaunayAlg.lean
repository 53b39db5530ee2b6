import Verif.Lemmas.Geometry
import Verif.Lemmas.Stokes
import Mathlib.Tactic.LinearCombination
import Mathlib.Tactic.Linarith
import Mathlib.Tactic.Positivity
import Mathlib.Tactic.FieldSimp

/-!
# Circles, cycles of edges and crossings of a ray
-/

set_option linter.unusedSectionVars false

namespace Verif

open Spec

variable {K : Type*} [Field K] [LinearOrder K] [IsStrictOrderedRing K]

/-- Scalar product of `p - a` and `p - b`: negative inside the disk with diameter `a b`. -/
def btw (a b p : Vertex K) : K := (p.x - a.x) * (p.x - b.x) + (p.y - a.y) * (p.y - b.y)

theorem circleDet_btw (a b c d : Vertex K) :
    circleDet a b c d = cross a b d * btw a b c - cross a b c * btw a b d := by
  simp only [circleDet, det4, det3, cross, btw]; ring

theorem circleDet_pencil (a b c v p : Vertex K) :
    circleDet a b v p * cross a b c = circleDet a b c p * cross a b v - circleDet a b c v * cross a b p := by
  simp only [circleDet_btw]; ring

theorem circleDet_rotate (a b c d : Vertex K) : circleDet b c a d = circleDet a b c d := by
  simp only [circleDet, det4, det3]; ring

theorem circleDet_swap (a b c d : Vertex K) : circleDet b a c d = -circleDet a b c d := by
  simp only [circleDet, det4, det3]; ring

/-- The power of a point in barycentric coordinates. -/
theorem circleDet_bary (a b c w : Vertex K) :
    circleDet a b c w * cross a b c =
      cross c a w * cross a b w * dist2 b c + cross a b w * cross b c w * dist2 c a
        + cross b c w * cross c a w * dist2 a b := by
  simp only [circleDet_btw, cross, btw, dist2]; ring

theorem cross_sum (a b c w : Vertex K) :
    cross b c w + cross c a w + cross a b w = cross a b c := by
  simp only [cross]; ring

/-- A point weakly on the wrong side of two sides of a triangle is not strictly inside its circumcircle. -/
theorem circleDet_cone {a b c v : Vertex K} (h : 0 < cross a b c) (h1 : cross a b v ≤ 0)
    (h2 : cross c a v ≤ 0) : circleDet a b c v ≤ 0 := by
  have key : circleDet a b c v * cross a b c
      = -(cross a b c * (-cross a b v * dist2 c a + -cross c a v * dist2 a b))
        - ((cross a b v * (a.x - c.x) - cross c a v * (b.x - a.x)) ^ 2
          + (cross a b v * (a.y - c.y) - cross c a v * (b.y - a.y)) ^ 2) := by
    simp only [circleDet_btw, cross, btw, dist2]; ring
  have d1 : 0 ≤ dist2 c a := by simp only [dist2]; positivity
  have d2 : 0 ≤ dist2 a b := by simp only [dist2]; positivity
  have : circleDet a b c v * cross a b c ≤ 0 := by
    rw [key]
    have : 0 ≤ cross a b c * (-cross a b v * dist2 c a + -cross c a v * dist2 a b) := by
      refine mul_nonneg h.le (add_nonneg (mul_nonneg ?_ d1) (mul_nonneg ?_ d2)) <;> linarith
    nlinarith [sq_nonneg (cross a b v * (a.x - c.x) - cross c a v * (b.x - a.x)),
      sq_nonneg (cross a b v * (a.y - c.y) - cross c a v * (b.y - a.y))]
  by_contra hc
  push Not at hc
  linarith [mul_pos hc h]

theorem dist2_pos {a b : Vertex K} (h : ¬ SamePoint a b) : 0 < dist2 a b := by
  simp only [SamePoint, not_and_or] at h
  simp only [dist2]
  rcases h with h | h
  · have : 0 < (a.x - b.x) ^ 2 := by
      have := sub_ne_zero.2 h
      positivity
    nlinarith [sq_nonneg (a.y - b.y)]
  · have : 0 < (a.y - b.y) ^ 2 := by
      have := sub_ne_zero.2 h
      positivity
    nlinarith [sq_nonneg (a.x - b.x)]

theorem samePoint_of_cross {a b c w : Vertex K} (h : 0 < cross a b c) (h1 : cross a b w = 0)
    (h2 : cross c a w = 0) : SamePoint w a := by
  have e1 : cross a b c * (w.x - a.x) = cross a b w * (c.x - a.x) + cross c a w * (b.x - a.x) := by
    simp only [cross]; ring
  have e2 : cross a b c * (w.y - a.y) = cross a b w * (c.y - a.y) + cross c a w * (b.y - a.y) := by
    simp only [cross]; ring
  rw [h1, h2] at e1 e2
  simp only [zero_mul, add_zero, mul_eq_zero] at e1 e2
  exact ⟨by rcases e1 with e | e <;> linarith, by rcases e2 with e | e <;> linarith⟩

/-- A point of a closed triangle which is not a corner is strictly inside the circumcircle. -/
theorem circleDet_inside {a b c w : Vertex K} (h : 0 < cross a b c) (h1 : 0 ≤ cross a b w)
    (h2 : 0 ≤ cross b c w) (h3 : 0 ≤ cross c a w) (ha : ¬ SamePoint w a) (hb : ¬ SamePoint w b)
    (hc : ¬ SamePoint w c) : 0 < circleDet a b c w := by
  have hbc : cross b c a = cross a b c := cross_rotate a b c
  have hca : cross c a b = cross a b c := by rw [cross_rotate b c a, hbc]
  have dab : 0 < dist2 a b := dist2_pos fun hs => by
    simp only [SamePoint] at hs; simp only [cross, hs.1, hs.2] at h; simp at h
  have dbc : 0 < dist2 b c := dist2_pos fun hs => by
    simp only [SamePoint] at hs; simp only [cross, hs.1, hs.2] at h; ring_nf at h; simp at h
  have dca : 0 < dist2 c a := dist2_pos fun hs => by
    simp only [SamePoint] at hs; simp only [cross, hs.1, hs.2] at h; ring_nf at h; simp at h
  have key := circleDet_bary a b c w
  have hpos : 0 < circleDet a b c w * cross a b c := by
    rw [key]
    have n1 : 0 ≤ cross c a w * cross a b w * dist2 b c := by positivity
    have n2 : 0 ≤ cross a b w * cross b c w * dist2 c a := by positivity
    have n3 : 0 ≤ cross b c w * cross c a w * dist2 a b := by positivity
    rcases h1.eq_or_lt with e1 | e1
    · have e3 : 0 < cross c a w := lt_of_le_of_ne h3 fun e => ha (samePoint_of_cross h e1.symm e.symm)
      have e2 : 0 < cross b c w := lt_of_le_of_ne h2 fun e =>
        hb (samePoint_of_cross (hbc ▸ h) e.symm e1.symm)
      have : 0 < cross b c w * cross c a w * dist2 a b := by positivity
      linarith
    · rcases h2.eq_or_lt with e2 | e2
      · have e3 : 0 < cross c a w := lt_of_le_of_ne h3 fun e =>
          hc (samePoint_of_cross (hca ▸ h) e.symm e2.symm)
        have : 0 < cross c a w * cross a b w * dist2 b c := by positivity
        linarith
      · have : 0 < cross a b w * cross b c w * dist2 c a := by positivity
        linarith
  by_contra hn
  push Not at hn
  nlinarith

section cycles

variable {V : Type*} [DecidableEq V] {R : Type*} [CommRing R] [LinearOrder R] [IsStrictOrderedRing R]

theorem sum_map_neg' {α : Type*} (f : α → R) (l : List α) :
    (l.map fun a => - f a).sum = - (l.map f).sum := by
  induction l with
  | nil => simp
  | cons a l ih => simp [ih]; ring

theorem Balanced.sum_zero {l : List (Edge V)} (h : Balanced l) {f : Edge V → R}
    (hf : ∀ e, f e.opposite = - f e) : (l.map f).sum = 0 := by
  have h1 := (h.perm.map f).sum_eq
  rw [List.map_map] at h1
  have h2 : (f ∘ Edge.opposite) = fun e => - f e := funext hf
  rw [h2, sum_map_neg'] at h1
  linarith

theorem sum_sides' (f : Edge V → R) (l : List (Tri V)) :
    ((sides l).map f).sum = (l.map fun t => (t.innerEdges.map f).sum).sum := by
  induction l with
  | nil => simp [sides]
  | cons t l ih => rw [sides_cons, List.map_append, List.sum_append, ih]; simp

/-- The sides of the triangles `T` are the edges `X` and edges that come in opposite pairs. -/
def Rim (T : List (Tri V)) (X : List (Edge V)) : Prop :=
  ∃ Y, Balanced Y ∧ (sides T).Perm (X ++ Y)

theorem balanced_pairs (Z : List (Edge V)) : Balanced (Z ++ Z.map Edge.opposite) := by
  intro e
  rw [List.count_append, List.count_append, count_opposite, count_opposite, opposite_opposite]
  omega

theorem Rim.sum {T : List (Tri V)} {X : List (Edge V)} (h : Rim T X) {f : Edge V → R}
    (hf : ∀ e, f e.opposite = - f e) :
    (T.map fun t => (t.innerEdges.map f).sum).sum = (X.map f).sum := by
  obtain ⟨Y, hY, hp⟩ := h
  rw [← sum_sides', (hp.map f).sum_eq, List.map_append, List.sum_append, hY.sum_zero hf, add_zero]

/-- The sides that have no opposite side. -/
theorem rim_filter {T : List (Tri V)} (hs : Simple T) :
    Rim T ((sides T).filter fun e => !decide (e.opposite ∈ sides T)) := by
  refine ⟨(sides T).filter fun e => decide (e.opposite ∈ sides T), ?_, ?_⟩
  · intro e
    have hn := hs.nodup_sides.filter (fun e => decide (e.opposite ∈ sides T))
    by_cases h1 : e ∈ sides T <;> by_cases h2 : e.opposite ∈ sides T
    · rw [List.count_eq_one_of_mem hn (List.mem_filter.2 ⟨h1, by simpa using h2⟩),
        List.count_eq_one_of_mem hn (List.mem_filter.2 ⟨h2, by rw [opposite_opposite]; simpa using h1⟩)]
    · rw [List.count_eq_zero.2, List.count_eq_zero.2] <;> simp [List.mem_filter, h1, h2]
    · rw [List.count_eq_zero.2, List.count_eq_zero.2] <;> simp [List.mem_filter, h1, h2]
    · rw [List.count_eq_zero.2, List.count_eq_zero.2] <;> simp [List.mem_filter, h1, h2]
  · have := (List.filter_append_perm (fun e => decide (e.opposite ∈ sides T)) (sides T)).symm
    exact this.trans List.perm_append_comm

/-- Each vertex is entered as often as it is left: sums of differences vanish. -/
def Cycle (R : Type*) [CommRing R] (X : List (Edge V)) : Prop :=
  ∀ ψ : V → R, (X.map fun e => ψ e.v2 - ψ e.v1).sum = 0

theorem Rim.cycle {T : List (Tri V)} {X : List (Edge V)} (h : Rim T X) : Cycle R X := by
  intro ψ
  rw [← h.sum (f := fun e => ψ e.v2 - ψ e.v1) (by intro e; simp only [Edge.opposite]; ring)]
  refine List.sum_eq_zero ?_
  intro x hx
  obtain ⟨t, -, rfl⟩ := List.mem_map.1 hx
  simp only [Tri.innerEdges, List.map_cons, List.map_nil, List.sum_cons, List.sum_nil]
  ring

theorem sum_nonneg_eq {α : Type*} {f : α → R} {l : List α} (h : ∀ a ∈ l, 0 ≤ f a)
    (h0 : (l.map f).sum = 0) : ∀ a ∈ l, f a = 0 := by
  induction l with
  | nil => simp
  | cons a l ih =>
    rw [List.map_cons, List.sum_cons] at h0
    have h1 := h a List.mem_cons_self
    have h2 : 0 ≤ (l.map f).sum := List.sum_nonneg (by
      intro x hx
      obtain ⟨b, hb, rfl⟩ := List.mem_map.1 hx
      exact h b (List.mem_cons_of_mem _ hb))
    intro b hb
    rcases List.mem_cons.1 hb with rfl | hb
    · linarith
    · exact ih (fun c hc => h c (List.mem_cons_of_mem _ hc)) (by linarith) b hb

/-- A function that never decreases abscissa a cycle is constant on each edge. -/
theorem Cycle.mono {X : List (Edge V)} (h : Cycle R X) {ψ : V → R}
    (hm : ∀ e ∈ X, ψ e.v1 ≤ ψ e.v2) : ∀ e ∈ X, ψ e.v1 = ψ e.v2 := by
  intro e he
  have := sum_nonneg_eq (f := fun e : Edge V => ψ e.v2 - ψ e.v1) (l := X)
    (fun a ha => sub_nonneg.2 (hm a ha)) (h ψ) e he
  linarith

end cycles

section crossing

/-- Position of `x` with respect to the line through `v` with direction `(ux, uy)`. -/
def hgt (v : Vertex K) (ux uy : K) (x : Vertex K) : K := ux * (x.y - v.y) - uy * (x.x - v.x)

/-- Abscissa of `x` abscissa the ray from `v` with direction `(ux, uy)`. -/
def abscissa (v : Vertex K) (ux uy : K) (x : Vertex K) : K := ux * (x.x - v.x) + uy * (x.y - v.y)

/-- The edge joins two ordinary vertices. -/
def RealEdge (e : Edge (Vertex K)) : Prop := e.v1.isGhost = false ∧ e.v2.isGhost = false

instance (e : Edge (Vertex K)) : Decidable (RealEdge e) := by unfold RealEdge; infer_instance

/-- Signed crossing of the ray from `v` with direction `(ux, uy)`. -/
def crs (v : Vertex K) (ux uy : K) (e : Edge (Vertex K)) : ℤ :=
  if RealEdge e then
    if hgt v ux uy e.v1 ≤ 0 ∧ 0 < hgt v ux uy e.v2 ∧ 0 < cross e.v1 e.v2 v then 1
    else if hgt v ux uy e.v2 ≤ 0 ∧ 0 < hgt v ux uy e.v1 ∧ cross e.v1 e.v2 v < 0 then -1
    else 0
  else 0

theorem crs_opposite (v : Vertex K) (ux uy : K) (e : Edge (Vertex K)) :
    crs v ux uy e.opposite = - crs v ux uy e := by
  obtain ⟨a, b⟩ := e
  have hc : cross b a v = -cross a b v := cross_swap a b v
  have hr : RealEdge (⟨b, a⟩ : Edge (Vertex K)) ↔ RealEdge (⟨a, b⟩ : Edge (Vertex K)) := by
    simp [RealEdge, and_comm]
  simp only [crs, Edge.opposite, hc, hr]
  by_cases h0 : RealEdge (⟨a, b⟩ : Edge (Vertex K))
  · simp only [h0, if_true, Left.neg_pos_iff, Left.neg_neg_iff]
    by_cases h1 : hgt v ux uy a ≤ 0 ∧ 0 < hgt v ux uy b ∧ 0 < cross a b v
    · have : ¬ (hgt v ux uy b ≤ 0 ∧ 0 < hgt v ux uy a ∧ cross a b v < 0) := fun h => by
        linarith [h1.1, h.2.1]
      simp [h1, this]
    · simp only [h1, if_false]
      split_ifs <;> simp
  · simp [h0]

theorem crs_nonneg {v : Vertex K} {ux uy : K} {e : Edge (Vertex K)} (h : 0 ≤ cross e.v1 e.v2 v) :
    0 ≤ crs v ux uy e := by
  unfold crs
  split_ifs with h1 h2 h3
  · simp
  · exact absurd h3.2.2 (not_lt.2 h)
  · simp
  · simp

theorem crs_ge (v : Vertex K) (ux uy : K) (e : Edge (Vertex K)) : -1 ≤ crs v ux uy e := by
  unfold crs; split_ifs <;> simp

theorem crs_eq_neg_one {v : Vertex K} {ux uy : K} {e : Edge (Vertex K)} (h : crs v ux uy e < 0) :
    hgt v ux uy e.v2 ≤ 0 ∧ 0 < hgt v ux uy e.v1 ∧ cross e.v1 e.v2 v < 0 := by
  unfold crs at h
  split_ifs at h with h1 h2 h3 <;> first | exact h3 | (simp at h)

/-- The ray towards the start of an edge that has `v` on its left crosses that edge. -/
theorem crs_start {v : Vertex K} {e : Edge (Vertex K)} (hr : RealEdge e) (h : 0 < cross e.v1 e.v2 v) :
    crs v (e.v1.x - v.x) (e.v1.y - v.y) e = 1 := by
  unfold crs
  rw [if_pos hr, if_pos]
  refine ⟨le_of_eq ?_, ?_, h⟩
  · simp only [hgt]; ring
  · have : hgt v (e.v1.x - v.x) (e.v1.y - v.y) e.v2 = cross e.v1 e.v2 v := by
      simp only [hgt, cross]; ring
    rw [this]; exact h

theorem abscissa_hgt (v : Vertex K) (ux uy : K) (a b : Vertex K) :
    abscissa v ux uy a * hgt v ux uy b - hgt v ux uy a * abscissa v ux uy b
      = cross a b v * (ux ^ 2 + uy ^ 2) := by
  simp only [abscissa, hgt, cross]; ring

/-- A non-empty cycle of edges that all have `v` on their left crosses every ray from `v`. -/
theorem cycle_crosses {v : Vertex K} {ux uy : K} (hu : ux ≠ 0 ∨ uy ≠ 0) {X : List (Edge (Vertex K))}
    (hX : Cycle K X) (hne : X ≠ []) (hl : ∀ e ∈ X, RealEdge e ∧ 0 < cross e.v1 e.v2 v) :
    1 ≤ (X.map (crs v ux uy)).sum := by
  have hu2 : 0 < ux ^ 2 + uy ^ 2 := by
    rcases hu with h | h <;> positivity
  have hnn : ∀ e ∈ X, 0 ≤ crs v ux uy e := fun e he => crs_nonneg (hl e he).2.le
  by_contra hlt
  push Not at hlt
  have h0 : (X.map (crs v ux uy)).sum = 0 := by
    have : 0 ≤ (X.map (crs v ux uy)).sum := List.sum_nonneg (by
      intro x hx
      obtain ⟨b, hb, rfl⟩ := List.mem_map.1 hx
      exact hnn b hb)
    omega
  have hz := sum_nonneg_eq hnn h0
  have hno : ∀ e ∈ X, hgt v ux uy e.v1 ≤ 0 → hgt v ux uy e.v2 ≤ 0 := by
    intro e he h1
    by_contra h2
    push Not at h2
    have := hz e he
    unfold crs at this
    rw [if_pos (hl e he).1, if_pos ⟨h1, h2, (hl e he).2⟩] at this
    omega
  have hid : ∀ e ∈ X, 0 < abscissa v ux uy e.v1 * hgt v ux uy e.v2 - hgt v ux uy e.v1 * abscissa v ux uy e.v2 := by
    intro e he
    rw [abscissa_hgt]
    exact mul_pos (hl e he).2 hu2
  -- edges do not change sides
  have s1 : ∀ e ∈ X, (hgt v ux uy e.v1 ≤ 0 ↔ hgt v ux uy e.v2 ≤ 0) := by
    have := hX.mono (ψ := fun x => if hgt v ux uy x ≤ 0 then (1 : K) else 0) (by
      intro e he
      by_cases h1 : hgt v ux uy e.v1 ≤ 0
      · simp [h1, hno e he h1]
      · simp only [h1, if_false]; split_ifs <;> simp)
    intro e he
    have := this e he
    by_cases h1 : hgt v ux uy e.v1 ≤ 0
    · exact ⟨fun _ => hno e he h1, fun _ => h1⟩
    · refine ⟨fun h => absurd h h1, fun h2 => ?_⟩
      simp only [h1, h2, if_true, if_false] at this
      exact absurd this zero_ne_one
  -- no edge starts or ends on the line
  have s2 : ∀ e ∈ X, hgt v ux uy e.v1 ≠ 0 := by
    have hend : ∀ e ∈ X, ¬ (hgt v ux uy e.v2 = 0 ∧ abscissa v ux uy e.v2 < 0) := by
      rintro e he ⟨h1, h2⟩
      have h3 := (s1 e he).2 h1.le
      have := hid e he
      rw [h1] at this
      nlinarith
    have := hX.mono (ψ := fun x => if hgt v ux uy x = 0 ∧ abscissa v ux uy x < 0 then (-1 : K) else 0) (by
      intro e he
      simp only [hend e he, if_false]
      split_ifs <;> simp)
    intro e he h1
    have h2 := this e he
    simp only [hend e he, if_false] at h2
    have h3 : abscissa v ux uy e.v1 < 0 := by
      have h4 := (s1 e he).1 h1.le
      have := hid e he
      rw [h1] at this
      nlinarith
    simp [h1, h3] at h2
  have s3 : ∀ e ∈ X, hgt v ux uy e.v2 ≠ 0 := by
    have := hX.mono (ψ := fun x => if hgt v ux uy x = 0 then (1 : K) else 0) (by
      intro e he
      simp only [s2 e he, if_false]
      split_ifs <;> simp)
    intro e he h1
    have h2 := this e he
    simp [s2 e he, h1] at h2
  -- the cotangent decreases abscissa each edge
  obtain ⟨e, he⟩ := List.exists_mem_of_ne_nil X hne
  have hlt2 : ∀ e ∈ X, -(abscissa v ux uy e.v1 / hgt v ux uy e.v1) < -(abscissa v ux uy e.v2 / hgt v ux uy e.v2) := by
    intro e he
    have hprod : 0 < hgt v ux uy e.v1 * hgt v ux uy e.v2 := by
      by_cases h1 : hgt v ux uy e.v1 ≤ 0
      · have h2 := (s1 e he).1 h1
        exact mul_pos_of_neg_of_neg (lt_of_le_of_ne h1 (s2 e he)) (lt_of_le_of_ne h2 (s3 e he))
      · have h2 : ¬ hgt v ux uy e.v2 ≤ 0 := fun h => h1 ((s1 e he).2 h)
        push Not at h1 h2
        exact mul_pos h1 h2
    have := hid e he
    have hq : abscissa v ux uy e.v1 / hgt v ux uy e.v1 - abscissa v ux uy e.v2 / hgt v ux uy e.v2
        = (abscissa v ux uy e.v1 * hgt v ux uy e.v2 - hgt v ux uy e.v1 * abscissa v ux uy e.v2)
          / (hgt v ux uy e.v1 * hgt v ux uy e.v2) := by
      rw [div_sub_div _ _ (s2 e he) (s3 e he)]
    have := div_pos this hprod
    rw [← hq] at this
    linarith
  have := hX.mono (ψ := fun x => -(abscissa v ux uy x / hgt v ux uy x)) (fun e he => (hlt2 e he).le) e he
  exact absurd this (hlt2 e he).ne

theorem hgt_bary (v : Vertex K) (ux uy : K) (a b c : Vertex K) :
    cross b c v * hgt v ux uy a + cross c a v * hgt v ux uy b + cross a b v * hgt v ux uy c = 0 := by
  simp only [hgt, cross]; ring

/-- Signed number of crossings of the ray by the sides of a triangle. -/
def wnd (v : Vertex K) (ux uy : K) (t : Tri (Vertex K)) : ℤ := (t.innerEdges.map (crs v ux uy)).sum

/-- The triangle is counterclockwise and its corners are ordinary. -/
structure SolidTri (t : Tri (Vertex K)) : Prop where
  r1 : t.v1.isGhost = false
  r2 : t.v2.isGhost = false
  r3 : t.v3.isGhost = false
  ccw : 0 < cross t.v1 t.v2 t.v3

private def sgn (p q r : K) : ℤ :=
  if p ≤ 0 ∧ 0 < q ∧ 0 < r then 1 else if q ≤ 0 ∧ 0 < p ∧ r < 0 then -1 else 0

private theorem sgn_up {p q r : K} (hp : p ≤ 0) (hq : 0 < q) : sgn p q r = if 0 < r then 1 else 0 := by
  simp [sgn, hp, hq, not_le.2 hq]

private theorem sgn_down {p q r : K} (hp : 0 < p) (hq : q ≤ 0) :
    sgn p q r = if r < 0 then -1 else 0 := by
  simp [sgn, hp, hq, not_le.2 hp]

private theorem sgn_pos {p q r : K} (hp : 0 < p) (hq : 0 < q) : sgn p q r = 0 := by
  simp [sgn, not_le.2 hp, not_le.2 hq]

private theorem sgn_nonpos {p q r : K} (hp : p ≤ 0) (hq : q ≤ 0) : sgn p q r = 0 := by
  simp [sgn, not_lt.2 hp, not_lt.2 hq]

private theorem sgn_tri {A B C α β γ : K} (hS : 0 < α + β + γ) (hb : α * A + β * B + γ * C = 0)
    (hA : A ≤ 0) (hB : 0 < B) :
    0 ≤ sgn A B γ + sgn B C α + sgn C A β ∧
      (0 < sgn A B γ + sgn B C α + sgn C A β → 0 ≤ α ∧ 0 ≤ β ∧ 0 ≤ γ) ∧
      sgn A B γ + sgn B C α + sgn C A β ≤ 1 := by
  rw [sgn_up hA hB]
  rcases lt_or_ge 0 C with hC | hC
  · rw [sgn_pos hB hC, sgn_down hC hA]
    have k : β < 0 → 0 < γ := by
      intro h
      by_contra hg
      push Not at hg
      have : 0 < α := by linarith
      nlinarith [mul_nonneg this.le (neg_nonneg.2 hA), mul_pos (neg_pos.2 h) hB,
        mul_nonneg (neg_nonneg.2 hg) hC.le]
    by_cases hg : 0 < γ <;> by_cases hn : β < 0
    · simp [hg, hn]
    · simp only [hg, hn, if_true, if_false]
      push Not at hn
      refine ⟨by norm_num, fun _ => ⟨?_, hn, hg.le⟩, by norm_num⟩
      by_contra ha
      push Not at ha
      nlinarith [mul_nonneg (neg_nonneg.2 ha.le) (neg_nonneg.2 hA), mul_nonneg hn hB.le, mul_pos hg hC]
    · exact absurd (k hn) hg
    · simp [hg, hn]
  · rw [sgn_down hB hC, sgn_nonpos hC hA]
    have k : α < 0 → 0 < γ := by
      intro h
      by_contra hg
      push Not at hg
      have : 0 < β := by linarith
      nlinarith [mul_nonneg (neg_nonneg.2 h.le) (neg_nonneg.2 hA), mul_pos this hB,
        mul_nonneg (neg_nonneg.2 hg) (neg_nonneg.2 hC)]
    by_cases hg : 0 < γ <;> by_cases hn : α < 0
    · simp [hg, hn]
    · simp only [hg, hn, if_true, if_false]
      push Not at hn
      refine ⟨by norm_num, fun _ => ⟨hn, ?_, hg.le⟩, by norm_num⟩
      by_contra ha
      push Not at ha
      nlinarith [mul_nonneg hn (neg_nonneg.2 hA), mul_pos (neg_pos.2 ha) hB,
        mul_nonneg hg.le (neg_nonneg.2 hC)]
    · exact absurd (k hn) hg
    · simp [hg, hn]

private theorem sgn_all {A B C α β γ : K} (hS : 0 < α + β + γ) (hb : α * A + β * B + γ * C = 0) :
    0 ≤ sgn A B γ + sgn B C α + sgn C A β ∧
      (0 < sgn A B γ + sgn B C α + sgn C A β → 0 ≤ α ∧ 0 ≤ β ∧ 0 ≤ γ) ∧
      sgn A B γ + sgn B C α + sgn C A β ≤ 1 := by
  have r1 := @sgn_tri K _ _ _ B C A β γ α (by linarith) (by linarith)
  have r2 := @sgn_tri K _ _ _ C A B γ α β (by linarith) (by linarith)
  rcases lt_or_ge 0 A with hA | hA <;> rcases lt_or_ge 0 B with hB | hB <;>
    rcases lt_or_ge 0 C with hC | hC
  · simp [sgn_pos, hA, hB, hC]
  · obtain ⟨k1, k2, k3⟩ := r2 hC hA
    exact ⟨by linarith, fun h => by have := k2 (by linarith); tauto, by linarith⟩
  · obtain ⟨k1, k2, k3⟩ := r1 hB hC
    exact ⟨by linarith, fun h => by have := k2 (by linarith); tauto, by linarith⟩
  · obtain ⟨k1, k2, k3⟩ := r2 hC hA
    exact ⟨by linarith, fun h => by have := k2 (by linarith); tauto, by linarith⟩
  · exact sgn_tri hS hb hA hB
  · exact sgn_tri hS hb hA hB
  · obtain ⟨k1, k2, k3⟩ := r1 hB hC
    exact ⟨by linarith, fun h => by have := k2 (by linarith); tauto, by linarith⟩
  · simp [sgn_nonpos, hA, hB, hC]

private theorem wnd_eq {t : Tri (Vertex K)} (ht : SolidTri t) (v : Vertex K) (ux uy : K) :
    wnd v ux uy t =
      sgn (hgt v ux uy t.v1) (hgt v ux uy t.v2) (cross t.v1 t.v2 v)
      + sgn (hgt v ux uy t.v2) (hgt v ux uy t.v3) (cross t.v2 t.v3 v)
      + sgn (hgt v ux uy t.v3) (hgt v ux uy t.v1) (cross t.v3 t.v1 v) := by
  have r1 : RealEdge (⟨t.v1, t.v2⟩ : Edge (Vertex K)) := ⟨ht.r1, ht.r2⟩
  have r2 : RealEdge (⟨t.v2, t.v3⟩ : Edge (Vertex K)) := ⟨ht.r2, ht.r3⟩
  have r3 : RealEdge (⟨t.v3, t.v1⟩ : Edge (Vertex K)) := ⟨ht.r3, ht.r1⟩
  simp only [wnd, Tri.innerEdges, List.map_cons, List.map_nil, List.sum_cons, List.sum_nil, crs, r1, r2,
    r3, if_true, sgn]
  ring

theorem wnd_nonneg {t : Tri (Vertex K)} (ht : SolidTri t) (v : Vertex K) (ux uy : K) :
    0 ≤ wnd v ux uy t := by
  rw [wnd_eq ht]
  exact (sgn_all (by rw [cross_sum]; exact ht.ccw) (hgt_bary v ux uy _ _ _)).1

theorem wnd_le_one {t : Tri (Vertex K)} (ht : SolidTri t) (v : Vertex K) (ux uy : K) :
    wnd v ux uy t ≤ 1 := by
  rw [wnd_eq ht]
  exact (sgn_all (by rw [cross_sum]; exact ht.ccw) (hgt_bary v ux uy _ _ _)).2.2

/-- If the sides cross the ray then the point is in the closed triangle. -/
theorem wnd_pos {t : Tri (Vertex K)} (ht : SolidTri t) {v : Vertex K} {ux uy : K}
    (h : 0 < wnd v ux uy t) :
    0 ≤ cross t.v2 t.v3 v ∧ 0 ≤ cross t.v3 t.v1 v ∧ 0 ≤ cross t.v1 t.v2 v := by
  rw [wnd_eq ht] at h
  exact (sgn_all (by rw [cross_sum]; exact ht.ccw) (hgt_bary v ux uy _ _ _)).2.1 h

end crossing

end Verif
