import Verif.Lemmas.NaturalRefine
import Verif.Model.Triangulator
import Mathlib.Tactic.Ring
import Mathlib.Tactic.FieldSimp
import Mathlib.Tactic.Linarith
import Mathlib.Tactic.LinearCombination
import Mathlib.Algebra.Order.Ring.Abs

/-!
# Changing the unit of length and the origin: the geometric questions
-/

set_option linter.unusedSectionVars false

namespace Verif

variable {K : Type*} [Field K] [LinearOrder K] [IsStrictOrderedRing K]

/-- Multiply the coordinates by `k`, then move by `(a, b)`. -/
def Vertex.sim (k a b : K) (v : Vertex K) : Vertex K := ⟨k * v.x + a, k * v.y + b, v.isGhost⟩

/-- The factor is positive, and it is one unless the comparisons are exact. -/
structure Rescale (eps k : K) : Prop where
  pos : 0 < k
  tol : k = 1 ∨ eps = 0

section numbers

variable {eps k : K} (h : Rescale eps k)
include h

theorem Rescale.approxEq {s : K} (hs : 0 < s) (h1 : k = 1 → s = 1) (u v : K) :
    Verif.approxEq eps (s * u) (s * v) = Verif.approxEq eps u v := by
  unfold Verif.approxEq
  rcases h.tol with hk | he
  · rw [h1 hk, one_mul, one_mul]
  · subst he
    rw [← mul_sub, decide_eq_decide, abs_nonpos_iff, abs_nonpos_iff, mul_eq_zero]
    exact ⟨fun h => h.resolve_left hs.ne', Or.inr⟩

theorem Rescale.approx_pow (n : Nat) (u : K) : Verif.approxEq eps (k ^ n * u) 0 = Verif.approxEq eps u 0 := by
  have := h.approxEq (s := k ^ n) (pow_pos h.pos n) (fun hk => by rw [hk, one_pow]) u 0
  rwa [mul_zero] at this

theorem Rescale.approx_shift (u v c : K) : Verif.approxEq eps (k * u + c) (k * v + c) = Verif.approxEq eps u v := by
  have := h.approxEq h.pos id u v
  unfold Verif.approxEq at this ⊢
  rw [← this, add_sub_add_right_eq_sub]

theorem Rescale.lt_iff (u v c : K) : k * u + c < k * v + c ↔ u < v := by
  rw [add_lt_add_iff_right, mul_lt_mul_iff_right₀ h.pos]

theorem Rescale.le_iff (u v c : K) : k * u + c ≤ k * v + c ↔ u ≤ v := by
  rw [add_le_add_iff_right, mul_le_mul_iff_right₀ h.pos]

theorem Rescale.eq_iff (u v c : K) : k * u + c = k * v + c ↔ u = v := by
  rw [add_left_inj, mul_right_inj' h.pos.ne']

theorem Rescale.pos_iff (n : Nat) (u : K) : 0 < k ^ n * u ↔ 0 < u := mul_pos_iff_of_pos_left (pow_pos h.pos n)

theorem Rescale.fmin (u v c : K) : Verif.fmin (k * u + c) (k * v + c) = k * Verif.fmin u v + c := by
  unfold Verif.fmin
  simp only [h.lt_iff]
  split <;> rfl

theorem Rescale.fmax (u v c : K) : Verif.fmax (k * u + c) (k * v + c) = k * Verif.fmax u v + c := by
  unfold Verif.fmax
  simp only [gt_iff_lt, h.lt_iff]
  split <;> rfl

end numbers

variable {eps k a b : K}

local notation "Φ" => Vertex.sim k a b

theorem Vertex.sim_injective (h : Rescale eps k) : (Vertex.sim k a b).Injective := by
  rintro ⟨x, y, g⟩ ⟨x', y', g'⟩ e
  simp only [Vertex.sim, Vertex.mk.injEq, h.eq_iff] at e
  rw [e.1, e.2.1, e.2.2]

theorem Vertex.mk'_sim (x y : K) : Vertex.mk' (k * x + a) (k * y + b) = Φ (Vertex.mk' x y) := rfl

section predicates

variable (h : Rescale eps k)
include h

theorem Vertex.eqv_sim (v w : Vertex K) : Vertex.eqv eps (Φ v) (Φ w) = Vertex.eqv eps v w := by
  unfold Vertex.eqv
  simp only [Vertex.sim, h.approx_shift]

theorem orientation_sim (u v w : Vertex K) : orientation eps (Φ u) (Φ v) (Φ w) = orientation eps u v w := by
  have : orientDet (Φ u) (Φ v) (Φ w) = k ^ 2 * orientDet u v w := by
    simp only [orientDet, det3, Vertex.sim]
    ring
  unfold orientation
  simp only [this, h.approx_pow, gt_iff_lt, h.pos_iff]

theorem continence_sim (u v w z : Vertex K) : continence eps (Φ u) (Φ v) (Φ w) (Φ z) = continence eps u v w z := by
  have : circleDet (Φ u) (Φ v) (Φ w) (Φ z) = k ^ 4 * circleDet u v w z := by
    simp only [circleDet, det4, det3, Vertex.sim]
    ring
  unfold continence
  simp only [this, h.approx_pow, gt_iff_lt, h.pos_iff]

theorem encroach_sim (u v w : Vertex K) : encroach eps (Φ u) (Φ v) (Φ w) = encroach eps u v w := by
  have : encroachMeasure (Φ u) (Φ v) (Φ w) = k ^ 2 * encroachMeasure u v w := by
    simp only [encroachMeasure, Vertex.sim]
    ring
  unfold encroach
  simp only [this, h.approx_pow, gt_iff_lt, h.pos_iff]

theorem Mat2.isInvertible_smul (m : Mat2 K) :
    Mat2.isInvertible ⟨k * m.a, k * m.b, k * m.c, k * m.d⟩ = m.isInvertible := by
  have : Mat2.det ⟨k * m.a, k * m.b, k * m.c, k * m.d⟩ = k ^ 2 * m.det := by
    simp only [Mat2.det]
    ring
  unfold Mat2.isInvertible
  rw [this, decide_eq_decide, ne_eq, ne_eq, mul_eq_zero]
  simp [h.pos.ne']

theorem Mat2.invMul_smul (m : Mat2 K) (hm : m.det ≠ 0) (c1 c2 p q b1 b2 : K)
    (h1 : c1 = k ^ 2 * b1 + k * (m.a * p + m.b * q)) (h2 : c2 = k ^ 2 * b2 + k * (m.c * p + m.d * q)) :
    Mat2.invMul ⟨k * m.a, k * m.b, k * m.c, k * m.d⟩ c1 c2 = (k * (m.invMul b1 b2).1 + p, k * (m.invMul b1 b2).2 + q) := by
  have hd : Mat2.det ⟨k * m.a, k * m.b, k * m.c, k * m.d⟩ = k ^ 2 * m.det := by
    simp only [Mat2.det]
    ring
  have hk := h.pos.ne'
  unfold Mat2.invMul
  rw [hd, h1, h2]
  simp only [Prod.mk.injEq]
  have e1 : k ^ 2 * m.det ≠ 0 := mul_ne_zero (pow_ne_zero 2 hk) hm
  have hD : m.det = m.a * m.d - m.b * m.c := rfl
  have r1 := div_mul_cancel₀ (m.d * b1 - m.b * b2) hm
  have r2 := div_mul_cancel₀ (m.a * b2 - m.c * b1) hm
  constructor
  · rw [div_eq_iff e1]
    linear_combination -k ^ 3 * r1 - p * k ^ 2 * hD
  · rw [div_eq_iff e1]
    linear_combination -k ^ 3 * r2 - q * k ^ 2 * hD

theorem segMatrix_sim (u v w z : Vertex K) : segMatrix (Φ u) (Φ v) (Φ w) (Φ z)
    = ⟨k * (segMatrix u v w z).a, k * (segMatrix u v w z).b, k * (segMatrix u v w z).c, k * (segMatrix u v w z).d⟩ := by
  simp only [segMatrix, Vertex.sim, Mat2.mk.injEq]
  refine ⟨by ring, by ring, by ring, by ring⟩

theorem parallel_sim (u v w z : Vertex K) : parallel (Φ u) (Φ v) (Φ w) (Φ z) = parallel u v w z := by
  unfold parallel
  rw [segMatrix_sim h, Mat2.isInvertible_smul h]

theorem circumcenter_sim (u v w : Vertex K) :
    circumcenter (Φ u) (Φ v) (Φ w) = (circumcenter u v w).map (Vertex.sim k a b) := by
  unfold circumcenter
  have hm : (⟨(Φ w).x - (Φ u).x, (Φ w).y - (Φ u).y, (Φ v).x - (Φ u).x, (Φ v).y - (Φ u).y⟩ : Mat2 K)
      = ⟨k * (w.x - u.x), k * (w.y - u.y), k * (v.x - u.x), k * (v.y - u.y)⟩ := by
    simp only [Vertex.sim, Mat2.mk.injEq]
    refine ⟨by ring, by ring, by ring, by ring⟩
  have hi := Mat2.isInvertible_smul h ⟨w.x - u.x, w.y - u.y, v.x - u.x, v.y - u.y⟩
  simp only at hi
  simp only [hm, hi]
  by_cases hd : Mat2.det ⟨w.x - u.x, w.y - u.y, v.x - u.x, v.y - u.y⟩ = 0
  · simp [Mat2.isInvertible, hd]
  · have hmul := Mat2.invMul_smul h ⟨w.x - u.x, w.y - u.y, v.x - u.x, v.y - u.y⟩ hd
      ((Φ w).x ^ 2 - (Φ u).x ^ 2 + (Φ w).y ^ 2 - (Φ u).y ^ 2) ((Φ v).x ^ 2 - (Φ u).x ^ 2 + (Φ v).y ^ 2 - (Φ u).y ^ 2)
      (2 * a) (2 * b) (w.x ^ 2 - u.x ^ 2 + w.y ^ 2 - u.y ^ 2) (v.x ^ 2 - u.x ^ 2 + v.y ^ 2 - u.y ^ 2)
      (by simp only [Vertex.sim]; ring) (by simp only [Vertex.sim]; ring)
    simp only at hmul
    rw [hmul]
    simp only [Mat2.isInvertible, hd, ne_eq, not_false_eq_true, decide_true, Bool.not_true, Bool.false_eq_true, if_false,
      Option.map_some, Option.some.injEq, Vertex.mk', Vertex.sim, Vertex.mk.injEq, and_true]
    constructor <;> ring

theorem midpoint_edge_sim (e : Edge (Vertex K)) : (e.map (Vertex.sim k a b)).midpoint = Φ e.midpoint := by
  simp only [Edge.midpoint, Edge.map, Vertex.sim, Vertex.mk', Vertex.mk.injEq, and_true]
  constructor <;> ring

/-- The box after the change. -/
def BBox.sim (k a b : K) (B : BBox K) : BBox K := ⟨B.origin.sim k a b, B.destin.sim k a b⟩

omit h in
theorem foldl_sim {f : K → K → K} {g : Vertex K → K} {c : K} (hf : ∀ u v, f (k * u + c) (k * v + c) = k * f u v + c)
    (hg : ∀ v, g (Φ v) = k * g v + c) (l : List (Vertex K)) (m : K) :
    (l.map (Vertex.sim k a b)).foldl (fun m v => f m (g v)) (k * m + c) = k * l.foldl (fun m v => f m (g v)) m + c := by
  induction l generalizing m with
  | nil => rfl
  | cons v l ih =>
    simp only [List.map_cons, List.foldl_cons]
    rw [hg, hf, ih]

theorem BBox.fromVertices_sim (l : List (Vertex K)) :
    BBox.fromVertices (l.map (Vertex.sim k a b)) = (BBox.fromVertices l).map (BBox.sim k a b) := by
  cases l with
  | nil => rfl
  | cons v l =>
    simp only [List.map_cons, BBox.fromVertices, Option.map_some, Option.some.injEq]
    rw [← List.map_cons]
    have x : ∀ v : Vertex K, (Φ v).x = k * v.x + a := fun _ => rfl
    have y : ∀ v : Vertex K, (Φ v).y = k * v.y + b := fun _ => rfl
    rw [x, y, foldl_sim (fun u w => h.fmin u w a) x, foldl_sim (fun u w => h.fmin u w b) y,
      foldl_sim (fun u w => h.fmax u w a) x, foldl_sim (fun u w => h.fmax u w b) y]
    rfl

theorem BBox.contains_sim (B : BBox K) (v : Vertex K) : (B.sim k a b).contains (Φ v) = B.contains v := by
  simp only [BBox.contains, BBox.sim, Vertex.sim, ge_iff_le, h.le_iff]

theorem BBox.intersection_sim (B C : BBox K) :
    (B.sim k a b).intersection (C.sim k a b) = (B.intersection C).map (BBox.sim k a b) := by
  unfold BBox.intersection
  simp only [BBox.sim, Vertex.sim, h.fmin, h.fmax, h.le_iff]
  split <;> rfl

theorem intersectionRegion_sim (u v w z : Vertex K) :
    intersectionRegion (Φ u) (Φ v) (Φ w) (Φ z) = (intersectionRegion u v w z).map (BBox.sim k a b) := by
  unfold intersectionRegion
  have h1 := BBox.fromVertices_sim (a := a) (b := b) h [u, v]
  have h2 := BBox.fromVertices_sim (a := a) (b := b) h [w, z]
  simp only [List.map_cons, List.map_nil] at h1 h2
  rw [h1, h2]
  cases BBox.fromVertices [u, v] <;> cases BBox.fromVertices [w, z] <;> try rfl
  exact BBox.intersection_sim h _ _

theorem intersectionVertex_sim (u v w z : Vertex K) (B : BBox K) :
    intersectionVertex eps (Φ u) (Φ v) (Φ w) (Φ z) (B.sim k a b)
      = (intersectionVertex eps u v w z B).map (Vertex.sim k a b) := by
  unfold intersectionVertex
  simp only [segMatrix_sim h, Mat2.isInvertible_smul h]
  by_cases hd : (segMatrix u v w z).det = 0
  · have hi : (segMatrix u v w z).isInvertible = false := by simp [Mat2.isInvertible, hd]
    have e1 : (Mat2.mul ⟨k * (segMatrix u v w z).a, k * (segMatrix u v w z).b, k * (segMatrix u v w z).c,
        k * (segMatrix u v w z).d⟩ (((B.sim k a b).origin.x + (B.sim k a b).destin.x) / 2)
        (((B.sim k a b).origin.y + (B.sim k a b).destin.y) / 2)).1
        - ((Φ u).y * ((Φ v).x - (Φ u).x) - (Φ u).x * ((Φ v).y - (Φ u).y))
        = k ^ 2 * (((segMatrix u v w z).mul ((B.origin.x + B.destin.x) / 2) ((B.origin.y + B.destin.y) / 2)).1
          - (u.y * (v.x - u.x) - u.x * (v.y - u.y))) := by
      simp only [segMatrix, BBox.sim, Vertex.sim, Mat2.mul]
      ring
    have e2 : (Mat2.mul ⟨k * (segMatrix u v w z).a, k * (segMatrix u v w z).b, k * (segMatrix u v w z).c,
        k * (segMatrix u v w z).d⟩ (((B.sim k a b).origin.x + (B.sim k a b).destin.x) / 2)
        (((B.sim k a b).origin.y + (B.sim k a b).destin.y) / 2)).2
        - ((Φ w).y * ((Φ z).x - (Φ w).x) - (Φ w).x * ((Φ z).y - (Φ w).y))
        = k ^ 2 * (((segMatrix u v w z).mul ((B.origin.x + B.destin.x) / 2) ((B.origin.y + B.destin.y) / 2)).2
          - (w.y * (z.x - w.x) - w.x * (z.y - w.y))) := by
      simp only [segMatrix, BBox.sim, Vertex.sim, Mat2.mul]
      ring
    simp only [hi, Bool.not_false, if_true]
    simp only [e1, e2, h.approx_pow]
    split
    · simp only [Option.map_some, Option.some.injEq, Vertex.mk', Vertex.sim, BBox.sim, Vertex.mk.injEq, and_true]
      constructor <;> ring
    · rfl
  · have hi : (segMatrix u v w z).isInvertible = true := by simp [Mat2.isInvertible, hd]
    simp only [hi, Bool.not_true, Bool.false_eq_true, if_false, Option.map_some, Option.some.injEq]
    rw [Mat2.invMul_smul h _ hd _ _ a b (u.y * (v.x - u.x) - u.x * (v.y - u.y)) (w.y * (z.x - w.x) - w.x * (z.y - w.y))
      (by simp only [Vertex.sim, segMatrix]; ring) (by simp only [Vertex.sim, segMatrix]; ring)]
    rfl

theorem inInterval_sim (lo hi v c : K) :
    inInterval eps (k * lo + c) (k * hi + c) (k * v + c) = inInterval eps lo hi v := by
  simp only [inInterval, ge_iff_le, h.le_iff, h.approx_shift]

theorem intersection_sim (u v w z : Vertex K) :
    intersection eps (Φ u) (Φ v) (Φ w) (Φ z) = (intersection eps u v w z).map (Vertex.sim k a b) := by
  unfold intersection
  rw [intersectionRegion_sim h]
  cases intersectionRegion u v w z with
  | none => rfl
  | some B =>
    simp only [Option.map_some, intersectionVertex_sim h]
    cases intersectionVertex eps u v w z B with
    | none => rfl
    | some p =>
      have e1 := inInterval_sim h B.origin.x B.destin.x p.x a
      have e2 := inInterval_sim h B.origin.y B.destin.y p.y b
      change inInterval eps (B.sim k a b).origin.x (B.sim k a b).destin.x (Φ p).x = _ at e1
      change inInterval eps (B.sim k a b).origin.y (B.sim k a b).destin.y (Φ p).y = _ at e2
      simp only [Option.map_some, e1, e2]
      split <;> rfl

theorem Edge.contains_sim (e : Edge (Vertex K)) (v : Vertex K) :
    (e.map (Vertex.sim k a b)).contains eps (Φ v) = e.contains eps v := by
  unfold Edge.contains
  have h1 := BBox.fromVertices_sim (a := a) (b := b) h [e.v1, e.v2]
  simp only [List.map_cons, List.map_nil] at h1
  simp only [Edge.map, h1, orientation_sim h]
  cases BBox.fromVertices [e.v1, e.v2] with
  | none => rfl
  | some B => simp only [Option.map_some, BBox.contains_sim h]

omit h in
theorem Tri.isGhost_sim (t : Tri (Vertex K)) : (t.map (Vertex.sim k a b)).isGhost Vertex.isGhost = t.isGhost Vertex.isGhost :=
  rfl

theorem Tri.encircles_sim (t : Tri (Vertex K)) (v : Vertex K) :
    (t.map (Vertex.sim k a b)).encircles eps (Φ v) = t.encircles eps v := by
  unfold Tri.encircles
  simp only [Tri.isGhost_sim]
  simp only [Tri.map, continence_sim h, orientation_sim h]

theorem Tri.circumcenter_sim (t : Tri (Vertex K)) :
    (t.map (Vertex.sim k a b)).circumcenter = t.circumcenter.map (Vertex.sim k a b) := by
  unfold Tri.circumcenter
  rw [Tri.isGhost_sim]
  split
  · rfl
  · exact Verif.circumcenter_sim h _ _ _

omit h in
theorem Tri.center_sim (t : Tri (Vertex K)) : (t.map (Vertex.sim k a b)).center = Φ t.center := by
  have h3 : (3 : K) ≠ 0 := by norm_num
  unfold Tri.center
  rw [Tri.isGhost_sim]
  split
  · simp only [Tri.map, Vertex.sim, Vertex.mk', Vertex.mk.injEq, and_true]
    constructor <;> ring
  · simp only [Tri.map, Vertex.sim, Vertex.mk', Vertex.mk.injEq, and_true]
    constructor <;> field_simp <;> ring

theorem crosses_sim (u v w z : Vertex K) : crosses eps (Φ u) (Φ v) (Φ w) (Φ z) = crosses eps u v w z := by
  unfold crosses
  rw [intersection_sim h, parallel_sim h, Vertex.eqv_sim h, Vertex.eqv_sim h, Vertex.eqv_sim h, Vertex.eqv_sim h,
    Option.isSome_map]

theorem containsLoop_sim (v : Vertex K) (l : List (Vertex K × Vertex K)) (n : Int) :
    Polyline.containsLoop eps (Φ v) (l.map (Prod.map (Vertex.sim k a b) (Vertex.sim k a b))) n
      = Polyline.containsLoop eps v l n := by
  induction l generalizing n with
  | nil => rfl
  | cons p l ih =>
    obtain ⟨u, w⟩ := p
    simp only [List.map_cons, Prod.map, Polyline.containsLoop, orientation_sim h, ih]
    simp only [Vertex.sim, gt_iff_lt, h.eq_iff, h.lt_iff, h.le_iff]

theorem Polyline.contains_sim (p : Polyline (Vertex K)) (v : Vertex K) :
    (p.map (Vertex.sim k a b)).contains eps (Φ v) = p.contains eps v := by
  unfold Polyline.contains
  have h1 : (p.map (Vertex.sim k a b)).opened = p.opened := rfl
  have h2 : (p.map (Vertex.sim k a b)).vertices = p.vertices.map (Vertex.sim k a b) := rfl
  rw [h1, h2, pairs_map, containsLoop_sim h]

end predicates

end Verif
