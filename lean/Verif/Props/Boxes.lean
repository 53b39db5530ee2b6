import Verif.Lemmas.Boxes
import Mathlib.Tactic.NormNum

/-!
# C05 - C07: bounding boxes, segment intersection, edge containment
-/

set_option linter.unusedSectionVars false

namespace Verif.Props

open Spec

variable {K : Type*} [Field K] [LinearOrder K]

/-! ## C05 -/

/-- C05: only the empty list has no box. -/
theorem C05_none_iff (l : List (Vertex K)) : BBox.fromVertices l = none ↔ l = [] := by
  cases l <;> simp [BBox.fromVertices]

/-- C05: the box contains all the points and every rectangle containing all the points contains
the box. -/
theorem C05_least {l : List (Vertex K)} {b : BBox K} (h : BBox.fromVertices l = some b) :
    (∀ v ∈ l, InBox b.origin b.destin v) ∧
      ∀ lo hi : Vertex K, (∀ v ∈ l, InBox lo hi v) →
        InBox lo hi b.origin ∧ InBox lo hi b.destin := by
  cases l with
  | nil => simp [BBox.fromVertices] at h
  | cons v0 rest =>
    simp only [BBox.fromVertices, Option.some.injEq, Vertex.mk'] at h
    subst h
    constructor
    · intro v hv
      exact ⟨foldl_fmin_le_mem (fun v : Vertex K => v.x) _ _ hv,
        mem_le_foldl_fmax (fun v : Vertex K => v.x) _ _ hv,
        foldl_fmin_le_mem (fun v : Vertex K => v.y) _ _ hv,
        mem_le_foldl_fmax (fun v : Vertex K => v.y) _ _ hv⟩
    · intro lo hi H
      have hm : v0 ∈ v0 :: rest := List.mem_cons_self
      refine ⟨⟨?_, ?_, ?_, ?_⟩, ?_, ?_, ?_, ?_⟩
      · exact le_foldl_fmin (fun v : Vertex K => v.x) _ _ _ (H _ hm).1 fun v hv => (H v hv).1
      · exact (foldl_fmin_le_init (fun v : Vertex K => v.x) _ _).trans (H _ hm).2.1
      · exact le_foldl_fmin (fun v : Vertex K => v.y) _ _ _ (H _ hm).2.2.1
          fun v hv => (H v hv).2.2.1
      · exact (foldl_fmin_le_init (fun v : Vertex K => v.y) _ _).trans (H _ hm).2.2.2
      · exact (H _ hm).1.trans (init_le_foldl_fmax (fun v : Vertex K => v.x) _ _)
      · exact foldl_fmax_le (fun v : Vertex K => v.x) _ _ _ (H _ hm).2.1 fun v hv => (H v hv).2.1
      · exact (H _ hm).2.2.1.trans (init_le_foldl_fmax (fun v : Vertex K => v.y) _ _)
      · exact foldl_fmax_le (fun v : Vertex K => v.y) _ _ _ (H _ hm).2.2.2
          fun v hv => (H v hv).2.2.2

/-- C05: `contains` is membership in the closed rectangle. -/
theorem C05_contains_iff (b : BBox K) (v : Vertex K) :
    b.contains v = true ↔ InBox b.origin b.destin v := bbox_contains_iff b v

/-- C05: two boxes have no intersection exactly when they share no point. -/
theorem C05_intersection_none (b1 b2 : BBox K) :
    BBox.intersection b1 b2 = none ↔
      ¬ ∃ p, b1.contains p = true ∧ b2.contains p = true := by
  simp only [BBox.intersection, fmin_eq, fmax_eq, bbox_contains_iff, InBox]
  constructor
  · intro h
    split_ifs at h with h1
    rintro ⟨p, ⟨a1, a2, a3, a4⟩, b1, b2, b3, b4⟩
    exact h1 ⟨(max_le a1 b1).trans (le_min a2 b2), (max_le a3 b3).trans (le_min a4 b4)⟩
  · intro h
    rw [if_neg]
    rintro ⟨h1, h2⟩
    refine h ⟨⟨max b1.origin.x b2.origin.x, max b1.origin.y b2.origin.y, false⟩,
      ⟨le_max_left _ _, h1.trans (min_le_left _ _), le_max_left _ _, h2.trans (min_le_left _ _)⟩,
      ⟨le_max_right _ _, h1.trans (min_le_right _ _), le_max_right _ _,
        h2.trans (min_le_right _ _)⟩⟩

/-- C05: the intersection box contains exactly the shared points. -/
theorem C05_intersection_some {b1 b2 b : BBox K} (h : BBox.intersection b1 b2 = some b)
    (p : Vertex K) :
    b.contains p = true ↔ b1.contains p = true ∧ b2.contains p = true := by
  simp only [BBox.intersection, fmin_eq, fmax_eq] at h
  split_ifs at h with h1
  simp only [Option.some.injEq, Vertex.mk'] at h
  subst h
  simp only [bbox_contains_iff, InBox, max_le_iff, le_min_iff]
  tauto

/-- C05: a rectangle contains the (corners of the) union exactly when it contains those of both
boxes. -/
theorem C05_union_least (b1 b2 : BBox K) (lo hi : Vertex K) :
    (lo.x ≤ (BBox.union b1 b2).origin.x ∧ lo.y ≤ (BBox.union b1 b2).origin.y ∧
        (BBox.union b1 b2).destin.x ≤ hi.x ∧ (BBox.union b1 b2).destin.y ≤ hi.y) ↔
      (lo.x ≤ b1.origin.x ∧ lo.y ≤ b1.origin.y ∧ b1.destin.x ≤ hi.x ∧ b1.destin.y ≤ hi.y) ∧
        (lo.x ≤ b2.origin.x ∧ lo.y ≤ b2.origin.y ∧ b2.destin.x ≤ hi.x ∧ b2.destin.y ≤ hi.y) := by
  simp only [BBox.union, fmin_eq, fmax_eq, Vertex.mk', le_min_iff, max_le_iff]
  tauto

/-- C05: the union contains all the points of both boxes. -/
theorem C05_union_contains (b1 b2 : BBox K) (p : Vertex K)
    (h : b1.contains p = true ∨ b2.contains p = true) : (BBox.union b1 b2).contains p = true := by
  simp only [bbox_contains_iff, InBox] at h ⊢
  simp only [BBox.union, fmin_eq, fmax_eq, Vertex.mk', min_le_iff, le_max_iff]
  tauto

/-- C05: the union of a list of boxes is the least rectangle containing them all. -/
theorem C05_unionList_least {l : List (BBox K)} {b : BBox K} (h : BBox.unionList l = some b)
    (lo hi : Vertex K) :
    (lo.x ≤ b.origin.x ∧ lo.y ≤ b.origin.y ∧ b.destin.x ≤ hi.x ∧ b.destin.y ≤ hi.y) ↔
      ∀ c ∈ l, lo.x ≤ c.origin.x ∧ lo.y ≤ c.origin.y ∧ c.destin.x ≤ hi.x ∧ c.destin.y ≤ hi.y := by
  cases l with
  | nil => simp [BBox.unionList] at h
  | cons b0 rest =>
    simp only [BBox.unionList, Option.some.injEq, Vertex.mk'] at h
    subst h
    constructor
    · rintro ⟨h1, h2, h3, h4⟩ c hc
      exact ⟨h1.trans (foldl_fmin_le_mem (fun b : BBox K => b.origin.x) _ _ hc),
        h2.trans (foldl_fmin_le_mem (fun b : BBox K => b.origin.y) _ _ hc),
        (mem_le_foldl_fmax (fun b : BBox K => b.destin.x) _ _ hc).trans h3,
        (mem_le_foldl_fmax (fun b : BBox K => b.destin.y) _ _ hc).trans h4⟩
    · intro H
      have hm : b0 ∈ b0 :: rest := List.mem_cons_self
      exact ⟨le_foldl_fmin (fun b : BBox K => b.origin.x) _ _ _ (H _ hm).1 fun c hc => (H c hc).1,
        le_foldl_fmin (fun b : BBox K => b.origin.y) _ _ _ (H _ hm).2.1 fun c hc => (H c hc).2.1,
        foldl_fmax_le (fun b : BBox K => b.destin.x) _ _ _ (H _ hm).2.2.1
          fun c hc => (H c hc).2.2.1,
        foldl_fmax_le (fun b : BBox K => b.destin.y) _ _ _ (H _ hm).2.2.2
          fun c hc => (H c hc).2.2.2⟩

example : ∃ b, BBox.fromVertices [(⟨0, 3, false⟩ : Vertex ℚ), ⟨2, 1, false⟩] = some b :=
  ⟨_, rfl⟩

example : ∃ b, BBox.intersection (⟨⟨0, 0, false⟩, ⟨2, 2, false⟩⟩ : BBox ℚ)
    ⟨⟨1, 1, false⟩, ⟨3, 3, false⟩⟩ = some b := by
  norm_num [BBox.intersection, fmin, fmax]

variable [IsStrictOrderedRing K]

/-! ## C06 -/

theorem intersectionRegion_eq (v1 v2 v3 v4 : Vertex K) :
    intersectionRegion v1 v2 v3 v4 =
      if max (min v1.x v2.x) (min v3.x v4.x) ≤ min (max v1.x v2.x) (max v3.x v4.x) ∧
          max (min v1.y v2.y) (min v3.y v4.y) ≤ min (max v1.y v2.y) (max v3.y v4.y) then
        some ⟨⟨max (min v1.x v2.x) (min v3.x v4.x), max (min v1.y v2.y) (min v3.y v4.y), false⟩,
          ⟨min (max v1.x v2.x) (max v3.x v4.x), min (max v1.y v2.y) (max v3.y v4.y), false⟩⟩
      else none := by
  simp only [intersectionRegion, fromVertices_pair, BBox.intersection, fmin_eq, fmax_eq, Vertex.mk']

theorem inInterval_iff {eps lo hi v : K} (he : 0 ≤ eps) (h : lo ≤ hi) :
    inInterval eps lo hi v = true → lo - eps ≤ v ∧ v ≤ hi + eps := by
  simp only [inInterval, approxEq, Bool.or_eq_true, Bool.and_eq_true, decide_eq_true_eq, ge_iff_le,
    abs_le]
  rintro ((⟨h1, h2⟩ | ⟨h1, h2⟩) | ⟨h1, h2⟩) <;> constructor <;> linarith

/-- C06, soundness: a returned point is within tolerance of both supporting lines and of both bounding
boxes. -/
theorem C06_sound {eps : K} (he : 0 ≤ eps) {a b c d p : Vertex K}
    (h : intersection eps a b c d = some p) :
    |cross a b p| ≤ eps ∧ |cross c d p| ≤ eps ∧
      (min a.x b.x - eps ≤ p.x ∧ p.x ≤ max a.x b.x + eps) ∧
      (min a.y b.y - eps ≤ p.y ∧ p.y ≤ max a.y b.y + eps) ∧
      (min c.x d.x - eps ≤ p.x ∧ p.x ≤ max c.x d.x + eps) ∧
      (min c.y d.y - eps ≤ p.y ∧ p.y ≤ max c.y d.y + eps) := by
  rw [intersection, intersectionRegion_eq] at h
  split_ifs at h with hbox
  simp only [] at h
  set bb : BBox K := ⟨⟨max (min a.x b.x) (min c.x d.x), max (min a.y b.y) (min c.y d.y), false⟩,
    ⟨min (max a.x b.x) (max c.x d.x), min (max a.y b.y) (max c.y d.y), false⟩⟩ with hbb
  cases hv : intersectionVertex eps a b c d bb with
  | none => rw [hv] at h; simp at h
  | some v =>
    rw [hv] at h
    simp only [] at h
    split_ifs at h with hin
    simp only [Option.some.injEq] at h
    subst h
    rw [Bool.and_eq_true] at hin
    have h1 := inInterval_iff he hbox.1 hin.1
    have h2 := inInterval_iff he hbox.2 hin.2
    have l1 := le_max_left (min a.x b.x) (min c.x d.x)
    have l2 := le_max_right (min a.x b.x) (min c.x d.x)
    have l3 := min_le_left (max a.x b.x) (max c.x d.x)
    have l4 := min_le_right (max a.x b.x) (max c.x d.x)
    have m1 := le_max_left (min a.y b.y) (min c.y d.y)
    have m2 := le_max_right (min a.y b.y) (min c.y d.y)
    have m3 := min_le_left (max a.y b.y) (max c.y d.y)
    have m4 := min_le_right (max a.y b.y) (max c.y d.y)
    have hcross : |cross a b v| ≤ eps ∧ |cross c d v| ≤ eps := by
      simp only [intersectionVertex] at hv
      split_ifs at hv with hinv happ
      · simp only [Option.some.injEq, Vertex.mk'] at hv
        rw [Bool.and_eq_true, approxEq_zero_iff, approxEq_zero_iff] at happ
        simp only [segMatrix, Mat2.mul] at happ
        subst hv
        constructor
        · refine le_trans (le_of_eq ?_) happ.1
          congr 1; simp only [cross]; ring
        · refine le_trans (le_of_eq ?_) happ.2
          congr 1; simp only [cross]; ring
      · simp only [Mat2.isInvertible, Bool.not_eq_true', decide_eq_false_iff_not, not_not] at hinv
        simp only [Option.some.injEq, Vertex.mk'] at hv
        set D := (segMatrix a b c d).det with hD
        have hDe : D = -(b.y - a.y) * (d.x - c.x) - (b.x - a.x) * (-(d.y - c.y)) := by
          rw [hD]; simp only [segMatrix, Mat2.det]
        have hx : D * v.x = (d.x - c.x) * (a.y * (b.x - a.x) - a.x * (b.y - a.y))
            - (b.x - a.x) * (c.y * (d.x - c.x) - c.x * (d.y - c.y)) := by
          rw [← hv]; simp only [Mat2.invMul]; rw [← hD, mul_div_cancel₀ _ hinv]; simp only [segMatrix]
        have hy : D * v.y = -(b.y - a.y) * (c.y * (d.x - c.x) - c.x * (d.y - c.y))
            - (-(d.y - c.y)) * (a.y * (b.x - a.x) - a.x * (b.y - a.y)) := by
          rw [← hv]; simp only [Mat2.invMul]; rw [← hD, mul_div_cancel₀ _ hinv]; simp only [segMatrix]
        have z1 : cross a b v = 0 := by
          apply mul_left_cancel₀ hinv
          simp only [cross]
          linear_combination (b.x - a.x) * hy - (b.y - a.y) * hx
            + ((b.y - a.y) * a.x - (b.x - a.x) * a.y) * hDe
        have z2 : cross c d v = 0 := by
          apply mul_left_cancel₀ hinv
          simp only [cross]
          linear_combination (d.x - c.x) * hy - (d.y - c.y) * hx
            + ((d.y - c.y) * c.x - (d.x - c.x) * c.y) * hDe
        rw [z1, z2, abs_zero]; exact ⟨he, he⟩
    refine ⟨hcross.1, hcross.2, ⟨?_, ?_⟩, ⟨?_, ?_⟩, ⟨?_, ?_⟩, ?_, ?_⟩ <;>
      linarith [h1.1, h1.2, h2.1, h2.2]

/-- C06, soundness with zero tolerance: a returned point is on both closed segments. -/
theorem C06_sound_exact {a b c d p : Vertex K} (h : intersection 0 a b c d = some p) :
    OnSegment a b p ∧ OnSegment c d p := by
  obtain ⟨h1, h2, h3, h4, h5, h6⟩ := C06_sound le_rfl h
  simp only [sub_zero, add_zero] at h3 h4 h5 h6
  exact ⟨onSegment_of_cross_box (abs_nonpos_iff.1 h1) h3 h4,
    onSegment_of_cross_box (abs_nonpos_iff.1 h2) h5 h6⟩

theorem inInterval_of_mem {eps lo hi v : K} (h1 : lo ≤ v) (h2 : v ≤ hi) :
    inInterval eps lo hi v = true := by
  simp [inInterval, h1, h2]

/-- C06, completeness: if the two closed segments share a point, a point is returned (any
tolerance). -/
theorem C06_complete {eps : K} (he : 0 ≤ eps) {a b c d q : Vertex K} (h1 : OnSegment a b q)
    (h2 : OnSegment c d q) : (intersection eps a b c d).isSome = true := by
  have b1 := onSegment_box h1
  have b2 := onSegment_box h2
  have bx : max (min a.x b.x) (min c.x d.x) ≤ q.x ∧ q.x ≤ min (max a.x b.x) (max c.x d.x) :=
    ⟨max_le b1.1.1 b2.1.1, le_min b1.1.2 b2.1.2⟩
  have byy : max (min a.y b.y) (min c.y d.y) ≤ q.y ∧ q.y ≤ min (max a.y b.y) (max c.y d.y) :=
    ⟨max_le b1.2.1 b2.2.1, le_min b1.2.2 b2.2.2⟩
  rw [intersection, intersectionRegion_eq, if_pos ⟨bx.1.trans bx.2, byy.1.trans byy.2⟩]
  simp only []
  set bb : BBox K := ⟨⟨max (min a.x b.x) (min c.x d.x), max (min a.y b.y) (min c.y d.y), false⟩,
    ⟨min (max a.x b.x) (max c.x d.x), min (max a.y b.y) (max c.y d.y), false⟩⟩ with hbb
  by_cases hdet : (segMatrix a b c d).det = 0
  · -- parallel segments
    have hmid : ∃ v, intersectionVertex eps a b c d bb = some v ∧
        v.x = (bb.origin.x + bb.destin.x) / 2 ∧ v.y = (bb.origin.y + bb.destin.y) / 2 := by
      refine ⟨⟨(bb.origin.x + bb.destin.x) / 2, (bb.origin.y + bb.destin.y) / 2, false⟩, ?_, rfl, rfl⟩
      simp only [intersectionVertex, Mat2.isInvertible, hdet]
      simp only [ne_eq, not_true_eq_false, decide_false, Bool.not_false, if_true]
      set M : Vertex K := ⟨(bb.origin.x + bb.destin.x) / 2, (bb.origin.y + bb.destin.y) / 2, false⟩
        with hM
      have hM1 : cross a b M = 0 ∧ cross c d M = 0 := by
        have hdet' : (b.x - a.x) * (d.y - c.y) - (b.y - a.y) * (d.x - c.x) = 0 := by
          have : (segMatrix a b c d).det
              = (b.x - a.x) * (d.y - c.y) - (b.y - a.y) * (d.x - c.x) := by
            simp only [segMatrix, Mat2.det]; ring
          rw [← this]; exact hdet
        -- if one segment is a point, the midpoint is that point
        by_cases hab : a.x = b.x ∧ a.y = b.y
        · have hqa : q.x = a.x ∧ q.y = a.y := by
            obtain ⟨t, -, -, hx, hy⟩ := h1
            rw [← hab.1, sub_self, mul_zero, add_zero] at hx
            rw [← hab.2, sub_self, mul_zero, add_zero] at hy
            exact ⟨hx, hy⟩
          have e1 : max (min a.x b.x) (min c.x d.x) = a.x := by
            rw [← hab.1, min_self]; apply max_eq_left; rw [← hqa.1]; exact b2.1.1
          have e2 : min (max a.x b.x) (max c.x d.x) = a.x := by
            rw [← hab.1, max_self]; apply min_eq_left; rw [← hqa.1]; exact b2.1.2
          have e3 : max (min a.y b.y) (min c.y d.y) = a.y := by
            rw [← hab.2, min_self]; apply max_eq_left; rw [← hqa.2]; exact b2.2.1
          have e4 : min (max a.y b.y) (max c.y d.y) = a.y := by
            rw [← hab.2, max_self]; apply min_eq_left; rw [← hqa.2]; exact b2.2.2
          have mx : M.x = q.x := by rw [hM, hbb]; simp only [e1, e2, hqa.1]; ring
          have my : M.y = q.y := by rw [hM, hbb]; simp only [e3, e4, hqa.2]; ring
          have c1 := onSegment_cross h1
          have c2 := onSegment_cross h2
          simp only [cross] at c1 c2 ⊢
          rw [mx, my]; exact ⟨c1, c2⟩
        · -- parametrise both along a b
          have hpar : ∃ s t : K, c.x = a.x + (b.x - a.x) * s ∧ c.y = a.y + (b.y - a.y) * s ∧
              d.x = a.x + (b.x - a.x) * t ∧ d.y = a.y + (b.y - a.y) * t := by
            obtain ⟨tq, -, -, qx, qy⟩ := h1
            obtain ⟨sq, -, -, qx', qy'⟩ := h2
            -- d - c = r (b - a)
            have hr : ∃ r : K, d.x - c.x = r * (b.x - a.x) ∧ d.y - c.y = r * (b.y - a.y) := by
              by_cases hx : b.x - a.x = 0
              · have hy : b.y - a.y ≠ 0 := fun hy => hab ⟨by linarith, by linarith⟩
                refine ⟨(d.y - c.y) / (b.y - a.y), ?_, by field_simp⟩
                have : (b.y - a.y) * (d.x - c.x) = 0 := by rw [hx] at hdet'; linarith
                rcases mul_eq_zero.1 this with h | h
                · exact absurd h hy
                · rw [h, hx, mul_zero]
              · refine ⟨(d.x - c.x) / (b.x - a.x), by field_simp, ?_⟩
                field_simp
                linear_combination hdet'
            obtain ⟨r, rx, ry⟩ := hr
            refine ⟨tq - sq * r, tq - sq * r + r, ?_, ?_, ?_, ?_⟩
            · linear_combination qx - qx' - sq * rx
            · linear_combination qy - qy' - sq * ry
            · linear_combination qx - qx' - sq * rx + rx
            · linear_combination qy - qy' - sq * ry + ry
          obtain ⟨s, t, cx, cy, dx, dy⟩ := hpar
          have hx := mid_affine a.x (b.x - a.x) s t
          have hy := mid_affine a.y (b.y - a.y) s t
          rw [add_sub_cancel, ← cx, ← dx] at hx
          rw [add_sub_cancel, ← cy, ← dy] at hy
          set lam := (max (min 0 1) (min s t) + min (max 0 1) (max s t) : K)
          have mx : 2 * M.x = 2 * a.x + (b.x - a.x) * lam := by
            rw [hM, hbb]; simp only []; rw [hx]; ring
          have my : 2 * M.y = 2 * a.y + (b.y - a.y) * lam := by
            rw [hM, hbb]; simp only []; rw [hy]; ring
          have mx' : M.x = a.x + (b.x - a.x) * (lam / 2) := by linarith
          have my' : M.y = a.y + (b.y - a.y) * (lam / 2) := by linarith
          simp only [cross]
          rw [mx', my', cx, cy, dx, dy]
          constructor <;> ring
      have e1 : ((segMatrix a b c d).mul M.x M.y).1 - (a.y * (b.x - a.x) - a.x * (b.y - a.y)) = 0 := by
        have := hM1.1
        simp only [cross] at this
        simp only [segMatrix, Mat2.mul]
        linear_combination this
      have e2 : ((segMatrix a b c d).mul M.x M.y).2 - (c.y * (d.x - c.x) - c.x * (d.y - c.y)) = 0 := by
        have := hM1.2
        simp only [cross] at this
        simp only [segMatrix, Mat2.mul]
        linear_combination this
      rw [e1, e2]
      simp [approxEq, he, Vertex.mk', hM]
    obtain ⟨v, hv, vx, vy⟩ := hmid
    rw [hv]
    simp only []
    rw [if_pos]
    · rfl
    · have ox : bb.origin.x ≤ bb.destin.x := bx.1.trans bx.2
      have oy : bb.origin.y ≤ bb.destin.y := byy.1.trans byy.2
      rw [Bool.and_eq_true]
      exact ⟨inInterval_of_mem (by rw [vx]; linarith) (by rw [vx]; linarith),
        inInterval_of_mem (by rw [vy]; linarith) (by rw [vy]; linarith)⟩
  · -- crossing lines: the unique common point is q
    have hv : intersectionVertex eps a b c d bb = some ⟨q.x, q.y, false⟩ := by
      simp only [intersectionVertex, Mat2.isInvertible]
      simp only [ne_eq, hdet, not_false_eq_true, decide_true, Bool.not_true, Bool.false_eq_true,
        if_false, Vertex.mk', Option.some.injEq, Vertex.mk.injEq, and_true, Mat2.invMul]
      have c1 := onSegment_cross h1
      have c2 := onSegment_cross h2
      have hDe : (segMatrix a b c d).det
          = -(b.y - a.y) * (d.x - c.x) - (b.x - a.x) * (-(d.y - c.y)) := by
        simp only [segMatrix, Mat2.det]
      simp only [cross] at c1 c2
      constructor
      · rw [div_eq_iff hdet, hDe]
        simp only [segMatrix]
        linear_combination -(d.x - c.x) * c1 + (b.x - a.x) * c2
      · rw [div_eq_iff hdet, hDe]
        simp only [segMatrix]
        linear_combination -(d.y - c.y) * c1 + (b.y - a.y) * c2
    rw [hv]
    simp only []
    rw [if_pos]
    · rfl
    · rw [Bool.and_eq_true]
      exact ⟨inInterval_of_mem bx.1 bx.2, inInterval_of_mem byy.1 byy.2⟩

example : (intersection (0 : ℚ) ⟨0, 0, false⟩ ⟨2, 2, false⟩ ⟨0, 2, false⟩ ⟨2, 0, false⟩).isSome = true :=
  C06_complete le_rfl (q := ⟨1, 1, false⟩) ⟨1 / 2, by norm_num [OnSegment]⟩
    ⟨1 / 2, by norm_num [OnSegment]⟩

/-! ## C07 -/

/-- C07: with zero tolerance, `contains` is membership in the closed segment. -/
theorem C07_exact (e : Edge (Vertex K)) (p : Vertex K) :
    e.contains 0 p = true ↔ OnSegment e.v1 e.v2 p := by
  simp only [Edge.contains, fromVertices_pair, Bool.and_eq_true, bbox_contains_iff, InBox,
    decide_eq_true_eq, orientation, orientDet_eq]
  rw [onSegment_iff]
  by_cases h : cross e.v1 e.v2 p = 0
  · simp [h, approxEq]; tauto
  · have : approxEq 0 (cross e.v1 e.v2 p) 0 = false := by
      rw [← Bool.not_eq_true, approxEq_zero_eps]; exact h
    by_cases h2 : cross e.v1 e.v2 p > 0 <;> simp [h, this, h2]

/-- C07: points of the segment, in particular both ends, are contained for every tolerance. -/
theorem C07_of_onSegment {eps : K} (he : 0 ≤ eps) {e : Edge (Vertex K)} {p : Vertex K}
    (h : OnSegment e.v1 e.v2 p) : e.contains eps p = true := by
  obtain ⟨hc, hx, hy⟩ := onSegment_iff.1 h
  simp only [Edge.contains, fromVertices_pair, Bool.and_eq_true, bbox_contains_iff, InBox,
    decide_eq_true_eq, orientation, orientDet_eq, hc]
  exact ⟨⟨hx.1, hx.2, hy.1, hy.2⟩, by simp [approxEq, he]⟩

/-- C07: both ends are contained. -/
theorem C07_ends {eps : K} (he : 0 ≤ eps) (e : Edge (Vertex K)) :
    e.contains eps e.v1 = true ∧ e.contains eps e.v2 = true :=
  ⟨C07_of_onSegment he (onSegment_left _ _), C07_of_onSegment he (onSegment_right _ _)⟩

/-- C07: conversely a contained point is in the bounding box of the segment, and twice the area it spans
with the segment is within the tolerance. -/
theorem C07_sound {eps : K} {e : Edge (Vertex K)} {p : Vertex K} (h : e.contains eps p = true) :
    |cross e.v1 e.v2 p| ≤ eps ∧ (min e.v1.x e.v2.x ≤ p.x ∧ p.x ≤ max e.v1.x e.v2.x) ∧
      (min e.v1.y e.v2.y ≤ p.y ∧ p.y ≤ max e.v1.y e.v2.y) := by
  simp only [Edge.contains, fromVertices_pair, Bool.and_eq_true, bbox_contains_iff, InBox,
    decide_eq_true_eq, orientation, orientDet_eq] at h
  obtain ⟨⟨h1, h2, h3, h4⟩, h5⟩ := h
  refine ⟨?_, ⟨h1, h2⟩, h3, h4⟩
  split_ifs at h5 with h6
  exact approxEq_zero_iff.1 h6

example : (⟨⟨0, 0, false⟩, ⟨4, 2, false⟩⟩ : Edge (Vertex ℚ)).contains 0 ⟨2, 1, false⟩ = true :=
  (C07_exact _ _).2 ⟨1 / 2, by norm_num, by norm_num, by norm_num, by norm_num⟩

end Verif.Props
