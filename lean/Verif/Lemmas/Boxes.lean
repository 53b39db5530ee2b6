import Verif.Lemmas.Geometry
import Mathlib.Order.MinMax
import Mathlib.Algebra.Order.Group.MinMax

/-! Bounding boxes and segments. -/

set_option linter.unusedSectionVars false

namespace Verif

open Spec

variable {K : Type*} [Field K] [LinearOrder K]

theorem fmin_eq (a b : K) : fmin a b = min a b := by
  rw [fmin, min_def]
  split_ifs with h1 h2 h2
  · rfl
  · exact absurd h1.le h2
  · exact le_antisymm (not_lt.1 h1) h2
  · rfl

theorem fmax_eq (a b : K) : fmax a b = max a b := by
  rw [fmax, max_def]
  split_ifs with h1 h2 h2
  · exact absurd h2 (not_le.2 h1)
  · rfl
  · rfl
  · exact absurd (not_le.1 h2) h1

theorem foldl_fmin_le_init {α : Type*} (f : α → K) (l : List α) (m : K) :
    l.foldl (fun m v => fmin m (f v)) m ≤ m := by
  induction l generalizing m with
  | nil => exact le_rfl
  | cons a l ih => exact (ih _).trans (by simp only [fmin_eq]; exact min_le_left _ _)

theorem foldl_fmin_le_mem {α : Type*} (f : α → K) (l : List α) (m : K) {v : α} (hv : v ∈ l) :
    l.foldl (fun m v => fmin m (f v)) m ≤ f v := by
  induction l generalizing m with
  | nil => simp at hv
  | cons a l ih =>
    rcases List.mem_cons.1 hv with rfl | h
    · exact (foldl_fmin_le_init f l _).trans (by simp only [fmin_eq]; exact min_le_right _ _)
    · exact ih _ h

theorem le_foldl_fmin {α : Type*} (f : α → K) (l : List α) (m c : K) (hm : c ≤ m)
    (h : ∀ v ∈ l, c ≤ f v) : c ≤ l.foldl (fun m v => fmin m (f v)) m := by
  induction l generalizing m with
  | nil => exact hm
  | cons a l ih =>
    refine ih _ ?_ (fun v hv => h v (List.mem_cons_of_mem _ hv))
    simp only [fmin_eq]
    exact le_min hm (h a List.mem_cons_self)

theorem init_le_foldl_fmax {α : Type*} (f : α → K) (l : List α) (m : K) :
    m ≤ l.foldl (fun m v => fmax m (f v)) m := by
  induction l generalizing m with
  | nil => exact le_rfl
  | cons a l ih => exact le_trans (by simp only [fmax_eq]; exact le_max_left _ _) (ih _)

theorem mem_le_foldl_fmax {α : Type*} (f : α → K) (l : List α) (m : K) {v : α} (hv : v ∈ l) :
    f v ≤ l.foldl (fun m v => fmax m (f v)) m := by
  induction l generalizing m with
  | nil => simp at hv
  | cons a l ih =>
    rcases List.mem_cons.1 hv with rfl | h
    · exact le_trans (by simp only [fmax_eq]; exact le_max_right _ _) (init_le_foldl_fmax f l _)
    · exact ih _ h

theorem foldl_fmax_le {α : Type*} (f : α → K) (l : List α) (m c : K) (hm : m ≤ c)
    (h : ∀ v ∈ l, f v ≤ c) : l.foldl (fun m v => fmax m (f v)) m ≤ c := by
  induction l generalizing m with
  | nil => exact hm
  | cons a l ih =>
    refine ih _ ?_ (fun v hv => h v (List.mem_cons_of_mem _ hv))
    simp only [fmax_eq]
    exact max_le hm (h a List.mem_cons_self)

theorem bbox_contains_iff (b : BBox K) (v : Vertex K) :
    b.contains v = true ↔ InBox b.origin b.destin v := by
  simp only [BBox.contains, InBox, Bool.and_eq_true, decide_eq_true_eq, ge_iff_le]
  tauto

/-- The box of a segment. -/
theorem fromVertices_pair (a b : Vertex K) :
    BBox.fromVertices [a, b] =
      some ⟨⟨min a.x b.x, min a.y b.y, false⟩, ⟨max a.x b.x, max a.y b.y, false⟩⟩ := by
  simp only [BBox.fromVertices, List.foldl, Vertex.mk', fmin_eq, fmax_eq, min_self, max_self]

section

variable [IsStrictOrderedRing K]

theorem onSegment_left (a b : Vertex K) : OnSegment a b a := ⟨0, le_rfl, zero_le_one, by ring, by ring⟩

theorem onSegment_right (a b : Vertex K) : OnSegment a b b := ⟨1, zero_le_one, le_rfl, by ring, by ring⟩

theorem onSegment_symm {a b p : Vertex K} (h : OnSegment a b p) : OnSegment b a p := by
  obtain ⟨t, h0, h1, hx, hy⟩ := h
  exact ⟨1 - t, by linarith, by linarith, by rw [hx]; ring, by rw [hy]; ring⟩

theorem between_of_convex {x y t : K} (h0 : 0 ≤ t) (h1 : t ≤ 1) :
    min x y ≤ x + t * (y - x) ∧ x + t * (y - x) ≤ max x y := by
  rcases le_total x y with h | h
  · rw [min_eq_left h, max_eq_right h]
    constructor <;> nlinarith
  · rw [min_eq_right h, max_eq_left h]
    constructor <;> nlinarith

theorem onSegment_cross {a b p : Vertex K} (h : OnSegment a b p) : cross a b p = 0 := by
  obtain ⟨t, -, -, hx, hy⟩ := h
  simp only [cross, hx, hy]; ring

theorem onSegment_box {a b p : Vertex K} (h : OnSegment a b p) :
    (min a.x b.x ≤ p.x ∧ p.x ≤ max a.x b.x) ∧ (min a.y b.y ≤ p.y ∧ p.y ≤ max a.y b.y) := by
  obtain ⟨t, h0, h1, hx, hy⟩ := h
  exact ⟨by rw [hx]; exact between_of_convex h0 h1, by rw [hy]; exact between_of_convex h0 h1⟩

theorem exists_param {x y p : K} (hne : x ≠ y) (h : min x y ≤ p ∧ p ≤ max x y) :
    ∃ t : K, 0 ≤ t ∧ t ≤ 1 ∧ p = x + t * (y - x) := by
  have hd : y - x ≠ 0 := sub_ne_zero.2 hne.symm
  refine ⟨(p - x) / (y - x), ?_, ?_, ?_⟩
  · rcases lt_or_gt_of_ne hne with hl | hl
    · rw [min_eq_left hl.le] at h
      exact div_nonneg (by linarith) (by linarith)
    · rw [max_eq_left hl.le] at h
      exact div_nonneg_of_nonpos (by linarith) (by linarith)
  · rcases lt_or_gt_of_ne hne with hl | hl
    · rw [max_eq_right hl.le] at h
      rw [div_le_one (by linarith)]; linarith
    · rw [min_eq_right hl.le] at h
      rw [div_le_one_of_neg (by linarith)]; linarith
  · field_simp; ring

/-- A point of the line that is in the box of the segment is on the segment. -/
theorem onSegment_of_cross_box {a b p : Vertex K} (hc : cross a b p = 0)
    (hx : min a.x b.x ≤ p.x ∧ p.x ≤ max a.x b.x) (hy : min a.y b.y ≤ p.y ∧ p.y ≤ max a.y b.y) :
    OnSegment a b p := by
  by_cases hax : a.x = b.x
  · have hpx : p.x = a.x := by
      rw [← hax, min_self, max_self] at hx; exact le_antisymm hx.2 hx.1
    by_cases hay : a.y = b.y
    · have hpy : p.y = a.y := by
        rw [← hay, min_self, max_self] at hy; exact le_antisymm hy.2 hy.1
      exact ⟨0, le_rfl, zero_le_one, by rw [hpx]; ring, by rw [hpy]; ring⟩
    · obtain ⟨t, h0, h1, ht⟩ := exists_param hay hy
      exact ⟨t, h0, h1, by rw [hpx, ← hax]; ring, ht⟩
  · obtain ⟨t, h0, h1, ht⟩ := exists_param hax hx
    refine ⟨t, h0, h1, ht, ?_⟩
    have hd : b.x - a.x ≠ 0 := sub_ne_zero.2 (Ne.symm hax)
    simp only [cross] at hc
    apply mul_left_cancel₀ hd
    rw [ht] at hc
    linear_combination hc

theorem onSegment_iff {a b p : Vertex K} : OnSegment a b p ↔ cross a b p = 0 ∧
    (min a.x b.x ≤ p.x ∧ p.x ≤ max a.x b.x) ∧ (min a.y b.y ≤ p.y ∧ p.y ≤ max a.y b.y) :=
  ⟨fun h => ⟨onSegment_cross h, onSegment_box h⟩, fun h => onSegment_of_cross_box h.1 h.2.1 h.2.2⟩

/-- The midpoint of the intersection of two intervals that are images of parameter intervals under the
same affine map is the image of the midpoint of the intersection of the parameter intervals. -/
theorem mid_affine (α u s t : K) :
    max (min α (α + u)) (min (α + u * s) (α + u * t))
        + min (max α (α + u)) (max (α + u * s) (α + u * t))
      = 2 * α + u * (max (min 0 1) (min s t) + min (max 0 1) (max s t)) := by
  have e0 : α = α + u * 0 := by ring
  have e1 : α + u = α + u * 1 := by ring
  have hgen : ∀ f : K → K, (f = fun l => α + u * l) →
      max (min (f 0) (f 1)) (min (f s) (f t)) + min (max (f 0) (f 1)) (max (f s) (f t))
        = 2 * α + u * (max (min 0 1) (min s t) + min (max 0 1) (max s t)) := by
    intro f hf
    rcases le_total 0 u with hu | hu
    · have hm : Monotone f := by
        intro x y hxy; rw [hf]; simp only []; nlinarith
      rw [← hm.map_min, ← hm.map_min, ← hm.map_max, ← hm.map_max, ← hm.map_max, ← hm.map_min, hf]
      ring
    · have hm : Antitone f := by
        intro x y hxy; rw [hf]; simp only []; nlinarith
      rw [← hm.map_max, ← hm.map_max, ← hm.map_min, ← hm.map_min, ← hm.map_min, ← hm.map_max, hf]
      ring
  have := hgen (fun l => α + u * l) rfl
  rw [← e0, ← e1] at this
  exact this

end

end Verif
