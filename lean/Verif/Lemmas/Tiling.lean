import Verif.Lemmas.DelaunayRun
import Verif.Lemmas.Winding

/-!
# Triangles and winding numbers
-/

set_option linter.unusedSectionVars false

namespace Verif

open Spec

variable {K : Type*} [Field K] [LinearOrder K] [IsStrictOrderedRing K]

/-- Mirror image in the horizontal axis. -/
def flipY (p : Vertex K) : Vertex K := ⟨p.x, -p.y, p.isGhost⟩

theorem cross_flipY (a b c : Vertex K) : cross (flipY a) (flipY b) (flipY c) = -cross a b c := by
  simp only [cross, flipY]; ring

def flipTri (t : Tri (Vertex K)) : Tri (Vertex K) := ⟨flipY t.v2, flipY t.v1, flipY t.v3⟩

theorem flip_solid {t : Tri (Vertex K)} (h : SolidTri t) : SolidTri (flipTri t) :=
  ⟨h.r2, h.r1, h.r3, by
    simp only [flipTri, cross_flipY]
    have := h.ccw
    have e : cross t.v2 t.v1 t.v3 = -cross t.v1 t.v2 t.v3 := cross_swap _ _ _
    linarith⟩

theorem crossingAbove_eq_crs {a b : Vertex K} (ha : a.isGhost = false) (hb : b.isGhost = false) (w : Vertex K) :
    crossingAbove w a b = crs (flipY w) 0 (-1) ⟨flipY b, flipY a⟩ := by
  have hr : RealEdge (⟨flipY b, flipY a⟩ : Edge (Vertex K)) := ⟨hb, ha⟩
  have hc : cross (flipY b) (flipY a) (flipY w) = cross a b w := by
    rw [cross_flipY, cross_swap]; ring
  have e : ∀ p : Vertex K, hgt (flipY w) 0 (-1) (flipY p) = p.x - w.x := by
    intro p; simp only [hgt, flipY]; ring
  unfold crossingAbove crs
  rw [if_pos hr]
  simp only [e, hc, sub_nonpos, sub_pos]

theorem sum_crossings {t : Tri (Vertex K)} (h : SolidTri t) (w : Vertex K) :
    crossingAbove w t.v1 t.v2 + crossingAbove w t.v2 t.v3 + crossingAbove w t.v3 t.v1 =
      wnd (flipY w) 0 (-1) (flipTri t) := by
  rw [crossingAbove_eq_crs h.r1 h.r2, crossingAbove_eq_crs h.r2 h.r3, crossingAbove_eq_crs h.r3 h.r1]
  simp only [wnd, Tri.innerEdges, flipTri, List.map_cons, List.map_nil, List.sum_cons, List.sum_nil]
  ring

theorem wnd_inner {t : Tri (Vertex K)} (h : SolidTri t) {w : Vertex K} (hi : Inner t w) {ux uy : K}
    (hu : ux ≠ 0 ∨ uy ≠ 0) : wnd w ux uy t = 1 := by
  have h1 := wnd_le_one h w ux uy
  have h2 := (region_winds (v := w) (R := [t]) (X := t.innerEdges) (by simpa using h) (by simp)
    ⟨[], by simp [Balanced], by simp [sides]⟩ (by
      intro e he _
      simp only [Tri.innerEdges, List.mem_cons, List.not_mem_nil, or_false] at he
      rcases he with rfl | rfl | rfl
      · exact hi.1
      · exact hi.2.1
      · exact hi.2.2) hu).2
  simp only [List.map_cons, List.map_nil, List.sum_cons, List.sum_nil] at h2
  omega

theorem on_side {a b c w : Vertex K} (h : 0 < cross a b c) (h0 : cross a b w = 0) (h1 : 0 ≤ cross b c w)
    (h2 : 0 ≤ cross c a w) : OnSegment a b w := by
  have hs : cross b c w + cross c a w = cross a b c := by
    have : cross a b w + cross b c w + cross c a w = cross a b c := by simp only [cross]; ring
    linarith
  have hD : cross a b c ≠ 0 := h.ne'
  refine ⟨cross c a w / cross a b c, div_nonneg h2 h.le, (div_le_one h).2 (by linarith), ?_, ?_⟩
  · rw [div_mul_eq_mul_div, eq_comm, ← sub_eq_zero]
    have : a.x + cross c a w * (b.x - a.x) / cross a b c - w.x
        = (cross c a w * (b.x - a.x) - (w.x - a.x) * cross a b c) / cross a b c := by field_simp; ring
    rw [this, div_eq_zero_iff]; left
    have e : cross c a w * (b.x - a.x) - (w.x - a.x) * cross a b c = cross a b w * (a.x - c.x) := by
      simp only [cross]; ring
    rw [e, h0, zero_mul]
  · rw [div_mul_eq_mul_div, eq_comm, ← sub_eq_zero]
    have : a.y + cross c a w * (b.y - a.y) / cross a b c - w.y
        = (cross c a w * (b.y - a.y) - (w.y - a.y) * cross a b c) / cross a b c := by field_simp; ring
    rw [this, div_eq_zero_iff]; left
    have e : cross c a w * (b.y - a.y) - (w.y - a.y) * cross a b c = cross a b w * (a.y - c.y) := by
      simp only [cross]; ring
    rw [e, h0, zero_mul]

/-- A point of the closed triangle that is on none of its sides is strictly inside. -/
theorem inner_of_closed {t : Tri (Vertex K)} (h : SolidTri t) {w : Vertex K}
    (hoff : ∀ e, IsSide t e → ¬ OnSegment e.v1 e.v2 w) (h1 : 0 ≤ cross t.v2 t.v3 w) (h2 : 0 ≤ cross t.v3 t.v1 w)
    (h3 : 0 ≤ cross t.v1 t.v2 w) : Inner t w := by
  have c2 : 0 < cross t.v2 t.v3 t.v1 := by
    have : cross t.v2 t.v3 t.v1 = cross t.v1 t.v2 t.v3 := by simp only [cross]; ring
    rw [this]; exact h.ccw
  have c3 : 0 < cross t.v3 t.v1 t.v2 := by
    have : cross t.v3 t.v1 t.v2 = cross t.v1 t.v2 t.v3 := by simp only [cross]; ring
    rw [this]; exact h.ccw
  refine ⟨lt_of_le_of_ne h3 fun e => ?_, lt_of_le_of_ne h1 fun e => ?_, lt_of_le_of_ne h2 fun e => ?_⟩
  · exact hoff ⟨t.v1, t.v2⟩ (Or.inl ⟨rfl, rfl⟩) (on_side h.ccw e.symm h1 h2)
  · exact hoff ⟨t.v2, t.v3⟩ (Or.inr (Or.inl ⟨rfl, rfl⟩)) (on_side c2 e.symm h2 h3)
  · exact hoff ⟨t.v3, t.v1⟩ (Or.inr (Or.inr ⟨rfl, rfl⟩)) (on_side c3 e.symm h3 h1)

theorem inner_closed {t : Tri (Vertex K)} {w : Vertex K} (h : Inner t w) :
    0 ≤ cross t.v2 t.v3 w ∧ 0 ≤ cross t.v3 t.v1 w ∧ 0 ≤ cross t.v1 t.v2 w :=
  ⟨h.2.1.le, h.2.2.le, h.1.le⟩

theorem wnd_eq_ite {t : Tri (Vertex K)} (h : SolidTri t) {w : Vertex K}
    (hoff : ∀ e, IsSide t e → ¬ OnSegment e.v1 e.v2 w) {ux uy : K} (hu : ux ≠ 0 ∨ uy ≠ 0) :
    wnd w ux uy t = if Inner t w then 1 else 0 := by
  split_ifs with hi
  · exact wnd_inner h hi hu
  · have h0 := wnd_nonneg h w ux uy
    by_contra hne
    obtain ⟨k1, k2, k3⟩ := wnd_pos h (lt_of_le_of_ne h0 (Ne.symm hne))
    exact hi (inner_of_closed h hoff k1 k2 k3)

theorem flip_inner {t : Tri (Vertex K)} {w : Vertex K} : Inner (flipTri t) (flipY w) ↔ Inner t w := by
  have e1 : cross (flipY t.v2) (flipY t.v1) (flipY w) = cross t.v1 t.v2 w := by rw [cross_flipY, cross_swap]; ring
  have e2 : cross (flipY t.v1) (flipY t.v3) (flipY w) = cross t.v3 t.v1 w := by rw [cross_flipY, cross_swap]; ring
  have e3 : cross (flipY t.v3) (flipY t.v2) (flipY w) = cross t.v2 t.v3 w := by rw [cross_flipY, cross_swap]; ring
  unfold Inner flipTri
  simp only [e1, e2, e3]
  tauto

theorem flip_onSegment {a b w : Vertex K} (h : OnSegment (flipY b) (flipY a) (flipY w)) : OnSegment a b w := by
  obtain ⟨k, k0, k1, kx, ky⟩ := h
  refine ⟨1 - k, by linarith, by linarith, ?_, ?_⟩
  · simp only [flipY] at kx; rw [kx]; ring
  · simp only [flipY] at ky
    linear_combination -ky

theorem sum_crossings_ite {t : Tri (Vertex K)} (h : SolidTri t) {w : Vertex K}
    (hoff : ∀ e, IsSide t e → ¬ OnSegment e.v1 e.v2 w) :
    crossingAbove w t.v1 t.v2 + crossingAbove w t.v2 t.v3 + crossingAbove w t.v3 t.v1 =
      if Inner t w then 1 else 0 := by
  rw [sum_crossings h, wnd_eq_ite (flip_solid h) _ (Or.inr (by simp))]
  · simp only [flip_inner]
  · intro e he hs
    rcases he with ⟨h1, h2⟩ | ⟨h1, h2⟩ | ⟨h1, h2⟩ <;> rw [h1, h2] at hs
    · exact hoff ⟨t.v1, t.v2⟩ (Or.inl ⟨rfl, rfl⟩) (flip_onSegment hs)
    · exact hoff ⟨t.v3, t.v1⟩ (Or.inr (Or.inr ⟨rfl, rfl⟩)) (flip_onSegment hs)
    · exact hoff ⟨t.v2, t.v3⟩ (Or.inr (Or.inl ⟨rfl, rfl⟩)) (flip_onSegment hs)

theorem crossingAbove_flip (w a b : Vertex K) : crossingAbove w b a = -crossingAbove w a b := by
  have hc : cross b a w = -cross a b w := cross_swap a b w
  unfold crossingAbove
  rw [hc]
  by_cases h1 : b.x ≤ w.x ∧ w.x < a.x ∧ 0 < cross a b w
  · rw [if_pos h1, if_neg (fun h => by linarith [h.1, h1.2.1]), if_pos ⟨h1.1, h1.2.1, by linarith [h1.2.2]⟩]
  · rw [if_neg h1]
    by_cases h2 : a.x ≤ w.x ∧ w.x < b.x ∧ cross a b w < 0
    · rw [if_pos h2, if_pos ⟨h2.1, h2.2.1, by linarith [h2.2.2]⟩]; simp
    · rw [if_neg h2, if_neg (fun h => h2 ⟨h.1, h.2.1, by linarith [h.2.2]⟩),
        if_neg (fun h => h1 ⟨h.1, h.2.1, by linarith [h.2.2]⟩)]; simp

/-- In a closed mesh of counterclockwise triangles, the number of triangles over a point is the winding number of the
outline. -/
theorem covering_eq {T : List (Tri (Vertex K))} (hw : Watertight T) (hs : ∀ t ∈ T, HasGhost t ∨ Face t)
    {w : Vertex K} (hoff : ∀ t ∈ T, ¬ HasGhost t → ∀ e, IsSide t e → ¬ OnSegment e.v1 e.v2 w) :
    (coverings T w : ℤ) = windingNumber (outline T) w := by
  let φ : Edge (Vertex K) → ℤ := fun e =>
    if e.v1.isGhost = false ∧ e.v2.isGhost = false then crossingAbove w e.v1 e.v2 else 0
  have hφ : ∀ e, φ e.opposite = -φ e := by
    intro e
    simp only [φ, Edge.opposite]
    by_cases h : e.v1.isGhost = false ∧ e.v2.isGhost = false
    · rw [if_pos h, if_pos h.symm, crossingAbove_flip]
    · rw [if_neg h, if_neg (fun k => h k.symm)]; simp
  have h0 := (balanced_of_watertight hw).sum_zero (f := φ) hφ
  rw [sum_sides'] at h0
  have key : ∀ l : List (Tri (Vertex K)), (∀ t ∈ l, t ∈ T) →
      (l.map fun t => (t.innerEdges.map φ).sum).sum = (coverings l w : ℤ) - windingNumber (outline l) w := by
    intro l hl
    induction l with
    | nil => simp [coverings, outline, windingNumber]
    | cons t l ih =>
      rw [List.map_cons, List.sum_cons, ih fun x hx => hl x (List.mem_cons_of_mem _ hx)]
      have ht := hl t List.mem_cons_self
      by_cases hg : HasGhost t
      · have e1 : coverings (t :: l) w = coverings l w := by
          simp [coverings, hg]
        have e2 : windingNumber (outline (t :: l)) w = windingNumber (outline l) w - (t.innerEdges.map φ).sum := by
          have hsplit : outline (t :: l) =
              ([(t.v2, t.v1), (t.v3, t.v2), (t.v1, t.v3)].filter fun s => !s.1.isGhost && !s.2.isGhost) ++ outline l := by
            simp [outline, List.filter_cons, hg]
          rw [hsplit, windingNumber, List.map_append, List.sum_append]
          change _ + windingNumber (outline l) w = _
          simp only [Tri.innerEdges, List.map_cons, List.map_nil, List.sum_cons, List.sum_nil, φ, List.filter_cons,
            List.filter_nil]
          have f1 := crossingAbove_flip w t.v1 t.v2
          have f2 := crossingAbove_flip w t.v2 t.v3
          have f3 := crossingAbove_flip w t.v3 t.v1
          rcases Bool.eq_false_or_eq_true t.v1.isGhost with b1 | b1 <;>
          rcases Bool.eq_false_or_eq_true t.v2.isGhost with b2 | b2 <;>
          rcases Bool.eq_false_or_eq_true t.v3.isGhost with b3 | b3 <;>
          simp [b1, b2, b3] <;> omega
        rw [e1, e2]; ring
      · have hsol : SolidTri t := by
          rcases hs t ht with h | h
          · exact absurd h hg
          · exact solid_iff.1 h
        have e2 : outline (t :: l) = outline l := by simp [outline, hg]
        have e1 : (coverings (t :: l) w : ℤ) = coverings l w + if Inner t w then 1 else 0 := by
          unfold coverings
          rw [List.countP_cons]
          by_cases hi : Inner t w <;> simp [hg, hi]
        rw [e1, e2, ← sum_crossings_ite hsol (hoff t ht hg)]
        simp only [Tri.innerEdges, List.map_cons, List.map_nil, List.sum_cons, List.sum_nil, φ, hsol.r1, hsol.r2,
          hsol.r3, and_self, if_true]
        ring
  have := key T fun _ h => h
  omega

section

variable {g : Vertex K} {T : List (Tri (Vertex K))}

theorem Good.face_iff (hT : Good g T) {t : Tri (Vertex K)} (ht : t ∈ T) : ¬ HasGhost t ↔ SolidTri t := by
  constructor
  · intro h
    rcases hT.shape t ht with k | k
    · exact k
    · exact absurd (Or.inr (Or.inr (by rw [k.g3]; exact hT.ghost))) h
  · rintro h (k | k | k)
    · simp [h.r1] at k
    · simp [h.r2] at k
    · simp [h.r3] at k

theorem Good.coverings_le (hT : Good g T) (w : Vertex K) : coverings T w ≤ 1 := by
  have h := hT.part_le_one (List.filter_append_perm (fun t => decide (¬ HasGhost t ∧ Inner t w)) T).symm w 1 0
  have e : ∀ t ∈ T.filter (fun t => decide (¬ HasGhost t ∧ Inner t w)), wnd w 1 0 t = 1 := by
    intro t ht
    rw [List.mem_filter, decide_eq_true_iff] at ht
    exact wnd_inner ((hT.face_iff ht.1).1 ht.2.1) ht.2.2 (Or.inl one_ne_zero)
  rw [List.map_congr_left e, List.map_const', List.sum_replicate] at h
  rw [coverings, List.countP_eq_length_filter]
  simpa using h

theorem Good.coverings_pos (hT : Good g T) {w : Vertex K} :
    0 < coverings T w ↔ ∃ t ∈ T, SolidTri t ∧ Inner t w := by
  rw [coverings, List.countP_pos_iff]
  constructor
  · rintro ⟨t, ht, h⟩
    rw [decide_eq_true_iff] at h
    exact ⟨t, ht, (hT.face_iff ht).1 h.1, h.2⟩
  · rintro ⟨t, ht, h1, h2⟩
    exact ⟨t, ht, by rw [decide_eq_true_iff]; exact ⟨(hT.face_iff ht).2 h1, h2⟩⟩

theorem Good.inner_right (hT : Good g T) {t s : Tri (Vertex K)} (ht : t ∈ T) (hg : GhostTri g t) (hs : s ∈ T)
    (hsol : SolidTri s) {w : Vertex K} (hi : Inner s w) : cross t.v1 t.v2 w ≤ 0 := by
  have k1 := (hT.hull t ht hg s.v1 ⟨⟨s, hs, Or.inl rfl⟩, hsol.r1⟩).1
  have k2 := (hT.hull t ht hg s.v2 ⟨⟨s, hs, Or.inr (Or.inl rfl)⟩, hsol.r2⟩).1
  have k3 := (hT.hull t ht hg s.v3 ⟨⟨s, hs, Or.inr (Or.inr rfl)⟩, hsol.r3⟩).1
  have e : cross s.v1 s.v2 s.v3 * cross t.v1 t.v2 w = cross s.v2 s.v3 w * cross t.v1 t.v2 s.v1
      + cross s.v3 s.v1 w * cross t.v1 t.v2 s.v2 + cross s.v1 s.v2 w * cross t.v1 t.v2 s.v3 := by
    simp only [cross]; ring
  obtain ⟨i1, i2, i3⟩ := hi
  have := hsol.ccw
  by_contra hc
  push Not at hc
  nlinarith [mul_pos this hc, mul_nonneg i1.le (neg_nonneg.2 k3), mul_nonneg i2.le (neg_nonneg.2 k1),
    mul_nonneg i3.le (neg_nonneg.2 k2)]

/-- In a Delaunay mesh a point that is on no edge is in exactly one triangle or strictly outside a hull edge. -/
theorem Good.tiling (hT : Good g T) {s : Tri (Vertex K)} (hs : s ∈ T) (hsol : SolidTri s) {w : Vertex K}
    (hoff : ∀ t ∈ T, ¬ HasGhost t → ∀ e, IsSide t e → ¬ OnSegment e.v1 e.v2 w) :
    ((∀ t ∈ T, GhostTri g t → cross t.v1 t.v2 w ≤ 0) → coverings T w = 1) ∧
      (¬ (∀ t ∈ T, GhostTri g t → cross t.v1 t.v2 w ≤ 0) → coverings T w = 0) := by
  have hle := hT.coverings_le w
  refine ⟨fun h => ?_, fun h => ?_⟩
  · obtain ⟨t, ht, k, k1, k2, k3⟩ := hT.covered hs hsol h
    have := hT.coverings_pos.2 ⟨t, ht, k, inner_of_closed k (hoff t ht ((hT.face_iff ht).2 k)) k1 k2 k3⟩
    omega
  · by_contra hne
    obtain ⟨s', hs', k, hi⟩ := hT.coverings_pos.1 (Nat.pos_of_ne_zero hne)
    exact h fun t ht hg => hT.inner_right ht hg hs' k hi

end

end Verif
