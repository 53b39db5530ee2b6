import Verif.Lemmas.Unique
import Verif.Lemmas.ConvexPolygon
import Mathlib.Algebra.BigOperators.Ring.Finset
import Mathlib.Algebra.Order.BigOperators.Group.Finset
import Mathlib.Algebra.BigOperators.Group.Finset.Piecewise
import Mathlib.Algebra.CharZero.Infinite

/-!
# Counting the triangles of a mesh

Each triangle is counted at the corner that is between the other two in some direction. Right above and right below a vertex
inside the domain there is exactly one triangle of which it is that corner.
-/

set_option linter.unusedSectionVars false

namespace Verif

open Spec Props

variable {K : Type*} [Field K] [LinearOrder K] [IsStrictOrderedRing K]

/-- True of all small positive numbers. -/
def Soon (P : K → Prop) : Prop := ∃ d, 0 < d ∧ ∀ s, 0 < s → s < d → P s

theorem Soon.and {P Q : K → Prop} (hP : Soon P) (hQ : Soon Q) : Soon fun s => P s ∧ Q s := by
  obtain ⟨d, hd, h⟩ := hP
  obtain ⟨d', hd', h'⟩ := hQ
  exact ⟨min d d', lt_min hd hd', fun s h0 h1 => ⟨h s h0 (h1.trans_le (min_le_left _ _)), h' s h0 (h1.trans_le (min_le_right _ _))⟩⟩

theorem Soon.mono {P Q : K → Prop} (hP : Soon P) (h : ∀ s, 0 < s → P s → Q s) : Soon Q := by
  obtain ⟨d, hd, k⟩ := hP
  exact ⟨d, hd, fun s h0 h1 => h s h0 (k s h0 h1)⟩

theorem Soon.all {α : Type*} {P : α → K → Prop} (l : List α) (h : ∀ a ∈ l, Soon (P a)) : Soon fun s => ∀ a ∈ l, P a s := by
  induction l with
  | nil => exact ⟨1, one_pos, by simp⟩
  | cons a l ih =>
    refine ((h a (by simp)).and (ih fun x hx => h x (by simp [hx]))).mono fun s _ hs x hx => ?_
    rcases List.mem_cons.1 hx with rfl | hx
    exacts [hs.1, hs.2 x hx]

theorem Soon.exists {P : K → Prop} (h : Soon P) : ∃ s, 0 < s ∧ P s := by
  obtain ⟨d, hd, k⟩ := h
  exact ⟨d / 2, half_pos hd, k _ (half_pos hd) (half_lt_self hd)⟩

theorem soon_pos {c : K} (hc : 0 < c) (m : K) : Soon fun s => 0 < c + s * m ∧ 0 < c + -s * m := by
  refine ⟨c / (|m| + 1), div_pos hc (by positivity), fun s h0 h1 => ?_⟩
  rw [lt_div_iff₀ (by positivity)] at h1
  have h2 := abs_nonneg m
  have h3 := mul_le_mul_of_nonneg_left (le_abs_self m) h0.le
  have h4 := mul_le_mul_of_nonneg_left (neg_abs_le m) h0.le
  constructor <;> nlinarith

/-- The order of the vertices. -/
def slant (h : K) (v : Vertex K) : K := v.x + h * v.y

/-- The point at the height `s` over the vertex. -/
def shift (h : K) (v : Vertex K) (s : K) : Vertex K := ⟨v.x - s * h, v.y + s, false⟩

theorem cross_shift (h : K) (a b v : Vertex K) (s : K) :
    cross a b (shift h v s) = cross a b v + s * (slant h b - slant h a) := by
  simp only [cross, shift, slant]; ring

/-- The vertex is the middle corner and the triangle is over it. -/
def Rises (h : K) (t : Tri (Vertex K)) (v : Vertex K) : Prop :=
  (v = t.v1 ∧ slant h t.v3 < slant h t.v1 ∧ slant h t.v1 < slant h t.v2) ∨
  (v = t.v2 ∧ slant h t.v1 < slant h t.v2 ∧ slant h t.v2 < slant h t.v3) ∨
  (v = t.v3 ∧ slant h t.v2 < slant h t.v3 ∧ slant h t.v3 < slant h t.v1)

/-- The vertex is the middle corner and the triangle is under it. -/
def Falls (h : K) (t : Tri (Vertex K)) (v : Vertex K) : Prop :=
  (v = t.v1 ∧ slant h t.v1 < slant h t.v3 ∧ slant h t.v2 < slant h t.v1) ∨
  (v = t.v2 ∧ slant h t.v2 < slant h t.v1 ∧ slant h t.v3 < slant h t.v2) ∨
  (v = t.v3 ∧ slant h t.v3 < slant h t.v2 ∧ slant h t.v1 < slant h t.v3)

instance (h : K) (t : Tri (Vertex K)) (v : Vertex K) : Decidable (Rises h t v) := by unfold Rises; infer_instance

instance (h : K) (t : Tri (Vertex K)) (v : Vertex K) : Decidable (Falls h t v) := by unfold Falls; infer_instance

/-- Each triangle has one middle corner. -/
theorem middle_corner {h : K} {t : Tri (Vertex K)} (h12 : slant h t.v1 ≠ slant h t.v2) (h23 : slant h t.v2 ≠ slant h t.v3)
    (h31 : slant h t.v3 ≠ slant h t.v1) : ∃ c, IsCorner t c ∧ ∀ v,
      (if Rises h t v then 1 else 0) + (if Falls h t v then 1 else 0) = if v = c then 1 else 0 := by
  have n12 : t.v1 ≠ t.v2 := fun e => h12 (by rw [e])
  have n23 : t.v2 ≠ t.v3 := fun e => h23 (by rw [e])
  have n31 : t.v3 ≠ t.v1 := fun e => h31 (by rw [e])
  rcases lt_or_gt_of_ne h12 with a | a <;> rcases lt_or_gt_of_ne h23 with b | b <;> rcases lt_or_gt_of_ne h31 with c | c
  · exact absurd (a.trans (b.trans c)) (lt_irrefl _)
  · refine ⟨t.v2, Or.inr (Or.inl rfl), fun v => ?_⟩
    simp [Rises, Falls, a, b, c, not_lt.2 a.le, not_lt.2 b.le, not_lt.2 c.le]
  · refine ⟨t.v1, Or.inl rfl, fun v => ?_⟩
    simp [Rises, Falls, a, b, c, not_lt.2 a.le, not_lt.2 b.le, not_lt.2 c.le]
  · refine ⟨t.v3, Or.inr (Or.inr rfl), fun v => ?_⟩
    simp [Rises, Falls, a, b, c, not_lt.2 a.le, not_lt.2 b.le, not_lt.2 c.le]
  · refine ⟨t.v3, Or.inr (Or.inr rfl), fun v => ?_⟩
    simp [Rises, Falls, a, b, c, not_lt.2 a.le, not_lt.2 b.le, not_lt.2 c.le]
  · refine ⟨t.v1, Or.inl rfl, fun v => ?_⟩
    simp [Rises, Falls, a, b, c, not_lt.2 a.le, not_lt.2 b.le, not_lt.2 c.le]
  · refine ⟨t.v2, Or.inr (Or.inl rfl), fun v => ?_⟩
    simp [Rises, Falls, a, b, c, not_lt.2 a.le, not_lt.2 b.le, not_lt.2 c.le]
  · exact absurd (c.trans (b.trans a)) (lt_irrefl _)

/-- The direction tells the vertices apart. -/
def Generic (h : K) (S : Finset (Vertex K)) : Prop := ∀ p ∈ S, ∀ q ∈ S, p ≠ q → slant h p ≠ slant h q

theorem exists_generic (S : Finset (Vertex K)) (hS : ∀ p ∈ S, p.isGhost = false) : ∃ h, Generic h S := by
  obtain ⟨h, hh⟩ := Infinite.exists_notMem_finset ((S ×ˢ S).image fun q => (q.2.x - q.1.x) / (q.1.y - q.2.y))
  refine ⟨h, fun p hp q hq hne e => ?_⟩
  by_cases hy : p.y = q.y
  · apply hne
    have hx : p.x = q.x := by simpa [slant, hy] using e
    have := (hS p hp).trans (hS q hq).symm
    cases p; cases q
    simp_all
  · refine hh (Finset.mem_image.2 ⟨(p, q), Finset.mem_product.2 ⟨hp, hq⟩, ?_⟩)
    have : p.y - q.y ≠ 0 := sub_ne_zero.2 hy
    simp only [slant] at e
    field_simp
    linarith

/-- The triangles, counted at their middle corners. -/
theorem count_middles {h : K} {S : Finset (Vertex K)} (hg : Generic h S) (M : List (Tri (Vertex K)))
    (hM : ∀ t ∈ M, SolidTri t → ∀ p, IsCorner t p → p ∈ S) (hs : ∀ t ∈ M, ¬ HasGhost t → SolidTri t) :
    (M.countP fun t => decide (¬ HasGhost t)) = ∑ v ∈ S, ((M.countP fun t => decide (¬ HasGhost t ∧ Rises h t v)) +
      M.countP fun t => decide (¬ HasGhost t ∧ Falls h t v)) := by
  induction M with
  | nil => simp
  | cons t M ih =>
    have ih := ih (fun r hr => hM r (by simp [hr])) fun r hr => hs r (by simp [hr])
    by_cases hgt : HasGhost t
    · simpa [List.countP_cons, hgt] using ih
    · have st := hs t (by simp) hgt
      have hc := hM t (by simp) st
      obtain ⟨n1, n2, n3⟩ := face_ne (solid_iff.2 st)
      obtain ⟨c, hcc, k⟩ := middle_corner (h := h) (hg _ (hc _ (Or.inl rfl)) _ (hc _ (Or.inr (Or.inl rfl))) n1)
        (hg _ (hc _ (Or.inr (Or.inl rfl))) _ (hc _ (Or.inr (Or.inr rfl))) n2) (hg _ (hc _ (Or.inr (Or.inr rfl))) _ (hc _ (Or.inl rfl)) n3)
      have e : ∀ v, ((t :: M).countP fun t => decide (¬ HasGhost t ∧ Rises h t v)) +
          ((t :: M).countP fun t => decide (¬ HasGhost t ∧ Falls h t v)) =
          ((M.countP fun t => decide (¬ HasGhost t ∧ Rises h t v)) + M.countP fun t => decide (¬ HasGhost t ∧ Falls h t v)) +
            if v = c then 1 else 0 := by
        intro v
        rw [← k v]
        simp only [List.countP_cons, decide_eq_true_eq, hgt, not_false_eq_true, true_and]
        ring
      simp only [e, Finset.sum_add_distrib, Finset.sum_ite_eq', hc c hcc, if_true]
      rw [Finset.sum_add_distrib] at ih
      rw [List.countP_cons, ih]
      simp [hgt]

/-- Right over and right under the corner of a triangle. -/
theorem inner_shift_three (h : K) {v w u : Vertex K} (hc : 0 < cross v w u) : Soon fun s =>
    ((0 < cross v w (shift h v s) ∧ 0 < cross w u (shift h v s) ∧ 0 < cross u v (shift h v s)) ↔
      (slant h u < slant h v ∧ slant h v < slant h w)) ∧
    ((0 < cross v w (shift h v (-s)) ∧ 0 < cross w u (shift h v (-s)) ∧ 0 < cross u v (shift h v (-s))) ↔
      (slant h v < slant h u ∧ slant h w < slant h v)) := by
  have e1 : cross v w v = 0 := by simp only [cross]; ring
  have e2 : cross w u v = cross v w u := by simp only [cross]; ring
  have e3 : cross u v v = 0 := by simp only [cross]; ring
  refine (soon_pos hc (slant h u - slant h w)).mono fun s h0 hs => ⟨?_, ?_⟩
  · simp only [cross_shift, e1, e2, e3, zero_add]
    rw [mul_pos_iff_of_pos_left h0, mul_pos_iff_of_pos_left h0, sub_pos, sub_pos]
    exact ⟨fun k => ⟨k.2.2, k.1⟩, fun k => ⟨k.2, hs.1, k.1⟩⟩
  · simp only [cross_shift, e1, e2, e3, zero_add, neg_mul, ← mul_neg, neg_sub]
    rw [mul_pos_iff_of_pos_left h0, mul_pos_iff_of_pos_left h0, sub_pos, sub_pos]
    refine ⟨fun k => ⟨k.2.2, k.1⟩, fun k => ⟨k.2, ?_, k.1⟩⟩
    have := hs.2
    linarith

theorem inner_shift {h : K} {t : Tri (Vertex K)} (st : SolidTri t) {v : Vertex K} (hv : IsCorner t v) : Soon fun s =>
    (Inner t (shift h v s) ↔ Rises h t v) ∧ (Inner t (shift h v (-s)) ↔ Falls h t v) := by
  obtain ⟨n1, n2, n3⟩ := face_ne (solid_iff.2 st)
  have c1 := st.ccw
  have c2 : 0 < cross t.v2 t.v3 t.v1 := by rw [cross_rotate]; exact c1
  have c3 : 0 < cross t.v3 t.v1 t.v2 := by rw [cross_rotate]; exact c2
  rcases hv with rfl | rfl | rfl
  · refine (inner_shift_three h c1).mono fun s _ k => ?_
    simp only [Rises, Falls, n1, n3.symm, true_and, false_and, or_false]
    exact ⟨k.1, k.2⟩
  · refine (inner_shift_three h c2).mono fun s _ k => ?_
    simp only [Rises, Falls, n1.symm, n2, true_and, false_and, or_false, false_or]
    rw [← k.1, ← k.2]
    simp only [Inner]
    constructor <;> tauto
  · refine (inner_shift_three h c3).mono fun s _ k => ?_
    simp only [Rises, Falls, n2.symm, n3, true_and, false_and, false_or]
    rw [← k.1, ← k.2]
    simp only [Inner]
    constructor <;> tauto

theorem inner_shift_off {h : K} {t : Tri (Vertex K)} {v : Vertex K} (hv : ¬ Within t v) : Soon fun s =>
    ¬ Inner t (shift h v s) ∧ ¬ Inner t (shift h v (-s)) := by
  have key : ∀ a b : Vertex K, cross a b v < 0 → Soon fun s => cross a b (shift h v s) < 0 ∧ cross a b (shift h v (-s)) < 0 := by
    intro a b hn
    refine (soon_pos (neg_pos.2 hn) (slant h b - slant h a)).mono fun s _ k => ?_
    rw [cross_shift, cross_shift]
    constructor <;> linarith [k.1, k.2]
  by_contra hno
  apply hv
  refine ⟨?_, ?_, ?_⟩ <;> by_contra hn <;> push Not at hn <;>
    refine hno ((key _ _ hn).mono fun s _ k => ⟨fun i => ?_, fun i => ?_⟩)
  · exact absurd i.1 (not_lt.2 k.1.le)
  · exact absurd i.1 (not_lt.2 k.2.le)
  · exact absurd i.2.1 (not_lt.2 k.1.le)
  · exact absurd i.2.1 (not_lt.2 k.2.le)
  · exact absurd i.2.2 (not_lt.2 k.1.le)
  · exact absurd i.2.2 (not_lt.2 k.2.le)

theorem shift_off_line {h : K} {a b v : Vertex K} (hne : slant h a ≠ slant h b) : Soon fun s =>
    cross a b (shift h v s) ≠ 0 ∧ cross a b (shift h v (-s)) ≠ 0 := by
  have hd : slant h b - slant h a ≠ 0 := sub_ne_zero.2 hne.symm
  rcases lt_trichotomy (cross a b v) 0 with hc | hc | hc
  · refine (soon_pos (neg_pos.2 hc) (slant h b - slant h a)).mono fun s _ k => ?_
    rw [cross_shift, cross_shift]
    exact ⟨by linarith [k.2] |> ne_of_lt, by linarith [k.1] |> ne_of_lt⟩
  · refine ⟨1, one_pos, fun s h0 _ => ?_⟩
    beta_reduce
    rw [cross_shift, cross_shift, hc, zero_add, zero_add]
    exact ⟨mul_ne_zero h0.ne' hd, mul_ne_zero (neg_ne_zero.2 h0.ne') hd⟩
  · refine (soon_pos hc (slant h b - slant h a)).mono fun s _ k => ?_
    rw [cross_shift, cross_shift]
    exact ⟨k.1.ne', k.2.ne'⟩

section

variable {g : Vertex K} {l : List (Vertex K)} {M : List (Tri (Vertex K))}

/-- No vertex is on a side, or inside a triangle. -/
theorem Fit.corner_of_within (hF : Fit g l M) {r t : Tri (Vertex K)} (hr : r ∈ M) (ht : t ∈ M) (sr : SolidTri r)
    (st : SolidTri t) {p : Vertex K} (hp : IsCorner r p) (hw : Within t p) : IsCorner t p := by
  by_contra hn
  have hpw := within_corner sr hp
  obtain ⟨e, he, hpe⟩ : ∃ e, IsSide r e ∧ e.v1 = p := by
    rcases hp with rfl | rfl | rfl
    exacts [⟨⟨r.v1, r.v2⟩, Or.inl ⟨rfl, rfl⟩, rfl⟩, ⟨⟨r.v2, r.v3⟩, Or.inr (Or.inl ⟨rfl, rfl⟩), rfl⟩,
      ⟨⟨r.v3, r.v1⟩, Or.inr (Or.inr ⟨rfl, rfl⟩), rfl⟩]
  have hon : OnSegment e.v1 e.v2 p := by rw [hpe]; exact ⟨0, le_rfl, zero_le_one, by ring, by ring⟩
  by_cases hi : Inner t p
  · exact hF.apart.inner_off ht hr st sr he hi hon
  have hcorner : ∀ f, IsSide t f → IsCorner t f.v1 ∧ IsCorner t f.v2 := by
    rintro f (⟨k1, k2⟩ | ⟨k1, k2⟩ | ⟨k1, k2⟩) <;> rw [k1, k2] <;> simp [IsCorner]
  have hpr : p.isGhost = false := by
    rcases hp with rfl | rfl | rfl
    exacts [sr.r1, sr.r2, sr.r3]
  obtain ⟨f, hf, hfp⟩ : ∃ f, IsSide t f ∧ OnSegment f.v1 f.v2 p := by
    rcases (Lot.within_iff st).2 hw with k | ⟨f, hf, ho⟩
    exacts [absurd k hi, ⟨f, hf, ho⟩]
  obtain ⟨c, hc, r1, r2, -, hcc, hin, -⟩ := st.side hf
  have hso : StrictlyOn f.v1 f.v2 p := by
    refine ⟨hfp, fun k => hn ?_, fun k => hn ?_⟩
    · rw [← vertex_eq k r1 hpr]; exact (hcorner f hf).1
    · rw [← vertex_eq k r2 hpr]; exact (hcorner f hf).2
  have hz := onSegment_cross hfp
  by_cases hwall : Wall l f
  · -- a point inside `r` that is not on the line
    obtain ⟨z, hzr, hz0⟩ : ∃ z, Inner r z ∧ cross f.v1 f.v2 z ≠ 0 := by
      by_cases hm : cross f.v1 f.v2 (middle r) = 0
      · have hq : ∃ q, IsCorner r q ∧ cross f.v1 f.v2 q ≠ 0 := by
          by_contra hno
          push Not at hno
          have h1 := hno r.v1 (Or.inl rfl)
          have h2 := hno r.v2 (Or.inr (Or.inl rfl))
          have h3 := hno r.v3 (Or.inr (Or.inr rfl))
          have hx : (f.v2.x - f.v1.x) * cross r.v1 r.v2 r.v3 = 0 := by
            simp only [cross] at h1 h2 h3 ⊢
            linear_combination (r.v2.x - r.v1.x) * (h3 - h1) - (r.v3.x - r.v1.x) * (h2 - h1)
          have hy : (f.v2.y - f.v1.y) * cross r.v1 r.v2 r.v3 = 0 := by
            simp only [cross] at h1 h2 h3 ⊢
            linear_combination (r.v2.y - r.v1.y) * (h3 - h1) - (r.v3.y - r.v1.y) * (h2 - h1)
          have hx := (mul_eq_zero.1 hx).resolve_right sr.ccw.ne'
          have hy := (mul_eq_zero.1 hy).resolve_right sr.ccw.ne'
          simp only [cross, hx, hy] at hcc
          simp at hcc
        obtain ⟨q, hq, hq0⟩ := hq
        refine ⟨lerp q (middle r) (1 / 2), inner_lerp (within_corner sr hq) (inner_middle sr) (by norm_num) (by norm_num), ?_⟩
        rw [cross_lerp, hm]
        intro k
        apply hq0
        linarith
      · exact ⟨middle r, inner_middle sr, hm⟩
    rcases lt_or_gt_of_ne hz0 with hneg | hpos
    · obtain ⟨x, hx, hb⟩ := hF.leaves hwall hneg hso
      refine hF.not_beyond hr sr ?_ hb
      rcases towards_inner hpw hzr hx with k | k
      · simpa only [Within, cross, k.1, k.2] using hpw
      · exact within_of_inner k
    · apply hn
      obtain ⟨m, m0, m1, mx, my⟩ := hfp
      have m0 : 0 < m := lt_of_le_of_ne m0 fun e => hso.2.1 ⟨by rw [mx, ← e]; ring, by rw [my, ← e]; ring⟩
      have m1 : m < 1 := lt_of_le_of_ne m1 fun e => hso.2.2 ⟨by rw [mx, e]; ring, by rw [my, e]; ring⟩
      have e2 : 0 < cross f.v2 c p := by
        have : cross f.v2 c p = (1 - m) * cross f.v1 f.v2 c := by simp only [cross, mx, my]; ring
        rw [this]
        exact mul_pos (sub_pos.2 m1) hcc
      have e3 : 0 < cross c f.v1 p := by
        have : cross c f.v1 p = m * cross f.v1 f.v2 c := by simp only [cross, mx, my]; ring
        rw [this]
        exact mul_pos m0 hcc
      obtain ⟨d, hd, hk⟩ := (soon_pos e2 (cross f.v2 c z - cross f.v2 c p)).and (soon_pos e3 (cross c f.v1 z - cross c f.v1 p))
      have hk0 : 0 < min (d / 2) 1 := lt_min (half_pos hd) one_pos
      have hk1 := hk _ hk0 (lt_of_le_of_lt (min_le_left _ _) (half_lt_self hd))
      have h1 : Inner t (lerp p z (min (d / 2) 1)) := by
        rw [hin, cross_lerp, cross_lerp, cross_lerp, hz]
        exact ⟨by simpa using mul_pos hk0 hpos, hk1.1.1, hk1.2.1⟩
      rw [hF.apart t ht r hr st sr _ h1 (inner_lerp hpw hzr hk0 (min_le_right _ _))]
      exact hp
  · obtain ⟨t', ht', st', hf'⟩ := hF.solid_across ht st hf hwall
    rcases hF.apart.edges_clear ht ht' hr st st' sr hf hf' he hso hon with k | k
    · exact hn (by rw [← hpe, k]; exact (hcorner f hf).1)
    · exact hn (by rw [← hpe, k]; exact (hcorner f hf).2)

theorem side_corners {t : Tri (Vertex K)} {e : Edge (Vertex K)} (he : IsSide t e) : IsCorner t e.v1 ∧ IsCorner t e.v2 := by
  rcases he with ⟨k1, k2⟩ | ⟨k1, k2⟩ | ⟨k1, k2⟩ <;> rw [k1, k2] <;> simp [IsCorner]

/-- The triangles counted at a vertex: the winding numbers right over and right under it. -/
theorem Fit.over (hF : Fit g l M) {h : K} {S : Finset (Vertex K)} (hg : Generic h S)
    (hS : ∀ t ∈ M, SolidTri t → ∀ p, IsCorner t p → p ∈ S) {v : Vertex K} {r : Tri (Vertex K)} (hr : r ∈ M) (sr : SolidTri r)
    (hv : IsCorner r v) : Soon fun s =>
      ((M.countP fun t => decide (¬ HasGhost t ∧ Rises h t v) : ℕ) : ℤ) = windingNumber (pairs l false) (shift h v s) ∧
      ((M.countP fun t => decide (¬ HasGhost t ∧ Falls h t v) : ℕ) : ℤ) = windingNumber (pairs l false) (shift h v (-s)) := by
  have corner : ∀ t, Rises h t v ∨ Falls h t v → IsCorner t v := by
    rintro t ((⟨k, -⟩ | ⟨k, -⟩ | ⟨k, -⟩) | (⟨k, -⟩ | ⟨k, -⟩ | ⟨k, -⟩))
    exacts [Or.inl k, Or.inr (Or.inl k), Or.inr (Or.inr k), Or.inl k, Or.inr (Or.inl k), Or.inr (Or.inr k)]
  have key : ∀ t ∈ M, Soon fun s => SolidTri t → ((Inner t (shift h v s) ↔ Rises h t v) ∧
      (Inner t (shift h v (-s)) ↔ Falls h t v)) ∧ ∀ e, IsSide t e → ¬ OnSegment e.v1 e.v2 (shift h v s) ∧
        ¬ OnSegment e.v1 e.v2 (shift h v (-s)) := by
    intro t ht
    by_cases st : SolidTri t
    · have h1 : Soon fun s => (Inner t (shift h v s) ↔ Rises h t v) ∧ (Inner t (shift h v (-s)) ↔ Falls h t v) := by
        by_cases hc : IsCorner t v
        · exact inner_shift st hc
        · refine (inner_shift_off (h := h) (t := t) (v := v) fun hw => hc (hF.corner_of_within hr ht sr st hv hw)).mono
            fun s _ k => ⟨?_, ?_⟩
          · exact ⟨fun i => absurd i k.1, fun i => absurd (corner t (Or.inl i)) hc⟩
          · exact ⟨fun i => absurd i k.2, fun i => absurd (corner t (Or.inr i)) hc⟩
      have h2 : Soon fun s => ∀ e ∈ t.innerEdges, ¬ OnSegment e.v1 e.v2 (shift h v s) ∧
          ¬ OnSegment e.v1 e.v2 (shift h v (-s)) := by
        refine Soon.all _ fun e he => ?_
        have he : IsSide t e := by
          simp only [Tri.innerEdges, List.mem_cons, List.not_mem_nil, or_false] at he
          rcases he with rfl | rfl | rfl
          exacts [Or.inl ⟨rfl, rfl⟩, Or.inr (Or.inl ⟨rfl, rfl⟩), Or.inr (Or.inr ⟨rfl, rfl⟩)]
        obtain ⟨c1, c2⟩ := side_corners he
        have hne : e.v1 ≠ e.v2 := by
          intro k
          obtain ⟨c, -, -, -, -, hcc, -⟩ := st.side he
          rw [k] at hcc
          simp only [cross] at hcc
          ring_nf at hcc
          exact lt_irrefl _ hcc
        refine (shift_off_line (v := v) (hg _ (hS t ht st _ c1) _ (hS t ht st _ c2) hne)).mono fun s _ k => ?_
        exact ⟨fun ho => k.1 (onSegment_cross ho), fun ho => k.2 (onSegment_cross ho)⟩
      refine (h1.and h2).mono fun s _ k _ => ⟨k.1, fun e he => k.2 e ?_⟩
      obtain ⟨e1, e2⟩ := e
      simp only [Tri.innerEdges, List.mem_cons, List.not_mem_nil, or_false, Edge.mk.injEq]
      exact he
    · exact ⟨1, one_pos, fun s _ _ k => absurd k st⟩
  refine (Soon.all M key).mono fun s _ k => ?_
  have o1 := hF.lot.coverings_eq (w := shift h v s) fun t ht st e he => ((k t ht st).2 e he).1
  have o2 := hF.lot.coverings_eq (w := shift h v (-s)) fun t ht st e he => ((k t ht st).2 e he).2
  rw [← o1, ← o2]
  unfold coverings
  refine ⟨congrArg _ (List.countP_congr fun t ht => ?_), congrArg _ (List.countP_congr fun t ht => ?_)⟩
  · simp only [decide_eq_true_eq]
    exact and_congr_right fun hgt => (k t ht ((hF.lot.solid_iff ht).1 hgt)).1.1.symm
  · simp only [decide_eq_true_eq]
    exact and_congr_right fun hgt => (k t ht ((hF.lot.solid_iff ht).1 hgt)).1.2.symm

/-- The way over and under a point keeps clear of the sides that do not pass through the point. -/
theorem shift_room (h : K) (v : Vertex K) {L : List (Vertex K × Vertex K)} (hL : ∀ t ∈ L, ¬ OnSegment t.1 t.2 v) :
    ∃ d, 0 < d ∧ ∀ t ∈ L, ∀ s x, -d < s → s < d → SamePoint x (shift h v s) → ¬ OnSegment t.1 t.2 x := by
  obtain ⟨d, hd, hroom⟩ := room_line (S := (v, shift h v 1)) (fun k => by simpa [SamePoint, shift] using k.2) (w := 0) (v := v)
    ⟨by simp, by simp⟩ hL
  refine ⟨d, hd, fun t ht s x h0 h1 hx => hroom t ht s x (by linarith) (by linarith) ⟨?_, ?_⟩⟩
  · rw [hx.1]; simp only [shift]; ring
  · rw [hx.2]; simp only [shift]; ring

theorem onSegment_shift {h : K} {v x : Vertex K} {s : K} (hx : OnSegment v (shift h v s) x) :
    ∃ k, 0 ≤ k ∧ k ≤ 1 ∧ SamePoint x (shift h v (k * s)) := by
  obtain ⟨k, k0, k1, hk⟩ := onSegment_lerp_iff hx
  refine ⟨k, k0, k1, ?_, ?_⟩
  · rw [hk.1]; simp only [lerp, shift]; ring
  · rw [hk.2]; simp only [lerp, shift]; ring

/-- Around a point that is not on the polygon the winding number does not change. -/
theorem winding_shift (h : K) {v : Vertex K} (hv : ∀ t ∈ pairs l false, ¬ OnSegment t.1 t.2 v) : Soon fun s =>
    windingNumber (pairs l false) (shift h v s) = windingNumber (pairs l false) v ∧
      windingNumber (pairs l false) (shift h v (-s)) = windingNumber (pairs l false) v := by
  obtain ⟨d, hd, hroom⟩ := shift_room h v hv
  have key : ∀ s, -d < s → s < d → windingNumber (pairs l false) (shift h v s) = windingNumber (pairs l false) v := by
    intro s s0 s1
    symm
    refine winding_const l fun t ht x hx hxp => ?_
    obtain ⟨k, k0, k1, hk⟩ := onSegment_shift hxp
    refine hroom t ht (k * s) x ?_ ?_ hk hx
    · rcases le_total 0 s with hs | hs
      · nlinarith [mul_nonneg k0 hs]
      · nlinarith
    · rcases le_total 0 s with hs | hs
      · nlinarith
      · nlinarith [mul_nonneg k0 (neg_nonneg.2 hs)]
  exact ⟨d, hd, fun s s0 s1 => ⟨key s (by linarith) s1, key (-s) (by linarith) (by linarith)⟩⟩

/-- On the left of a side is the inside of the polygon, on the right the outside. -/
theorem winding_sides (hs : SimplePolygon l) (hw : WindsOnce l) {h : K} {S : Vertex K × Vertex K} (hm : S ∈ pairs l false)
    (hne : slant h S.1 ≠ slant h S.2) {v : Vertex K} (hv : StrictlyOn S.1 S.2 v) : Soon fun s =>
    (slant h S.1 < slant h S.2 → windingNumber (pairs l false) (shift h v s) = 1 ∧ windingNumber (pairs l false) (shift h v (-s)) = 0) ∧
    (slant h S.2 < slant h S.1 → windingNumber (pairs l false) (shift h v s) = 0 ∧
      windingNumber (pairs l false) (shift h v (-s)) = 1) := by
  have hother : ∀ t ∈ (pairs l false).filter (fun t => decide (t ≠ S)), ¬ OnSegment t.1 t.2 v := by
    intro t ht ho
    rw [List.mem_filter, decide_eq_true_iff] at ht
    exact ht.2 (hs.only hm ht.1 hv ho)
  obtain ⟨d, hd, hroom⟩ := shift_room h v hother
  have hz := onSegment_cross hv.1
  have hdn : slant h S.2 - slant h S.1 ≠ 0 := sub_ne_zero.2 hne.symm
  have key : ∀ s, s ≠ 0 → -d < s → s < d → (s * (slant h S.2 - slant h S.1) < 0 → windingNumber (pairs l false) (shift h v s) = 0) ∧
      (0 < s * (slant h S.2 - slant h S.1) → windingNumber (pairs l false) (shift h v s) = 1) := by
    intro s sn s0 s1
    have := side_values hs hw hm hv (c := shift h v s) fun t ht x hx hxp => by
      obtain ⟨k, k0, k1, hk⟩ := onSegment_shift hxp
      rcases k0.lt_or_eq with k0' | k0'
      · exfalso
        by_cases hts : t = S
        · subst hts
          have h0 := onSegment_cross hx
          have e : cross t.1 t.2 x = cross t.1 t.2 (shift h v (k * s)) := by simp only [cross, hk.1, hk.2]
          rw [e, cross_shift, hz, zero_add] at h0
          exact mul_ne_zero (mul_ne_zero k0'.ne' sn) hdn h0
        · refine hroom t (by rw [List.mem_filter, decide_eq_true_iff]; exact ⟨ht, hts⟩) (k * s) x ?_ ?_ hk hx
          · rcases le_total 0 s with hs | hs
            · nlinarith [mul_nonneg k0 hs]
            · nlinarith
          · rcases le_total 0 s with hs | hs
            · nlinarith
            · nlinarith [mul_nonneg k0 (neg_nonneg.2 hs)]
      · exact ⟨by rw [hk.1, ← k0']; simp [shift], by rw [hk.2, ← k0']; simp [shift]⟩
    rwa [cross_shift, hz, zero_add] at this
  refine ⟨d, hd, fun s s0 s1 => ?_⟩
  have a := key s s0.ne' (by linarith) s1
  have b := key (-s) (neg_ne_zero.2 s0.ne') (by linarith) (by linarith)
  refine ⟨fun k => ⟨a.2 (mul_pos s0 (sub_pos.2 k)), b.1 (by nlinarith)⟩, fun k => ⟨a.1 (by nlinarith), b.2 (by nlinarith)⟩⟩

theorem winding_side (hs : SimplePolygon l) (hw : WindsOnce l) {h : K} {S : Vertex K × Vertex K} (hm : S ∈ pairs l false)
    (hne : slant h S.1 ≠ slant h S.2) {v : Vertex K} (hv : StrictlyOn S.1 S.2 v) : Soon fun s =>
    windingNumber (pairs l false) (shift h v s) + windingNumber (pairs l false) (shift h v (-s)) = 1 := by
  refine (winding_sides hs hw hm hne hv).mono fun s _ k => ?_
  rcases lt_or_gt_of_ne hne with c | c
  · rw [(k.1 c).1, (k.1 c).2, add_zero]
  · rw [(k.2 c).1, (k.2 c).2, zero_add]

/-- What the corners of the polygon add to the number of triangles. -/
def cornerSum (m : List (Vertex K)) (h s : K) : ℤ :=
  ∑ c ∈ m.toFinset, (windingNumber (pairs m false) (shift h c s) + windingNumber (pairs m false) (shift h c (-s)) - 1)

/-- The number of triangles of a polygon, from the number of vertices, those on the polygon, and the corners. -/
theorem Fit.count (hF : Fit g l M) {m : List (Vertex K)} (hd : Subdivides l m) (hs : SimplePolygon m) (hw : WindsOnce m)
    {h : K} {V B : Finset (Vertex K)} (hV : ∀ p, p ∈ V ↔ ∃ t ∈ M, SolidTri t ∧ IsCorner t p)
    (hB : ∀ p, p ∈ B ↔ p ∈ V ∧ ∃ s ∈ pairs m false, OnSegment s.1 s.2 p) (hg : Generic h V) : Soon fun s =>
      ((M.countP fun t => decide (¬ HasGhost t) : ℕ) : ℤ) + B.card = 2 * V.card + cornerSum m h s := by
  have real : ∀ p ∈ V, p.isGhost = false := by
    intro p hp
    obtain ⟨t, -, st, hc⟩ := (hV p).1 hp
    rcases hc with rfl | rfl | rfl
    exacts [st.r1, st.r2, st.r3]
  have hmV : ∀ p ∈ m, p ∈ V := by
    intro p hp
    have hpl := hd.keeps p hp
    obtain ⟨q, hq, e⟩ := List.mem_map.1 ((pairs_snd l).mem_iff.2 hpl)
    obtain ⟨r, hr, sr, hc⟩ := hF.solid_corner (p := p) ⟨⟨_, hF.lot.border q hq, Or.inl e.symm⟩, hF.lot.real p hpl⟩
    exact (hV p).2 ⟨r, hr, sr, hc⟩
  have hmB : ∀ p ∈ m, p ∈ B := by
    intro p hp
    obtain ⟨q, hq, e⟩ := List.mem_map.1 ((pairs_snd m).mem_iff.2 hp)
    exact (hB p).2 ⟨hmV p hp, q, hq, by rw [e]; exact onSegment_right _ _⟩
  have key : ∀ v ∈ V.toList, Soon fun s =>
      (((M.countP fun t => decide (¬ HasGhost t ∧ Rises h t v)) + M.countP fun t => decide (¬ HasGhost t ∧ Falls h t v) : ℕ) : ℤ) +
        (if v ∈ B then 1 else 0) = 2 + if v ∈ m.toFinset then (windingNumber (pairs m false) (shift h v s) +
          windingNumber (pairs m false) (shift h v (-s)) - 1) else 0 := by
    intro v hv
    rw [Finset.mem_toList] at hv
    obtain ⟨r, hr, sr, hc⟩ := (hV v).1 hv
    have h1 := hF.over hg (fun t ht st p hp => (hV p).2 ⟨t, ht, st, hp⟩) hr sr hc
    by_cases hm : v ∈ m
    · refine h1.mono fun s _ k => ?_
      push_cast
      rw [k.1, k.2, hd.winding, hd.winding, if_pos (hmB v hm), if_pos (List.mem_toFinset.2 hm)]
      ring
    · by_cases hb : v ∈ B
      · obtain ⟨S, hS, ho⟩ := ((hB v).1 hb).2
        obtain ⟨m1, m2⟩ := mem_pairs hS
        have hso : StrictlyOn S.1 S.2 v := by
          refine ⟨ho, fun e => hm ?_, fun e => hm ?_⟩
          · rw [← vertex_eq e (real _ (hmV _ m1)) (real v hv)]; exact m1
          · rw [← vertex_eq e (real _ (hmV _ m2)) (real v hv)]; exact m2
        have hne : S.1 ≠ S.2 := fun e => hs.proper S hS (by rw [e]; exact ⟨rfl, rfl⟩)
        refine (h1.and (winding_side hs hw hS (hg _ (hmV _ m1) _ (hmV _ m2) hne) hso)).mono fun s _ k => ?_
        push_cast
        rw [k.1.1, k.1.2, hd.winding, hd.winding, k.2, if_pos hb, if_neg (by simpa using hm)]
        ring
      · have hoff : ∀ t ∈ pairs m false, ¬ OnSegment t.1 t.2 v := fun t ht ho => hb ((hB v).2 ⟨hv, t, ht, ho⟩)
        have hone : windingNumber (pairs m false) v = 1 := by
          refine (hw v hoff).resolve_left fun h0 => ?_
          exact hF.not_beyond hr sr (within_corner sr hc) ((hd.beyond v).2 ⟨hoff, h0⟩)
        refine (h1.and (winding_shift h hoff)).mono fun s _ k => ?_
        push_cast
        rw [k.1.1, k.1.2, hd.winding, hd.winding, k.2.1, k.2.2, hone, if_neg hb, if_neg (by simpa using hm)]
        ring
  refine (Soon.all _ key).mono fun s _ k => ?_
  have hsum := Finset.sum_congr (rfl : V = V) fun v hv => k v (Finset.mem_toList.2 hv)
  rw [Finset.sum_add_distrib, Finset.sum_add_distrib, ← Nat.cast_sum,
    ← count_middles hg M (fun t ht st p hp => (hV p).2 ⟨t, ht, st, hp⟩) fun t ht hgt => (hF.lot.solid_iff ht).1 hgt] at hsum
  rw [Finset.sum_ite_mem, Finset.sum_ite_mem, Finset.inter_eq_right.2 fun p hp => ((hB p).1 hp).1,
    Finset.inter_eq_right.2 fun p hp => hmV p (List.mem_toFinset.1 hp)] at hsum
  simp only [Finset.sum_const, nsmul_eq_mul, mul_one] at hsum
  rw [cornerSum, hsum]
  ring

/-- The corners of a strictly convex polygon: all are passed, but the first and the last in the direction. -/
theorem cornerSum_convex {m : List (Vertex K)} (hc : StrictlyConvex m) (h3 : 3 ≤ m.length) (hw : WindsOnce m)
    {h : K} (hg : Generic h m.toFinset) : Soon fun s => cornerSum m h s = -2 := by
  have hs := hc.simple h3
  have hn := hc.nodup h3
  -- strictly on the left of all sides
  have left : ∀ z : Vertex K, (∀ t ∈ pairs m false, 0 < cross t.1 t.2 z) → windingNumber (pairs m false) z = 1 := by
    intro z hz
    obtain ⟨a, ha⟩ : ∃ a, a ∈ m := List.exists_mem_of_length_pos (by omega)
    obtain ⟨S, hS, -⟩ := List.mem_map.1 ((pairs_snd m).mem_iff.2 ha)
    have hp := hs.proper S hS
    refine (side_values hs hw hS (q := lerp S.1 S.2 (1 / 2)) (c := z) ?_ fun t ht x hx hxp => ?_).2 (hz S hS)
    · refine ⟨⟨1 / 2, by norm_num, by norm_num, rfl, rfl⟩, fun k => hp ?_, fun k => hp ?_⟩
      · obtain ⟨k1, k2⟩ := k
        simp only [lerp] at k1 k2
        exact ⟨by linarith, by linarith⟩
      · obtain ⟨k1, k2⟩ := k
        simp only [lerp] at k1 k2
        exact ⟨by linarith, by linarith⟩
    · obtain ⟨k, k0, k1, hk⟩ := onSegment_lerp_iff hxp
      have h0 := onSegment_cross hx
      have e : cross t.1 t.2 x = (1 - k) * (cross t.1 t.2 S.1 + cross t.1 t.2 S.2) / 2 + k * cross t.1 t.2 z := by
        simp only [cross, hk.1, hk.2, lerp]; ring
      have c1 := hc.convex h3 t ht S.1 (mem_pairs hS).1
      have c2 := hc.convex h3 t ht S.2 (mem_pairs hS).2
      have c3 := hz t ht
      rcases k0.lt_or_eq with k0 | k0
      · exfalso
        have := mul_pos k0 c3
        have := mul_nonneg (sub_nonneg.2 k1) (add_nonneg c1 c2)
        rw [h0] at e
        linarith
      · refine ⟨by rw [hk.1, ← k0]; simp [lerp], by rw [hk.2, ← k0]; simp [lerp]⟩
  have right : ∀ z : Vertex K, ∀ t ∈ pairs m false, cross t.1 t.2 z < 0 → windingNumber (pairs m false) z = 0 := by
    intro z t ht hz
    refine beyond_outside (a := t.2) (b := t.1) (fun k => hs.proper t ht ⟨k.1.symm, k.2.symm⟩) (fun v hv => ?_) ?_
    · rw [cross_swap]
      linarith [hc.convex h3 t ht v hv]
    · rw [cross_swap]
      linarith
  -- what a corner adds
  have add : ∀ c ∈ m, ∃ p ∈ m, ∃ q ∈ m, p ≠ c ∧ c ≠ q ∧ 0 < cross p c q ∧
      (∀ r ∈ m, 0 ≤ cross p c r ∧ 0 ≤ cross c q r) ∧ Soon fun s =>
      windingNumber (pairs m false) (shift h c s) + windingNumber (pairs m false) (shift h c (-s)) =
        if slant h p < slant h c ∧ slant h c < slant h q ∨ slant h q < slant h c ∧ slant h c < slant h p then 1 else 0 := by
    intro c hcm
    obtain ⟨⟨p, c'⟩, hp, rfl⟩ := List.mem_map.1 ((pairs_snd m).mem_iff.2 hcm)
    obtain ⟨⟨c'', q⟩, hq, e⟩ := List.mem_map.1 (show c' ∈ (pairs m false).map Prod.fst by rw [pairs_fst]; exact hcm)
    simp only at e
    subst e
    have npc : p ≠ c'' := fun e => hs.proper _ hp (by simp only [e]; exact ⟨rfl, rfl⟩)
    have ncq : c'' ≠ q := fun e => hs.proper _ hq (by simp only [e]; exact ⟨rfl, rfl⟩)
    have hpm := (mem_pairs hp).1
    have hqm := (mem_pairs hq).2
    simp only at hpm hqm
    have npq : p ≠ q := by
      rintro rfl
      obtain ⟨r, hr, r1, r2⟩ := hc.third h3 p c''
      have k1 := hc.side h3 hp hr r1 r2
      have k2 := hc.side h3 hq hr r2 r1
      simp only [cross] at k1 k2
      nlinarith
    have hpos := hc.side h3 hp hqm (Ne.symm npq) (Ne.symm ncq)
    refine ⟨p, hpm, q, hqm, npc, ncq, hpos, fun r hr => ⟨hc.convex h3 _ hp r hr, hc.convex h3 _ hq r hr⟩, ?_⟩
    have nfst : ((pairs m false).map Prod.fst).Nodup := by rw [pairs_fst]; exact hn
    have nsnd : ((pairs m false).map Prod.snd).Nodup := (pairs_snd m).nodup_iff.2 hn
    have others : Soon fun s => ∀ t ∈ pairs m false, t ≠ (p, c'') → t ≠ (c'', q) →
        0 < cross t.1 t.2 (shift h c'' s) ∧ 0 < cross t.1 t.2 (shift h c'' (-s)) := by
      refine Soon.all _ fun t ht => ?_
      by_cases n1 : t = (p, c'')
      · exact ⟨1, one_pos, fun s _ _ k => absurd n1 k⟩
      by_cases n2 : t = (c'', q)
      · exact ⟨1, one_pos, fun s _ _ _ k => absurd n2 k⟩
      have hpos : 0 < cross t.1 t.2 c'' := by
        refine hc.side h3 ht hcm (fun e => n2 ?_) fun e => n1 ?_
        · exact List.inj_on_of_nodup_map nfst ht hq e.symm
        · exact List.inj_on_of_nodup_map nsnd ht hp e.symm
      refine (soon_pos hpos (slant h t.2 - slant h t.1)).mono fun s _ k _ _ => ?_
      rw [cross_shift, cross_shift]
      exact k
    have z1 : cross p c'' c'' = 0 := by simp only [cross]; ring
    have z2 : cross c'' q c'' = 0 := by simp only [cross]; ring
    have g1 := hg p (List.mem_toFinset.2 hpm) c'' (List.mem_toFinset.2 hcm) npc
    have g2 := hg c'' (List.mem_toFinset.2 hcm) q (List.mem_toFinset.2 hqm) ncq
    refine others.mono fun s s0 k => ?_
    have v1 : ∀ s, cross p c'' (shift h c'' s) = s * (slant h c'' - slant h p) := fun s => by rw [cross_shift, z1, zero_add]
    have v2 : ∀ s, cross c'' q (shift h c'' s) = s * (slant h q - slant h c'') := fun s => by rw [cross_shift, z2, zero_add]
    rcases lt_or_gt_of_ne g1 with a | a <;> rcases lt_or_gt_of_ne g2 with b | b
    · rw [if_pos (Or.inl ⟨a, b⟩), left, right _ _ hp, add_zero]
      · rw [v1]; nlinarith
      · intro t ht
        by_cases n1 : t = (p, c'')
        · subst n1; simp only [v1]; exact mul_pos s0 (sub_pos.2 a)
        by_cases n2 : t = (c'', q)
        · subst n2; simp only [v2]; exact mul_pos s0 (sub_pos.2 b)
        exact (k t ht n1 n2).1
    · rw [if_neg (by rintro (⟨x, y⟩ | ⟨x, y⟩) <;> exact absurd y (not_lt.2 (by assumption : _ < _).le)), right _ _ hq, right _ _ hp, add_zero]
      · rw [v1]; nlinarith
      · rw [v2]; nlinarith
    · rw [if_neg (by rintro (⟨x, y⟩ | ⟨x, y⟩) <;> exact absurd x (not_lt.2 (by assumption : _ < _).le)), right _ _ hp, right _ _ hq, add_zero]
      · rw [v2]; nlinarith
      · rw [v1]; nlinarith
    · rw [if_pos (Or.inr ⟨b, a⟩), right _ _ hp, left, zero_add]
      · intro t ht
        by_cases n1 : t = (p, c'')
        · subst n1; simp only [v1]; nlinarith
        by_cases n2 : t = (c'', q)
        · subst n2; simp only [v2]; nlinarith
        exact (k t ht n1 n2).2
      · rw [v1]; nlinarith
  have hne : m.toFinset.Nonempty := by
    obtain ⟨a, ha⟩ : ∃ a, a ∈ m := List.exists_mem_of_length_pos (by omega)
    exact ⟨a, List.mem_toFinset.2 ha⟩
  obtain ⟨top, htop, htop'⟩ := Finset.exists_max_image m.toFinset (slant h) hne
  obtain ⟨bot, hbot, hbot'⟩ := Finset.exists_min_image m.toFinset (slant h) hne
  have hne' : top ≠ bot := by
    rintro rfl
    obtain ⟨r, hr, r1, -⟩ := hc.third h3 top top
    have hr' := List.mem_toFinset.2 hr
    exact hg r hr' top htop r1 (le_antisymm (htop' r hr') (hbot' r hr'))
  have each : ∀ c ∈ m, Soon fun s => windingNumber (pairs m false) (shift h c s) + windingNumber (pairs m false) (shift h c (-s)) - 1 =
      if c ∈ ({top, bot} : Finset (Vertex K)) then -1 else 0 := by
    intro c hcm
    obtain ⟨p, hp, q, hq, npc, ncq, hpos, hall, hsoon⟩ := add c hcm
    have hcm' := List.mem_toFinset.2 hcm
    have hp' := List.mem_toFinset.2 hp
    have hq' := List.mem_toFinset.2 hq
    refine hsoon.mono fun s _ k => ?_
    rw [k]
    have g1 := hg p hp' c hcm' npc
    have g2 := hg c hcm' q hq' ncq
    have id : ∀ r, cross p c q * (slant h r - slant h c) =
        cross p c r * (slant h q - slant h c) + cross c q r * (slant h p - slant h c) := by
      intro r; simp only [cross, slant]; ring
    by_cases hext : c ∈ ({top, bot} : Finset (Vertex K))
    · rw [if_pos hext, if_neg]
      · ring
      · simp only [Finset.mem_insert, Finset.mem_singleton] at hext
        rcases hext with rfl | rfl
        · have := htop' p hp'
          have := htop' q hq'
          rintro (⟨x, y⟩ | ⟨x, y⟩) <;> linarith
        · have := hbot' p hp'
          have := hbot' q hq'
          rintro (⟨x, y⟩ | ⟨x, y⟩) <;> linarith
    · rw [if_neg hext, if_pos]
      · ring
      · simp only [Finset.mem_insert, Finset.mem_singleton, not_or] at hext
        by_contra hcon
        push Not at hcon
        have t1 : slant h c < slant h top := lt_of_le_of_ne (htop' c hcm') (hg c hcm' top htop hext.1)
        have b1 : slant h bot < slant h c := lt_of_le_of_ne (hbot' c hcm') (hg bot hbot c hcm' (Ne.symm hext.2))
        obtain ⟨x1, x2⟩ := hall top (List.mem_toFinset.1 htop)
        obtain ⟨y1, y2⟩ := hall bot (List.mem_toFinset.1 hbot)
        have i1 := id top
        have i2 := id bot
        rcases lt_or_gt_of_ne g1 with a | a
        · have b := hcon.1 a
          have := mul_pos hpos (sub_pos.2 t1)
          have := mul_nonneg x1 (sub_nonneg.2 b)
          have := mul_nonneg x2 (sub_nonneg.2 a.le)
          nlinarith
        · have b : slant h c ≤ slant h q := by
            by_contra hlt
            push Not at hlt
            exact absurd a (not_lt.2 (hcon.2 hlt))
          have := mul_pos hpos (sub_pos.2 b1)
          have := mul_nonneg y1 (sub_nonneg.2 b)
          have := mul_nonneg y2 (sub_nonneg.2 a.le)
          nlinarith
  refine (Soon.all m each).mono fun s _ k => ?_
  rw [cornerSum, Finset.sum_congr rfl fun c hcm => k c (List.mem_toFinset.1 hcm), Finset.sum_ite_mem,
    Finset.inter_eq_right.2 (by
      intro x hx
      simp only [Finset.mem_insert, Finset.mem_singleton] at hx
      rcases hx with rfl | rfl <;> assumption)]
  simp [Finset.card_pair hne']

end

end Verif
