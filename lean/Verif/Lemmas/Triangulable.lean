import Verif.Lemmas.Diagonal

/-!
# A simple polygon with more than three corners has a diagonal
-/

set_option linter.unusedSectionVars false

namespace Verif

open Spec Props

variable {K : Type*} [Field K] [LinearOrder K] [IsStrictOrderedRing K]

/-- A line that has the point strictly on one side and the segment on the other. -/
theorem separating {a b v : Vertex K} (h : ¬ OnSegment a b v) :
    ∃ α β γ : K, 0 < α * v.x + β * v.y + γ ∧ ∀ x, OnSegment a b x → α * x.x + β * x.y + γ ≤ 0 := by
  rcases lt_trichotomy (cross a b v) 0 with hc | hc | hc
  · refine ⟨b.y - a.y, -(b.x - a.x), (b.x - a.x) * a.y - (b.y - a.y) * a.x, ?_, fun x hx => ?_⟩
    · simp only [cross] at hc; linarith
    · have := onSegment_cross hx
      simp only [cross] at this; linarith
  · -- beyond one of the ends
    by_cases h1 : (b.x - a.x) * (v.x - a.x) + (b.y - a.y) * (v.y - a.y) < 0
    · refine ⟨-(b.x - a.x), -(b.y - a.y), (b.x - a.x) * a.x + (b.y - a.y) * a.y, by linarith, ?_⟩
      rintro x ⟨k, k0, k1, kx, ky⟩
      rw [kx, ky]
      have : 0 ≤ k * ((b.x - a.x) * (b.x - a.x) + (b.y - a.y) * (b.y - a.y)) :=
        mul_nonneg k0 (add_nonneg (mul_self_nonneg _) (mul_self_nonneg _))
      linarith
    by_cases h2 : (b.x - a.x) * (v.x - b.x) + (b.y - a.y) * (v.y - b.y) > 0
    · refine ⟨b.x - a.x, b.y - a.y, -((b.x - a.x) * b.x + (b.y - a.y) * b.y), by linarith, ?_⟩
      rintro x ⟨k, k0, k1, kx, ky⟩
      rw [kx, ky]
      have : 0 ≤ (1 - k) * ((b.x - a.x) * (b.x - a.x) + (b.y - a.y) * (b.y - a.y)) :=
        mul_nonneg (by linarith) (add_nonneg (mul_self_nonneg _) (mul_self_nonneg _))
      linarith
    · push Not at h1 h2
      by_cases hab : SamePoint a b
      · by_cases hv : SamePoint a v
        · exact absurd ⟨0, le_rfl, zero_le_one, by rw [← hv.1]; ring, by rw [← hv.2]; ring⟩ h
        · refine ⟨v.x - a.x, v.y - a.y, -((v.x - a.x) * a.x + (v.y - a.y) * a.y), ?_, ?_⟩
          · by_cases e : v.x - a.x = 0
            · have : v.y - a.y ≠ 0 := fun e' => hv ⟨by linarith, by linarith⟩
              have := mul_self_pos.2 this
              rw [e]; nlinarith
            · have := mul_self_pos.2 e
              nlinarith [mul_self_nonneg (v.y - a.y)]
          · rintro x ⟨k, k0, k1, kx, ky⟩
            rw [kx, ky, ← hab.1, ← hab.2]
            apply le_of_eq; ring
      · exfalso
        have hD : 0 < (b.x - a.x) * (b.x - a.x) + (b.y - a.y) * (b.y - a.y) := by
          by_cases e : b.x - a.x = 0
          · have : b.y - a.y ≠ 0 := fun e' => hab ⟨by linarith, by linarith⟩
            have := mul_self_pos.2 this
            rw [e]; nlinarith
          · have := mul_self_pos.2 e
            nlinarith [mul_self_nonneg (b.y - a.y)]
        simp only [cross] at hc
        obtain ⟨k, hk⟩ : ∃ k : K, k * ((b.x - a.x) * (b.x - a.x) + (b.y - a.y) * (b.y - a.y)) =
            (b.x - a.x) * (v.x - a.x) + (b.y - a.y) * (v.y - a.y) := ⟨_, div_mul_cancel₀ _ hD.ne'⟩
        refine h ⟨k, ?_, ?_, mul_left_cancel₀ hD.ne' ?_, mul_left_cancel₀ hD.ne' ?_⟩
        · by_contra hlt
          push Not at hlt
          nlinarith
        · by_contra hlt
          push Not at hlt
          nlinarith
        · linear_combination (-(b.y - a.y)) * hc - (b.x - a.x) * hk
        · linear_combination (b.x - a.x) * hc - (b.y - a.y) * hk
  · refine ⟨-(b.y - a.y), b.x - a.x, -((b.x - a.x) * a.y - (b.y - a.y) * a.x), ?_, fun x hx => ?_⟩
    · simp only [cross] at hc; linarith
    · have := onSegment_cross hx
      simp only [cross] at this; linarith

/-- Short ways next to a point that is not on a segment do not meet the segment. -/
theorem soon_off {a b v : Vertex K} (h : ¬ OnSegment a b v) (y z : Vertex K) : Soon fun s =>
    ∀ x, OnSegment (lerp v y s) (lerp v z s) x → ¬ OnSegment a b x := by
  obtain ⟨α, β, γ, hv, hx⟩ := separating h
  refine ((soon_pos hv (α * (y.x - v.x) + β * (y.y - v.y))).and
    (soon_pos hv (α * (z.x - v.x) + β * (z.y - v.y)))).mono fun s _ k x hxs hox => ?_
  have h0 := hx x hox
  obtain ⟨j, j0, j1, jx, jy⟩ := hxs
  have e : α * x.x + β * x.y + γ = (1 - j) * (α * v.x + β * v.y + γ + s * (α * (y.x - v.x) + β * (y.y - v.y))) +
      j * (α * v.x + β * v.y + γ + s * (α * (z.x - v.x) + β * (z.y - v.y))) := by
    rw [jx, jy]; simp only [lerp]; ring
  rw [e] at h0
  have p1 := k.1.1
  have p2 := k.2.1
  rcases j1.lt_or_eq with j1 | j1
  · have := mul_pos (sub_pos.2 j1) p1
    have := mul_nonneg j0 p2.le
    linarith
  · rw [j1] at h0
    linarith

section

variable {m : List (Vertex K)} (hs : SimplePolygon m) (hw : WindsOnce m) (hreal : ∀ v ∈ m, v.isGhost = false)

include hs

theorem side_fst {s t : Vertex K × Vertex K} (h1 : s ∈ pairs m false) (h2 : t ∈ pairs m false) (e : s.1 = t.1) : s = t :=
  List.inj_on_of_nodup_map (by rw [pairs_fst]; exact simplePolygon_nodup hs) h1 h2 e

theorem side_snd {s t : Vertex K × Vertex K} (h1 : s ∈ pairs m false) (h2 : t ∈ pairs m false) (e : s.2 = t.2) : s = t :=
  List.inj_on_of_nodup_map ((pairs_snd m).nodup_iff.2 (simplePolygon_nodup hs)) h1 h2 e

include hw hreal

/-- The polygon turns left at the vertex that is first in some direction. -/
theorem low_corner {h : K} {p v q : Vertex K} (hp : (p, v) ∈ pairs m false) (hq : (v, q) ∈ pairs m false)
    (hmin : ∀ r ∈ m, r ≠ v → slant h v < slant h r) : 0 < cross p v q := by
  have hpm := (mem_pairs hp).1
  have hvm := (mem_pairs hp).2
  have hqm := (mem_pairs hq).2
  simp only at hpm hvm hqm
  have npv : p ≠ v := fun e => hs.proper _ hp (by simp only [e]; exact ⟨rfl, rfl⟩)
  have nvq : q ≠ v := fun e => hs.proper _ hq (by simp only [e]; exact ⟨rfl, rfl⟩)
  have hα := hmin p hpm npv
  have hβ := hmin q hqm nvq
  have nside : (p, v) ≠ (v, q) := fun e => npv (Prod.mk.inj e).1
  by_contra hcon
  push Not at hcon
  rcases hcon.lt_or_eq with hneg | hzero
  · -- a right turn: the outside is on the left
    have others : Soon fun s => ∀ t ∈ pairs m false, t ≠ (p, v) → t ≠ (v, q) →
        ∀ x, OnSegment (lerp v q s) (lerp v (lerp v p (-1)) s) x → ¬ OnSegment t.1 t.2 x := by
      refine Soon.all _ fun t ht => ?_
      by_cases n1 : t = (p, v)
      · exact ⟨1, one_pos, fun s _ _ k => absurd n1 k⟩
      by_cases n2 : t = (v, q)
      · exact ⟨1, one_pos, fun s _ _ _ k => absurd n2 k⟩
      have : ¬ OnSegment t.1 t.2 v := by
        intro ho
        rcases vertex_side hs hreal hvm ht ho with k | k
        · exact n2 (side_fst hs ht hq k)
        · exact n1 (side_snd hs ht hp k)
      exact (soon_off this _ _).mono fun s _ k _ _ => k
    obtain ⟨d, hd, hall⟩ := others
    obtain ⟨s, s0, s1, s2⟩ : ∃ s : K, 0 < s ∧ s < d ∧ s < 1 :=
      ⟨min d 1 / 2, by positivity, by linarith [min_le_left d 1, lt_min hd one_pos],
        by linarith [min_le_right d 1, lt_min hd one_pos]⟩
    have hmiss := hall s s0 s1
    set y := lerp v q s with hy
    set z := lerp v (lerp v p (-1)) s with hz
    have hyo : StrictlyOn v q y := by
      refine ⟨⟨s, s0.le, s2.le, rfl, rfl⟩, fun k => hs.proper _ hq ?_, fun k => hs.proper _ hq ?_⟩
      · obtain ⟨k1, k2⟩ := k
        simp only [hy, lerp] at k1 k2
        have k1 : s * (q.x - v.x) = 0 := by linarith
        have k2 : s * (q.y - v.y) = 0 := by linarith
        have k1 := (mul_eq_zero.1 k1).resolve_left s0.ne'
        have k2 := (mul_eq_zero.1 k2).resolve_left s0.ne'
        exact ⟨by simp only; linarith, by simp only; linarith⟩
      · obtain ⟨k1, k2⟩ := k
        simp only [hy, lerp] at k1 k2
        have k1 : (1 - s) * (q.x - v.x) = 0 := by linarith
        have k2 : (1 - s) * (q.y - v.y) = 0 := by linarith
        have s3 : 1 - s ≠ 0 := by linarith
        have k1 := (mul_eq_zero.1 k1).resolve_left s3
        have k2 := (mul_eq_zero.1 k2).resolve_left s3
        exact ⟨by simp only; linarith, by simp only; linarith⟩
    have h1 : windingNumber (pairs m false) z = 1 := by
      refine (side_values hs hw hq (q := y) (c := z) hyo fun t ht x hx hxp => ?_).2 ?_
      · by_cases n1 : t = (p, v)
        · exfalso
          subst n1
          obtain ⟨j, j0, j1, hj⟩ := onSegment_lerp_iff hxp
          have h0 := onSegment_cross hx
          have e : cross p v x = (1 - j) * s * cross p v q := by
            simp only [cross, hj.1, hj.2, hy, hz, lerp]; ring
          simp only at h0
          rw [e] at h0
          have j1 : j = 1 := by
            by_contra hne
            exact mul_ne_zero (mul_ne_zero (sub_ne_zero.2 (Ne.symm hne)) s0.ne') hneg.ne h0
          obtain ⟨i, i0, i1, ix, iy⟩ := hx
          have e1 : slant h x = slant h v - s * (slant h p - slant h v) := by
            simp only [slant, hj.1, hj.2, hy, hz, lerp, j1]; ring
          have e2 : slant h x = slant h v + (1 - i) * (slant h p - slant h v) := by
            simp only [slant, ix, iy]; ring
          have a1 := mul_pos s0 (sub_pos.2 hα)
          have a2 := mul_nonneg (sub_nonneg.2 i1) (sub_pos.2 hα).le
          linarith
        by_cases n2 : t = (v, q)
        · subst n2
          obtain ⟨j, j0, j1, hj⟩ := onSegment_lerp_iff hxp
          have h0 := onSegment_cross hx
          have e : cross v q x = -(j * s * cross p v q) := by
            simp only [cross, hj.1, hj.2, hy, hz, lerp]; ring
          simp only at h0
          rw [e, neg_eq_zero] at h0
          have j1 : j = 0 := by
            by_contra hne
            exact mul_ne_zero (mul_ne_zero hne s0.ne') hneg.ne h0
          refine ⟨?_, ?_⟩
          · rw [hj.1, j1]; simp [lerp]
          · rw [hj.2, j1]; simp [lerp]
        · exact absurd hx (hmiss t ht n1 n2 x hxp)
      · have e : cross v q z = -(s * cross p v q) := by simp only [cross, hz, lerp]; ring
        simp only
        rw [e]
        nlinarith
    have h0 : windingNumber (pairs m false) z = 0 := by
      refine beyond_outside (a := v) (b := shift h v 1) (fun k => by simpa [SamePoint, shift] using k.2) (fun r hr => ?_) ?_
      · have e : cross v (shift h v 1) r = -(slant h r - slant h v) := by simp only [cross, shift, slant]; ring
        rw [e]
        by_cases hrv : r = v
        · rw [hrv]; simp
        · linarith [hmin r hr hrv]
      · have e : cross v (shift h v 1) z = s * (slant h p - slant h v) := by
          simp only [cross, shift, slant, hz, lerp]; ring
        rw [e]
        exact mul_pos s0 (sub_pos.2 hα)
    rw [h0] at h1
    exact zero_ne_one h1
  · -- the sides overlap
    set α := slant h p - slant h v with hαe
    set β := slant h q - slant h v with hβe
    have α0 : 0 < α := sub_pos.2 hα
    have β0 : 0 < β := sub_pos.2 hβ
    have e1 : α * (q.x - v.x) = β * (p.x - v.x) := by
      have : h * cross p v q = 0 := by rw [hzero, mul_zero]
      simp only [cross] at this
      simp only [hαe, hβe, slant]
      linear_combination this
    have e2 : α * (q.y - v.y) = β * (p.y - v.y) := by
      have : cross p v q = 0 := hzero
      simp only [cross] at this
      simp only [hαe, hβe, slant]
      linear_combination -this
    have ab : 0 < α + β := add_pos α0 β0
    have hx : StrictlyOn v q (lerp v q (α / (α + β))) := by
      have hk : α / (α + β) < 1 := by rw [div_lt_one ab]; linarith
      have hk0 : 0 < α / (α + β) := div_pos α0 ab
      refine ⟨⟨α / (α + β), hk0.le, hk.le, rfl, rfl⟩, fun k => hs.proper _ hq ?_, fun k => hs.proper _ hq ?_⟩
      · obtain ⟨k1, k2⟩ := k
        simp only [lerp] at k1 k2
        have k1 : α / (α + β) * (q.x - v.x) = 0 := by linarith
        have k2 : α / (α + β) * (q.y - v.y) = 0 := by linarith
        have k1 := (mul_eq_zero.1 k1).resolve_left hk0.ne'
        have k2 := (mul_eq_zero.1 k2).resolve_left hk0.ne'
        exact ⟨by simp only; linarith, by simp only; linarith⟩
      · obtain ⟨k1, k2⟩ := k
        simp only [lerp] at k1 k2
        have s3 : 1 - α / (α + β) ≠ 0 := by linarith
        have k1 : (1 - α / (α + β)) * (q.x - v.x) = 0 := by linarith
        have k2 : (1 - α / (α + β)) * (q.y - v.y) = 0 := by linarith
        have k1 := (mul_eq_zero.1 k1).resolve_left s3
        have k2 := (mul_eq_zero.1 k2).resolve_left s3
        exact ⟨by simp only; linarith, by simp only; linarith⟩
    refine nside (hs.only hq hp hx ⟨α / (α + β), div_nonneg α0.le ab.le, by rw [div_le_one ab]; linarith, ?_, ?_⟩)
    · simp only [lerp]
      field_simp
      linear_combination e1
    · simp only [lerp]
      field_simp
      linear_combination e2

omit hw in
/-- Two sides meet at their ends. -/
theorem side_contact {s t : Vertex K × Vertex K} (h1 : s ∈ pairs m false) (h2 : t ∈ pairs m false) (hne : t ≠ s) {y : Vertex K}
    (y1 : OnSegment s.1 s.2 y) (y2 : OnSegment t.1 t.2 y) : SamePoint y s.1 ∨ SamePoint y s.2 := by
  by_contra hc
  push Not at hc
  exact hne (hs.only h1 h2 ⟨y1, fun k => hc.1 ⟨k.1.symm, k.2.symm⟩, fun k => hc.2 ⟨k.1.symm, k.2.symm⟩⟩ y2)

end

theorem cross_three (p v q x : Vertex K) : cross p v x + cross v q x + cross q p x = cross p v q := by
  simp only [cross]; ring

theorem cross_lerp_three (a b x w : Vertex K) (k : K) : cross a b (lerp x w k) = (1 - k) * cross a b x + k * cross a b w := by
  simp only [cross, lerp]; ring

theorem on_first {p v q y : Vertex K} (hd : 0 < cross p v q) (h1 : cross p v y = 0) (h2 : 0 ≤ cross v q y)
    (h3 : 0 ≤ cross q p y) : OnSegment p v y := by
  have h := cross_three p v q y
  obtain ⟨k, hk⟩ : ∃ k : K, k * cross p v q = cross q p y := ⟨_, div_mul_cancel₀ _ hd.ne'⟩
  refine ⟨k, ?_, ?_, mul_left_cancel₀ hd.ne' ?_, mul_left_cancel₀ hd.ne' ?_⟩
  · by_contra hlt
    push Not at hlt
    nlinarith
  · by_contra hlt
    push Not at hlt
    nlinarith
  · simp only [cross] at h1 hk ⊢
    linear_combination (q.x - p.x) * h1 - (v.x - p.x) * hk
  · simp only [cross] at h1 hk ⊢
    linear_combination (q.y - p.y) * h1 - (v.y - p.y) * hk

theorem on_second {p v q y : Vertex K} (hd : 0 < cross p v q) (h1 : 0 ≤ cross p v y) (h2 : cross v q y = 0)
    (h3 : 0 ≤ cross q p y) : OnSegment v q y :=
  on_first (q := p) (by rw [cross_rotate]; exact hd) h2 h3 h1

/-- A way that leaves the triangle, and does not cross its third side, crosses one of the others. -/
theorem exit_triangle {p v q x w : Vertex K} (hd : 0 < cross p v q) (x1 : 0 < cross p v x) (x2 : 0 < cross v q x)
    (x3 : 0 < cross q p x) (w3 : 0 < cross q p w) (hw : cross p v w < 0 ∨ cross v q w < 0) :
    ∃ y, OnSegment x w y ∧ 0 < cross q p y ∧ (OnSegment p v y ∨ OnSegment v q y) := by
  have third : ∀ k : K, 0 ≤ k → k ≤ 1 → 0 < cross q p (lerp x w k) := by
    intro k k0 k1
    rw [cross_lerp_three]
    rcases k1.lt_or_eq with k1 | k1
    · have := mul_pos (sub_pos.2 k1) x3
      have := mul_nonneg k0 w3.le
      linarith
    · rw [k1]; linarith
  have first : cross p v w < 0 → cross p v x * -cross v q w ≤ cross v q x * -cross p v w →
      ∃ y, OnSegment x w y ∧ 0 < cross q p y ∧ (OnSegment p v y ∨ OnSegment v q y) := by
    intro hneg hle
    have hD : 0 < cross p v x - cross p v w := by linarith
    obtain ⟨k, hk⟩ : ∃ k : K, k * (cross p v x - cross p v w) = cross p v x := ⟨_, div_mul_cancel₀ _ hD.ne'⟩
    have k0 : 0 ≤ k := by
      by_contra hlt
      push Not at hlt
      nlinarith
    have k1 : k ≤ 1 := by
      by_contra hlt
      push Not at hlt
      nlinarith
    refine ⟨lerp x w k, ⟨k, k0, k1, rfl, rfl⟩, third k k0 k1, Or.inl (on_first hd ?_ ?_ (third k k0 k1).le)⟩
    · rw [cross_lerp_three]; linarith
    · rw [cross_lerp_three]
      have e : (cross p v x - cross p v w) * ((1 - k) * cross v q x + k * cross v q w) =
          cross v q x * -cross p v w - cross p v x * -cross v q w := by
        linear_combination (cross v q w - cross v q x) * hk
      by_contra hlt
      push Not at hlt
      nlinarith [mul_neg_of_pos_of_neg hD hlt]
  have second : cross v q w < 0 → cross v q x * -cross p v w ≤ cross p v x * -cross v q w →
      ∃ y, OnSegment x w y ∧ 0 < cross q p y ∧ (OnSegment p v y ∨ OnSegment v q y) := by
    intro hneg hle
    have hD : 0 < cross v q x - cross v q w := by linarith
    obtain ⟨k, hk⟩ : ∃ k : K, k * (cross v q x - cross v q w) = cross v q x := ⟨_, div_mul_cancel₀ _ hD.ne'⟩
    have k0 : 0 ≤ k := by
      by_contra hlt
      push Not at hlt
      nlinarith
    have k1 : k ≤ 1 := by
      by_contra hlt
      push Not at hlt
      nlinarith
    refine ⟨lerp x w k, ⟨k, k0, k1, rfl, rfl⟩, third k k0 k1, Or.inr (on_second hd ?_ ?_ (third k k0 k1).le)⟩
    · rw [cross_lerp_three]
      have e : (cross v q x - cross v q w) * ((1 - k) * cross p v x + k * cross p v w) =
          cross p v x * -cross v q w - cross v q x * -cross p v w := by
        linear_combination (cross p v w - cross p v x) * hk
      by_contra hlt
      push Not at hlt
      nlinarith [mul_neg_of_pos_of_neg hD hlt]
    · rw [cross_lerp_three]; linarith
  by_cases a : cross p v w < 0
  · by_cases b : cross v q w < 0
    · rcases le_total (cross p v x * -cross v q w) (cross v q x * -cross p v w) with k | k
      exacts [first a k, second b k]
    · push Not at b
      exact first a (by nlinarith)
  · have b := hw.resolve_left a
    push Not at a
    exact second b (by nlinarith)

section

variable {m : List (Vertex K)} (hs : SimplePolygon m) (hw : WindsOnce m) (hreal : ∀ v ∈ m, v.isGhost = false)
  {p v q : Vertex K} (hp : (p, v) ∈ pairs m false) (hq : (v, q) ∈ pairs m false) (hd : 0 < cross p v q)
  {d : K} (d0 : 0 ≤ d) (hX : ∀ w ∈ m, w ≠ v → 0 ≤ cross p v w → 0 ≤ cross v q w → cross q p w ≤ d)

include hs hreal hp hq hd d0 hX

/-- No side enters the corner `p v q` up to the first vertex. -/
theorem corner_clear {t : Vertex K × Vertex K} (ht : t ∈ pairs m false) {x : Vertex K} (hx : OnSegment t.1 t.2 x)
    (x1 : 0 < cross p v x) (x2 : 0 < cross v q x) : cross q p x ≤ d := by
  by_contra hlt
  push Not at hlt
  have n1 : t ≠ (p, v) := by
    rintro rfl
    exact x1.ne' (onSegment_cross hx)
  have n2 : t ≠ (v, q) := by
    rintro rfl
    exact x2.ne' (onSegment_cross hx)
  have hvm := (mem_pairs hp).2
  simp only at hvm
  have hnv : ¬ OnSegment t.1 t.2 v := by
    intro ho
    rcases vertex_side hs hreal hvm ht ho with k | k
    · exact n2 (side_fst hs ht hq k)
    · exact n1 (side_snd hs ht hp k)
  obtain ⟨w, hwm, hwo, hwd⟩ : ∃ w ∈ m, OnSegment t.1 t.2 w ∧ cross q p x ≤ cross q p w := by
    obtain ⟨t1, t2⟩ := mem_pairs ht
    rcases le_total (cross q p t.1) (cross q p t.2) with k | k
    · refine ⟨t.2, t2, onSegment_right _ _, ?_⟩
      obtain ⟨j, j0, j1, jx, jy⟩ := hx
      have e : cross q p x = (1 - j) * cross q p t.1 + j * cross q p t.2 := by simp only [cross, jx, jy]; ring
      nlinarith [mul_nonneg (sub_nonneg.2 j1) (sub_nonneg.2 k)]
    · refine ⟨t.1, t1, onSegment_left _ _, ?_⟩
      obtain ⟨j, j0, j1, jx, jy⟩ := hx
      have e : cross q p x = (1 - j) * cross q p t.1 + j * cross q p t.2 := by simp only [cross, jx, jy]; ring
      nlinarith [mul_nonneg j0 (sub_nonneg.2 k)]
  have hwv : w ≠ v := fun e => hnv (e ▸ hwo)
  by_cases hc : cross p v w < 0 ∨ cross v q w < 0
  · obtain ⟨y, hy, y3, hyo⟩ := exit_triangle hd x1 x2 (by linarith) (by linarith) hc
    have hyt : OnSegment t.1 t.2 y := onSegment_trans hx hwo hy
    have yv : ¬ SamePoint y v := fun e => hnv ((onSegment_congr ⟨rfl, rfl⟩ ⟨rfl, rfl⟩ e).1 hyt)
    rcases hyo with hyo | hyo
    · rcases side_contact hs hreal hp ht n1 hyo hyt with e | e
      · have : cross q p y = 0 := by simp only [cross, e.1, e.2]; ring
        linarith
      · exact yv e
    · rcases side_contact hs hreal hq ht n2 hyo hyt with e | e
      · exact yv e
      · have : cross q p y = 0 := by simp only [cross, e.1, e.2]; ring
        linarith
  · push Not at hc
    have := hX w hwm hwv hc.1 hc.2
    linarith

include hw

/-- The corner is inside of the polygon. -/
theorem corner_inside {x : Vertex K} (hoff : ∀ t ∈ pairs m false, ¬ OnSegment t.1 t.2 x) (x1 : 0 < cross p v x)
    (x2 : 0 < cross v q x) (x3 : d ≤ cross q p x) : InsidePolygon m x := by
  refine ⟨hoff, ?_⟩
  have h3 := cross_three p v q x
  have hdd : d < cross p v q := by linarith
  obtain ⟨k, hk⟩ : ∃ k : K, k * (2 * cross p v q) = cross p v q - d := ⟨_, div_mul_cancel₀ _ (by linarith)⟩
  have k0 : 0 < k := by
    by_contra hlt
    push Not at hlt
    nlinarith
  have k1 : k < 1 := by
    by_contra hlt
    push Not at hlt
    nlinarith
  have hpr := hs.proper _ hq
  have hyo : StrictlyOn v q (lerp v q k) := by
    refine ⟨⟨k, k0.le, k1.le, rfl, rfl⟩, fun e => hpr ?_, fun e => hpr ?_⟩
    · obtain ⟨e1, e2⟩ := e
      simp only [lerp] at e1 e2
      have e1 : k * (q.x - v.x) = 0 := by linarith
      have e2 : k * (q.y - v.y) = 0 := by linarith
      have e1 := (mul_eq_zero.1 e1).resolve_left k0.ne'
      have e2 := (mul_eq_zero.1 e2).resolve_left k0.ne'
      exact ⟨by simp only; linarith, by simp only; linarith⟩
    · obtain ⟨e1, e2⟩ := e
      simp only [lerp] at e1 e2
      have s3 : 1 - k ≠ 0 := by linarith
      have e1 : (1 - k) * (q.x - v.x) = 0 := by linarith
      have e2 : (1 - k) * (q.y - v.y) = 0 := by linarith
      have e1 := (mul_eq_zero.1 e1).resolve_left s3
      have e2 := (mul_eq_zero.1 e2).resolve_left s3
      exact ⟨by simp only; linarith, by simp only; linarith⟩
  have f1 : cross p v (lerp v q k) = k * cross p v q := by simp only [cross, lerp]; ring
  have f2 : cross v q (lerp v q k) = 0 := by simp only [cross, lerp]; ring
  have f3 : cross q p (lerp v q k) = (1 - k) * cross p v q := by simp only [cross, lerp]; ring
  have hone := (side_values hs hw hq (q := lerp v q k) (c := x) hyo fun t ht z hz hzp => ?_).2 x2
  · rw [hone]; exact one_ne_zero
  obtain ⟨j, j0, j1, hj⟩ := onSegment_lerp_iff hzp
  rcases j0.lt_or_eq with j0 | j0
  · exfalso
    rcases j1.lt_or_eq with j1 | j1
    · have c : ∀ a b : Vertex K, cross a b z = (1 - j) * cross a b (lerp v q k) + j * cross a b x := fun a b => by
        rw [← cross_lerp_three]; simp only [cross, hj.1, hj.2]
      have g1 : 0 < cross p v z := by
        rw [c, f1]
        have := mul_pos (sub_pos.2 j1) (mul_pos k0 hd)
        have := mul_pos j0 x1
        linarith
      have g2 : 0 < cross v q z := by
        rw [c, f2]
        have := mul_pos j0 x2
        linarith
      have := corner_clear hs hreal hp hq hd d0 hX ht hz g1 g2
      rw [c, f3] at this
      have h1 : (1 - k) * cross p v q = (cross p v q + d) / 2 := by linarith
      rw [h1] at this
      have := mul_pos (sub_pos.2 j1) (by linarith : 0 < (cross p v q + d) / 2 - d)
      have := mul_nonneg j0.le (sub_nonneg.2 x3)
      linarith
    · refine hoff t ht ((onSegment_congr ⟨rfl, rfl⟩ ⟨rfl, rfl⟩ (⟨?_, ?_⟩ : SamePoint z x)).1 hz)
      · rw [hj.1, j1]; simp [lerp]
      · rw [hj.2, j1]; simp [lerp]
  · refine ⟨?_, ?_⟩
    · rw [hj.1, ← j0]; simp [lerp]
    · rw [hj.2, ← j0]; simp [lerp]

end

theorem at_first {p v q y : Vertex K} (hd : 0 < cross p v q) (h1 : cross p v y = 0) (h3 : cross q p y = 0) : SamePoint y p := by
  refine ⟨mul_left_cancel₀ hd.ne' ?_, mul_left_cancel₀ hd.ne' ?_⟩
  · simp only [cross] at h1 h3 ⊢
    linear_combination (q.x - p.x) * h1 + (v.x - p.x) * h3
  · simp only [cross] at h1 h3 ⊢
    linear_combination (q.y - p.y) * h1 + (v.y - p.y) * h3

theorem at_second {p v q y : Vertex K} (hd : 0 < cross p v q) (h2 : cross v q y = 0) (h3 : cross q p y = 0) : SamePoint y q := by
  refine at_first (p := q) (v := p) (q := v) ?_ h3 h2
  rw [← cross_rotate]; exact hd

/-- A side along the line `q p` through a point between these ends at `p` or `q`, if no other vertex is between them. -/
theorem line_end {m : List (Vertex K)} (hs : SimplePolygon m) (hreal : ∀ v ∈ m, v.isGhost = false)
    {p v q : Vertex K} (hpm : p ∈ m) (hqm : q ∈ m) (hd : 0 < cross p v q)
    (hX : ∀ w ∈ m, 0 ≤ cross p v w → 0 ≤ cross v q w → 0 ≤ cross q p w → w = v ∨ w = p ∨ w = q) {x : Vertex K}
    (x1 : 0 < cross p v x) (x2 : 0 < cross v q x) (e3 : cross q p x = 0) {t : Vertex K × Vertex K} (ht : t ∈ pairs m false)
    (hxt : OnSegment t.1 t.2 x) {w w' : Vertex K} (hwm : w ∈ m) (ho : OnSegment t.1 t.2 w)
    (hww : t.1 = w ∧ t.2 = w' ∨ t.1 = w' ∧ t.2 = w) (hw0 : cross q p w = 0) {i : K} (i1 : i < 1)
    (hi : ∀ a b : Vertex K, cross a b x = (1 - i) * cross a b w + i * cross a b w') : w = p ∨ w = q := by
  have z1 : ∀ a b : Vertex K, cross a b a = 0 := fun a b => by simp only [cross]; ring
  have z2 : ∀ a b : Vertex K, cross a b b = 0 := fun a b => by simp only [cross]; ring
  -- the function `f` is zero at the end `r` of `q p` only
  have side : ∀ (f : Vertex K → K) (r : Vertex K), r ∈ m → f r = 0 → 0 < f x → f w < 0 →
      (∀ k, f (lerp w x k) = (1 - k) * f w + k * f x) → f x = (1 - i) * f w + i * f w' →
      (∀ y, f y = 0 → cross q p y = 0 → SamePoint y r) → False := by
    intro f r hrm hr0 hfx a hlin hfi hsame
    have hD : 0 < f x - f w := by linarith
    obtain ⟨k, hk⟩ : ∃ k : K, k * (f x - f w) = -f w := ⟨_, div_mul_cancel₀ _ hD.ne'⟩
    have k0 : 0 ≤ k := by
      by_contra hlt
      push Not at hlt
      nlinarith
    have k1 : k ≤ 1 := by
      by_contra hlt
      push Not at hlt
      nlinarith
    have hz : OnSegment t.1 t.2 (lerp w x k) := onSegment_trans ho hxt ⟨k, k0, k1, rfl, rfl⟩
    have hsm := hsame (lerp w x k) (by rw [hlin]; linarith) (by rw [cross_lerp_three, hw0, e3]; ring)
    have hpt : OnSegment t.1 t.2 r := (onSegment_congr ⟨rfl, rfl⟩ ⟨rfl, rfl⟩ hsm).1 hz
    have hwr : w ≠ r := by
      rintro rfl
      rw [hr0] at a
      exact lt_irrefl _ a
    have hw' : w' = r := by
      rcases vertex_side hs hreal hrm ht hpt with c | c
      · rcases hww with ⟨c1, c2⟩ | ⟨c1, c2⟩
        · exact absurd (c1.symm.trans c) hwr
        · exact c1.symm.trans c
      · rcases hww with ⟨c1, c2⟩ | ⟨c1, c2⟩
        · exact c2.symm.trans c
        · exact absurd (c2.symm.trans c) hwr
    rw [hw', hr0, mul_zero, add_zero] at hfi
    have := mul_pos (sub_pos.2 i1) (neg_pos.2 a)
    linarith
  have a : 0 ≤ cross p v w := by
    by_contra hlt
    push Not at hlt
    exact side (cross p v) p hpm (z1 _ _) x1 hlt (fun k => cross_lerp_three _ _ _ _ _) (hi p v) fun y => at_first hd
  have b : 0 ≤ cross v q w := by
    by_contra hlt
    push Not at hlt
    exact side (cross v q) q hqm (z2 _ _) x2 hlt (fun k => cross_lerp_three _ _ _ _ _) (hi v q) fun y => at_second hd
  rcases hX w hwm a b hw0.ge with c | c | c
  · rw [c, ← cross_rotate, ← cross_rotate] at hw0
    simp only [cross] at hw0 hd
    linarith
  · exact Or.inl c
  · exact Or.inr c

/-- The points strictly between `q` and `p` are inside, when the corner holds no other vertex. -/
theorem ear_inside {m : List (Vertex K)} (hs : SimplePolygon m) (hw : WindsOnce m) (hreal : ∀ v ∈ m, v.isGhost = false)
    {p v q : Vertex K} (hp : (p, v) ∈ pairs m false) (hq : (v, q) ∈ pairs m false) (hd : 0 < cross p v q)
    (hX : ∀ w ∈ m, 0 ≤ cross p v w → 0 ≤ cross v q w → 0 ≤ cross q p w → w = v ∨ w = p ∨ w = q)
    (hqp : (q, p) ∉ pairs m false) {x : Vertex K} (hx : StrictlyOn q p x) : InsidePolygon m x := by
  have hpm := (mem_pairs hp).1
  have hvm := (mem_pairs hp).2
  have hqm := (mem_pairs hq).2
  simp only at hpm hvm hqm
  have z1 : ∀ a b : Vertex K, cross a b a = 0 := fun a b => by simp only [cross]; ring
  have z2 : ∀ a b : Vertex K, cross a b b = 0 := fun a b => by simp only [cross]; ring
  have hX' : ∀ w ∈ m, w ≠ v → 0 ≤ cross p v w → 0 ≤ cross v q w → cross q p w ≤ 0 := by
    intro w hwm hne h1 h2
    by_contra hlt
    push Not at hlt
    rcases hX w hwm h1 h2 hlt.le with k | k | k
    · exact hne k
    · rw [k, z2] at hlt; exact lt_irrefl _ hlt
    · rw [k, z1] at hlt; exact lt_irrefl _ hlt
  have e3 : cross q p x = 0 := onSegment_cross hx.1
  obtain ⟨k, k0, k1, kx, ky⟩ := hx.1
  have e1 : cross p v x = (1 - k) * cross p v q := by simp only [cross, kx, ky]; ring
  have e2 : cross v q x = k * cross p v q := by simp only [cross, kx, ky]; ring
  have k0 : 0 < k := by
    refine lt_of_le_of_ne k0 fun e => hx.2.1 ⟨?_, ?_⟩
    · rw [kx, ← e]; ring
    · rw [ky, ← e]; ring
  have k1 : k < 1 := by
    refine lt_of_le_of_ne k1 fun e => hx.2.2 ⟨?_, ?_⟩
    · rw [kx, e]; ring
    · rw [ky, e]; ring
  have x1 : 0 < cross p v x := by rw [e1]; exact mul_pos (sub_pos.2 k1) hd
  have x2 : 0 < cross v q x := by rw [e2]; exact mul_pos k0 hd
  refine corner_inside hs hw hreal hp hq hd le_rfl hX' (fun t ht ho => ?_) x1 x2 e3.ge
  obtain ⟨t1, t2⟩ := mem_pairs ht
  have nx : ∀ w ∈ m, ¬ SamePoint w x := by
    intro w hwm e
    have c : ∀ a b : Vertex K, cross a b w = cross a b x := fun a b => by simp only [cross, e.1, e.2]
    rcases hX w hwm (by rw [c]; exact x1.le) (by rw [c]; exact x2.le) (by rw [c, e3]) with r | r | r
    · have := c q p
      rw [r, e3, ← cross_rotate, ← cross_rotate] at this
      simp only [cross] at this hd
      linarith
    · have := c p v
      rw [r, z1] at this
      linarith
    · have := c v q
      rw [r, z2] at this
      linarith
  -- no end of the side is over the line
  have low : ∀ w, OnSegment t.1 t.2 w → cross q p w ≤ 0 := by
    intro w hwo
    by_contra hlt
    push Not at hlt
    obtain ⟨s, s0, ⟨k1, k2⟩, k3⟩ := (((soon_pos x1 (cross p v w - cross p v x)).and
      (soon_pos x2 (cross v q w - cross v q x))).and (show Soon fun s : K => s < 1 from ⟨1, one_pos, fun s _ h => h⟩)).exists
    have hz : OnSegment t.1 t.2 (lerp x w s) := onSegment_trans ho hwo ⟨s, s0.le, k3.le, rfl, rfl⟩
    have := corner_clear hs hreal hp hq hd le_rfl hX' ht hz
      (by rw [cross_lerp_three]; linarith [k1.1]) (by rw [cross_lerp_three]; linarith [k2.1])
    rw [cross_lerp_three, e3, mul_zero, zero_add] at this
    exact absurd this (not_le.2 (mul_pos s0 hlt))
  obtain ⟨j, j0, j1, jx, jy⟩ := ho
  have j0 : 0 < j := by
    refine lt_of_le_of_ne j0 fun e => nx _ t1 ⟨?_, ?_⟩
    · rw [jx, ← e]; ring
    · rw [jy, ← e]; ring
  have j1 : j < 1 := by
    refine lt_of_le_of_ne j1 fun e => nx _ t2 ⟨?_, ?_⟩
    · rw [jx, e]; ring
    · rw [jy, e]; ring
  have hx3 : ∀ a b : Vertex K, cross a b x = (1 - j) * cross a b t.1 + j * cross a b t.2 := fun a b => by
    simp only [cross, jx, jy]; ring
  have l1 := low t.1 (onSegment_left _ _)
  have l2 := low t.2 (onSegment_right _ _)
  have hz := hx3 q p
  rw [e3] at hz
  have l1 : cross q p t.1 = 0 := by
    refine le_antisymm l1 ?_
    by_contra hlt
    push Not at hlt
    have := mul_pos (sub_pos.2 j1) (neg_pos.2 hlt)
    have := mul_nonneg j0.le (neg_nonneg.2 l2)
    linarith
  have l2 : cross q p t.2 = 0 := by
    rw [l1, mul_zero, zero_add] at hz
    exact (mul_eq_zero.1 hz.symm).resolve_left j0.ne'
  -- so it runs along the line, from end to end
  have ho : OnSegment t.1 t.2 x := ⟨j, j0.le, j1.le, jx, jy⟩
  have w1 := line_end hs hreal hpm hqm hd hX x1 x2 e3 ht ho t1 (onSegment_left _ _) (Or.inl ⟨rfl, rfl⟩) l1 j1 hx3
  have w2 := line_end hs hreal hpm hqm hd hX x1 x2 e3 ht ho t2 (onSegment_right _ _) (Or.inr ⟨rfl, rfl⟩) l2 (i := 1 - j) (by linarith)
    fun a b => by rw [hx3 a b]; ring
  have hne : t.1 ≠ t.2 := fun e => hs.proper t ht (by rw [e]; exact ⟨rfl, rfl⟩)
  rcases w1 with w1 | w1 <;> rcases w2 with w2 | w2
  · exact hne (w1.trans w2.symm)
  · have := side_fst hs ht hp w1
    subst this
    simp only at w2
    exact hs.proper _ hq (by rw [w2]; exact ⟨rfl, rfl⟩)
  · refine hqp ?_
    have : t = (q, p) := Prod.ext w1 w2
    rwa [this] at ht
  · exact hne (w1.trans w2.symm)

/-- A simple polygon with more than three corners has a diagonal. -/
theorem exists_diagonal {m : List (Vertex K)} (hs : SimplePolygon m) (hw : WindsOnce m) (hreal : ∀ v ∈ m, v.isGhost = false)
    (h4 : 4 ≤ m.length) {h : K} (hg : Generic h m.toFinset) : ∃ a A c C, Diagonal m a A c C ∧ A ≠ [] ∧ C ≠ [] := by
  have hne : m.toFinset.Nonempty := by
    obtain ⟨a, ha⟩ : ∃ a, a ∈ m := List.exists_mem_of_length_pos (by omega)
    exact ⟨a, List.mem_toFinset.2 ha⟩
  obtain ⟨v, hv, hv'⟩ := Finset.exists_min_image m.toFinset (slant h) hne
  have hvm := List.mem_toFinset.1 hv
  have hmin : ∀ r ∈ m, r ≠ v → slant h v < slant h r := fun r hr hrv =>
    lt_of_le_of_ne (hv' r (List.mem_toFinset.2 hr)) (hg v hv r (List.mem_toFinset.2 hr) (Ne.symm hrv))
  obtain ⟨X, Y, rfl⟩ := List.append_of_mem hvm
  -- the list, from `v` on
  obtain ⟨q, B, p, hYX, hB⟩ : ∃ q B p, Y ++ X = q :: (B ++ [p]) ∧ B ≠ [] := by
    have hlen : 3 ≤ (Y ++ X).length := by simp at h4 ⊢; omega
    rcases hR : Y ++ X with _ | ⟨q, R⟩
    · rw [hR] at hlen; simp at hlen
    · rw [hR] at hlen
      rcases List.eq_nil_or_concat' R with rfl | ⟨B, p, rfl⟩
      · simp at hlen
      · refine ⟨q, B, p, rfl, ?_⟩
        rintro rfl
        simp at hlen
  have hperm : (X ++ v :: Y).Perm (v :: (q :: (B ++ [p]))) := by
    rw [← hYX]
    exact List.perm_middle.trans (List.Perm.cons v List.perm_append_comm)
  have hpairs : (pairs (X ++ v :: Y) false).Perm (pairs (v :: (q :: (B ++ [p]))) false) := by
    have := pairs_rotate (X ++ v :: Y) X.length
    rw [List.rotate_append_length_eq, List.cons_append, hYX] at this
    exact this.symm
  generalize X ++ v :: Y = m at *
  have hnd := hperm.nodup_iff.1 (simplePolygon_nodup hs)
  have hsplit : ∀ B1 z B2, q :: (B ++ [p]) = B1 ++ z :: B2 →
      pairs (v :: (q :: (B ++ [p]))) false = consecutivePairs (v :: (B1 ++ [z])) ++ consecutivePairs (z :: (B2 ++ [v])) := by
    intro B1 z B2 e
    rw [pairs_closed_eq, e]
    have := consecutivePairs_join (v :: B1) z (B2 ++ [v])
    simp only [List.cons_append, List.append_assoc] at this ⊢
    exact this.symm
  have hqm : (v, q) ∈ pairs m false := by
    rw [hpairs.mem_iff, hsplit [] q (B ++ [p]) rfl]
    simp [consecutivePairs]
  have hpm : (p, v) ∈ pairs m false := by
    rw [hpairs.mem_iff, hsplit (q :: B) p [] rfl]
    simp [consecutivePairs]
  have hd := low_corner hs hw hreal hpm hqm hmin
  by_cases hX : ∀ w ∈ m, 0 ≤ cross p v w → 0 ≤ cross v q w → 0 ≤ cross q p w → w = v ∨ w = p ∨ w = q
  · -- an ear
    refine ⟨q, B, p, [v], ⟨hs, hw, hreal, hperm.trans ?_, hpairs.trans ?_, fun x hx => ?_⟩, hB, by simp⟩
    · have e : q :: (B ++ p :: [v]) = (q :: (B ++ [p])) ++ [v] := by simp
      rw [e]
      exact (List.perm_append_singleton _ _).symm
    · rw [hsplit (q :: B) p [] rfl]
      have e : consecutivePairs (v :: (q :: B ++ [p])) = (v, q) :: consecutivePairs (q :: (B ++ [p])) := rfl
      rw [e]
      have e2 : consecutivePairs (p :: ([v] ++ [q])) = [(p, v)] ++ [(v, q)] := rfl
      have e3 : consecutivePairs (p :: ([] ++ [v])) = [(p, v)] := rfl
      rw [e2, e3, ← List.append_assoc, List.cons_append]
      exact (List.perm_append_singleton _ _).symm
    · refine ear_inside hs hw hreal hpm hqm hd hX (fun hqp => ?_) hx
      obtain ⟨b, B', rfl⟩ := List.exists_cons_of_ne_nil hB
      have hqb : (q, b) ∈ pairs m false := by
        rw [hpairs.mem_iff, hsplit [q] b (B' ++ [p]) rfl]
        simp [consecutivePairs]
      have := (Prod.mk.inj (side_fst hs hqp hqb rfl)).2
      subst this
      simp at hnd
  · -- the vertex in the corner that is farthest from `p q`
    push Not at hX
    obtain ⟨w, hwm, w1, w2, w3, wv, wp, wq⟩ := hX
    let P : Vertex K → Prop := fun w => 0 ≤ cross p v w ∧ 0 ≤ cross v q w ∧ w ≠ v ∧ w ≠ p ∧ w ≠ q
    classical
    obtain ⟨z, hz, hz'⟩ := Finset.exists_max_image (m.toFinset.filter P) (cross q p)
      ⟨w, Finset.mem_filter.2 ⟨List.mem_toFinset.2 hwm, w1, w2, wv, wp, wq⟩⟩
    rw [Finset.mem_filter, List.mem_toFinset] at hz
    obtain ⟨hzm, z1, z2, zv, zp, zq⟩ := hz
    have z3 : 0 ≤ cross q p z := w3.trans (hz' w (Finset.mem_filter.2 ⟨List.mem_toFinset.2 hwm, w1, w2, wv, wp, wq⟩))
    have hX : ∀ w ∈ m, w ≠ v → 0 ≤ cross p v w → 0 ≤ cross v q w → cross q p w ≤ cross q p z := by
      intro w hwm wv w1 w2
      by_cases wp : w = p
      · rw [wp]
        refine le_trans (le_of_eq ?_) z3
        simp only [cross]; ring
      by_cases wq : w = q
      · rw [wq]
        refine le_trans (le_of_eq ?_) z3
        simp only [cross]; ring
      exact hz' w (Finset.mem_filter.2 ⟨List.mem_toFinset.2 hwm, w1, w2, wv, wp, wq⟩)
    have z1 : 0 < cross p v z := by
      refine lt_of_le_of_ne z1 fun e => ?_
      rcases vertex_side hs hreal hzm hpm (on_first hd e.symm z2 z3) with k | k
      · exact zp k.symm
      · exact zv k.symm
    have z2 : 0 < cross v q z := by
      refine lt_of_le_of_ne z2 fun e => ?_
      rcases vertex_side hs hreal hzm hqm (on_second hd z1.le e.symm z3) with k | k
      · exact zv k.symm
      · exact zq k.symm
    have hzB : z ∈ B := by
      have := hperm.mem_iff.1 hzm
      simp only [List.mem_cons, List.mem_append, List.not_mem_nil, or_false] at this
      rcases this with k | k | k | k
      exacts [absurd k zv, absurd k zq, k, absurd k zp]
    obtain ⟨B1, B2, rfl⟩ := List.append_of_mem hzB
    refine ⟨v, q :: B1, z, B2 ++ [p], ⟨hs, hw, hreal, hperm.trans (by simp), hpairs.trans ?_, fun x hx => ?_⟩, by simp, by simp⟩
    · rw [hsplit (q :: B1) z (B2 ++ [p]) (by simp)]
    · obtain ⟨k, k0, k1, kx, ky⟩ := hx.1
      have k0 : 0 < k := by
        refine lt_of_le_of_ne k0 fun e => hx.2.1 ⟨?_, ?_⟩
        · rw [kx, ← e]; ring
        · rw [ky, ← e]; ring
      have k1 : k < 1 := by
        refine lt_of_le_of_ne k1 fun e => hx.2.2 ⟨?_, ?_⟩
        · rw [kx, e]; ring
        · rw [ky, e]; ring
      have e1 : cross p v x = k * cross p v z := by simp only [cross, kx, ky]; ring
      have e2 : cross v q x = k * cross v q z := by simp only [cross, kx, ky]; ring
      have x1 : 0 < cross p v x := by rw [e1]; exact mul_pos k0 z1
      have x2 : 0 < cross v q x := by rw [e2]; exact mul_pos k0 z2
      have x3 : cross q p z < cross q p x := by
        have s1 := cross_three p v q x
        have s2 := cross_three p v q z
        have a1 := mul_pos (sub_pos.2 k1) z1
        have a2 := mul_pos (sub_pos.2 k1) z2
        linarith
      refine corner_inside hs hw hreal hpm hqm hd z3 hX (fun t ht ho => ?_) x1 x2 x3.le
      exact absurd (corner_clear hs hreal hpm hqm hd z3 hX ht ho x1 x2) (not_le.2 x3)

/-- What the corners of a simple polygon add is always the same. -/
theorem cornerSum_simple (n : ℕ) : ∀ {m : List (Vertex K)}, m.length = n → 3 ≤ n → SimplePolygon m → WindsOnce m →
    (∀ v ∈ m, v.isGhost = false) → ∀ {h : K}, Generic h m.toFinset → Soon fun s => cornerSum m h s = -2 := by
  induction n using Nat.strong_induction_on with
  | _ n ih =>
    intro m hn h3 hs hw hreal h hg
    by_cases h4 : 4 ≤ n
    · obtain ⟨a, A, c, C, hD, hA, hC⟩ := exists_diagonal hs hw hreal (by omega) hg
      have hlen : m.length = A.length + C.length + 2 := by
        rw [hD.verts.length_eq]; simp; omega
      have hA := List.length_pos_iff.2 hA
      have hC := List.length_pos_iff.2 hC
      have s1 : ∀ x ∈ a :: (A ++ [c]), x ∈ m := by
        intro x hx
        rw [hD.mem]
        simp only [List.mem_cons, List.mem_append, List.not_mem_nil, or_false] at hx
        tauto
      have s2 : ∀ x ∈ c :: (C ++ [a]), x ∈ m := by
        intro x hx
        rw [hD.mem]
        simp only [List.mem_cons, List.mem_append, List.not_mem_nil, or_false] at hx
        tauto
      have i1 := ih (A.length + 2) (by omega) (by simp : (a :: (A ++ [c])).length = A.length + 2) (by omega) hD.piece (hD.once hg)
        (fun v hv => hreal v (s1 v hv)) (h := h) fun p hp q hq =>
          hg p (List.mem_toFinset.2 (s1 p (List.mem_toFinset.1 hp))) q (List.mem_toFinset.2 (s1 q (List.mem_toFinset.1 hq)))
      have i2 := ih (C.length + 2) (by omega) (by simp : (c :: (C ++ [a])).length = C.length + 2) (by omega) hD.symm.piece (hD.symm.once hg)
        (fun v hv => hreal v (s2 v hv)) (h := h) fun p hp q hq =>
          hg p (List.mem_toFinset.2 (s2 p (List.mem_toFinset.1 hp))) q (List.mem_toFinset.2 (s2 q (List.mem_toFinset.1 hq)))
      refine ((i1.and i2).and (hD.cornerSum_eq hg)).mono fun s _ k => ?_
      rw [k.2, k.1.1, k.1.2]
      norm_num
    · -- a triangle
      have hn3 : m.length = 3 := by omega
      have hc : StrictlyConvex m := by
        obtain ⟨u, v, w, rfl⟩ := List.length_eq_three.1 hn3
        obtain ⟨x, hx, hx'⟩ := Finset.exists_min_image [u, v, w].toFinset (slant h) ⟨u, by simp⟩
        have hmin : ∀ r ∈ [u, v, w], r ≠ x → slant h x < slant h r := fun r hr hrx =>
          lt_of_le_of_ne (hx' r (List.mem_toFinset.2 hr)) (hg x hx r (List.mem_toFinset.2 hr) (Ne.symm hrx))
        have hpos : 0 < cross u v w := by
          have hxm := List.mem_toFinset.1 hx
          simp only [List.mem_cons, List.not_mem_nil, or_false] at hxm
          rcases hxm with rfl | rfl | rfl
          · have := low_corner hs hw hreal (p := w) (v := x) (q := v) (by simp [pairs, consecutivePairs])
              (by simp [pairs, consecutivePairs]) hmin
            rwa [← cross_rotate] at this
          · exact low_corner hs hw hreal (p := u) (v := x) (q := w) (by simp [pairs, consecutivePairs])
              (by simp [pairs, consecutivePairs]) hmin
          · have := low_corner hs hw hreal (p := v) (v := x) (q := u) (by simp [pairs, consecutivePairs])
              (by simp [pairs, consecutivePairs]) hmin
            rwa [cross_rotate] at this
        intro a b c hsub
        have := hsub.eq_of_length (by simp)
        simp only [List.cons.injEq, and_true] at this
        obtain ⟨rfl, rfl, rfl⟩ := this
        exact hpos
      exact cornerSum_convex hc (by omega) hw hg

end Verif
