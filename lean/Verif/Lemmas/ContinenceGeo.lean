import Verif.Lemmas.Continence
import Verif.Lemmas.WindingConst
import Verif.Props.Containment
import Verif.Props.Elements
import Mathlib.Data.Int.ModEq

/-!
# A piece of a split arrangement lies on a polygon or does not meet it
-/

set_option linter.unusedSectionVars false

namespace Verif

open Spec

variable {K : Type*} [Field K] [LinearOrder K] [IsStrictOrderedRing K]

/-- Position along the segment `a b`. -/
def along (a b p : Vertex K) : K := (b.x - a.x) * (p.x - a.x) + (b.y - a.y) * (p.y - a.y)

theorem along_right_pos {a b : Vertex K} (h : ¬ SamePoint a b) : 0 < along a b b := by
  unfold along
  by_cases hx : a.x = b.x
  · have hy : a.y ≠ b.y := fun hy => h ⟨hx, hy⟩
    have : 0 < (b.y - a.y) * (b.y - a.y) := mul_self_pos.2 (sub_ne_zero.2 hy.symm)
    have : 0 ≤ (b.x - a.x) * (b.x - a.x) := mul_self_nonneg _
    linarith
  · have : 0 < (b.x - a.x) * (b.x - a.x) := mul_self_pos.2 (sub_ne_zero.2 (Ne.symm hx))
    have : 0 ≤ (b.y - a.y) * (b.y - a.y) := mul_self_nonneg _
    linarith

/-- Points of a line are determined by their position. -/
theorem line_coords {a b p : Vertex K} (hc : cross a b p = 0) :
    (p.x - a.x) * along a b b = (b.x - a.x) * along a b p ∧
      (p.y - a.y) * along a b b = (b.y - a.y) * along a b p := by
  unfold cross at hc
  unfold along
  constructor
  · linear_combination -(b.y - a.y) * hc
  · linear_combination (b.x - a.x) * hc

theorem onSegment_along {a b u v p : Vertex K} (hab : ¬ SamePoint a b) (hu : cross a b u = 0)
    (hv : cross a b v = 0) (hp : cross a b p = 0) (h1 : along a b u ≤ along a b p)
    (h2 : along a b p ≤ along a b v) : OnSegment u v p := by
  have hL := along_right_pos hab
  obtain ⟨ux, uy⟩ := line_coords hu
  obtain ⟨vx, vy⟩ := line_coords hv
  obtain ⟨px, py⟩ := line_coords hp
  rcases (h1.trans h2).eq_or_lt with he | hlt
  · have hup : along a b u = along a b p := le_antisymm h1 (he ▸ h2)
    refine ⟨0, le_rfl, zero_le_one, ?_, ?_⟩
    · rw [hup, ← px] at ux
      have := mul_right_cancel₀ hL.ne' ux
      linarith
    · rw [hup, ← py] at uy
      have := mul_right_cancel₀ hL.ne' uy
      linarith
  · have hd : 0 < along a b v - along a b u := sub_pos.2 hlt
    refine ⟨(along a b p - along a b u) / (along a b v - along a b u), div_nonneg (by linarith) hd.le,
      (div_le_one hd).2 (by linarith), ?_, ?_⟩
    · have hne := hL.ne'
      have : (p.x - u.x) * along a b b * (along a b v - along a b u) =
          (v.x - u.x) * along a b b * (along a b p - along a b u) := by
        have e1 : (p.x - u.x) * along a b b = (b.x - a.x) * (along a b p - along a b u) := by
          linear_combination px - ux
        have e2 : (v.x - u.x) * along a b b = (b.x - a.x) * (along a b v - along a b u) := by
          linear_combination vx - ux
        rw [e1, e2]; ring
      field_simp
      apply mul_right_cancel₀ hne
      linear_combination this
    · have hne := hL.ne'
      have : (p.y - u.y) * along a b b * (along a b v - along a b u) =
          (v.y - u.y) * along a b b * (along a b p - along a b u) := by
        have e1 : (p.y - u.y) * along a b b = (b.y - a.y) * (along a b p - along a b u) := by
          linear_combination py - uy
        have e2 : (v.y - u.y) * along a b b = (b.y - a.y) * (along a b v - along a b u) := by
          linear_combination vy - uy
        rw [e1, e2]; ring
      field_simp
      apply mul_right_cancel₀ hne
      linear_combination this

theorem along_left (a b : Vertex K) : along a b a = 0 := by unfold along; ring

theorem along_onSegment {a b p : Vertex K} (h : OnSegment a b p) (hab : ¬ SamePoint a b) :
    cross a b p = 0 ∧ 0 ≤ along a b p ∧ along a b p ≤ along a b b := by
  refine ⟨onSegment_cross h, ?_⟩
  have hL := along_right_pos hab
  obtain ⟨t, t0, t1, hx, hy⟩ := h
  have : along a b p = t * along a b b := by unfold along; rw [hx, hy]; ring
  rw [this]
  exact ⟨by positivity, by nlinarith⟩

theorem strictlyOn_along {a b p : Vertex K} (hab : ¬ SamePoint a b) :
    StrictlyOn a b p ↔ cross a b p = 0 ∧ 0 < along a b p ∧ along a b p < along a b b := by
  have hL := along_right_pos hab
  constructor
  · rintro ⟨h, h1, h2⟩
    obtain ⟨hc, g1, g2⟩ := along_onSegment h hab
    refine ⟨hc, lt_of_le_of_ne g1 fun he => h1 ?_, lt_of_le_of_ne g2 fun he => h2 ?_⟩
    · obtain ⟨px, py⟩ := line_coords hc
      rw [← he, mul_zero] at px py
      exact ⟨(sub_eq_zero.1 ((mul_eq_zero.1 px).resolve_right hL.ne')).symm,
        (sub_eq_zero.1 ((mul_eq_zero.1 py).resolve_right hL.ne')).symm⟩
    · obtain ⟨px, py⟩ := line_coords hc
      rw [he] at px py
      have ex := mul_right_cancel₀ hL.ne' px
      have ey := mul_right_cancel₀ hL.ne' py
      exact ⟨by linarith, by linarith⟩
  · rintro ⟨hc, g1, g2⟩
    refine ⟨onSegment_along hab (by unfold cross; ring) (by unfold cross; ring) hc
      (by rw [along_left]; exact g1.le) g2.le, fun h => ?_, fun h => ?_⟩
    · have : along a b p = 0 := by unfold along; rw [← h.1, ← h.2]; ring
      linarith
    · have : along a b p = along a b b := by unfold along; rw [← h.1, ← h.2]
      linarith

/-- A closed chain that can only meet the inside of a segment along it runs over the whole rest of the
segment. -/
theorem chain_forward {a b : Vertex K} (hab : ¬ SamePoint a b) (f : ℤ → Vertex K) (n : ℕ) (hn : 0 < n)
    (hper : ∀ i, f (i + n) = f i)
    (hfold : ∀ i, cross (f i) (f (i + 1)) (f (i + 2)) = 0 →
      0 < ((f (i + 1)).x - (f i).x) * ((f (i + 2)).x - (f (i + 1)).x) +
        ((f (i + 1)).y - (f i).y) * ((f (i + 2)).y - (f (i + 1)).y))
    (hpar : ∀ i, StrictlyOn a b (f i) → Parallel a b (f i) (f (i + 1)))
    (i : ℤ) (h1 : cross a b (f i) = 0) (h2 : cross a b (f (i + 1)) = 0)
    (h3 : along a b (f i) < along a b (f (i + 1))) (h4 : 0 < along a b (f (i + 1)))
    (q : Vertex K) (hq : cross a b q = 0) (hq1 : along a b (f i) ≤ along a b q)
    (hq2 : along a b q ≤ along a b b) : ∃ j, OnSegment (f j) (f (j + 1)) q := by
  by_contra hcon
  have hL := along_right_pos hab
  have key : ∀ k : ℕ, cross a b (f (i + k)) = 0 ∧ cross a b (f (i + k + 1)) = 0 ∧
      along a b (f (i + k)) < along a b (f (i + k + 1)) ∧ 0 < along a b (f (i + k + 1)) ∧
      along a b (f (i + k + 1)) < along a b q ∧ along a b (f i) ≤ along a b (f (i + k)) := by
    intro k
    induction k with
    | zero =>
      simp only [Nat.cast_zero, add_zero]
      refine ⟨h1, h2, h3, h4, ?_, le_rfl⟩
      by_contra hc
      exact hcon ⟨i, onSegment_along hab h1 h2 hq hq1 (not_lt.1 hc)⟩
    | succ k ih =>
      obtain ⟨c1, c2, c3, c4, c5, c6⟩ := ih
      have hs : StrictlyOn a b (f (i + k + 1)) :=
        (strictlyOn_along hab).2 ⟨c2, c4, c5.trans_le hq2⟩
      have hp := hpar _ hs
      have e1 : i + ((k + 1 : ℕ) : ℤ) = i + k + 1 := by push_cast; ring
      have e2 : i + (k : ℤ) + 1 + 1 = i + k + 2 := by ring
      rw [e1, e2]
      rw [e2] at hp
      have c7 : cross a b (f (i + k + 2)) = 0 := by
        unfold Parallel at hp
        unfold cross at c2 ⊢
        linear_combination hp + c2
      have hc0 : cross (f (i + k)) (f (i + k + 1)) (f (i + k + 2)) = 0 := by
        obtain ⟨ux, uy⟩ := line_coords c1
        obtain ⟨vx, vy⟩ := line_coords c2
        obtain ⟨wx, wy⟩ := line_coords c7
        have : cross (f (i + k)) (f (i + k + 1)) (f (i + k + 2)) * (along a b b * along a b b) = 0 := by
          have f1 : ((f (i + k + 1)).x - (f (i + k)).x) * along a b b =
              (b.x - a.x) * (along a b (f (i + k + 1)) - along a b (f (i + k))) := by
            linear_combination vx - ux
          have f2 : ((f (i + k + 1)).y - (f (i + k)).y) * along a b b =
              (b.y - a.y) * (along a b (f (i + k + 1)) - along a b (f (i + k))) := by
            linear_combination vy - uy
          have f3 : ((f (i + k + 2)).x - (f (i + k)).x) * along a b b =
              (b.x - a.x) * (along a b (f (i + k + 2)) - along a b (f (i + k))) := by
            linear_combination wx - ux
          have f4 : ((f (i + k + 2)).y - (f (i + k)).y) * along a b b =
              (b.y - a.y) * (along a b (f (i + k + 2)) - along a b (f (i + k))) := by
            linear_combination wy - uy
          have : cross (f (i + k)) (f (i + k + 1)) (f (i + k + 2)) * (along a b b * along a b b) =
              (((f (i + k + 1)).x - (f (i + k)).x) * along a b b) *
                (((f (i + k + 2)).y - (f (i + k)).y) * along a b b) -
              (((f (i + k + 1)).y - (f (i + k)).y) * along a b b) *
                (((f (i + k + 2)).x - (f (i + k)).x) * along a b b) := by
            unfold cross; ring
          rw [this, f1, f2, f3, f4]; ring
        exact (mul_eq_zero.1 this).resolve_right (mul_pos hL hL).ne'
      have hdot := hfold (i + k) hc0
      have c8 : along a b (f (i + k + 1)) < along a b (f (i + k + 2)) := by
        obtain ⟨ux, uy⟩ := line_coords c1
        obtain ⟨vx, vy⟩ := line_coords c2
        obtain ⟨wx, wy⟩ := line_coords c7
        have f1 : ((f (i + k + 1)).x - (f (i + k)).x) * along a b b =
            (b.x - a.x) * (along a b (f (i + k + 1)) - along a b (f (i + k))) := by
          linear_combination vx - ux
        have f2 : ((f (i + k + 1)).y - (f (i + k)).y) * along a b b =
            (b.y - a.y) * (along a b (f (i + k + 1)) - along a b (f (i + k))) := by
          linear_combination vy - uy
        have g1 : ((f (i + k + 2)).x - (f (i + k + 1)).x) * along a b b =
            (b.x - a.x) * (along a b (f (i + k + 2)) - along a b (f (i + k + 1))) := by
          linear_combination wx - vx
        have g2 : ((f (i + k + 2)).y - (f (i + k + 1)).y) * along a b b =
            (b.y - a.y) * (along a b (f (i + k + 2)) - along a b (f (i + k + 1))) := by
          linear_combination wy - vy
        have hbb : along a b b = (b.x - a.x) ^ 2 + (b.y - a.y) ^ 2 := by unfold along; ring
        have hprod : 0 < (along a b (f (i + k + 1)) - along a b (f (i + k))) *
            (along a b (f (i + k + 2)) - along a b (f (i + k + 1))) * along a b b := by
          have e : (((f (i + k + 1)).x - (f (i + k)).x) * ((f (i + k + 2)).x - (f (i + k + 1)).x) +
              ((f (i + k + 1)).y - (f (i + k)).y) * ((f (i + k + 2)).y - (f (i + k + 1)).y)) *
              (along a b b * along a b b) =
              (along a b (f (i + k + 1)) - along a b (f (i + k))) *
                (along a b (f (i + k + 2)) - along a b (f (i + k + 1))) * along a b b := by
            have : (((f (i + k + 1)).x - (f (i + k)).x) * ((f (i + k + 2)).x - (f (i + k + 1)).x) +
                ((f (i + k + 1)).y - (f (i + k)).y) * ((f (i + k + 2)).y - (f (i + k + 1)).y)) *
                (along a b b * along a b b) =
                (((f (i + k + 1)).x - (f (i + k)).x) * along a b b) *
                  (((f (i + k + 2)).x - (f (i + k + 1)).x) * along a b b) +
                (((f (i + k + 1)).y - (f (i + k)).y) * along a b b) *
                  (((f (i + k + 2)).y - (f (i + k + 1)).y) * along a b b) := by ring
            rw [this, f1, f2, g1, g2]
            conv_rhs => rw [hbb]
            ring
          rw [← e]
          exact mul_pos hdot (mul_pos hL hL)
        have h5 : 0 < along a b (f (i + k + 1)) - along a b (f (i + k)) := sub_pos.2 c3
        by_contra hge
        have h6 : along a b (f (i + k + 2)) - along a b (f (i + k + 1)) ≤ 0 := sub_nonpos.2 (not_lt.1 hge)
        have := mul_nonpos_of_nonneg_of_nonpos h5.le h6
        have := mul_nonpos_of_nonpos_of_nonneg this hL.le
        linarith
      refine ⟨c2, c7, c8, c4.trans c8, ?_, (c6.trans c3.le)⟩
      by_contra hc
      have hon := onSegment_along hab c2 c7 hq c5.le (not_lt.1 hc)
      rw [← e2] at hon
      exact hcon ⟨i + k + 1, hon⟩
  -- strictly increasing and periodic
  obtain ⟨-, -, k3, -, -, k6⟩ := key (n - 1)
  have e3 : i + ((n - 1 : ℕ) : ℤ) + 1 = i + n := by
    have : ((n - 1 : ℕ) : ℤ) = (n : ℤ) - 1 := by omega
    rw [this]; ring
  rw [e3, hper] at k3
  linarith

/-- The segment `a b` lies on the closed chain as soon as the chain meets its inside. -/
theorem chain_covers {a b : Vertex K} (hab : ¬ SamePoint a b) (f : ℤ → Vertex K) (n : ℕ) (hn : 0 < n)
    (hper : ∀ i, f (i + n) = f i) (hne : ∀ i, ¬ SamePoint (f i) (f (i + 1)))
    (hfold : ∀ i, cross (f i) (f (i + 1)) (f (i + 2)) = 0 →
      0 < ((f (i + 1)).x - (f i).x) * ((f (i + 2)).x - (f (i + 1)).x) +
        ((f (i + 1)).y - (f i).y) * ((f (i + 2)).y - (f (i + 1)).y))
    (hpar : ∀ i x, OnSegment (f i) (f (i + 1)) x → StrictlyOn a b x → Parallel a b (f i) (f (i + 1)))
    (i : ℤ) (x : Vertex K) (hx : OnSegment (f i) (f (i + 1)) x) (hxs : StrictlyOn a b x)
    (q : Vertex K) (hq : OnSegment a b q) : ∃ j, OnSegment (f j) (f (j + 1)) q := by
  have hL := along_right_pos hab
  have hp := hpar i x hx hxs
  obtain ⟨hxc, hx0, hx1⟩ := (strictlyOn_along hab).1 hxs
  -- the two ends are on the line
  have hends : cross a b (f i) = 0 ∧ cross a b (f (i + 1)) = 0 := by
    obtain ⟨t, -, -, tx, ty⟩ := hx
    unfold Parallel at hp
    unfold cross at hxc ⊢
    rw [tx, ty] at hxc
    constructor
    · linear_combination hxc - t * hp
    · linear_combination hxc + (1 - t) * hp
  obtain ⟨hc1, hc2⟩ := hends
  have hbetween : ∃ t : K, 0 ≤ t ∧ t ≤ 1 ∧
      along a b x = along a b (f i) + t * (along a b (f (i + 1)) - along a b (f i)) := by
    obtain ⟨t, t0, t1, tx, ty⟩ := hx
    exact ⟨t, t0, t1, by unfold along; rw [tx, ty]; ring⟩
  obtain ⟨t, t0, t1, ht⟩ := hbetween
  obtain ⟨hqc, hq0, hq1⟩ := along_onSegment hq hab
  have hdiff : along a b (f i) ≠ along a b (f (i + 1)) := by
    intro he
    obtain ⟨ux, uy⟩ := line_coords hc1
    obtain ⟨vx, vy⟩ := line_coords hc2
    rw [he, ← vx] at ux
    rw [he, ← vy] at uy
    have ex := mul_right_cancel₀ hL.ne' ux
    have ey := mul_right_cancel₀ hL.ne' uy
    exact hne i ⟨by linarith, by linarith⟩
  -- the reversed chain
  have hper' : ∀ j, f (-(j + n)) = f (-j) := by
    intro j
    have := hper (-(j + n))
    rw [← this]; congr 1; ring
  have hfold' : ∀ j, cross (f (-j)) (f (-(j + 1))) (f (-(j + 2))) = 0 →
      0 < ((f (-(j + 1))).x - (f (-j)).x) * ((f (-(j + 2))).x - (f (-(j + 1))).x) +
        ((f (-(j + 1))).y - (f (-j)).y) * ((f (-(j + 2))).y - (f (-(j + 1))).y) := by
    intro j hc
    have e1 : -(j + 2) + 1 = -(j + 1) := by ring
    have e2 : -(j + 2) + 2 = -j := by ring
    have := hfold (-(j + 2))
    rw [e1, e2] at this
    have h' := this (by unfold cross at hc ⊢; linear_combination -hc)
    linarith
  have along_rev : ∀ p, along b a p = along a b b - along a b p := by
    intro p; unfold along; ring
  have cross_rev : ∀ p, cross b a p = -cross a b p := fun p => cross_swap a b p
  have hab' : ¬ SamePoint b a := fun h => hab h.symm
  have strict_rev : ∀ p, StrictlyOn b a p → StrictlyOn a b p := fun p h =>
    ⟨onSegment_symm h.1, h.2.2, h.2.1⟩
  have par_rev : ∀ c d, Parallel a b c d → Parallel b a c d := by
    intro c d h; unfold Parallel at h ⊢; linear_combination -h
  have par_rev' : ∀ c d, Parallel a b c d → Parallel a b d c := by
    intro c d h; unfold Parallel at h ⊢; linear_combination -h
  have hLrev : along b a a = along a b b := by unfold along; ring
  -- conversion of the answer for the reversed chain
  have back : (∃ j : ℤ, OnSegment (f (-j)) (f (-(j + 1))) q) → ∃ j, OnSegment (f j) (f (j + 1)) q := by
    rintro ⟨j, hj⟩
    refine ⟨-(j + 1), ?_⟩
    have : -(j + 1) + 1 = -j := by ring
    rw [this]; exact onSegment_symm hj
  have hpar' : ∀ j, StrictlyOn a b (f (-j)) → Parallel a b (f (-j)) (f (-(j + 1))) := by
    intro j hs
    have e : -(j + 1) + 1 = -j := by ring
    have := hpar (-(j + 1)) (f (-j)) (by rw [e]; exact onSegment_right _ _) hs
    rw [e] at this
    exact par_rev' _ _ this
  have hpar0 : ∀ j, StrictlyOn a b (f j) → Parallel a b (f j) (f (j + 1)) := fun j hs =>
    hpar j (f j) (onSegment_left _ _) hs
  rcases lt_or_gt_of_ne hdiff with hlt | hgt
  · -- the side runs forward
    have hi1 : 0 < along a b (f (i + 1)) := by nlinarith
    have hi0 : along a b (f i) < along a b b := by nlinarith
    rcases le_total (along a b (f i)) (along a b q) with hle | hle
    · exact chain_forward hab f n hn hper hfold hpar0 i hc1 hc2 hlt hi1 q hqc hle hq1
    · refine back ?_
      have e0 : f (-(-(i + 1))) = f (i + 1) := by congr 1; ring
      have e1 : f (-(-(i + 1) + 1)) = f i := by congr 1; ring
      refine chain_forward hab' (fun j => f (-j)) n hn hper' hfold'
        (fun j hs => par_rev _ _ (hpar' j (strict_rev _ hs))) (-(i + 1)) ?_ ?_ ?_ ?_ q ?_ ?_ ?_
      · simp only [e0]; rw [cross_rev, hc2, neg_zero]
      · simp only [e1]; rw [cross_rev, hc1, neg_zero]
      · simp only [e0, e1]; rw [along_rev, along_rev]; linarith
      · simp only [e1]; rw [along_rev]; linarith
      · rw [cross_rev, hqc, neg_zero]
      · simp only [e0]; rw [along_rev, along_rev]; linarith
      · rw [along_rev, hLrev]; linarith
  · -- the side runs backward
    have hi1 : 0 < along a b (f i) := by nlinarith
    have hi0 : along a b (f (i + 1)) < along a b b := by nlinarith
    rcases le_total (along a b (f (i + 1))) (along a b q) with hle | hle
    · refine back ?_
      have e0 : f (-(-(i + 1))) = f (i + 1) := by congr 1; ring
      have e1 : f (-(-(i + 1) + 1)) = f i := by congr 1; ring
      refine chain_forward hab (fun j => f (-j)) n hn hper' hfold' hpar' (-(i + 1)) ?_ ?_ ?_ ?_ q hqc ?_ hq1
      · simp only [e0]; exact hc2
      · simp only [e1]; exact hc1
      · simp only [e0, e1]; exact hgt
      · simp only [e1]; exact hi1
      · simp only [e0]; exact hle
    · refine chain_forward hab' f n hn hper hfold
        (fun j hs => par_rev _ _ (hpar0 j (strict_rev _ hs))) i ?_ ?_ ?_ ?_ q ?_ ?_ ?_
      · rw [cross_rev, hc1, neg_zero]
      · rw [cross_rev, hc2, neg_zero]
      · rw [along_rev, along_rev]; linarith
      · rw [along_rev]; linarith
      · rw [cross_rev, hqc, neg_zero]
      · rw [along_rev, along_rev]; linarith
      · rw [along_rev, hLrev]; linarith

/-- The vertices of a closed chain, read cyclically in both directions. -/
def cyc (l : List (Vertex K)) (i : ℤ) : Vertex K :=
  l.getD (i % (l.length : ℤ)).toNat ⟨0, 0, false⟩

theorem cyc_getElem {l : List (Vertex K)} (hn : 0 < l.length) (i : ℤ) :
    l[(i % (l.length : ℤ)).toNat]? = some (cyc l i) := by
  have h0 : 0 ≤ i % (l.length : ℤ) := Int.emod_nonneg _ (by omega)
  have h1 : i % (l.length : ℤ) < l.length := Int.emod_lt_of_pos _ (by omega)
  have hlt : (i % (l.length : ℤ)).toNat < l.length := by omega
  unfold cyc
  rw [List.getD_eq_getElem?_getD, List.getElem?_eq_getElem hlt]; rfl

theorem cyc_period (l : List (Vertex K)) (i : ℤ) : cyc l (i + (l.length : ℕ)) = cyc l i := by
  unfold cyc; rw [Int.add_emod_right]

theorem cyc_succ_index {n : ℕ} (hn : 0 < n) (i : ℤ) (k : ℕ) :
    ((i + k) % (n : ℤ)).toNat = ((i % (n : ℤ)).toNat + k) % n := by
  have h0 : 0 ≤ i % (n : ℤ) := Int.emod_nonneg _ (by omega)
  have h2 : 0 ≤ (i + k) % (n : ℤ) := Int.emod_nonneg _ (by omega)
  apply Int.ofNat_inj.1
  rw [Int.toNat_of_nonneg h2]
  push_cast
  rw [Int.toNat_of_nonneg h0, Int.emod_add_emod]

theorem cyc_nofold {l : List (Vertex K)} (hn : 0 < l.length) (h : NoFold l) (i : ℤ) :
    ¬ SamePoint (cyc l i) (cyc l (i + 1)) ∧
      (cross (cyc l i) (cyc l (i + 1)) (cyc l (i + 2)) = 0 →
      0 < ((cyc l (i + 1)).x - (cyc l i).x) * ((cyc l (i + 2)).x - (cyc l (i + 1)).x) +
        ((cyc l (i + 1)).y - (cyc l i).y) * ((cyc l (i + 2)).y - (cyc l (i + 1)).y)) := by
  have h0 := cyc_getElem hn i
  have h1 := cyc_getElem hn (i + (1 : ℕ))
  have h2 := cyc_getElem hn (i + (2 : ℕ))
  rw [cyc_succ_index hn] at h1 h2
  have hm : (i % (l.length : ℤ)).toNat % l.length = (i % (l.length : ℤ)).toNat := by
    apply Nat.mod_eq_of_lt
    have := Int.emod_lt_of_pos i (show (0 : ℤ) < l.length by omega)
    have := Int.emod_nonneg i (show (l.length : ℤ) ≠ 0 by omega)
    omega
  exact h _ _ _ _ (by rw [hm]; exact h0) h1 h2

theorem fromVertexPairs_mem {V : Type*} {l : List (V × V)} {s : V × V} :
    s ∈ l ↔ (⟨s.1, s.2⟩ : Edge V) ∈ Edge.fromVertexPairs l := by
  unfold Edge.fromVertexPairs
  constructor
  · intro h; exact List.mem_map.2 ⟨s, h, rfl⟩
  · intro h
    obtain ⟨t, ht, he⟩ := List.mem_map.1 h
    injection he with h1 h2
    have : t = s := Prod.ext h1 h2
    exact this ▸ ht

theorem mem_pairs_cyc {p : Polyline (Vertex K)} (hp : p.opened = false) (hn : 0 < p.vertices.length)
    {s : Vertex K × Vertex K} :
    s ∈ pairs p.vertices false ↔ ∃ i : ℤ, s = (cyc p.vertices i, cyc p.vertices (i + 1)) := by
  obtain ⟨hl, h⟩ := Props.C41_closed p hp hn
  have hm : s ∈ pairs p.vertices false ↔ (⟨s.1, s.2⟩ : Edge (Vertex K)) ∈ p.intoEdges := by
    rw [Polyline.intoEdges, hp]; exact fromVertexPairs_mem
  have hcyc : ∀ i (hi : i < p.vertices.length), cyc p.vertices (i : ℤ) = p.vertices[i] ∧
      cyc p.vertices ((i : ℤ) + 1) = p.vertices[(i + 1) % p.vertices.length]'(Nat.mod_lt _ hn) := by
    intro i hi
    have h1 := cyc_getElem hn (i : ℤ)
    have h2 := cyc_getElem hn ((i : ℤ) + (1 : ℕ))
    rw [cyc_succ_index hn] at h2
    have e : ((i : ℤ) % (p.vertices.length : ℤ)).toNat = i := by
      rw [← Int.natCast_mod, Nat.mod_eq_of_lt hi]; rfl
    rw [e, List.getElem?_eq_getElem hi] at h1
    rw [e, List.getElem?_eq_getElem (Nat.mod_lt _ hn)] at h2
    injection h1 with h1
    injection h2 with h2
    exact ⟨h1.symm, h2.symm⟩
  rw [hm]
  constructor
  · intro hs
    obtain ⟨i, hi⟩ := List.mem_iff_getElem?.1 hs
    have hlt : i < p.vertices.length := by
      have := (List.getElem?_eq_some_iff.1 hi).1
      omega
    rw [h i hlt] at hi
    injection hi with hi
    injection hi with h1 h2
    refine ⟨i, ?_⟩
    rw [(hcyc i hlt).1, (hcyc i hlt).2, h1, h2]
  · rintro ⟨i, rfl⟩
    have h0 : 0 ≤ i % (p.vertices.length : ℤ) := Int.emod_nonneg _ (by omega)
    have h1 : i % (p.vertices.length : ℤ) < p.vertices.length := Int.emod_lt_of_pos _ (by omega)
    obtain ⟨k, hk⟩ := Int.eq_ofNat_of_zero_le h0
    have hlt : k < p.vertices.length := by omega
    have e1 : cyc p.vertices i = cyc p.vertices (k : ℤ) := by
      unfold cyc; rw [← hk, Int.emod_emod_of_dvd _ dvd_rfl]
    have e2 : cyc p.vertices (i + 1) = cyc p.vertices ((k : ℤ) + 1) := by
      unfold cyc; rw [← hk, Int.emod_add_emod]
    refine List.mem_iff_getElem?.2 ⟨k, ?_⟩
    rw [h k hlt, e1, e2, (hcyc k hlt).1, (hcyc k hlt).2]

/-- Points joined by a segment that does not touch the polygon get the same answer. -/
theorem contains_const {p : Polyline (Vertex K)} (hp : p.opened = false) {v w : Vertex K}
    (hmiss : ∀ s ∈ pairs p.vertices false, ∀ x, OnSegment s.1 s.2 x → ¬ OnSegment v w x) :
    p.contains 0 v = p.contains 0 w ∧ p.contains 0 v ≠ some .boundary := by
  have hw := winding_const p.vertices hmiss
  have bv : p.contains 0 v ≠ some .boundary := by
    rw [Ne, Props.C08_boundary_exact p hp]
    rintro ⟨s, hs, hx⟩
    exact hmiss s hs v hx (onSegment_left _ _)
  have bw : p.contains 0 w ≠ some .boundary := by
    rw [Ne, Props.C08_boundary_exact p hp]
    rintro ⟨s, hs, hx⟩
    exact hmiss s hs w hx (onSegment_right _ _)
  obtain ⟨v1, v2⟩ := Props.C08_winding le_rfl p hp v
  obtain ⟨w1, w2⟩ := Props.C08_winding le_rfl p hp w
  obtain ⟨v3, v4⟩ := v2 (fun h => bv (v1.2 h))
  obtain ⟨w3, w4⟩ := w2 (fun h => bw (w1.2 h))
  refine ⟨?_, bv⟩
  by_cases h0 : windingNumber (pairs p.vertices false) v = 0
  · rw [v4.2 h0, w4.2 (hw ▸ h0)]
  · rw [v3.2 h0, w3.2 (hw ▸ h0)]

theorem contains_congr {p : Polyline (Vertex K)} (hp : p.opened = false) {v w : Vertex K}
    (h : SamePoint v w) : p.contains 0 v = p.contains 0 w := by
  by_cases hb : ∃ s ∈ pairs p.vertices false, OnSegment s.1 s.2 v
  · have hb' : ∃ s ∈ pairs p.vertices false, OnSegment s.1 s.2 w := by
      obtain ⟨s, hs, hv⟩ := hb
      exact ⟨s, hs, (onSegment_congr ⟨rfl, rfl⟩ ⟨rfl, rfl⟩ h).1 hv⟩
    rw [(Props.C08_boundary_exact p hp v).2 hb, (Props.C08_boundary_exact p hp w).2 hb']
  · refine (contains_const hp ?_).1
    intro s hs x hx hv
    refine hb ⟨s, hs, ?_⟩
    refine (onSegment_congr ⟨rfl, rfl⟩ ⟨rfl, rfl⟩ ?_).1 hx
    obtain ⟨t, -, -, tx, ty⟩ := hv
    rw [← h.1] at tx
    rw [← h.2] at ty
    exact ⟨by linarith, by linarith⟩

theorem midpoint_strictlyOn {a b : Vertex K} (hab : ¬ SamePoint a b) :
    StrictlyOn a b (Edge.midpoint ⟨a, b⟩) := by
  have h1 : (Edge.midpoint ⟨a, b⟩ : Vertex K).x = (a.x + b.x) / 2 := rfl
  have h2 : (Edge.midpoint ⟨a, b⟩ : Vertex K).y = (a.y + b.y) / 2 := rfl
  refine ⟨⟨1 / 2, by norm_num, by norm_num, ?_, ?_⟩, fun h => hab ?_, fun h => hab ?_⟩
  · rw [h1]; ring
  · rw [h2]; ring
  · have g1 := h.1
    have g2 := h.2
    rw [h1] at g1
    rw [h2] at g2
    exact ⟨by linarith, by linarith⟩
  · have g1 := h.1
    have g2 := h.2
    rw [h1] at g1
    rw [h2] at g2
    exact ⟨by linarith, by linarith⟩

/-- On a segment, everything between a point and a strictly inner point is strictly inner, except
possibly the first point. -/
theorem strictlyOn_between {a b q m x : Vertex K} (hab : ¬ SamePoint a b) (hq : OnSegment a b q)
    (hm : StrictlyOn a b m) (hx : OnSegment q m x) : StrictlyOn a b x ∨ SamePoint q x := by
  obtain ⟨qc, q0, q1⟩ := along_onSegment hq hab
  obtain ⟨mc, m0, m1⟩ := (strictlyOn_along hab).1 hm
  have hxs := onSegment_trans hq hm.1 hx
  obtain ⟨xc, x0, x1⟩ := along_onSegment hxs hab
  obtain ⟨t, t0, t1, tx, ty⟩ := hx
  rcases t0.eq_or_lt with he | hlt
  · right
    rw [← he] at tx ty
    exact ⟨by linarith, by linarith⟩
  · left
    refine (strictlyOn_along hab).2 ⟨xc, ?_, ?_⟩
    · have : along a b x = (1 - t) * along a b q + t * along a b m := by
        unfold along; rw [tx, ty]; ring
      rw [this]
      have := mul_nonneg (sub_nonneg.2 t1) q0
      have := mul_pos hlt m0
      linarith
    · have : along a b x = along a b b - ((1 - t) * (along a b b - along a b q) +
          t * (along a b b - along a b m)) := by
        unfold along; rw [tx, ty]; ring
      rw [this]
      have := mul_nonneg (sub_nonneg.2 t1) (sub_nonneg.2 q1)
      have := mul_pos hlt (sub_pos.2 m1)
      linarith

theorem parallel_of_sub {a b c d u w : Vertex K} (hn : ¬ SamePoint u w) (hu : OnSegment c d u)
    (hw : OnSegment c d w) (h : Parallel a b u w) : Parallel a b c d := by
  obtain ⟨s, -, -, sx, sy⟩ := hu
  obtain ⟨t, -, -, tx, ty⟩ := hw
  unfold Parallel at h ⊢
  rw [sx, sy, tx, ty] at h
  have hst : t - s ≠ 0 := by
    intro he
    apply hn
    have : t = s := by linarith
    rw [this] at tx ty
    exact ⟨by rw [sx, tx], by rw [sy, ty]⟩
  apply mul_left_cancel₀ hst
  linear_combination h

/-- What an answer of `continence` says about every point of the second polyline. -/
theorem continence_everywhere {p q : Polyline (Vertex K)} {fuel : Nat} {c : Continence}
    {b : BoundaryInclusion} (hn : p.vertices ≠ []) (hp : ∀ v ∈ p.vertices, v.isGhost = false)
    (hq : ∀ v ∈ q.vertices, v.isGhost = false) (hfold : NoFold p.vertices)
    (h : Polyline.continence 0 fuel p q = .ok (some (c, b))) :
    ∀ s ∈ pairs q.vertices q.opened, ∀ x, OnSegment s.1 s.2 x →
      p.contains 0 x = some .boundary ∨ p.contains 0 x = some c := by
  obtain ⟨ho, hcrit, -, r, hr, hmid⟩ := continence_ok h
  have hlen : 0 < p.vertices.length := List.length_pos_of_ne_nil hn
  have hinv := splitIntersections_inv (by
    intro s hs
    rcases List.mem_append.1 hs with hs | hs
    · exact pairs_solid hp s hs
    · exact pairs_solid hq s hs) hr
  intro t ht x hx
  by_cases hdeg : SamePoint t.1 t.2
  · -- a side of length zero: the point is its first vertex
    have hsame : SamePoint t.1 x := by
      obtain ⟨k, -, -, kx, ky⟩ := hx
      rw [← hdeg.1] at kx
      rw [← hdeg.2] at ky
      exact ⟨by linarith, by linarith⟩
    rw [← contains_congr ho hsame]
    refine hcrit _ ?_
    unfold Polyline.criticalVertices Polyline.intoEdges
    exact List.mem_flatMap.2 ⟨⟨t.1, t.2⟩, fromVertexPairs_mem.1 ht, by simp⟩
  · obtain ⟨s, hs, -, -, hsx, hsn⟩ := hinv.fine t (List.mem_append_right _ ht) hdeg x hx
    rw [List.nil_append] at hs
    by_cases hxb : ∃ e ∈ pairs p.vertices false, OnSegment e.1 e.2 x
    · exact Or.inl ((Props.C08_boundary_exact p ho x).2 hxb)
    by_cases hmeet : ∃ e ∈ pairs p.vertices false, ∃ y, OnSegment e.1 e.2 y ∧ StrictlyOn s.1 s.2 y
    · exfalso
      obtain ⟨e, he, y, hey, hsy⟩ := hmeet
      obtain ⟨i, rfl⟩ := (mem_pairs_cyc ho hlen).1 he
      refine hxb ?_
      have := chain_covers hsn (cyc p.vertices) p.vertices.length hlen (cyc_period _)
        (fun i => (cyc_nofold hlen hfold i).1) (fun i => (cyc_nofold hlen hfold i).2) ?_ i y hey hsy x hsx
      · obtain ⟨j, hj⟩ := this
        exact ⟨_, (mem_pairs_cyc ho hlen).2 ⟨j, rfl⟩, hj⟩
      · intro j z hz hsz
        have hej : (cyc p.vertices j, cyc p.vertices (j + 1)) ∈ pairs p.vertices false :=
          (mem_pairs_cyc ho hlen).2 ⟨j, rfl⟩
        obtain ⟨s', hs', h1, h2, h3, h4⟩ := hinv.fine _
          (List.mem_append_left _ (by rw [ho]; exact hej)) (cyc_nofold hlen hfold j).1 z hz
        rw [List.nil_append] at hs'
        by_contra hnp
        have hnp' : ¬ Parallel s.1 s.2 s'.1 s'.2 := fun hc => hnp (parallel_of_sub h4 h1 h2 hc)
        have hne : s ≠ s' := by
          rintro rfl
          exact hnp' (by unfold Parallel; ring)
        have hsym : Std.Symm (MeetAtEnds (K := K)) := ⟨fun _ _ => meetAtEnds_symm⟩
        have hmeets : MeetAtEnds s s' := hinv.apart.forall hs hs' hne
        rcases (hmeets hnp' z hsz.1 h3).1 with h5 | h5
        · exact hsz.2.1 h5
        · exact hsz.2.2 h5
    · right
      have hm := midpoint_strictlyOn hsn
      have hc := contains_const (p := p) ho (v := x) (w := Edge.midpoint ⟨s.1, s.2⟩) (by
        intro e he y hy hxy
        rcases strictlyOn_between hsn hsx hm hxy with h1 | h1
        · exact hmeet ⟨e, he, y, hy, h1⟩
        · exact hxb ⟨e, he, (onSegment_congr ⟨rfl, rfl⟩ ⟨rfl, rfl⟩ h1).2 hy⟩)
      rcases hmid s hs with h1 | h1
      · exact absurd (hc.1.trans h1) hc.2
      · exact hc.1.trans h1

theorem continenceLoop_const {p : Polyline (Vertex K)} {c : Continence} (hb : c ≠ .boundary) :
    ∀ (l : List (Vertex K)) (s : Option Continence), (s = none ∨ s = some c) →
      (∀ v ∈ l, p.contains 0 v = some c) →
      Polyline.continenceLoop 0 p l (s, .opened) =
        .ok (some (if l = [] then s else some c, .opened)) := by
  intro l
  induction l with
  | nil => intro s _ _; rfl
  | cons v l ih =>
    intro s hs h
    rw [Polyline.continenceLoop, h v (by simp)]
    have h' : ∀ w ∈ l, p.contains 0 w = some c := fun w hw => h w (List.mem_cons_of_mem _ hw)
    cases c with
    | boundary => exact absurd rfl hb
    | inside =>
      rcases hs with rfl | rfl
      · simp only []
        rw [ih _ (Or.inr rfl) h']; simp
      · simp only []
        rw [if_pos trivial, ih _ (Or.inr rfl) h']; simp
    | outside =>
      rcases hs with rfl | rfl
      · simp only []
        rw [ih _ (Or.inr rfl) h']; simp
      · simp only []
        rw [if_pos trivial, ih _ (Or.inr rfl) h']; simp

theorem continenceSplitLoop_all {p : Polyline (Vertex K)} {c : Continence}
    (l : List (Edge (Vertex K)))
    (h : ∀ e ∈ l, p.contains 0 e.midpoint = some .boundary ∨ p.contains 0 e.midpoint = some c) :
    Polyline.continenceSplitLoop 0 p (some c) l = .ok true := by
  induction l with
  | nil => rfl
  | cons e l ih =>
    have ih' := ih (fun f hf => h f (List.mem_cons_of_mem _ hf))
    rw [Polyline.continenceSplitLoop]
    rcases h e (by simp) with h1 | h1
    · rw [h1]; exact ih'
    · rw [h1]
      cases c with
      | boundary => exact ih'
      | inside => simp only []; rw [if_pos trivial]; exact ih'
      | outside => simp only []; rw [if_pos trivial]; exact ih'

theorem midpoint_onSegment {a b u w : Vertex K} (ha : OnSegment u w a) (hb : OnSegment u w b) :
    OnSegment u w (Edge.midpoint ⟨a, b⟩) :=
  onSegment_trans ha hb ⟨1 / 2, by norm_num, by norm_num, by
    show (a.x + b.x) / 2 = _; ring, by show (a.y + b.y) / 2 = _; ring⟩

theorem continence_complete {p q : Polyline (Vertex K)} (hp : ∀ v ∈ p.vertices, v.isGhost = false)
    (hq : ∀ v ∈ q.vertices, v.isGhost = false) (ho : p.opened = false) {c : Continence}
    (hb : c ≠ .boundary)
    (h : ∀ s ∈ pairs q.vertices q.opened, ∀ x, OnSegment s.1 s.2 x → p.contains 0 x = some c) :
    ∃ n, ∀ fuel, n ≤ fuel → Polyline.continence 0 fuel p q = .ok (some (c, .opened)) := by
  have hsolid : ∀ s ∈ pairs p.vertices p.opened ++ pairs q.vertices q.opened, Solid s := by
    intro s hs
    rcases List.mem_append.1 hs with hs | hs
    · exact pairs_solid hp s hs
    · exact pairs_solid hq s hs
  obtain ⟨n, hn⟩ := splitIntersections_total hsolid
  refine ⟨n, fun fuel hf => ?_⟩
  obtain ⟨r, hr⟩ := hn fuel hf
  have hinv := splitIntersections_inv hsolid hr
  have hcrit : ∀ v ∈ q.criticalVertices, p.contains 0 v = some c := by
    intro v hv
    unfold Polyline.criticalVertices Polyline.intoEdges at hv
    obtain ⟨e, he, hv⟩ := List.mem_flatMap.1 hv
    obtain ⟨s, hs, rfl⟩ := List.mem_map.1 he
    simp only [List.mem_cons, List.not_mem_nil, or_false] at hv
    rcases hv with rfl | rfl
    · exact h s hs _ (midpoint_onSegment (onSegment_left _ _) (onSegment_right _ _))
    · exact h s hs _ (onSegment_left _ _)
  unfold Polyline.continence
  rw [if_neg (by simp [ho]), continenceLoop_const hb _ _ (Or.inl rfl) hcrit, Res.bind_ok,
    if_neg (criticalVertices_ne_nil q)]
  simp only []
  rw [hr, Res.bind_ok, continenceSplitLoop_all, Res.bind_ok]
  · simp
  · intro e he
    obtain ⟨s, hs, rfl⟩ := List.mem_map.1 he
    obtain ⟨t, ht, h1, h2⟩ := hinv.parent s (by simpa using hs)
    have hm := midpoint_onSegment h1 h2
    rcases List.mem_append.1 ht with ht | ht
    · left
      rw [ho] at ht
      exact (Props.C08_boundary_exact p ho _).2 ⟨t, ht, hm⟩
    · right
      exact h t ht _ hm

end Verif
