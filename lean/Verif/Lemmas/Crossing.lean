import Verif.Lemmas.Refined

/-!
# Lemmas: the winding number changes where a side is crossed
-/

namespace Verif

open Spec

variable {K : Type*} [Field K] [LinearOrder K] [IsStrictOrderedRing K]

set_option linter.unusedSectionVars false

theorem At.between {S : Vertex K × Vertex K} {u w : K} {q q' v : Vertex K} (hq : At S u q) (hq' : At S w q')
    (huw : u ≤ w) (hv : OnSegment q q' v) : ∃ z, u ≤ z ∧ z ≤ w ∧ At S z v := by
  obtain ⟨t, t0, t1, tx, ty⟩ := hv
  refine ⟨u + t * (w - u), by nlinarith, by nlinarith, ?_, ?_⟩
  · rw [tx, hq.1, hq'.1]; ring
  · rw [ty, hq.2, hq'.2]; ring

theorem winding_step {l1 l2 : List (Vertex K × Vertex K)} {T : Vertex K × Vertex K}
    (hM : Telescopes (l1 ++ T :: l2)) {v w : Vertex K} (hvw : v.x < w.x)
    (hmiss : ∀ t ∈ l1 ++ l2, ∀ p, OnSegment t.1 t.2 p → ¬ OnSegment v w p) :
    windingNumber (l1 ++ T :: l2) w - windingNumber (l1 ++ T :: l2) v =
      (crossingAbove w T.1 T.2 - crossingAbove v T.1 T.2) - (aboveSeg v w T.2 - aboveSeg v w T.1) := by
  have hperm : (l1 ++ T :: l2).Perm (T :: (l1 ++ l2)) := List.perm_middle
  have h1 := sum_sub' (l1 ++ l2) (fun t => crossingAbove w t.1 t.2) (fun t => crossingAbove v t.1 t.2)
    (fun t => aboveSeg v w t.2 - aboveSeg v w t.1) fun t ht => crossing_diff hvw (hmiss t ht)
  have h2 := hM (aboveSeg v w)
  rw [(hperm.map _).sum_eq, List.map_cons, List.sum_cons] at h2
  unfold windingNumber
  rw [(hperm.map _).sum_eq, (hperm.map _).sum_eq, List.map_cons, List.sum_cons, List.map_cons, List.sum_cons]
  linarith

/-- The crossings of a segment over points on both sides of it differ. -/
theorem crossing_sides {T S : Vertex K × Vertex K} (hx : T.1.x ≠ T.2.x) {w e : K} (he : 0 < e) {b q q' : Vertex K}
    (hbS : At S w b) (hbT : OnSegment T.1 T.2 b) (hpar : ¬ Parallel S.1 S.2 T.1 T.2)
    (h1 : e * |S.2.x - S.1.x| < |T.1.x - b.x|) (h2 : e * |S.2.x - S.1.x| < |T.2.x - b.x|)
    (hq : At S (w - e) q) (hq' : At S (w + e) q') :
    crossingAbove q' T.1 T.2 ≠ crossingAbove q T.1 T.2 := by
  have hne : T.2.x - T.1.x ≠ 0 := sub_ne_zero.2 hx.symm
  obtain ⟨γ, hγ⟩ : ∃ γ, γ = (S.2.x - S.1.x) * ((T.2.y - T.1.y) / (T.2.x - T.1.x)) - (S.2.y - S.1.y) := ⟨_, rfl⟩
  have hγ0 : γ ≠ 0 := by
    intro h0
    apply hpar
    unfold Parallel
    rw [hγ, sub_eq_zero, ← mul_div_assoc, div_eq_iff hne] at h0
    exact h0
  have hb : heightAt T.1 T.2 b.x = b.y := by
    obtain ⟨t, -, -, tx, ty⟩ := hbT
    unfold heightAt
    rw [tx, ty]
    field_simp
    ring
  have hg : ∀ z v, At S z v → heightAt T.1 T.2 v.x - v.y = (z - w) * γ := by
    intro z v hv
    have : heightAt T.1 T.2 v.x - v.y = heightAt T.1 T.2 b.x - b.y + (z - w) * γ := by
      unfold heightAt
      rw [hγ, hv.1, hv.2, hbS.1, hbS.2]
      ring
    rw [this, hb]; ring
  have gq := hg _ _ hq
  have gq' := hg _ _ hq'
  have xq : q.x - b.x = -(e * (S.2.x - S.1.x)) := by rw [hq.1, hbS.1]; ring
  have xq' : q'.x - b.x = e * (S.2.x - S.1.x) := by rw [hq'.1, hbS.1]; ring
  have aq : |q.x - b.x| = e * |S.2.x - S.1.x| := by rw [xq, abs_neg, abs_mul, abs_of_pos he]
  have aq' : |q'.x - b.x| = e * |S.2.x - S.1.x| := by rw [xq', abs_mul, abs_of_pos he]
  have hspan : ∃ σ : ℤ, σ ≠ 0 ∧ span T.1 T.2 q.x = σ ∧ span T.1 T.2 q'.x = σ := by
    obtain ⟨⟨bl, br⟩, -, -⟩ := onSegment_box hbT
    have near : ∀ z : K, |z - b.x| = e * |S.2.x - S.1.x| →
        (T.1.x < T.2.x → T.1.x < z ∧ z < T.2.x) ∧ (T.2.x < T.1.x → T.2.x < z ∧ z < T.1.x) := by
      intro z hz
      rw [← hz] at h1 h2
      refine ⟨fun hlt => ?_, fun hlt => ?_⟩
      · rw [min_eq_left hlt.le] at bl
        rw [max_eq_right hlt.le] at br
        rw [abs_of_nonpos (a := T.1.x - b.x) (by linarith)] at h1
        rw [abs_of_nonneg (a := T.2.x - b.x) (by linarith)] at h2
        constructor
        · have := neg_abs_le (z - b.x); linarith
        · have := le_abs_self (z - b.x); linarith
      · rw [min_eq_right hlt.le] at bl
        rw [max_eq_left hlt.le] at br
        rw [abs_of_nonneg (a := T.1.x - b.x) (by linarith)] at h1
        rw [abs_of_nonpos (a := T.2.x - b.x) (by linarith)] at h2
        constructor
        · have := neg_abs_le (z - b.x); linarith
        · have := le_abs_self (z - b.x); linarith
    unfold span
    rcases lt_or_gt_of_ne hx with hlt | hlt
    · obtain ⟨c1, c2⟩ := (near _ aq).1 hlt
      obtain ⟨c3, c4⟩ := (near _ aq').1 hlt
      refine ⟨-1, by decide, ?_, ?_⟩
      · rw [if_neg fun h => by linarith [h.1, h.2], if_pos ⟨c1.le, c2⟩]
      · rw [if_neg fun h => by linarith [h.1, h.2], if_pos ⟨c3.le, c4⟩]
    · obtain ⟨c1, c2⟩ := (near _ aq).2 hlt
      obtain ⟨c3, c4⟩ := (near _ aq').2 hlt
      exact ⟨1, by decide, if_pos ⟨c1.le, c2⟩, if_pos ⟨c3.le, c4⟩⟩
  obtain ⟨σ, σ0, s1, s2⟩ := hspan
  rw [crossing_eq, crossing_eq, s1, s2]
  rcases lt_or_gt_of_ne hγ0 with hlt | hlt
  · have n1 : q.y < heightAt T.1 T.2 q.x := by nlinarith
    have n2 : ¬ q'.y < heightAt T.1 T.2 q'.x := by nlinarith
    rw [if_pos n1, if_neg n2]
    exact σ0.symm
  · have n1 : ¬ q.y < heightAt T.1 T.2 q.x := by nlinarith
    have n2 : q'.y < heightAt T.1 T.2 q'.x := by nlinarith
    rw [if_neg n1, if_pos n2]
    exact σ0

/-- The ends of an upright segment are on both sides of a point inside it. -/
theorem above_sides {T S : Vertex K × Vertex K} (hx : T.1.x = T.2.x) {w e : K} (_he : 0 < e) {b q q' : Vertex K}
    (hbS : At S w b) (hbT : StrictlyOn T.1 T.2 b) (hq : At S (w - e) q) (hq' : At S (w + e) q') :
    (q.x < q'.x → aboveSeg q q' T.2 ≠ aboveSeg q q' T.1) ∧ (q'.x < q.x → aboveSeg q' q T.2 ≠ aboveSeg q' q T.1) := by
  have x1 : T.1.x = b.x := by
    obtain ⟨t, -, -, tx, -⟩ := hbT.1
    rw [tx, hx]; ring
  have x2 : T.2.x = b.x := hx.symm.trans x1
  have hy : (T.1.y < b.y ∧ b.y < T.2.y) ∨ (T.2.y < b.y ∧ b.y < T.1.y) := by
    obtain ⟨⟨t, t0, t1, -, ty⟩, e1, e2⟩ := hbT
    have t0' : 0 < t := lt_of_le_of_ne t0 fun h => e1 ⟨x1, by rw [ty, ← h]; ring⟩
    have t1' : t < 1 := lt_of_le_of_ne t1 fun h => e2 ⟨x2, by rw [ty, h]; ring⟩
    rcases lt_trichotomy T.1.y T.2.y with h | h | h
    · left; constructor <;> nlinarith
    · exact absurd ⟨x1, by rw [ty, h]; ring⟩ e1
    · right; constructor <;> nlinarith
  have key : ∀ u v : Vertex K, u.x < b.x → b.x < v.x → heightAt u v b.x = b.y →
      aboveSeg u v T.2 ≠ aboveSeg u v T.1 := by
    intro u v h1 h2 h3
    unfold aboveSeg
    rw [x1, x2, h3]
    rcases hy with ⟨a1, a2⟩ | ⟨a1, a2⟩
    · rw [if_pos ⟨h1, h2.le, a2⟩, if_neg fun h => absurd h.2.2 (not_lt.2 a1.le)]
      decide
    · rw [if_neg fun h => absurd h.2.2 (not_lt.2 a1.le), if_pos ⟨h1, h2.le, a2⟩]
      decide
  have xq : q.x = b.x - e * (S.2.x - S.1.x) := by rw [hq.1, hbS.1]; ring
  have xq' : q'.x = b.x + e * (S.2.x - S.1.x) := by rw [hq'.1, hbS.1]; ring
  have yq : q.y = b.y - e * (S.2.y - S.1.y) := by rw [hq.2, hbS.2]; ring
  have yq' : q'.y = b.y + e * (S.2.y - S.1.y) := by rw [hq'.2, hbS.2]; ring
  constructor
  · intro hlt
    have hp : 0 < e * (S.2.x - S.1.x) := by linarith
    refine key q q' (by linarith) (by linarith) ?_
    have hne : q'.x - q.x ≠ 0 := by intro h; linarith
    unfold heightAt
    rw [← sub_eq_zero]
    refine (mul_eq_zero.1 ?_).resolve_left hne
    have : (q'.x - q.x) * (q.y + (b.x - q.x) * ((q'.y - q.y) / (q'.x - q.x)) - b.y) =
        (q'.x - q.x) * (q.y - b.y) + (b.x - q.x) * (q'.y - q.y) := by field_simp; ring
    rw [this, xq, xq', yq, yq']; ring
  · intro hlt
    have hp : e * (S.2.x - S.1.x) < 0 := by linarith
    refine key q' q (by linarith) (by linarith) ?_
    have hne : q.x - q'.x ≠ 0 := by intro h; linarith
    unfold heightAt
    rw [← sub_eq_zero]
    refine (mul_eq_zero.1 ?_).resolve_left hne
    have : (q.x - q'.x) * (q'.y + (b.x - q'.x) * ((q.y - q'.y) / (q.x - q'.x)) - b.y) =
        (q.x - q'.x) * (q'.y - b.y) + (b.x - q'.x) * (q.y - q'.y) := by field_simp; ring
    rw [this, xq, xq', yq, yq']; ring

/-- **The winding number changes** on the way along `S` across an inner point of the side `T`. -/
theorem cross_changes {l1 l2 : List (Vertex K × Vertex K)} {T S : Vertex K × Vertex K}
    (hM : Telescopes (l1 ++ T :: l2)) (hpar : ¬ Parallel S.1 S.2 T.1 T.2) {w d : K} (hd : 0 < d) {b : Vertex K}
    (hbS : At S w b) (hbT : StrictlyOn T.1 T.2 b)
    (hmiss : ∀ t ∈ l1 ++ l2, ∀ z v, w - d ≤ z → z ≤ w + d → At S z v → ¬ OnSegment t.1 t.2 v) :
    ∃ e, 0 < e ∧ e ≤ d ∧ ∀ q q', At S (w - e) q → At S (w + e) q' →
      windingNumber (l1 ++ T :: l2) q ≠ windingNumber (l1 ++ T :: l2) q' := by
  obtain ⟨e0, he0, hP⟩ := exists_common (l := [T.1, T.2])
    (P := fun (i : Vertex K) (e : K) => i.x ≠ b.x → e * |S.2.x - S.1.x| < |i.x - b.x|)
    (fun i d d' hdd h hi => (mul_le_mul_of_nonneg_right hdd (abs_nonneg _)).trans_lt (h hi))
    (fun i _ => by
      by_cases hi : i.x = b.x
      · exact ⟨1, one_pos, fun h => absurd hi h⟩
      · have hpos : 0 < |i.x - b.x| := abs_pos.2 (sub_ne_zero.2 hi)
        have hn : 0 ≤ |S.2.x - S.1.x| := abs_nonneg _
        refine ⟨|i.x - b.x| / (1 + |S.2.x - S.1.x|), by positivity, fun _ => ?_⟩
        rw [div_mul_eq_mul_div, div_lt_iff₀ (by positivity)]
        nlinarith)
  have hmin : 0 < min e0 d := lt_min he0 hd
  obtain ⟨e, rfl⟩ : ∃ e, e = min e0 d := ⟨_, rfl⟩
  refine ⟨min e0 d, hmin, min_le_right _ _, fun q q' hq hq' => ?_⟩
  generalize he : min e0 d = e at *
  have hed : e ≤ d := he ▸ min_le_right _ _
  have hnear : ∀ i ∈ [T.1, T.2], i.x ≠ b.x → e * |S.2.x - S.1.x| < |i.x - b.x| := fun i hi hne =>
    (mul_le_mul_of_nonneg_right (he ▸ min_le_left e0 d) (abs_nonneg _)).trans_lt (hP i hi hne)
  have miss1 : ∀ t ∈ l1 ++ l2, ∀ p, OnSegment t.1 t.2 p → ¬ OnSegment q q' p := by
    intro t ht p hp hp'
    obtain ⟨z, z1, z2, z3⟩ := hq.between hq' (by linarith) hp'
    exact hmiss t ht z p (by linarith) (by linarith) z3 hp
  have miss2 : ∀ t ∈ l1 ++ l2, ∀ p, OnSegment t.1 t.2 p → ¬ OnSegment q' q p := fun t ht p hp hp' =>
    miss1 t ht p hp (onSegment_symm hp')
  have hup : T.1.x ≠ T.2.x → T.1.x ≠ b.x ∧ T.2.x ≠ b.x := by
    intro hne
    obtain ⟨⟨t, t0, t1, tx, ty⟩, e1, e2⟩ := hbT
    have hn : T.2.x - T.1.x ≠ 0 := sub_ne_zero.2 hne.symm
    refine ⟨fun h => e1 ?_, fun h => e2 ?_⟩
    · have : t = 0 := by
        have : t * (T.2.x - T.1.x) = 0 := by linarith
        exact (mul_eq_zero.1 this).resolve_right hn
      exact ⟨h, by rw [ty, this]; ring⟩
    · have : t = 1 := by
        have : (1 - t) * (T.2.x - T.1.x) = 0 := by linarith
        have := (mul_eq_zero.1 this).resolve_right hn
        linarith
      exact ⟨h, by rw [ty, this]; ring⟩
  have hside : T.1.x ≠ T.2.x → crossingAbove q' T.1 T.2 ≠ crossingAbove q T.1 T.2 := fun hne =>
    crossing_sides hne hmin hbS hbT.1 hpar (hnear _ (by simp) (hup hne).1) (hnear _ (by simp) (hup hne).2) hq hq'
  have hflat : T.1.x ≠ T.2.x → ∀ i ∈ [T.1, T.2], aboveSeg q q' i = 0 ∧ aboveSeg q' q i = 0 := by
    intro hne i hi
    have hib : i.x ≠ b.x := by
      rcases List.mem_cons.1 hi with rfl | hi
      · exact (hup hne).1
      · rw [List.mem_singleton.1 hi]; exact (hup hne).2
    have hn := hnear i hi hib
    have xq : q.x = b.x - e * (S.2.x - S.1.x) := by rw [hq.1, hbS.1]; ring
    have xq' : q'.x = b.x + e * (S.2.x - S.1.x) := by rw [hq'.1, hbS.1]; ring
    have hab : e * |S.2.x - S.1.x| = |e * (S.2.x - S.1.x)| := by rw [abs_mul, abs_of_pos hmin]
    rw [hab] at hn
    have b1 := neg_abs_le (e * (S.2.x - S.1.x))
    have b2 := le_abs_self (e * (S.2.x - S.1.x))
    have far : i.x < b.x - |e * (S.2.x - S.1.x)| ∨ b.x + |e * (S.2.x - S.1.x)| < i.x := by
      rcases lt_or_gt_of_ne hib with h | h
      · rw [abs_of_neg (a := i.x - b.x) (by linarith)] at hn
        left; linarith
      · rw [abs_of_pos (a := i.x - b.x) (by linarith)] at hn
        right; linarith
    unfold aboveSeg
    constructor
    · rw [if_neg]
      rintro ⟨a1, a2, -⟩
      rcases far with h | h <;> linarith
    · rw [if_neg]
      rintro ⟨a1, a2, -⟩
      rcases far with h | h <;> linarith
  rcases lt_trichotomy q.x q'.x with hlt | heq | hlt
  · have hs := winding_step hM hlt miss1
    intro hW
    rw [hW, sub_self] at hs
    by_cases hx : T.1.x = T.2.x
    · have := (above_sides hx hmin hbS hbT hq hq').1 hlt
      rw [crossing_upright hx, crossing_upright hx] at hs
      apply this; linarith
    · rw [(hflat hx T.1 (by simp)).1, (hflat hx T.2 (by simp)).1] at hs
      apply hside hx; linarith
  · have hx : T.1.x ≠ T.2.x := by
      intro hx
      apply hpar
      have : e * (S.2.x - S.1.x) = 0 := by
        have := hq.1
        have := hq'.1
        linarith
      have h0 := (mul_eq_zero.1 this).resolve_left hmin.ne'
      unfold Parallel
      rw [h0, hx]; ring
    intro hW
    apply hside hx
    have hperm : (l1 ++ T :: l2).Perm (T :: (l1 ++ l2)) := List.perm_middle
    unfold windingNumber at hW
    rw [(hperm.map _).sum_eq, (hperm.map _).sum_eq, List.map_cons, List.sum_cons, List.map_cons, List.sum_cons] at hW
    have : ((l1 ++ l2).map fun t => crossingAbove q' t.1 t.2) = (l1 ++ l2).map fun t => crossingAbove q t.1 t.2 :=
      List.map_congr_left fun t ht => crossing_vertical heq (miss1 t ht)
    rw [this] at hW
    linarith
  · have hs := winding_step hM hlt miss2
    intro hW
    rw [hW, sub_self] at hs
    by_cases hx : T.1.x = T.2.x
    · have := (above_sides hx hmin hbS hbT hq hq').2 hlt
      rw [crossing_upright hx, crossing_upright hx] at hs
      apply this; linarith
    · rw [(hflat hx T.1 (by simp)).2, (hflat hx T.2 (by simp)).2] at hs
      apply hside hx; linarith

end Verif
