import Verif.Lemmas.Regions

/-!
# Lemmas: a simple polygon has an inside and an outside

Each segment of an arrangement gets as weight the winding number on its right. As much weight arrives at every point as
leaves it, so that along a simple polygon the weight is the same everywhere; hence the winding number takes at most two
values, `0` and either `1` or `-1`.
-/

namespace Verif

open Spec

variable {K : Type*} [Field K] [LinearOrder K] [IsStrictOrderedRing K]

set_option linter.unusedSectionVars false

/-- One for the segments that have the plane above or to the right on their left-hand side. -/
def tilt (s : Vertex K × Vertex K) : ℤ :=
  if s.1.x < s.2.x ∨ (s.1.x = s.2.x ∧ s.2.y < s.1.y) then 1 else 0

theorem crossing_on {a b q : Vertex K} (h : OnSegment a b q) : crossingAbove q a b = 0 := by
  have := onSegment_cross h
  unfold crossingAbove
  rw [this]
  simp

/-- The square of the winding number, from the crossings weighted with the winding number there. -/
theorem winding_sq {l : List (Vertex K × Vertex K)} {v : Vertex K}
    (hne : l.Pairwise fun s t => span s.1 s.2 v.x ≠ 0 → span t.1 t.2 v.x ≠ 0 →
      heightAt s.1 s.2 v.x ≠ heightAt t.1 t.2 v.x) :
    windingNumber l v * windingNumber l v =
      weighted (fun s => span s.1 s.2 v.x + 2 * windingNumber l ⟨v.x, heightAt s.1 s.2 v.x, false⟩) l v := by
  induction l with
  | nil => simp [windingNumber, weighted]
  | cons s l ih =>
    obtain ⟨h1, h2⟩ := List.pairwise_cons.1 hne
    have hmul := winding_mul (l := [s]) (m := l) (v := v) fun s' hs t ht => by
      rw [List.mem_singleton] at hs
      subst hs
      exact h1 t ht
    have hself : crossingAbove (⟨v.x, heightAt s.1 s.2 v.x, false⟩ : Vertex K) s.1 s.2 = 0 := by
      rw [crossing_eq]; simp
    have hsq : crossingAbove v s.1 s.2 * crossingAbove v s.1 s.2 = span s.1 s.2 v.x * crossingAbove v s.1 s.2 := by
      rw [crossing_eq]; split_ifs <;> ring
    have hw : ∀ q, windingNumber (s :: l) q = crossingAbove q s.1 s.2 + windingNumber l q := fun q => by
      simp [windingNumber]
    have hw1 : ∀ q, windingNumber [s] q = crossingAbove q s.1 s.2 := fun q => by simp [windingNumber]
    have e : weighted (fun t => span t.1 t.2 v.x + 2 * windingNumber (s :: l) ⟨v.x, heightAt t.1 t.2 v.x, false⟩) l v =
        weighted (fun t => span t.1 t.2 v.x + 2 * windingNumber l ⟨v.x, heightAt t.1 t.2 v.x, false⟩) l v +
          2 * weighted (fun t => windingNumber [s] ⟨v.x, heightAt t.1 t.2 v.x, false⟩) l v := by
      unfold weighted
      rw [← List.sum_map_mul_left, ← List.sum_map_add]
      congr 1
      exact List.map_congr_left fun t _ => by simp only [hw, hw1]; ring
    have ih' := ih h2
    have hcons : ∀ k : Vertex K × Vertex K → ℤ, weighted k (s :: l) v = k s * crossingAbove v s.1 s.2 + weighted k l v :=
      fun k => by simp [weighted]
    rw [hcons, e, ← ih', hw, hw, hself]
    rw [hw1] at hmul
    have h0 : weighted (fun s => windingNumber l ⟨v.x, heightAt s.1 s.2 v.x, false⟩) [s] v =
        windingNumber l ⟨v.x, heightAt s.1 s.2 v.x, false⟩ * crossingAbove v s.1 s.2 := by simp [weighted]
    rw [h0] at hmul
    linear_combination hsq + 2 * hmul

section Own

variable {L : List (Vertex K × Vertex K)}

/-- The winding number is the same everywhere inside a segment of the arrangement. -/
theorem own_const (hap : L.Pairwise Separate) (hc : Telescopes L) {s : Vertex K × Vertex K} (hs : s ∈ L)
    (hne : ¬ SamePoint s.1 s.2) {q q' : Vertex K} (hq : StrictlyOn s.1 s.2 q) (hq' : StrictlyOn s.1 s.2 q') :
    windingNumber L q = windingNumber L q' := by
  obtain ⟨l1, l2, rfl⟩ := List.append_of_mem hs
  have hperm : (l1 ++ s :: l2).Perm (s :: (l1 ++ l2)) := List.perm_middle
  have hap' := (List.Perm.pairwise_iff (fun h => Separate.symm h) hperm).1 hap
  have hsep := (List.pairwise_cons.1 hap').1
  have hw : ∀ z, OnSegment s.1 s.2 z → windingNumber (l1 ++ s :: l2) z = windingNumber (l1 ++ l2) z := by
    intro z hz
    unfold windingNumber
    rw [(hperm.map _).sum_eq, List.map_cons, List.sum_cons, crossing_on hz, zero_add]
  have hmiss : ∀ {q q' : Vertex K}, StrictlyOn s.1 s.2 q → StrictlyOn s.1 s.2 q' → ∀ t ∈ l1 ++ l2, ∀ p,
      OnSegment t.1 t.2 p → ¬ OnSegment q q' p := by
    intro q q' hq hq' t ht p hp hp'
    rcases strictlyOn_between hne hq.1 hq' hp' with h | h
    · exact (hsep t ht p h.1 hp).1 h
    · exact (hsep t ht q hq.1 ((onSegment_congr ⟨rfl, rfl⟩ ⟨rfl, rfl⟩ h).2 hp)).1 hq
  have lt : ∀ {q q' : Vertex K}, StrictlyOn s.1 s.2 q → StrictlyOn s.1 s.2 q' → q.x < q'.x →
      windingNumber (l1 ++ l2) q = windingNumber (l1 ++ l2) q' := by
    intro q q' hq hq' hlt
    have h1 := sum_sub' (l1 ++ l2) (fun t => crossingAbove q' t.1 t.2) (fun t => crossingAbove q t.1 t.2)
      (fun t => aboveSeg q q' t.2 - aboveSeg q q' t.1) fun t ht => crossing_diff hlt (hmiss hq hq' t ht)
    have h2 := hc (aboveSeg q q')
    rw [(hperm.map _).sum_eq, List.map_cons, List.sum_cons] at h2
    have h0 : ∀ e, OnSegment s.1 s.2 e → aboveSeg q q' e = 0 := by
      intro e he
      unfold aboveSeg
      rw [if_neg]
      rintro ⟨-, -, h⟩
      refine h.ne ?_
      obtain ⟨a, -, -, ax, ay⟩ := hq.1
      obtain ⟨b, -, -, bx, byy⟩ := hq'.1
      obtain ⟨c, -, -, cx, cy⟩ := he
      have hne' : q'.x - q.x ≠ 0 := by linarith [hlt] |> fun h : 0 < q'.x - q.x => h.ne'
      unfold heightAt
      rw [← sub_eq_zero]
      have : (q'.x - q.x) * (q.y + (e.x - q.x) * ((q'.y - q.y) / (q'.x - q.x)) - e.y) = 0 := by
        have e1 : (q'.x - q.x) * (q.y + (e.x - q.x) * ((q'.y - q.y) / (q'.x - q.x)) - e.y) =
            (q'.x - q.x) * (q.y - e.y) + (e.x - q.x) * (q'.y - q.y) := by field_simp; ring
        rw [e1, ax, ay, bx, byy, cx, cy]; ring
      exact (mul_eq_zero.1 this).resolve_left hne'
    rw [h0 _ (onSegment_left _ _), h0 _ (onSegment_right _ _)] at h2
    unfold windingNumber
    omega
  rw [hw q hq.1, hw q' hq'.1]
  rcases lt_trichotomy q.x q'.x with h | h | h
  · exact lt hq hq' h
  · unfold windingNumber
    congr 1
    exact List.map_congr_left fun t ht => (crossing_vertical h (hmiss hq hq' t ht)).symm
  · exact (lt hq' hq h).symm

/-- The winding number on the right of a segment. -/
def rightOf (L : List (Vertex K × Vertex K)) (s : Vertex K × Vertex K) : ℤ :=
  windingNumber L (Edge.midpoint ⟨s.1, s.2⟩) - tilt s

theorem rightOf_eq (hap : L.Pairwise Separate) (hc : Telescopes L) {s : Vertex K × Vertex K} (hs : s ∈ L)
    (hne : ¬ SamePoint s.1 s.2) {q : Vertex K} (hq : StrictlyOn s.1 s.2 q) :
    rightOf L s = windingNumber L q - tilt s := by
  unfold rightOf
  rw [own_const hap hc hs hne (midpoint_strictlyOn hne) hq]

/-- A point a little to the right of `v`, with nothing in between, at an abscissa that is not that of any end. -/
theorem nudge (L : List (Vertex K × Vertex K)) {v : Vertex K} (hv : ∀ s ∈ L, ¬ OnSegment s.1 s.2 v) :
    ∃ w : Vertex K, (∀ s ∈ L, ¬ OnSegment s.1 s.2 w) ∧ (∀ s ∈ L, crossingAbove w s.1 s.2 = crossingAbove v s.1 s.2) ∧
      ∀ s ∈ L, s.1.x ≠ w.x ∧ s.2.x ≠ w.x := by
  obtain ⟨d, hd, hfar, hends⟩ := room _ hv
  refine ⟨⟨v.x + d, v.y, false⟩, fun s hs h => ?_, fun s hs => (level_diff hd (hfar s hs) (hends s hs)).2, fun s hs => ?_⟩
  · have := hfar s hs _ h rfl
    simp only [add_sub_cancel_left, abs_of_pos hd] at this
    exact lt_irrefl _ this
  · obtain ⟨e1, e2⟩ := hends s hs
    have key : ∀ z : K, (z ≠ v.x → d < |z - v.x|) → z ≠ v.x + d := by
      rintro z hz rfl
      have := hz (by linarith)
      rw [add_sub_cancel_left, abs_of_pos hd] at this
      exact lt_irrefl _ this
    exact ⟨key _ e1, key _ e2⟩

theorem span_tilt {s : Vertex K × Vertex K} {x : K} (h : span s.1 s.2 x ≠ 0) : span s.1 s.2 x = 1 - 2 * tilt s := by
  unfold span at *
  unfold tilt
  by_cases h1 : s.2.x ≤ x ∧ x < s.1.x
  · have : ¬ (s.1.x < s.2.x ∨ (s.1.x = s.2.x ∧ s.2.y < s.1.y)) := by
      rintro (h2 | h2) <;> linarith [h1.1, h1.2]
    simp [h1, this]
  · by_cases h2 : s.1.x ≤ x ∧ x < s.2.x
    · have : s.1.x < s.2.x := h2.1.trans_lt h2.2
      simp [h1, h2, this]
    · simp [h1, h2] at h

theorem heights_differ (hap : L.Pairwise Separate) {w : Vertex K} (hgen : ∀ s ∈ L, s.1.x ≠ w.x ∧ s.2.x ≠ w.x) :
    L.Pairwise fun s t => span s.1 s.2 w.x ≠ 0 → span t.1 t.2 w.x ≠ 0 →
      heightAt s.1 s.2 w.x ≠ heightAt t.1 t.2 w.x := by
  refine List.Pairwise.imp_of_mem ?_ hap
  intro s t hs ht hst h1 h2 he
  have g1 := strictlyOn_heightAt h1 (hgen s hs).1 (hgen s hs).2
  have g2 := onSegment_heightAt h2
  rw [← he] at g2
  exact (hst _ g1.1 g2).1 g1

/-- The crossings, weighted with the winding number on the right of each segment. -/
theorem own_identity (hap : L.Pairwise Separate) (hc : Telescopes L) (hne : ∀ s ∈ L, ¬ SamePoint s.1 s.2)
    {v : Vertex K} (hv : ∀ s ∈ L, ¬ OnSegment s.1 s.2 v) :
    2 * weighted (rightOf L) L v = windingNumber L v * windingNumber L v - windingNumber L v := by
  obtain ⟨w, -, hsame, hgen⟩ := nudge L hv
  have hwl : windingNumber L w = windingNumber L v := by
    unfold windingNumber
    congr 1
    exact List.map_congr_left hsame
  have hk : weighted (rightOf L) L w = weighted (rightOf L) L v := by
    unfold weighted
    congr 1
    exact List.map_congr_left fun s hs => by rw [hsame s hs]
  rw [← hwl, ← hk, winding_sq (heights_differ hap hgen)]
  have hspan : ∀ s : Vertex K × Vertex K, crossingAbove w s.1 s.2 ≠ 0 → span s.1 s.2 w.x ≠ 0 := by
    intro s h h'
    rw [crossing_eq, h'] at h
    simp at h
  rw [weighted_congr (k := rightOf L) (k' := fun s => windingNumber L ⟨w.x, heightAt s.1 s.2 w.x, false⟩ - tilt s)
    fun s hs h => rightOf_eq hap hc hs (hne s hs)
      (strictlyOn_heightAt (hspan s h) (hgen s hs).1 (hgen s hs).2)]
  rw [weighted_congr (k := fun s => span s.1 s.2 w.x + 2 * windingNumber L ⟨w.x, heightAt s.1 s.2 w.x, false⟩)
    (k' := fun s => 1 - 2 * tilt s + 2 * windingNumber L ⟨w.x, heightAt s.1 s.2 w.x, false⟩)
    fun s _ h => by rw [span_tilt (hspan s h)]]
  unfold weighted windingNumber
  rw [← List.sum_map_mul_left]
  refine (sum_sub' _ _ _ _ fun s _ => ?_).symm
  ring

theorem own_column (hap : L.Pairwise Separate) (hc : Telescopes L) (hne : ∀ s ∈ L, ¬ SamePoint s.1 s.2)
    {v : Vertex K} (hv : ∀ s ∈ L, OnSegment s.1 s.2 v → StrictlyOn s.1 s.2 v ∧ s.1.x = s.2.x) :
    (L.map fun s => rightOf L s * (aboveAt v s.2 - aboveAt v s.1)).sum = 0 := by
  by_cases hon : ∃ s ∈ L, OnSegment s.1 s.2 v
  · obtain ⟨s0, hs0, hon⟩ := hon
    obtain ⟨hst, hup⟩ := hv s0 hs0 hon
    have hne0 := hne s0 hs0
    have hval := rightOf_eq hap hc hs0 hne0 hst
    obtain ⟨l1, l2, rfl⟩ := List.append_of_mem hs0
    generalize hk : rightOf (l1 ++ s0 :: l2) = k at *
    have hperm : (l1 ++ s0 :: l2).Perm (s0 :: (l1 ++ l2)) := List.perm_middle
    have hap' := (List.Perm.pairwise_iff (fun h => Separate.symm h) hperm).1 hap
    have hvm : ∀ s ∈ l1 ++ l2, ¬ OnSegment s.1 s.2 v := fun s hs h =>
      ((List.pairwise_cons.1 hap').1 s hs v hon h).1 hst
    obtain ⟨d, hd, hfar, hends⟩ := room _ hvm
    have hx : ∀ q, OnSegment s0.1 s0.2 q → q.x = v.x := by
      have : ∀ q, OnSegment s0.1 s0.2 q → q.x = s0.1.x := by
        rintro q ⟨t, -, -, tx, -⟩
        rw [tx, hup]; ring
      intro q hq
      rw [this q hq, this v hon]
    have off : ∀ e : K, |e| = d → ∀ s ∈ l1 ++ s0 :: l2, ¬ OnSegment s.1 s.2 (⟨v.x + e, v.y, false⟩ : Vertex K) := by
      intro e he s hs h
      rcases List.mem_cons.1 (hperm.mem_iff.1 hs) with rfl | hs
      · have e0 : v.x + e = v.x := hx _ h
        have : e = 0 := by linarith
        rw [this, abs_zero] at he
        linarith
      · have := hfar s hs _ h rfl
        simp only [add_sub_cancel_left] at this
        exact lt_irrefl _ (he ▸ this)
    have r1 := own_identity hap hc hne (off d (abs_of_pos hd))
    have r2 := own_identity hap hc hne (off (-d) (by rw [abs_neg, abs_of_pos hd]))
    rw [← sub_eq_add_neg] at r2
    rw [hk] at r1 r2
    have hsum : ∀ q, windingNumber (l1 ++ s0 :: l2) q = windingNumber (l1 ++ l2) q := by
      intro q
      unfold windingNumber
      rw [(hperm.map _).sum_eq, List.map_cons, List.sum_cons, crossing_upright hup, zero_add]
    have wl := sum_sub' (l1 ++ l2) (fun s => crossingAbove (⟨v.x + d, v.y, false⟩ : Vertex K) s.1 s.2)
      (fun s => crossingAbove (⟨v.x - d, v.y, false⟩ : Vertex K) s.1 s.2) (fun s => aboveAt v s.2 - aboveAt v s.1)
      fun s hs => (level_diff hd (hfar s hs) (hends s hs)).1
    have wv : windingNumber (l1 ++ l2) (⟨v.x + d, v.y, false⟩ : Vertex K) = windingNumber (l1 ++ l2) v := by
      unfold windingNumber
      congr 1
      exact List.map_congr_left fun s hs => (level_diff hd (hfar s hs) (hends s hs)).2
    have ktel := hc (aboveAt v)
    rw [(hperm.map _).sum_eq, List.map_cons, List.sum_cons] at ktel
    have kd := sum_sub' (l1 ++ l2) (fun s => k s * crossingAbove (⟨v.x + d, v.y, false⟩ : Vertex K) s.1 s.2)
      (fun s => k s * crossingAbove (⟨v.x - d, v.y, false⟩ : Vertex K) s.1 s.2)
      (fun s => k s * (aboveAt v s.2 - aboveAt v s.1))
      fun s hs => by rw [← (level_diff hd (hfar s hs) (hends s hs)).1]; ring
    unfold weighted at r1 r2
    rw [(hperm.map _).sum_eq] at r1 r2 ⊢
    simp only [List.map_cons, List.sum_cons, crossing_upright hup, mul_zero, zero_add] at r1 r2 ⊢
    rw [hsum] at r1 r2 hval
    have hδ : (aboveAt v s0.2 - aboveAt v s0.1 = 1 ∧ tilt s0 = 0) ∨ (aboveAt v s0.2 - aboveAt v s0.1 = -1 ∧ tilt s0 = 1) := by
      have x1 := hx _ (onSegment_left s0.1 s0.2)
      have x2 := hx _ (onSegment_right s0.1 s0.2)
      obtain ⟨⟨t, t0, t1, -, ty⟩, e1, e2⟩ := hst
      have t0' : 0 < t := lt_of_le_of_ne t0 fun h => e1 ⟨x1, by rw [ty, ← h]; ring⟩
      have t1' : t < 1 := lt_of_le_of_ne t1 fun h => e2 ⟨x2, by rw [ty, h]; ring⟩
      unfold aboveAt tilt
      rcases lt_trichotomy s0.1.y s0.2.y with h | h | h
      · left
        have a1 : v.y < s0.2.y := by nlinarith
        have a2 : ¬ v.y < s0.1.y := by nlinarith
        rw [if_pos ⟨x2, a1⟩, if_neg fun h => a2 h.2, if_neg]
        · exact ⟨rfl, rfl⟩
        · rintro (h' | h')
          · linarith
          · linarith [h'.2]
      · exact absurd ⟨hup, h⟩ hne0
      · right
        have a1 : ¬ v.y < s0.2.y := by nlinarith
        have a2 : v.y < s0.1.y := by nlinarith
        rw [if_neg fun h => a1 h.2, if_pos ⟨x1, a2⟩, if_pos (Or.inr ⟨hup, h⟩)]
        exact ⟨rfl, rfl⟩
    have hdiff : windingNumber (l1 ++ l2) (⟨v.x + d, v.y, false⟩ : Vertex K) -
        windingNumber (l1 ++ l2) (⟨v.x - d, v.y, false⟩ : Vertex K) = -(aboveAt v s0.2 - aboveAt v s0.1) := by
      unfold windingNumber
      linarith
    generalize windingNumber (l1 ++ l2) (⟨v.x + d, v.y, false⟩ : Vertex K) = W at *
    generalize windingNumber (l1 ++ l2) (⟨v.x - d, v.y, false⟩ : Vertex K) = W' at *
    rw [hval, ← wv]
    rcases hδ with ⟨d1, d2⟩ | ⟨d1, d2⟩ <;> rw [d1] at hdiff <;> rw [d1, d2]
    · have : W' = W + 1 := by linarith
      subst this
      rw [← kd]
      linarith
    · have : W' = W - 1 := by linarith
      subst this
      rw [← kd]
      linarith
  · push Not at hon
    obtain ⟨d, hd, hfar, hends⟩ := room _ hon
    have off : ∀ e : K, |e| = d → ∀ s ∈ L, ¬ OnSegment s.1 s.2 (⟨v.x + e, v.y, false⟩ : Vertex K) := by
      intro e he s hs h
      have := hfar s hs _ h rfl
      simp only [add_sub_cancel_left] at this
      exact lt_irrefl _ (he ▸ this)
    have r1 := own_identity hap hc hne (off d (abs_of_pos hd))
    have r2 := own_identity hap hc hne (off (-d) (by rw [abs_neg, abs_of_pos hd]))
    rw [← sub_eq_add_neg] at r2
    have wl := sum_sub' L (fun s => crossingAbove (⟨v.x + d, v.y, false⟩ : Vertex K) s.1 s.2)
      (fun s => crossingAbove (⟨v.x - d, v.y, false⟩ : Vertex K) s.1 s.2) (fun s => aboveAt v s.2 - aboveAt v s.1)
      fun s hs => (level_diff hd (hfar s hs) (hends s hs)).1
    rw [hc] at wl
    have we : windingNumber L (⟨v.x + d, v.y, false⟩ : Vertex K) = windingNumber L ⟨v.x - d, v.y, false⟩ := by
      unfold windingNumber; omega
    have kd := sum_sub' L (fun s => rightOf L s * crossingAbove (⟨v.x + d, v.y, false⟩ : Vertex K) s.1 s.2)
      (fun s => rightOf L s * crossingAbove (⟨v.x - d, v.y, false⟩ : Vertex K) s.1 s.2)
      (fun s => rightOf L s * (aboveAt v s.2 - aboveAt v s.1))
      fun s hs => by rw [← (level_diff hd (hfar s hs) (hends s hs)).1]; ring
    rw [← kd]
    rw [we] at r1
    unfold weighted at r1 r2
    omega

/-- At every point as much of it arrives as leaves. -/
theorem own_balance (hap : L.Pairwise Separate) (hc : Telescopes L) (hne : ∀ s ∈ L, ¬ SamePoint s.1 s.2)
    (b : Vertex K) : (L.map fun s => rightOf L s * (at' b s.2 - at' b s.1)).sum = 0 :=
  balance_of_column (fun _ hv => own_column hap hc hne hv) b

/-- The topmost segment over a point has the outside above it. -/
theorem topmost (hap : L.Pairwise Separate) (hc : Telescopes L) (hne : ∀ s ∈ L, ¬ SamePoint s.1 s.2)
    {v : Vertex K} (hv : ∀ s ∈ L, ¬ OnSegment s.1 s.2 v) (h0 : windingNumber L v ≠ 0) :
    ∃ s ∈ L, rightOf L s = - tilt s := by
  obtain ⟨w, -, hsame, hgen⟩ := nudge L hv
  have hex : ∃ s ∈ L, span s.1 s.2 w.x ≠ 0 := by
    by_contra hno
    push Not at hno
    apply h0
    unfold windingNumber
    refine List.sum_eq_zero fun z hz => ?_
    obtain ⟨s, hs, rfl⟩ := List.mem_map.1 hz
    rw [← hsame s hs, crossing_eq, hno s hs]
    simp
  obtain ⟨s0, hs0, hsp0⟩ := hex
  have hne' : L.filter (fun s => decide (span s.1 s.2 w.x ≠ 0)) ≠ [] := fun h =>
    List.ne_nil_of_mem (List.mem_filter.2 ⟨hs0, by simpa using hsp0⟩) h
  obtain ⟨s, hs, hmax⟩ : ∃ s ∈ L.filter (fun s => decide (span s.1 s.2 w.x ≠ 0)),
      ∀ t ∈ L.filter (fun s => decide (span s.1 s.2 w.x ≠ 0)), heightAt t.1 t.2 w.x ≤ heightAt s.1 s.2 w.x := by
    generalize L.filter (fun s => decide (span s.1 s.2 w.x ≠ 0)) = r at hne'
    induction r with
    | nil => exact absurd rfl hne'
    | cons a r ih =>
      by_cases hr : r = []
      · subst hr
        exact ⟨a, by simp, fun t ht => by rw [List.mem_singleton.1 ht]⟩
      · obtain ⟨s, hs, hm⟩ := ih hr
        rcases le_total (heightAt a.1 a.2 w.x) (heightAt s.1 s.2 w.x) with h | h
        · refine ⟨s, List.mem_cons_of_mem _ hs, fun t ht => ?_⟩
          rcases List.mem_cons.1 ht with rfl | ht
          · exact h
          · exact hm t ht
        · refine ⟨a, List.mem_cons_self, fun t ht => ?_⟩
          rcases List.mem_cons.1 ht with rfl | ht
          · exact le_refl _
          · exact (hm t ht).trans h
  obtain ⟨hsL, hsp⟩ := List.mem_filter.1 hs
  have hsp : span s.1 s.2 w.x ≠ 0 := by simpa using hsp
  refine ⟨s, hsL, ?_⟩
  rw [rightOf_eq hap hc hsL (hne s hsL) (strictlyOn_heightAt hsp (hgen s hsL).1 (hgen s hsL).2)]
  have : windingNumber L ⟨w.x, heightAt s.1 s.2 w.x, false⟩ = 0 := by
    unfold windingNumber
    refine List.sum_eq_zero fun z hz => ?_
    obtain ⟨t, ht, rfl⟩ := List.mem_map.1 hz
    rw [crossing_eq]
    by_cases htp : span t.1 t.2 w.x = 0
    · simp [htp]
    · rw [if_neg]
      exact not_lt.2 (hmax t (List.mem_filter.2 ⟨ht, by simpa using htp⟩))
  omega

end Own

theorem sum_single {A : Type*} {l : List A} {f : A → ℤ} {a : A} (ha : a ∈ l)
    (hl : l.Pairwise fun s t => f s = 0 ∨ f t = 0) (h0 : f a ≠ 0) : (l.map f).sum = f a := by
  induction l with
  | nil => simp at ha
  | cons b l ih =>
    obtain ⟨h1, h2⟩ := List.pairwise_cons.1 hl
    rw [List.map_cons, List.sum_cons]
    rcases List.mem_cons.1 ha with rfl | ha
    · have : (l.map f).sum = 0 := List.sum_eq_zero fun z hz => by
        obtain ⟨t, ht, rfl⟩ := List.mem_map.1 hz
        exact (h1 t ht).resolve_left h0
      rw [this, add_zero]
    · rw [ih ha h2, (h1 a ha).resolve_right h0, zero_add]

theorem adjoin_separate {s t : Vertex K × Vertex K} (h : Adjoin s t) : Separate s t := fun q h1 h2 => by
  rcases h q h1 h2 with ⟨a, b⟩ | ⟨a, b⟩
  · exact ⟨fun h' => h'.2.2 ⟨a.1.symm, a.2.symm⟩, fun h' => h'.2.1 ⟨b.1.symm, b.2.symm⟩⟩
  · exact ⟨fun h' => h'.2.1 ⟨a.1.symm, a.2.symm⟩, fun h' => h'.2.2 ⟨b.1.symm, b.2.symm⟩⟩

theorem Spec.SimplePolygon.separate {l : List (Vertex K)} (h : SimplePolygon l) :
    (pairs l false).Pairwise Separate := h.apart.imp fun h => adjoin_separate h

theorem telescopes_pairs (l : List (Vertex K)) : Telescopes (pairs l false) := fun f => sum_pairs_closed f l

theorem of_ite {P : Prop} [Decidable P] (h : (if P then (1 : ℤ) else 0) ≠ 0) : P := by
  by_contra hp
  exact h (if_neg hp)

/-- What is conserved at every vertex of a simple polygon is the same at every side. -/
theorem const_of_balance {p : Polyline (Vertex K)} (hp : p.opened = false) (hs : SimplePolygon p.vertices)
    {k : Vertex K × Vertex K → ℤ}
    (hbal : ∀ b, ((pairs p.vertices false).map fun s => k s * (at' b s.2 - at' b s.1)).sum = 0) :
    ∃ c, ∀ s ∈ pairs p.vertices false, k s = c := by
  have hn : 0 < p.vertices.length := by have := p.two_le; omega
  have step : ∀ i : ℤ, k (cyc p.vertices i, cyc p.vertices (i + 1)) =
      k (cyc p.vertices (i + 1), cyc p.vertices (i + 1 + 1)) := by
    intro i
    have m1 := (mem_pairs_cyc hp hn).2 ⟨i, rfl⟩
    have m2 := (mem_pairs_cyc hp hn).2 ⟨i + 1, rfl⟩
    have hb := hbal (cyc p.vertices (i + 1))
    have hd := sum_sub' (pairs p.vertices false) (fun s => k s * at' (cyc p.vertices (i + 1)) s.2)
      (fun s => k s * at' (cyc p.vertices (i + 1)) s.1) _ fun s _ => (mul_sub _ _ _).symm
    rw [hb] at hd
    have in2 : (pairs p.vertices false).Pairwise fun s t =>
        at' (cyc p.vertices (i + 1)) s.2 = 0 ∨ at' (cyc p.vertices (i + 1)) t.2 = 0 := by
      refine List.Pairwise.imp_of_mem ?_ hs.apart
      intro s t ms mt h
      unfold at'
      by_contra hc
      push Not at hc
      obtain ⟨c1, c2⟩ := hc
      have c1 := of_ite c1
      have c2 := of_ite c2
      have e : SamePoint s.2 t.2 := ⟨c1.1.trans c2.1.symm, c1.2.trans c2.2.symm⟩
      rcases h s.2 (onSegment_right _ _) ((onSegment_congr ⟨rfl, rfl⟩ ⟨rfl, rfl⟩ e).2 (onSegment_right _ _)) with ⟨-, g⟩ | ⟨g, -⟩
      · exact hs.proper t mt ⟨g.1.symm.trans e.1, g.2.symm.trans e.2⟩
      · exact hs.proper s ms ⟨g.1.symm, g.2.symm⟩
    have in1 : (pairs p.vertices false).Pairwise fun s t =>
        at' (cyc p.vertices (i + 1)) s.1 = 0 ∨ at' (cyc p.vertices (i + 1)) t.1 = 0 := by
      refine List.Pairwise.imp_of_mem ?_ hs.apart
      intro s t ms mt h
      unfold at'
      by_contra hc
      push Not at hc
      obtain ⟨c1, c2⟩ := hc
      have c1 := of_ite c1
      have c2 := of_ite c2
      have e : SamePoint s.1 t.1 := ⟨c1.1.trans c2.1.symm, c1.2.trans c2.2.symm⟩
      rcases h s.1 (onSegment_left _ _) ((onSegment_congr ⟨rfl, rfl⟩ ⟨rfl, rfl⟩ e).2 (onSegment_left _ _)) with ⟨g, -⟩ | ⟨-, g⟩
      · exact hs.proper s ms g
      · exact hs.proper t mt ⟨e.1.symm.trans g.1, e.2.symm.trans g.2⟩
    have one : ∀ b : Vertex K, at' b b = 1 := fun b => by simp [at']
    have val : ∀ (g : Vertex K × Vertex K → Vertex K) (s0 : Vertex K × Vertex K), s0 ∈ pairs p.vertices false →
        g s0 = cyc p.vertices (i + 1) →
        ((pairs p.vertices false).Pairwise fun s t =>
          at' (cyc p.vertices (i + 1)) (g s) = 0 ∨ at' (cyc p.vertices (i + 1)) (g t) = 0) →
        ((pairs p.vertices false).map fun s => k s * at' (cyc p.vertices (i + 1)) (g s)).sum = k s0 := by
      intro g s0 h1 h2 h3
      have v0 : k s0 * at' (cyc p.vertices (i + 1)) (g s0) = k s0 := by rw [h2, one, mul_one]
      by_cases hz : k s0 = 0
      · rw [hz]
        refine List.sum_eq_zero fun z hz' => ?_
        obtain ⟨t, ht, rfl⟩ := List.mem_map.1 hz'
        by_cases hts : t = s0
        · rw [hts, hz, zero_mul]
        · have hall : ∀ a ∈ pairs p.vertices false, ∀ b ∈ pairs p.vertices false, a ≠ b →
              at' (cyc p.vertices (i + 1)) (g a) = 0 ∨ at' (cyc p.vertices (i + 1)) (g b) = 0 :=
            fun a ha b hb hab => List.Pairwise.forall_of_forall_of_flip
              (R := fun s t => s ≠ t → at' (cyc p.vertices (i + 1)) (g s) = 0 ∨ at' (cyc p.vertices (i + 1)) (g t) = 0)
              (fun x _ h => absurd rfl h) (by refine List.Pairwise.imp ?_ h3; intro a b h _; exact h)
              (by refine List.Pairwise.imp ?_ h3; intro a b h _; exact h.symm) ha hb hab
          rcases hall t ht s0 h1 hts with h | h
          · rw [h, mul_zero]
          · rw [h2, one] at h; exact absurd h one_ne_zero
      · have := sum_single (f := fun s => k s * at' (cyc p.vertices (i + 1)) (g s)) h1
          (h3.imp fun h => h.imp (fun h => by rw [h, mul_zero]) fun h => by rw [h, mul_zero])
          (by simp only [v0]; exact hz)
        rw [this]; exact v0
    rw [val Prod.snd _ m1 rfl in2, val Prod.fst _ m2 rfl in1] at hd
    omega
  refine ⟨k (cyc p.vertices 0, cyc p.vertices (0 + 1)), fun s hm => ?_⟩
  obtain ⟨i, rfl⟩ := (mem_pairs_cyc hp hn).1 hm
  induction i using Int.induction_on with
  | zero => rfl
  | succ i ih => exact (step _).symm.trans (ih ((mem_pairs_cyc hp hn).2 ⟨_, rfl⟩))
  | pred i ih =>
    have := step (-(i : ℤ) - 1)
    rw [sub_add_cancel] at this
    rw [sub_add_cancel]
    exact this.trans (ih ((mem_pairs_cyc hp hn).2 ⟨_, rfl⟩))

/-- Around a simple polygon the winding number on the right is the same at every side. -/
theorem rightOf_const {p : Polyline (Vertex K)} (hp : p.opened = false) (hs : SimplePolygon p.vertices) :
    ∃ c, ∀ s ∈ pairs p.vertices false, rightOf (pairs p.vertices false) s = c :=
  const_of_balance hp hs fun b => own_balance hs.separate (telescopes_pairs _) hs.proper b

/-- **A simple polygon has an inside and an outside.** Its winding number around the points off its sides is `0` or `1`,
if it runs counterclockwise, and `0` or `-1` if it runs clockwise. -/
theorem jordan {p : Polyline (Vertex K)} (hp : p.opened = false) (hs : SimplePolygon p.vertices) :
    WindsOnce p.vertices ∨ WindsOnce p.vertices.reverse := by
  obtain ⟨c, hc⟩ := rightOf_const hp hs
  have hw : ∀ v, (∀ s ∈ pairs p.vertices false, ¬ OnSegment s.1 s.2 v) →
      windingNumber (pairs p.vertices false) v = 0 ∨ windingNumber (pairs p.vertices false) v = 2 * c + 1 := by
    intro v hv
    have h1 := own_identity hs.separate (telescopes_pairs _) hs.proper hv
    have h2 : weighted (rightOf (pairs p.vertices false)) (pairs p.vertices false) v =
        c * windingNumber (pairs p.vertices false) v := by
      unfold weighted windingNumber
      rw [← List.sum_map_mul_left]
      congr 1
      exact List.map_congr_left fun s hs => by rw [hc s hs]
    rw [h2] at h1
    have : windingNumber (pairs p.vertices false) v * (windingNumber (pairs p.vertices false) v - (2 * c + 1)) = 0 := by
      linear_combination -h1
    rcases mul_eq_zero.1 this with h | h
    · exact Or.inl h
    · right; omega
  by_cases hz : ∃ v, (∀ s ∈ pairs p.vertices false, ¬ OnSegment s.1 s.2 v) ∧ windingNumber (pairs p.vertices false) v ≠ 0
  · obtain ⟨v, hv, h0⟩ := hz
    obtain ⟨s, hm, ht⟩ := topmost hs.separate (telescopes_pairs _) hs.proper hv h0
    rw [hc s hm] at ht
    have : c = 0 ∨ c = -1 := by unfold tilt at ht; split_ifs at ht <;> omega
    rcases this with rfl | rfl
    · left
      intro v hv
      simpa using hw v hv
    · right
      intro v hv
      rw [winding_reverse]
      have := hw v fun s hm h => hv (s.2, s.1) (mem_pairs_reverse.2 hm) (onSegment_swap.1 h)
      omega
  · push Not at hz
    exact Or.inl fun v hv => Or.inl (hz v hv)

end Verif
