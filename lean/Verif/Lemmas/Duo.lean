import Verif.Lemmas.RegionOps

/-!
# Lemmas: the product of two weighted winding numbers

The segments of an arrangement carry two weights that are both conserved at every point. The product of the two weighted
winding numbers is again a weighted winding number, and its weight is conserved too.
-/

namespace Verif

open Spec

variable {K : Type*} [Field K] [LinearOrder K] [IsStrictOrderedRing K]

set_option linter.unusedSectionVars false

/-- The weight is conserved. -/
def Flow (k : Vertex K × Vertex K → ℤ) (r : List (Vertex K × Vertex K)) : Prop :=
  ∀ f : Vertex K → ℤ, (r.map fun s => k s * (f s.2 - f s.1)).sum = 0

theorem weighted_cons (k : Vertex K × Vertex K → ℤ) (s : Vertex K × Vertex K) (l : List (Vertex K × Vertex K))
    (v : Vertex K) : weighted k (s :: l) v = k s * crossingAbove v s.1 s.2 + weighted k l v := by
  simp [weighted]

theorem weighted_mul {r : List (Vertex K × Vertex K)} {v : Vertex K} (α β : Vertex K × Vertex K → ℤ)
    (hne : r.Pairwise fun s t => span s.1 s.2 v.x ≠ 0 → span t.1 t.2 v.x ≠ 0 →
      heightAt s.1 s.2 v.x ≠ heightAt t.1 t.2 v.x) :
    weighted α r v * weighted β r v =
      weighted (fun s => α s * weighted β r ⟨v.x, heightAt s.1 s.2 v.x, false⟩ +
        β s * weighted α r ⟨v.x, heightAt s.1 s.2 v.x, false⟩ + α s * β s * span s.1 s.2 v.x) r v := by
  induction r with
  | nil => simp [weighted]
  | cons s r ih =>
    obtain ⟨h1, h2⟩ := List.pairwise_cons.1 hne
    have hself : crossingAbove (⟨v.x, heightAt s.1 s.2 v.x, false⟩ : Vertex K) s.1 s.2 = 0 := by
      rw [crossing_eq]; simp
    have hsq : crossingAbove v s.1 s.2 * crossingAbove v s.1 s.2 = span s.1 s.2 v.x * crossingAbove v s.1 s.2 := by
      rw [crossing_eq]; split_ifs <;> ring
    have hcross : ∀ k : Vertex K × Vertex K → ℤ, crossingAbove v s.1 s.2 * weighted k r v =
        crossingAbove v s.1 s.2 * weighted k r ⟨v.x, heightAt s.1 s.2 v.x, false⟩ +
          weighted (fun t => k t * crossingAbove ⟨v.x, heightAt t.1 t.2 v.x, false⟩ s.1 s.2) r v := by
      intro k
      unfold weighted
      rw [← List.sum_map_mul_left, ← List.sum_map_mul_left, ← List.sum_map_add]
      congr 1
      refine List.map_congr_left fun t ht => ?_
      linear_combination k t * crossing_mul (h1 t ht)
    have e : weighted (fun t => α t * weighted β (s :: r) ⟨v.x, heightAt t.1 t.2 v.x, false⟩ +
        β t * weighted α (s :: r) ⟨v.x, heightAt t.1 t.2 v.x, false⟩ + α t * β t * span t.1 t.2 v.x) r v =
        weighted (fun t => α t * weighted β r ⟨v.x, heightAt t.1 t.2 v.x, false⟩ +
          β t * weighted α r ⟨v.x, heightAt t.1 t.2 v.x, false⟩ + α t * β t * span t.1 t.2 v.x) r v +
        β s * weighted (fun t => α t * crossingAbove ⟨v.x, heightAt t.1 t.2 v.x, false⟩ s.1 s.2) r v +
        α s * weighted (fun t => β t * crossingAbove ⟨v.x, heightAt t.1 t.2 v.x, false⟩ s.1 s.2) r v := by
      simp only [weighted_cons]
      unfold weighted
      rw [← List.sum_map_mul_left, ← List.sum_map_mul_left, ← List.sum_map_add, ← List.sum_map_add]
      congr 1
      exact List.map_congr_left fun t _ => by ring
    rw [weighted_cons α s r v, weighted_cons β s r v, weighted_cons _ s r v, e, ← ih h2]
    simp only [weighted_cons, hself]
    linear_combination α s * β s * hsq + α s * hcross β + β s * hcross α

section Duo

variable {r : List (Vertex K × Vertex K)}

theorem weighted_perm' {k : Vertex K × Vertex K → ℤ} {l m : List (Vertex K × Vertex K)} (h : l.Perm m) :
    weighted k l = weighted k m := funext fun v => weighted_perm h v

/-- The weighted winding number is the same everywhere inside a segment of the arrangement. -/
theorem weighted_const (hap : r.Pairwise Separate) {k : Vertex K × Vertex K → ℤ} (hc : Flow k r)
    {s : Vertex K × Vertex K} (hs : s ∈ r) (hne : ¬ SamePoint s.1 s.2) {q q' : Vertex K} (hq : StrictlyOn s.1 s.2 q)
    (hq' : StrictlyOn s.1 s.2 q') : weighted k r q = weighted k r q' := by
  obtain ⟨l1, l2, rfl⟩ := List.append_of_mem hs
  have hperm : (l1 ++ s :: l2).Perm (s :: (l1 ++ l2)) := List.perm_middle
  have hap' := (List.Perm.pairwise_iff (fun h => Separate.symm h) hperm).1 hap
  have hsep := (List.pairwise_cons.1 hap').1
  have hw : ∀ z, OnSegment s.1 s.2 z → weighted k (l1 ++ s :: l2) z = weighted k (l1 ++ l2) z := by
    intro z hz
    rw [weighted_perm hperm, weighted_cons, crossing_on hz, mul_zero, zero_add]
  have hmiss : ∀ {q q' : Vertex K}, StrictlyOn s.1 s.2 q → StrictlyOn s.1 s.2 q' → ∀ t ∈ l1 ++ l2, ∀ p,
      OnSegment t.1 t.2 p → ¬ OnSegment q q' p := by
    intro q q' hq hq' t ht p hp hp'
    rcases strictlyOn_between hne hq.1 hq' hp' with h | h
    · exact (hsep t ht p h.1 hp).1 h
    · exact (hsep t ht q hq.1 ((onSegment_congr ⟨rfl, rfl⟩ ⟨rfl, rfl⟩ h).2 hp)).1 hq
  have lt : ∀ {q q' : Vertex K}, StrictlyOn s.1 s.2 q → StrictlyOn s.1 s.2 q' → q.x < q'.x →
      weighted k (l1 ++ l2) q = weighted k (l1 ++ l2) q' := by
    intro q q' hq hq' hlt
    have h1 := sum_sub' (l1 ++ l2) (fun t => k t * crossingAbove q' t.1 t.2) (fun t => k t * crossingAbove q t.1 t.2)
      (fun t => k t * (aboveSeg q q' t.2 - aboveSeg q q' t.1)) fun t ht => by
        rw [← crossing_diff hlt (hmiss hq hq' t ht)]; ring
    have h2 := hc (aboveSeg q q')
    rw [(hperm.map _).sum_eq, List.map_cons, List.sum_cons] at h2
    have h0 : ∀ e, OnSegment s.1 s.2 e → aboveSeg q q' e = 0 := by
      intro e he
      unfold aboveSeg
      rw [if_neg]
      rintro ⟨-, -, h⟩
      refine h.ne ?_
      obtain ⟨a, -, -, ax, ay⟩ := hq.1
      obtain ⟨b, -, -, bx, byy⟩ := hq'.1
      obtain ⟨c, -, -, cx, cy⟩ := he
      have hne' : q'.x - q.x ≠ 0 := by linarith [hlt] |> fun h : 0 < q'.x - q.x => h.ne'
      unfold heightAt
      rw [← sub_eq_zero]
      have : (q'.x - q.x) * (q.y + (e.x - q.x) * ((q'.y - q.y) / (q'.x - q.x)) - e.y) = 0 := by
        have e1 : (q'.x - q.x) * (q.y + (e.x - q.x) * ((q'.y - q.y) / (q'.x - q.x)) - e.y) =
            (q'.x - q.x) * (q.y - e.y) + (e.x - q.x) * (q'.y - q.y) := by field_simp; ring
        rw [e1, ax, ay, bx, byy, cx, cy]; ring
      exact (mul_eq_zero.1 this).resolve_left hne'
    rw [h0 _ (onSegment_left _ _), h0 _ (onSegment_right _ _), sub_zero, mul_zero, zero_add] at h2
    unfold weighted
    rw [h2] at h1
    omega
  rw [hw q hq.1, hw q' hq'.1]
  rcases lt_trichotomy q.x q'.x with h | h | h
  · exact lt hq hq' h
  · unfold weighted
    congr 1
    exact List.map_congr_left fun t ht => by rw [crossing_vertical h (hmiss hq hq' t ht)]
  · exact (lt hq' hq h).symm

/-- The weighted winding number at the middle of a segment. -/
def amid (k : Vertex K × Vertex K → ℤ) (r : List (Vertex K × Vertex K)) (s : Vertex K × Vertex K) : ℤ :=
  weighted k r (Edge.midpoint ⟨s.1, s.2⟩)

theorem amid_eq (hap : r.Pairwise Separate) {k : Vertex K × Vertex K → ℤ} (hc : Flow k r)
    {s : Vertex K × Vertex K} (hs : s ∈ r) (hne : ¬ SamePoint s.1 s.2) {q : Vertex K} (hq : StrictlyOn s.1 s.2 q) :
    weighted k r q = amid k r s :=
  weighted_const hap hc hs hne hq (midpoint_strictlyOn hne)

/-- The weight of the product. -/
def duo (α β : Vertex K × Vertex K → ℤ) (r : List (Vertex K × Vertex K)) (s : Vertex K × Vertex K) : ℤ :=
  α s * amid β r s + β s * amid α r s + α s * β s * (1 - 2 * tilt s)

variable {α β : Vertex K × Vertex K → ℤ}

theorem duo_identity (hap : r.Pairwise Separate) (hα : Flow α r) (hβ : Flow β r)
    (hne : ∀ s ∈ r, ¬ SamePoint s.1 s.2) {v : Vertex K} (hv : ∀ s ∈ r, ¬ OnSegment s.1 s.2 v) :
    weighted (duo α β r) r v = weighted α r v * weighted β r v := by
  obtain ⟨w, -, hsame, hgen⟩ := nudge r hv
  have hk : ∀ k, weighted k r w = weighted k r v := by
    intro k
    unfold weighted
    congr 1
    exact List.map_congr_left fun s hs => by rw [hsame s hs]
  rw [← hk, ← hk, ← hk, weighted_mul α β (heights_differ hap hgen)]
  refine weighted_congr fun s hs h => ?_
  have hsp : span s.1 s.2 w.x ≠ 0 := by
    intro h'
    rw [crossing_eq, h'] at h
    simp at h
  have hon := strictlyOn_heightAt hsp (hgen s hs).1 (hgen s hs).2
  rw [amid_eq hap hα hs (hne s hs) hon, amid_eq hap hβ hs (hne s hs) hon, span_tilt hsp]
  rfl

theorem duo_column (hap : r.Pairwise Separate) (hα : Flow α r) (hβ : Flow β r) (hne : ∀ s ∈ r, ¬ SamePoint s.1 s.2)
    {v : Vertex K} (hv : ∀ s ∈ r, OnSegment s.1 s.2 v → StrictlyOn s.1 s.2 v ∧ s.1.x = s.2.x) :
    (r.map fun s => duo α β r s * (aboveAt v s.2 - aboveAt v s.1)).sum = 0 := by
  by_cases hon : ∃ s ∈ r, OnSegment s.1 s.2 v
  · obtain ⟨s0, hs0, hon⟩ := hon
    obtain ⟨hst, hup⟩ := hv s0 hs0 hon
    have hne0 := hne s0 hs0
    have hva := amid_eq hap hα hs0 hne0 hst
    have hvb := amid_eq hap hβ hs0 hne0 hst
    obtain ⟨k, hk⟩ : ∃ k, k = duo α β r := ⟨_, rfl⟩
    have hks : k s0 = α s0 * amid β r s0 + β s0 * amid α r s0 + α s0 * β s0 * (1 - 2 * tilt s0) := by rw [hk]; rfl
    rw [← hva, ← hvb] at hks
    obtain ⟨l1, l2, rfl⟩ := List.append_of_mem hs0
    have hperm : (l1 ++ s0 :: l2).Perm (s0 :: (l1 ++ l2)) := List.perm_middle
    have hap' := (List.Perm.pairwise_iff (fun h => Separate.symm h) hperm).1 hap
    have hvm : ∀ s ∈ l1 ++ l2, ¬ OnSegment s.1 s.2 v := fun s hs h =>
      ((List.pairwise_cons.1 hap').1 s hs v hon h).1 hst
    obtain ⟨d, hd, hfar, hends⟩ := room _ hvm
    have hx : ∀ q, OnSegment s0.1 s0.2 q → q.x = v.x := by
      have : ∀ q, OnSegment s0.1 s0.2 q → q.x = s0.1.x := by
        rintro q ⟨t, -, -, tx, -⟩
        rw [tx, hup]; ring
      intro q hq
      rw [this q hq, this v hon]
    have off : ∀ e : K, |e| = d → ∀ s ∈ l1 ++ s0 :: l2, ¬ OnSegment s.1 s.2 (⟨v.x + e, v.y, false⟩ : Vertex K) := by
      intro e he s hs h
      rcases List.mem_cons.1 (hperm.mem_iff.1 hs) with rfl | hs
      · have e0 : v.x + e = v.x := hx _ h
        have : e = 0 := by linarith
        rw [this, abs_zero] at he
        linarith
      · have := hfar s hs _ h rfl
        simp only [add_sub_cancel_left] at this
        exact lt_irrefl _ (he ▸ this)
    have r1 := duo_identity hap hα hβ hne (off d (abs_of_pos hd))
    have r2 := duo_identity hap hα hβ hne (off (-d) (by rw [abs_neg, abs_of_pos hd]))
    rw [← sub_eq_add_neg] at r2
    rw [← hk] at r1 r2 ⊢
    have hsum : ∀ κ q, weighted κ (l1 ++ s0 :: l2) q = weighted κ (l1 ++ l2) q := by
      intro κ q
      rw [weighted_perm hperm, weighted_cons, crossing_upright hup, mul_zero, zero_add]
    rw [hsum, hsum, hsum] at r1 r2
    rw [hsum, hsum] at hks
    have wv : ∀ κ, weighted κ (l1 ++ l2) v = weighted κ (l1 ++ l2) (⟨v.x + d, v.y, false⟩ : Vertex K) := by
      intro κ
      unfold weighted
      congr 1
      exact List.map_congr_left fun s hs => by rw [(level_diff hd (hfar s hs) (hends s hs)).2]
    have kd : ∀ κ : Vertex K × Vertex K → ℤ, weighted κ (l1 ++ l2) (⟨v.x + d, v.y, false⟩ : Vertex K) -
        weighted κ (l1 ++ l2) (⟨v.x - d, v.y, false⟩ : Vertex K) =
        ((l1 ++ l2).map fun s => κ s * (aboveAt v s.2 - aboveAt v s.1)).sum := fun κ =>
      sum_sub' _ _ _ _ fun s hs => by rw [← (level_diff hd (hfar s hs) (hends s hs)).1]; ring
    have ta := hα (aboveAt v)
    have tb := hβ (aboveAt v)
    rw [(hperm.map _).sum_eq, List.map_cons, List.sum_cons, ← kd] at ta tb
    rw [(hperm.map _).sum_eq, List.map_cons, List.sum_cons, ← kd]
    have hδ : aboveAt v s0.2 - aboveAt v s0.1 = 1 - 2 * tilt s0 ∧ (1 - 2 * tilt s0) * (1 - 2 * tilt s0) = 1 := by
      have x1 := hx _ (onSegment_left s0.1 s0.2)
      have x2 := hx _ (onSegment_right s0.1 s0.2)
      obtain ⟨⟨t, t0, t1, -, ty⟩, e1, e2⟩ := hst
      have t0' : 0 < t := lt_of_le_of_ne t0 fun h => e1 ⟨x1, by rw [ty, ← h]; ring⟩
      have t1' : t < 1 := lt_of_le_of_ne t1 fun h => e2 ⟨x2, by rw [ty, h]; ring⟩
      unfold aboveAt tilt
      rcases lt_trichotomy s0.1.y s0.2.y with h | h | h
      · have a1 : v.y < s0.2.y := by nlinarith
        have a2 : ¬ v.y < s0.1.y := by nlinarith
        rw [if_pos ⟨x2, a1⟩, if_neg fun h => a2 h.2, if_neg]
        · exact ⟨rfl, rfl⟩
        · rintro (h' | h')
          · linarith
          · linarith [h'.2]
      · exact absurd ⟨hup, h⟩ hne0
      · have a1 : ¬ v.y < s0.2.y := by nlinarith
        have a2 : v.y < s0.1.y := by nlinarith
        rw [if_neg fun h => a1 h.2, if_pos ⟨x1, a2⟩, if_pos (Or.inr ⟨hup, h⟩)]
        exact ⟨rfl, rfl⟩
    obtain ⟨d1, d2⟩ := hδ
    rw [wv, wv] at hks
    rw [d1] at ta tb ⊢
    rw [r1, r2, hks]
    generalize weighted α (l1 ++ l2) (⟨v.x + d, v.y, false⟩ : Vertex K) = A at *
    generalize weighted α (l1 ++ l2) (⟨v.x - d, v.y, false⟩ : Vertex K) = A' at *
    generalize weighted β (l1 ++ l2) (⟨v.x + d, v.y, false⟩ : Vertex K) = B at *
    generalize weighted β (l1 ++ l2) (⟨v.x - d, v.y, false⟩ : Vertex K) = B' at *
    generalize (1 - 2 * tilt s0 : ℤ) = δ at *
    have ea : A' = A + α s0 * δ := by linarith
    have eb : B' = B + β s0 * δ := by linarith
    rw [ea, eb]
    ring
  · push Not at hon
    obtain ⟨d, hd, hfar, hends⟩ := room _ hon
    have off : ∀ e : K, |e| = d → ∀ s ∈ r, ¬ OnSegment s.1 s.2 (⟨v.x + e, v.y, false⟩ : Vertex K) := by
      intro e he s hs h
      have := hfar s hs _ h rfl
      simp only [add_sub_cancel_left] at this
      exact lt_irrefl _ (he ▸ this)
    have r1 := duo_identity hap hα hβ hne (off d (abs_of_pos hd))
    have r2 := duo_identity hap hα hβ hne (off (-d) (by rw [abs_neg, abs_of_pos hd]))
    rw [← sub_eq_add_neg] at r2
    have kd : ∀ κ : Vertex K × Vertex K → ℤ, weighted κ r (⟨v.x + d, v.y, false⟩ : Vertex K) -
        weighted κ r (⟨v.x - d, v.y, false⟩ : Vertex K) =
        (r.map fun s => κ s * (aboveAt v s.2 - aboveAt v s.1)).sum := fun κ =>
      sum_sub' _ _ _ _ fun s hs => by rw [← (level_diff hd (hfar s hs) (hends s hs)).1]; ring
    have ta := kd α
    have tb := kd β
    rw [hα] at ta
    rw [hβ] at tb
    rw [← kd, r1, r2]
    have ea := sub_eq_zero.1 ta
    have eb := sub_eq_zero.1 tb
    rw [ea, eb, sub_self]

/-- The weight of the product is conserved. -/
theorem duo_balance (hap : r.Pairwise Separate) (hα : Flow α r) (hβ : Flow β r) (hne : ∀ s ∈ r, ¬ SamePoint s.1 s.2)
    (b : Vertex K) : (r.map fun s => duo α β r s * (at' b s.2 - at' b s.1)).sum = 0 :=
  balance_of_column (fun _ hv => duo_column hap hα hβ hne hv) b

end Duo

end Verif
