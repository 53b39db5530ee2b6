import Verif.Lemmas.Arrangement
import Verif.Lemmas.Continence
import Verif.Props.Splitting

/-!
# Lemmas: intersection and subtraction of simple polygons in general position
-/

namespace Verif

open Spec

variable {K : Type*} [Field K] [LinearOrder K] [IsStrictOrderedRing K]

set_option linter.unusedSectionVars false

/-- A segment that goes back along the one that it follows has an inner point on it. -/
theorem back_overlap {s t : Vertex K × Vertex K} (hs : ¬ SamePoint s.1 s.2) (hst : SamePoint s.2 t.1)
    (hpar : Parallel s.1 s.2 t.1 t.2) (hd : Verif.dot s.1 s.2 t.1 t.2 < 0) :
    ∃ q, OnSegment s.1 s.2 q ∧ StrictlyOn t.1 t.2 q := by
  have hD := dot_self_pos hs
  obtain ⟨c, hc⟩ : ∃ c, c = -Verif.dot s.1 s.2 t.1 t.2 / Verif.dot s.1 s.2 s.1 s.2 := ⟨_, rfl⟩
  have c0 : 0 < c := by rw [hc]; exact div_pos (by linarith) hD
  have hcD : c * Verif.dot s.1 s.2 s.1 s.2 = -Verif.dot s.1 s.2 t.1 t.2 := by rw [hc]; field_simp
  have tx : t.2.x - t.1.x = -c * (s.2.x - s.1.x) := by
    apply mul_left_cancel₀ hD.ne'
    unfold Verif.dot Parallel at *
    linear_combination (s.2.x - s.1.x) * hcD - (s.2.y - s.1.y) * hpar
  have ty : t.2.y - t.1.y = -c * (s.2.y - s.1.y) := by
    apply mul_left_cancel₀ hD.ne'
    unfold Verif.dot Parallel at *
    linear_combination (s.2.y - s.1.y) * hcD + (s.2.x - s.1.x) * hpar
  have hp : 0 < 2 * (1 + c) := by linarith
  have ht : ¬ SamePoint t.1 t.2 := by
    intro h
    unfold Verif.dot at hd
    rw [h.1, h.2] at hd
    simp at hd
  let q : Vertex K := ⟨t.1.x + 1 / (2 * (1 + c)) * (t.2.x - t.1.x), t.1.y + 1 / (2 * (1 + c)) * (t.2.y - t.1.y), false⟩
  have hq : At t (1 / (2 * (1 + c))) q := ⟨rfl, rfl⟩
  have m0 : 0 < 1 / (2 * (1 + c)) := by positivity
  have m1 : 1 / (2 * (1 + c)) < 1 := by rw [div_lt_one hp]; linarith
  refine ⟨q, ⟨1 - c / (2 * (1 + c)), ?_, ?_, ?_, ?_⟩, ⟨⟨_, m0.le, m1.le, hq⟩, ?_, ?_⟩⟩
  · rw [sub_nonneg, div_le_one hp]; linarith
  · have : 0 ≤ c / (2 * (1 + c)) := by positivity
    linarith
  · show t.1.x + 1 / (2 * (1 + c)) * (t.2.x - t.1.x) = _
    rw [tx, ← hst.1]; field_simp; ring
  · show t.1.y + 1 / (2 * (1 + c)) * (t.2.y - t.1.y) = _
    rw [ty, ← hst.2]; field_simp; ring
  · intro h
    have : At t 0 q := ⟨by rw [← h.1]; ring, by rw [← h.2]; ring⟩
    exact m0.ne' (at_unique ht hq this)
  · intro h
    have : At t 1 q := ⟨by rw [← h.1]; ring, by rw [← h.2]; ring⟩
    exact m1.ne (at_unique ht hq this)

theorem parallel_dot_ne {s t : Vertex K × Vertex K} (hs : ¬ SamePoint s.1 s.2) (ht : ¬ SamePoint t.1 t.2)
    (hpar : Parallel s.1 s.2 t.1 t.2) : Verif.dot s.1 s.2 t.1 t.2 ≠ 0 := by
  intro h
  have h1 := dot_self_pos hs
  have h2 := dot_self_pos ht
  have : Verif.dot s.1 s.2 s.1 s.2 * Verif.dot t.1 t.2 t.1 t.2 = 0 := by
    unfold Verif.dot Parallel at *
    linear_combination ((s.2.x - s.1.x) * (t.2.x - t.1.x) + (s.2.y - s.1.y) * (t.2.y - t.1.y)) * h +
      ((s.2.x - s.1.x) * (t.2.y - t.1.y) - (s.2.y - s.1.y) * (t.2.x - t.1.x)) * hpar
  exact (mul_pos h1 h2).ne' this

/-- What `SimplePolygon` says about two sides. -/
def Adjoin (s t : Vertex K × Vertex K) : Prop :=
  ∀ q, OnSegment s.1 s.2 q → OnSegment t.1 t.2 q →
    (SamePoint q s.2 ∧ SamePoint q t.1) ∨ (SamePoint q s.1 ∧ SamePoint q t.2)

theorem Adjoin.symm {s t : Vertex K × Vertex K} (h : Adjoin s t) : Adjoin t s := fun q h1 h2 => by
  rcases h q h2 h1 with ⟨a, b⟩ | ⟨a, b⟩
  · exact Or.inr ⟨b, a⟩
  · exact Or.inl ⟨b, a⟩

theorem adjoin_dot {s t : Vertex K × Vertex K} (h : Adjoin s t) (hs : ¬ SamePoint s.1 s.2) (ht : ¬ SamePoint t.1 t.2)
    (hst : SamePoint s.2 t.1) (hpar : Parallel s.1 s.2 t.1 t.2) : 0 < Verif.dot s.1 s.2 t.1 t.2 := by
  rcases lt_trichotomy (Verif.dot s.1 s.2 t.1 t.2) 0 with hd | hd | hd
  · obtain ⟨q, h1, h2⟩ := back_overlap hs hst hpar hd
    rcases h q h1 h2.1 with ⟨-, e⟩ | ⟨-, e⟩
    · exact absurd ⟨e.1.symm, e.2.symm⟩ h2.2.1
    · exact absurd ⟨e.1.symm, e.2.symm⟩ h2.2.2
  · exact absurd hd (parallel_dot_ne hs ht hpar)
  · exact hd

theorem adjoin_loose {s t : Vertex K × Vertex K} (h : Adjoin s t) (hs : ¬ SamePoint s.1 s.2)
    (ht : ¬ SamePoint t.1 t.2) : LooseSides s t := by
  have turn : ¬ (SamePoint s.2 t.1 ∧ SamePoint s.1 t.2) := by
    rintro ⟨⟨a1, a2⟩, b1, b2⟩
    have hpar : Parallel s.1 s.2 t.1 t.2 := by unfold Parallel; rw [a1, a2, b1, b2]; ring
    have hd := adjoin_dot h hs ht ⟨a1, a2⟩ hpar
    have h2 := dot_self_pos hs
    unfold Verif.dot at hd h2
    rw [← a1, ← a2, ← b1, ← b2] at hd
    linarith
  constructor
  · intro p q p1 p2 q1 q2
    rcases h p p1 p2 with ⟨⟨a1, a2⟩, a3, a4⟩ | ⟨⟨a1, a2⟩, a3, a4⟩ <;>
      rcases h q q1 q2 with ⟨⟨b1, b2⟩, b3, b4⟩ | ⟨⟨b1, b2⟩, b3, b4⟩
    · exact ⟨a1.trans b1.symm, a2.trans b2.symm⟩
    · exact absurd ⟨⟨a1.symm.trans a3, a2.symm.trans a4⟩, b1.symm.trans b3, b2.symm.trans b4⟩ turn
    · exact absurd ⟨⟨b1.symm.trans b3, b2.symm.trans b4⟩, a1.symm.trans a3, a2.symm.trans a4⟩ turn
    · exact ⟨a1.trans b1.symm, a2.trans b2.symm⟩
  · intro q q1 q2 hpar
    rcases h q q1 q2 with ⟨⟨a1, a2⟩, a3, a4⟩ | ⟨⟨a1, a2⟩, a3, a4⟩
    · exact adjoin_dot h hs ht ⟨a1.symm.trans a3, a2.symm.trans a4⟩ hpar
    · have := adjoin_dot h.symm ht hs ⟨a3.symm.trans a1, a4.symm.trans a2⟩ hpar.symm
      unfold Verif.dot at *
      linarith

theorem crosswise_loose {s t : Vertex K × Vertex K}
    (h : ∀ q, OnSegment s.1 s.2 q → OnSegment t.1 t.2 q → ¬ Parallel s.1 s.2 t.1 t.2) : LooseSides s t := by
  constructor
  · intro p q p1 p2 q1 q2
    have hn := h p p1 p2
    obtain ⟨a, -, -, ax, ay⟩ := p1
    obtain ⟨b, -, -, bx, byy⟩ := p2
    obtain ⟨c, -, -, cx, cy⟩ := q1
    obtain ⟨d, -, -, dx, dy⟩ := q2
    by_contra hne
    refine hn ?_
    have e1 : (a - c) * (s.2.x - s.1.x) = (b - d) * (t.2.x - t.1.x) := by linear_combination cx + bx - ax - dx
    have e2 : (a - c) * (s.2.y - s.1.y) = (b - d) * (t.2.y - t.1.y) := by linear_combination cy + byy - ay - dy
    have ac : a - c ≠ 0 := fun h0 => hne ⟨by rw [ax, cx, sub_eq_zero.1 h0], by rw [ay, cy, sub_eq_zero.1 h0]⟩
    unfold Parallel
    apply mul_left_cancel₀ ac
    have bd : b - d ≠ 0 := fun h0 => hne ⟨by rw [bx, dx, sub_eq_zero.1 h0], by rw [byy, dy, sub_eq_zero.1 h0]⟩
    linear_combination (t.2.y - t.1.y) * e1 - (t.2.x - t.1.x) * e2
  · intro q q1 q2 hp
    exact absurd hp (h q q1 q2)

theorem loose_pairs {l m : List (Vertex K)} (hl : SimplePolygon l) (hm : SimplePolygon m) (hc : Crosswise l m) :
    (pairs l false ++ pairs m false).Pairwise LooseSides := by
  have one : ∀ {l : List (Vertex K)}, SimplePolygon l → (pairs l false).Pairwise LooseSides := fun hl => by
    refine List.Pairwise.imp_of_mem ?_ hl.apart
    intro s t hs ht h
    exact adjoin_loose h (hl.proper s hs) (hl.proper t ht)
  exact List.pairwise_append.2 ⟨one hl, one hm, fun s hs t ht => crosswise_loose (hc s hs t ht)⟩

theorem mem_pairs_reverse {l : List (Vertex K)} {s : Vertex K × Vertex K} :
    s ∈ pairs l.reverse false ↔ s.swap ∈ pairs l false := by
  rw [(pairs_reverse l).mem_iff, List.mem_map]
  constructor
  · rintro ⟨a, ha, rfl⟩; simpa using ha
  · intro h; exact ⟨s.swap, h, by simp⟩

theorem onSegment_swap {s : Vertex K × Vertex K} {q : Vertex K} :
    OnSegment s.swap.1 s.swap.2 q ↔ OnSegment s.1 s.2 q := ⟨onSegment_symm, onSegment_symm⟩

theorem Spec.SimplePolygon.reverse {l : List (Vertex K)} (h : SimplePolygon l) : SimplePolygon l.reverse := by
  constructor
  · intro s hs hc
    exact h.proper _ (mem_pairs_reverse.1 hs) ⟨hc.1.symm, hc.2.symm⟩
  · change List.Pairwise Adjoin _
    rw [List.Perm.pairwise_iff (R := Adjoin) (fun h => Adjoin.symm h) (pairs_reverse l), List.pairwise_map]
    refine h.apart.imp ?_
    intro s t hst q h1 h2
    rcases hst q (onSegment_symm h1) (onSegment_symm h2) with ⟨a, b⟩ | ⟨a, b⟩
    · exact Or.inr ⟨a, b⟩
    · exact Or.inl ⟨a, b⟩

theorem Spec.Crosswise.reverse {l m : List (Vertex K)} (h : Crosswise l m) : Crosswise l m.reverse := by
  intro s hs t ht q h1 h2 hp
  refine h s hs _ (mem_pairs_reverse.1 ht) q h1 (onSegment_symm h2) ?_
  unfold Parallel at *
  simp only [Prod.fst_swap, Prod.snd_swap]
  linear_combination -hp

theorem winding_reverse (l : List (Vertex K)) (v : Vertex K) :
    windingNumber (pairs l.reverse false) v = -windingNumber (pairs l false) v := by
  unfold windingNumber
  rw [((pairs_reverse l).map _).sum_eq, List.map_map]
  generalize pairs l false = p
  induction p with
  | nil => simp
  | cons s p ih =>
    simp only [List.map_cons, List.sum_cons, Function.comp, Prod.fst_swap, Prod.snd_swap] at ih ⊢
    rw [ih, crossingAbove_swap v s.1 s.2]
    ring

/-- The pieces of two lists. -/
theorem cuts_append {l m r : List (Vertex K × Vertex K)} (h : Cuts (l ++ m) r) :
    ∃ r1 r2, r.Perm (r1 ++ r2) ∧ Cuts l r1 ∧ Cuts m r2 := by
  obtain ⟨cs, h1, h2⟩ := h
  have : ∃ c1 c2, cs = c1 ++ c2 ∧ List.Forall₂ Chop l c1 ∧ List.Forall₂ Chop m c2 := by
    clear h2
    induction l generalizing cs with
    | nil => exact ⟨[], cs, rfl, List.Forall₂.nil, h1⟩
    | cons s l ih =>
      cases h1 with
      | cons ha hb =>
        obtain ⟨c1, c2, rfl, e1, e2⟩ := ih _ hb
        exact ⟨_ :: c1, c2, rfl, List.Forall₂.cons ha e1, e2⟩
  obtain ⟨c1, c2, rfl, e1, e2⟩ := this
  exact ⟨c1.flatten, c2.flatten, by rw [← List.flatten_append]; exact h2, ⟨c1, e1, List.Perm.refl _⟩,
    ⟨c2, e2, List.Perm.refl _⟩⟩

theorem chop_cover {s : Vertex K × Vertex K} {c : List (Vertex K × Vertex K)} (h : Chop s c) {q : Vertex K}
    (hq : OnSegment s.1 s.2 q) : ∃ t ∈ c, OnSegment t.1 t.2 q := by
  induction h with
  | whole s => exact ⟨s, by simp, hq⟩
  | @cut a p b l m hp hl hm ihl ihm =>
    have : OnSegment a p q ∨ OnSegment p b q := by
      obtain ⟨⟨c, c0, c1, cx, cy⟩, h1, h2⟩ := hp
      obtain ⟨d, d0, d1, dx, dy⟩ := hq
      simp only at dx dy
      have c0' : 0 < c := lt_of_le_of_ne c0 fun h => h1 ⟨by rw [cx, ← h]; ring, by rw [cy, ← h]; ring⟩
      have c1' : c < 1 := lt_of_le_of_ne c1 fun h => h2 ⟨by rw [cx, h]; ring, by rw [cy, h]; ring⟩
      rcases le_total d c with hdc | hdc
      · refine Or.inl ⟨d / c, by positivity, (div_le_one c0').2 hdc, ?_, ?_⟩
        · rw [dx, cx]; field_simp; ring
        · rw [dy, cy]; field_simp; ring
      · have : 0 < 1 - c := by linarith
        refine Or.inr ⟨(d - c) / (1 - c), div_nonneg (by linarith) this.le, (div_le_one this).2 (by linarith), ?_, ?_⟩
        · rw [dx, cx]; field_simp; ring
        · rw [dy, cy]; field_simp; ring
    rcases this with h | h
    · obtain ⟨t, ht, e⟩ := ihl h
      exact ⟨t, List.mem_append_left _ ht, e⟩
    · obtain ⟨t, ht, e⟩ := ihm h
      exact ⟨t, List.mem_append_right _ ht, e⟩

/-- The pieces cover the same points. -/
theorem Spec.Cuts.onSome {l r : List (Vertex K × Vertex K)} (h : Cuts l r) {q : Vertex K} :
    OnSome r q ↔ OnSome l q := by
  obtain ⟨cs, h1, h2⟩ := h
  constructor
  · rintro ⟨t, ht, hq⟩
    obtain ⟨c, hc, htc⟩ := List.mem_flatten.1 (h2.mem_iff.1 ht)
    obtain ⟨s, hs, hsc⟩ := forall₂_mem h1 hc
    obtain ⟨u, w, hp⟩ := (chop_parts hsc).1 t htc
    exact ⟨s, hs, hp.on hq⟩
  · rintro ⟨s, hs, hq⟩
    obtain ⟨c, hc, hsc⟩ := forall₂_mem h1.flip hs
    obtain ⟨t, ht, e⟩ := chop_cover hsc hq
    exact ⟨t, h2.mem_iff.2 (List.mem_flatten.2 ⟨c, hc, ht⟩), e⟩

theorem Spec.Cuts.telescopes {l : List (Vertex K)} {r : List (Vertex K × Vertex K)} (h : Cuts (pairs l false) r) :
    Telescopes r := by
  intro f
  rw [h.sum (fun s => f s.2 - f s.1) fun a b p _ => by ring]
  exact sum_pairs_closed f l

/-- Away from the sides, `contains` tells whether the winding number is zero. -/
theorem contains_off {p : Polyline (Vertex K)} (ho : p.opened = false) {v : Vertex K}
    (hv : ¬ OnSome (pairs p.vertices false) v) :
    (p.contains 0 v = some .inside ↔ windingNumber (pairs p.vertices false) v ≠ 0) ∧
      (p.contains 0 v = some .outside ↔ windingNumber (pairs p.vertices false) v = 0) := by
  obtain ⟨h1, h2⟩ := Props.C08_winding le_rfl p ho v
  refine h2 fun h => hv ?_
  exact (Props.C08_boundary_exact p ho v).1 (h1.2 h)

/-- The winding number does not change along a segment that the polygon does not touch, but maybe at its ends. -/
theorem winding_along {l : List (Vertex K)} {s : Vertex K × Vertex K} (hs : ¬ SamePoint s.1 s.2)
    (hmiss : ∀ q, StrictlyOn s.1 s.2 q → ¬ OnSome (pairs l false) q) {q q' : Vertex K}
    (hq : StrictlyOn s.1 s.2 q) (hq' : StrictlyOn s.1 s.2 q') :
    windingNumber (pairs l false) q = windingNumber (pairs l false) q' := by
  refine winding_const l fun t ht x hx hx' => ?_
  rcases strictlyOn_between hs hq.1 hq' hx' with h | h
  · exact hmiss x h ⟨t, ht, hx⟩
  · exact hmiss q hq ⟨t, ht, (onSegment_congr ⟨rfl, rfl⟩ ⟨rfl, rfl⟩ h).2 hx⟩

theorem separate_self {s : Vertex K × Vertex K} (hs : ¬ SamePoint s.1 s.2) : ¬ Separate s s := fun h => by
  have := midpoint_strictlyOn hs
  exact (h _ this.1 this.1).1 this

theorem separate_back {s : Vertex K × Vertex K} (hs : ¬ SamePoint s.1 s.2) : ¬ Separate s (s.2, s.1) := fun h => by
  have := midpoint_strictlyOn hs
  exact (h _ this.1 (onSegment_symm this.1)).1 this

theorem weighted_filter (keep : Vertex K × Vertex K → Bool) (l : List (Vertex K × Vertex K)) (v : Vertex K) :
    windingNumber (l.filter keep) v = weighted (fun s => if keep s then 1 else 0) l v := by
  unfold windingNumber weighted
  induction l with
  | nil => rfl
  | cons s l ih =>
    rw [List.filter_cons]
    by_cases h : keep s = true
    · simp only [h, if_true, List.map_cons, List.sum_cons, one_mul]; rw [ih]
    · simp only [h, if_false, List.map_cons, List.sum_cons, zero_mul, zero_add, Bool.false_eq_true]; rw [ih]

theorem weighted_perm {k : Vertex K × Vertex K → ℤ} {l m : List (Vertex K × Vertex K)} (h : l.Perm m) (v : Vertex K) :
    weighted k l v = weighted k m v := (h.map _).sum_eq

theorem countP_at {l : List (Vertex K × Vertex K)} (hl : ∀ s ∈ l, Solid s) (keep : Vertex K × Vertex K → Bool)
    {b : Vertex K} (hb : b.isGhost = false) :
    ((l.map fun s => (if keep s then (1 : ℤ) else 0) * (at' b s.2 - at' b s.1)).sum) =
      ((l.filter keep).countP (fun s => decide (s.2 = b)) : ℤ) - (l.filter keep).countP (fun s => decide (s.1 = b)) := by
  have e : ∀ v : Vertex K, v.isGhost = false → at' b v = if v = b then 1 else 0 := by
    intro v hv
    unfold at'
    by_cases h : v = b
    · rw [if_pos h, if_pos (by rw [h]; exact ⟨rfl, rfl⟩)]
    · rw [if_neg h, if_neg fun h' : v.x = b.x ∧ v.y = b.y => h (vertex_eq h' hv hb)]
  induction l with
  | nil => rfl
  | cons s l ih =>
    have := ih fun t ht => hl t (List.mem_cons_of_mem _ ht)
    obtain ⟨g1, g2⟩ := hl s (by simp)
    rw [List.map_cons, List.sum_cons, this, e _ g1, e _ g2, List.filter_cons]
    by_cases hk : keep s = true
    · simp only [hk, if_true, List.countP_cons, decide_eq_true_eq]
      push_cast
      ring
    · simp only [hk, Bool.false_eq_true, if_false, zero_mul, zero_add]

section TwoPolygons

variable {l m : List (Vertex K)}

/-- What is known of the pieces of two simple polygons in general position, when those that `kp` selects at their
midpoints are kept. -/
structure Arranged (l m : List (Vertex K)) (r : List (Vertex K × Vertex K)) : Prop where
  solid : ∀ s ∈ r, Solid s
  proper : ∀ s ∈ r, ¬ SamePoint s.1 s.2
  separate : r.Pairwise Separate
  directed : r.Pairwise fun s t => ∀ q, OnSegment s.1 s.2 q → OnSegment t.1 t.2 q → Parallel s.1 s.2 t.1 t.2 →
    0 < Verif.dot s.1 s.2 t.1 t.2
  parts : ∃ r1 r2, r.Perm (r1 ++ r2) ∧ Cuts (pairs l false) r1 ∧ Cuts (pairs m false) r2

theorem arranged (gl : ∀ v ∈ l, v.isGhost = false) (gm : ∀ v ∈ m, v.isGhost = false) (hl : SimplePolygon l)
    (hm : SimplePolygon m) (hc : Crosswise l m) {fuel : Nat} {r : List (Vertex K × Vertex K)}
    (hr : splitIntersections 0 fuel (pairs l false ++ pairs m false) = .ok r) : Arranged l m r := by
  have hsol := Polyline.two_solid (o1 := false) (o2 := false) gl gm
  have hcut := splitIntersections_cuts hsol hr
  have hnd : ∀ s ∈ pairs l false ++ pairs m false, ¬ SamePoint s.1 s.2 := by
    intro s hs
    rcases List.mem_append.1 hs with hs | hs
    · exact hl.proper s hs
    · exact hm.proper s hs
  obtain ⟨h1, h2, h3⟩ := cuts_arranged hnd (loose_pairs hl hm hc) hcut (Props.C12_no_crossings hsol hr)
  exact ⟨Polyline.segments_solid hsol hr, h2, h1, h3, cuts_append hcut⟩

theorem Arranged.nodup {r : List (Vertex K × Vertex K)} (h : Arranged l m r) : r.Nodup := by
  refine List.Pairwise.imp_of_mem ?_ h.separate
  rintro s t hs - hst rfl
  exact separate_self (h.proper s hs) hst

theorem Arranged.back {r : List (Vertex K × Vertex K)} (h : Arranged l m r) {s : Vertex K × Vertex K} (hs : s ∈ r) :
    (s.2, s.1) ∉ r := by
  intro hb
  have hne : s ≠ (s.2, s.1) := fun he => h.proper s hs (by
    have : s.1 = s.2 := congrArg Prod.fst he
    rw [this]; exact ⟨rfl, rfl⟩)
  have hsym : Std.Symm (Separate (K := K)) := ⟨fun _ _ h => h.symm⟩
  exact separate_back (h.proper s hs) (h.separate.forall hs hb hne)

/-- The kept pieces make up balanced circuits, and their winding number is the wanted combination. -/
theorem Arranged.region {r : List (Vertex K × Vertex K)} (h : Arranged l m r) (kp : Vertex K → Bool) {α β γ : ℤ}
    (k1 : ∀ q, OnSome (pairs l false) q → ¬ OnSome (pairs m false) q →
      (if kp q then (1 : ℤ) else 0) = α + γ * windingNumber (pairs m false) q)
    (k2 : ∀ q, OnSome (pairs m false) q → ¬ OnSome (pairs l false) q →
      (if kp q then (1 : ℤ) else 0) = β + γ * windingNumber (pairs l false) q) :
    Polyline.Balanced (r.filter fun s => kp (midpoint s.1 s.2)) ∧
    Polyline.Proper (r.filter fun s => kp (midpoint s.1 s.2)) ∧
    ∀ v, ¬ OnSome (pairs l false) v → ¬ OnSome (pairs m false) v →
      windingNumber (r.filter fun s => kp (midpoint s.1 s.2)) v =
        α * windingNumber (pairs l false) v + β * windingNumber (pairs m false) v +
          γ * (windingNumber (pairs l false) v * windingNumber (pairs m false) v) := by
  obtain ⟨r1, r2, hp, c1, c2⟩ := h.parts
  have hap : (r1 ++ r2).Pairwise Separate :=
    (List.Perm.pairwise_iff (fun h => Separate.symm h) hp).1 h.separate
  have hcross := (List.pairwise_append.1 hap).2.2
  have mem1 : ∀ {s}, s ∈ r1 → s ∈ r := fun hs => hp.mem_iff.2 (List.mem_append_left _ hs)
  have mem2 : ∀ {s}, s ∈ r2 → s ∈ r := fun hs => hp.mem_iff.2 (List.mem_append_right _ hs)
  have miss1 : ∀ s ∈ r1, ∀ q, StrictlyOn s.1 s.2 q → ¬ OnSome (pairs m false) q := by
    intro s hs q hq hm
    obtain ⟨t, ht, htq⟩ := c2.onSome.2 hm
    exact (hcross s hs t ht q hq.1 htq).1 hq
  have miss2 : ∀ s ∈ r2, ∀ q, StrictlyOn s.1 s.2 q → ¬ OnSome (pairs l false) q := by
    intro s hs q hq hm
    obtain ⟨t, ht, htq⟩ := c1.onSome.2 hm
    exact (hcross t ht s hs q htq hq.1).2 hq
  have mid : ∀ {s}, s ∈ r → StrictlyOn s.1 s.2 (midpoint s.1 s.2) := fun {s} hs => by
    rw [Polyline.midpoint_eq_edge (h.solid s hs)]
    exact midpoint_strictlyOn (h.proper s hs)
  have w1 : ∀ s ∈ r1, ∀ q, StrictlyOn s.1 s.2 q →
      (if kp (midpoint s.1 s.2) then (1 : ℤ) else 0) = α + γ * windingNumber r2 q := by
    intro s hs q hq
    have hmid := mid (mem1 hs)
    rw [k1 _ (c1.onSome.1 ⟨s, hs, hmid.1⟩) (miss1 s hs _ hmid), c2.winding,
      winding_along (h.proper s (mem1 hs)) (miss1 s hs) hmid hq]
  have w2 : ∀ s ∈ r2, ∀ q, StrictlyOn s.1 s.2 q →
      (if kp (midpoint s.1 s.2) then (1 : ℤ) else 0) = β + γ * windingNumber r1 q := by
    intro s hs q hq
    have hmid := mid (mem2 hs)
    rw [k2 _ (c2.onSome.1 ⟨s, hs, hmid.1⟩) (miss2 s hs _ hmid), c1.winding,
      winding_along (h.proper s (mem2 hs)) (miss2 s hs) hmid hq]
  refine ⟨fun b => ?_, fun s hs => ?_, fun v v1 v2 => ?_⟩
  · by_cases hb : b.isGhost = false
    · have e1 := countP_at h.solid (fun s => kp (midpoint s.1 s.2)) hb
      have e2 := region_balance (k := fun s => if kp (midpoint s.1 s.2) then (1 : ℤ) else 0) hap c1.telescopes
        c2.telescopes w1 w2 b
      rw [(hp.map _).sum_eq, e2] at e1
      exact_mod_cast sub_eq_zero.1 e1.symm
    · have z : ∀ s ∈ r.filter fun s => kp (midpoint s.1 s.2), s.2 ≠ b ∧ s.1 ≠ b := by
        intro s hs
        obtain ⟨g1, g2⟩ := h.solid s (List.mem_filter.1 hs).1
        exact ⟨fun e => hb (e ▸ g2), fun e => hb (e ▸ g1)⟩
      rw [List.countP_eq_zero.2 fun s hs => by simpa using (z s hs).1,
        List.countP_eq_zero.2 fun s hs => by simpa using (z s hs).2]
  · have hs' := (List.mem_filter.1 hs).1
    refine ⟨fun e => h.proper s hs' (by rw [e]; exact ⟨rfl, rfl⟩), fun hb => h.back hs' (List.mem_filter.1 hb).1⟩
  · rw [weighted_filter, weighted_perm hp, weighted_append]
    rw [region_identity (l := r1) (m := r2) (α := α) (β := β) (γ := γ) ?_ ?_ w1 w2, c1.winding, c2.winding]
    · intro s hs hv
      rcases List.mem_append.1 hs with hs | hs
      · exact v1 (c1.onSome.1 ⟨s, hs, hv⟩)
      · exact v2 (c2.onSome.1 ⟨s, hs, hv⟩)
    · intro s hs t ht q hq htq
      exact (hcross s hs t ht q hq.1 htq).1 hq

theorem Arranged.not_opposed {r : List (Vertex K × Vertex K)} (h : Arranged l m r) {p1 p2 : Polyline (Vertex K)} :
    ∀ s ∈ r, ∀ t ∈ r, Polyline.opposed 0 p1 p2 s t = false := by
  intro s hs t ht
  by_contra hc
  rw [Bool.not_eq_false] at hc
  unfold Polyline.opposed at hc
  simp only [Bool.and_eq_true, decide_eq_true_eq] at hc
  obtain ⟨⟨⟨hi, hp⟩, hd⟩, -⟩ := hc
  rw [Option.isSome_iff_exists] at hi
  obtain ⟨q, hq⟩ := hi
  obtain ⟨o1, o2⟩ := Props.C06_sound_exact hq
  rw [parallel_iff] at hp
  by_cases hst : s = t
  · subst hst
    exact absurd (dot_self_pos (h.proper s hs)) (not_lt.2 hd.le)
  · have hsym : Std.Symm (fun s t : Vertex K × Vertex K => ∀ q, OnSegment s.1 s.2 q → OnSegment t.1 t.2 q →
        Parallel s.1 s.2 t.1 t.2 → 0 < Verif.dot s.1 s.2 t.1 t.2) := ⟨fun s t h q a1 a2 hp => by
      have := h q a2 a1 hp.symm
      unfold Verif.dot at *
      linarith⟩
    exact absurd (h.directed.forall hs ht hst q o1 o2 hp) (not_lt.2 hd.le)

/-- The common part of `intersection` and `subtraction` puts exactly the kept pieces in polygons. -/
theorem Arranged.combine {r : List (Vertex K × Vertex K)} (h : Arranged l m r) (hne : r ≠ []) (kp : Vertex K → Bool)
    (hb : Polyline.Balanced (r.filter fun s => kp (midpoint s.1 s.2)))
    (hk : Polyline.Proper (r.filter fun s => kp (midpoint s.1 s.2))) {p1 p2 : Polyline (Vertex K)} {fuel : Nat}
    (hf : r.length ≤ fuel) (σ : Sched) :
    ∃ (polys : List (Polyline (Vertex K))) (unused : List (Vertex K × Vertex K)),
      Polyline.combine 0 fuel σ p1 p2 (fun s => kp (midpoint s.1 s.2)) r = .ok (polys, unused) ∧
      (∀ p ∈ polys, p.opened = false) ∧
      (polys.flatMap fun p => pairs p.vertices false).Perm (r.filter fun s => kp (midpoint s.1 s.2)) ∧
      unused.Nodup ∧ ∀ s, s ∈ unused ↔ s ∈ r ∧ kp (midpoint s.1 s.2) = false := by
  unfold Polyline.combine
  cases hrev : r.reverse with
  | nil => exact absurd (List.reverse_eq_nil_iff.1 hrev) hne
  | cons s stack =>
    have hmem : ∀ t, t ∈ s :: stack ↔ t ∈ r := fun t => by rw [← hrev, List.mem_reverse]
    have hlen : stack.length ≤ fuel := by
      have := congrArg List.length hrev
      simp only [List.length_reverse, List.length_cons] at this
      omega
    simp only
    rw [Polyline.cancelLoop_keeps fuel stack [s] [] hlen fun a ha b hb => h.not_opposed a
      ((hmem a).1 (List.mem_cons_of_mem _ ha)) b ((hmem b).1 (by simpa using hb)), Res.bind_ok]
    simp only
    obtain ⟨sm1, sm2⟩ := Polyline.sieve_mem (keep := fun t : Seg K => kp (midpoint t.1 t.2)) (l := [s] ++ stack)
      (u := [])
    obtain ⟨sn1, sn2⟩ := Polyline.sieve_nodup (keep := fun t : Seg K => kp (midpoint t.1 t.2)) (l := [s] ++ stack)
      (u := []) List.nodup_nil
    have hperm : (r.filter fun s => kp (midpoint s.1 s.2)).Perm
        (Polyline.sieve (fun t : Seg K => kp (midpoint t.1 t.2)) ([s] ++ stack) []).1 := by
      rw [List.perm_ext_iff_of_nodup (h.nodup.filter _) sn1]
      intro t
      rw [sm1, List.mem_filter, ← hmem]
      simp
    have hsolid : ∀ t ∈ (Polyline.sieve (fun t : Seg K => kp (midpoint t.1 t.2)) ([s] ++ stack) []).1, Solid t :=
      fun t ht => h.solid t (List.mem_filter.1 (hperm.mem_iff.2 ht)).1
    obtain ⟨polys, e1, e2, e3⟩ := Polyline.buildAll_complete _ σ _ []
      (Polyline.sieve (fun t : Seg K => kp (midpoint t.1 t.2)) ([s] ++ stack) []).2 le_rfl sn1 hsolid
      (hb.perm hperm) (fun t ht => ⟨(hk t (hperm.mem_iff.2 ht)).1, fun hc =>
        (hk t (hperm.mem_iff.2 ht)).2 (hperm.mem_iff.2 hc)⟩)
    refine ⟨polys, _, by rw [e1]; rfl, e2, e3.trans hperm.symm, sn2, fun t => ?_⟩
    rw [sm2, ← hmem]
    simp

end TwoPolygons

/-- A point that a polygon encloses is in its box. -/
theorem winding_box {l : List (Vertex K)} {v : Vertex K} (h : windingNumber (pairs l false) v ≠ 0) :
    (∃ u ∈ l, u.x ≤ v.x) ∧ (∃ u ∈ l, v.x ≤ u.x) ∧ (∃ u ∈ l, u.y ≤ v.y) ∧ ∃ u ∈ l, v.y ≤ u.y := by
  obtain ⟨s, hs, hc⟩ : ∃ s ∈ pairs l false, crossingAbove v s.1 s.2 ≠ 0 := by
    by_contra hn
    push Not at hn
    refine h ?_
    unfold windingNumber
    exact List.sum_eq_zero fun x hx => by
      obtain ⟨s, hs, rfl⟩ := List.mem_map.1 hx
      exact hn s hs
  obtain ⟨m1, m2⟩ := mem_pairs hs
  have hsp : span s.1 s.2 v.x ≠ 0 := by
    intro h0; rw [crossing_eq, h0] at hc; simp at hc
  have hlt : v.y < heightAt s.1 s.2 v.x := by
    by_contra hn; rw [crossing_eq, if_neg hn] at hc; exact hc rfl
  have hon := onSegment_heightAt hsp
  obtain ⟨⟨b1, b2⟩, b3, b4⟩ := onSegment_box hon
  simp only at b1 b2 b3 b4
  refine ⟨?_, ?_, ?_, ?_⟩
  · rcases min_choice s.1.x s.2.x with e | e <;> rw [e] at b1
    exacts [⟨_, m1, b1⟩, ⟨_, m2, b1⟩]
  · rcases max_choice s.1.x s.2.x with e | e <;> rw [e] at b2
    exacts [⟨_, m1, b2⟩, ⟨_, m2, b2⟩]
  · by_contra hn
    push Not at hn
    refine h ?_
    have : ∀ t ∈ pairs l false, crossingAbove v t.1 t.2 =
        (if t.2.x ≤ v.x then (1 : ℤ) else 0) - if t.1.x ≤ v.x then 1 else 0 := by
      intro t ht
      obtain ⟨n1, n2⟩ := mem_pairs ht
      have hsub : span t.1 t.2 v.x = (if t.2.x ≤ v.x then (1 : ℤ) else 0) - if t.1.x ≤ v.x then 1 else 0 := by
        unfold span
        by_cases g1 : t.1.x ≤ v.x <;> by_cases g2 : t.2.x ≤ v.x
        · simp [g1, g2, not_lt.2 g1, not_lt.2 g2]
        · simp [g1, g2, not_le.1 g2]
        · simp [g1, g2, not_le.1 g1]
        · simp [g1, g2]
      rw [crossing_eq, ← hsub]
      by_cases g : span t.1 t.2 v.x = 0
      · rw [g]; simp
      · rw [if_pos]
        obtain ⟨-, d3, -⟩ := onSegment_box (onSegment_heightAt g)
        simp only at d3
        exact (lt_min (hn _ n1) (hn _ n2)).trans_le d3
    unfold windingNumber
    rw [List.map_congr_left this]
    exact sum_pairs_closed (fun e : Vertex K => if e.x ≤ v.x then (1 : ℤ) else 0) l
  · have b4' := hlt.le.trans b4
    rcases max_choice s.1.y s.2.y with e | e <;> rw [e] at b4'
    exacts [⟨_, m1, b4'⟩, ⟨_, m2, b4'⟩]

/-- Polygons with disjoint boxes enclose no common point. -/
theorem boxes_apart {p1 p2 : Polyline (Vertex K)} (h : Polyline.boxesDisjoint p1 p2 = .ok true) (v : Vertex K) :
    windingNumber (pairs p1.vertices false) v = 0 ∨ windingNumber (pairs p2.vertices false) v = 0 := by
  by_contra hn
  push Not at hn
  have key : ∀ {p : Polyline (Vertex K)} {b}, p.boundingBox = some b → windingNumber (pairs p.vertices false) v ≠ 0 →
      b.contains v = true := by
    intro p b hb hw
    obtain ⟨⟨u1, m1, e1⟩, ⟨u2, m2, e2⟩, ⟨u3, m3, e3⟩, ⟨u4, m4, e4⟩⟩ := winding_box hw
    have hin := (Props.C05_least hb).1
    rw [Props.C05_contains_iff]
    exact ⟨(hin u1 m1).1.trans e1, e2.trans (hin u2 m2).2.1, (hin u3 m3).2.2.1.trans e3,
      e4.trans (hin u4 m4).2.2.2⟩
  unfold Polyline.boxesDisjoint at h
  cases h1 : p1.boundingBox with
  | none => rw [h1] at h; simp at h
  | some b1 =>
    cases h2 : p2.boundingBox with
    | none => rw [h1, h2] at h; simp at h
    | some b2 =>
      rw [h1, h2] at h
      simp only [Res.ok.injEq, Option.isNone_iff_eq_none] at h
      exact (Props.C05_intersection_none b1 b2).1 h ⟨v, key h1 hn.1, key h2 hn.2⟩

end Verif
