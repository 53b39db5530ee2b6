import Verif.Lemmas.Crossing

/-!
# Lemmas: two simple polygons in general position
-/

namespace Verif

open Spec

variable {K : Type*} [Field K] [LinearOrder K] [IsStrictOrderedRing K]

set_option linter.unusedSectionVars false

/-- Of two parallel segments with a common inner point, an end of one is on the other. -/
theorem end_overlap {s t : Vertex K × Vertex K} (hpar : Parallel s.1 s.2 t.1 t.2) (hs : ¬ SamePoint s.1 s.2)
    (ht : ¬ SamePoint t.1 t.2) {q : Vertex K} (h1 : OnSegment s.1 s.2 q) (h2 : OnSegment t.1 t.2 q) :
    OnSegment s.1 s.2 t.1 ∨ OnSegment s.1 s.2 t.2 ∨ OnSegment t.1 t.2 s.1 := by
  have hD := dot_self_pos hs
  obtain ⟨c, hc⟩ : ∃ c, c = Verif.dot s.1 s.2 t.1 t.2 / Verif.dot s.1 s.2 s.1 s.2 := ⟨_, rfl⟩
  have hcD : c * Verif.dot s.1 s.2 s.1 s.2 = Verif.dot s.1 s.2 t.1 t.2 := by rw [hc]; field_simp
  have tx : t.2.x - t.1.x = c * (s.2.x - s.1.x) := by
    apply mul_left_cancel₀ hD.ne'
    unfold Verif.dot Parallel at *
    linear_combination -(s.2.x - s.1.x) * hcD - (s.2.y - s.1.y) * hpar
  have ty : t.2.y - t.1.y = c * (s.2.y - s.1.y) := by
    apply mul_left_cancel₀ hD.ne'
    unfold Verif.dot Parallel at *
    linear_combination -(s.2.y - s.1.y) * hcD + (s.2.x - s.1.x) * hpar
  have c0 : c ≠ 0 := by
    intro h
    rw [h] at tx ty
    exact ht ⟨by linarith, by linarith⟩
  obtain ⟨a, a0, a1, ax, ay⟩ := h1
  obtain ⟨b, b0, b1, bx, byy⟩ := h2
  have f1 : At s (a - b * c) t.1 := by
    constructor
    · rw [tx] at bx; linear_combination ax - bx
    · rw [ty] at byy; linear_combination ay - byy
  have f2 : At s (a + (1 - b) * c) t.2 := by
    constructor
    · rw [tx] at bx; linear_combination ax - bx + tx
    · rw [ty] at byy; linear_combination ay - byy + ty
  by_cases g1 : 0 ≤ a - b * c ∧ a - b * c ≤ 1
  · exact Or.inl ⟨_, g1.1, g1.2, f1⟩
  by_cases g2 : 0 ≤ a + (1 - b) * c ∧ a + (1 - b) * c ≤ 1
  · exact Or.inr (Or.inl ⟨_, g2.1, g2.2, f2⟩)
  refine Or.inr (Or.inr ?_)
  have key : ∀ τ : K, τ * c = b * c - a → 0 ≤ τ → τ ≤ 1 → OnSegment t.1 t.2 s.1 := by
    intro τ h t0 t1
    refine ⟨τ, t0, t1, ?_, ?_⟩
    · rw [tx, f1.1]; linear_combination -(s.2.x - s.1.x) * h
    · rw [ty, f1.2]; linear_combination -(s.2.y - s.1.y) * h
  refine key ((b * c - a) / c) (by field_simp) ?_ ?_
  · rcases lt_or_gt_of_ne c0 with h | h
    · apply div_nonneg_of_nonpos _ h.le
      nlinarith
    · apply div_nonneg _ h.le
      by_contra hn
      exact g1 ⟨by linarith, by nlinarith⟩
  · rcases lt_or_gt_of_ne c0 with h | h
    · rw [div_le_one_of_neg h]
      by_contra hn
      exact g2 ⟨by nlinarith, by nlinarith⟩
    · rw [div_le_one h]
      nlinarith

theorem Spec.GeneralPosition.crosswise {l m : List (Vertex K)} (h : GeneralPosition l m) (hl : SimplePolygon l)
    (hm : SimplePolygon m) : Crosswise l m := by
  intro s hs t ht q h1 h2 hp
  obtain ⟨s1, s2⟩ := mem_pairs hs
  obtain ⟨t1, t2⟩ := mem_pairs ht
  rcases end_overlap hp (hl.proper s hs) (hm.proper t ht) h1 h2 with e | e | e
  · exact h.2 _ t1 s hs e
  · exact h.2 _ t2 s hs e
  · exact h.1 _ s1 t ht e

theorem Spec.GeneralPosition.symm {l m : List (Vertex K)} (h : GeneralPosition l m) : GeneralPosition m l := ⟨h.2, h.1⟩

theorem Spec.GeneralPosition.reverse {l m : List (Vertex K)} (h : GeneralPosition l m) :
    GeneralPosition l m.reverse :=
  ⟨fun v hv _ ht ho => h.1 v hv _ (mem_pairs_reverse.1 ht) (onSegment_symm ho),
    fun v hv => h.2 v (List.mem_reverse.1 hv)⟩

/-- A point of the other polygon is inside a side. -/
theorem Spec.GeneralPosition.strict {l m : List (Vertex K)} (h : GeneralPosition l m) {s t : Vertex K × Vertex K}
    (hs : s ∈ pairs l false) (ht : t ∈ pairs m false) {q : Vertex K} (h1 : OnSegment s.1 s.2 q)
    (h2 : OnSegment t.1 t.2 q) : StrictlyOn s.1 s.2 q := by
  obtain ⟨s1, s2⟩ := mem_pairs hs
  refine ⟨h1, fun e => ?_, fun e => ?_⟩
  · exact h.1 _ s1 t ht ((onSegment_congr ⟨rfl, rfl⟩ ⟨rfl, rfl⟩ e).2 h2)
  · exact h.1 _ s2 t ht ((onSegment_congr ⟨rfl, rfl⟩ ⟨rfl, rfl⟩ e).2 h2)

/-- An inner point of a side of a simple polygon is on no other side. -/
theorem Spec.SimplePolygon.only {l : List (Vertex K)} (h : SimplePolygon l) {s t : Vertex K × Vertex K}
    (hs : s ∈ pairs l false) (ht : t ∈ pairs l false) {q : Vertex K} (h1 : StrictlyOn s.1 s.2 q)
    (h2 : OnSegment t.1 t.2 q) : t = s := by
  by_contra hne
  have hsym : Std.Symm (Separate (K := K)) := ⟨fun _ _ h => h.symm⟩
  exact (h.separate.forall hs ht (Ne.symm hne) q h1.1 h2).1 h1

theorem Part.strict {s t : Vertex K × Vertex K} (hs : ¬ SamePoint s.1 s.2) {u w z : K} (h : Part s u w t)
    (h1 : u < z) (h2 : z < w) {q : Vertex K} (hq : At s z q) : StrictlyOn t.1 t.2 q := by
  obtain ⟨-, l1, -, hu, hw⟩ := h
  have hp : 0 < w - u := by linarith
  refine ⟨⟨(z - u) / (w - u), div_nonneg (by linarith) hp.le, (div_le_one hp).2 (by linarith), ?_, ?_⟩, ?_, ?_⟩
  · rw [hq.1, hu.1, hw.1]; field_simp; ring
  · rw [hq.2, hu.2, hw.2]; field_simp; ring
  · intro e
    have : At s z t.1 := ⟨e.1.trans hq.1, e.2.trans hq.2⟩
    exact h1.ne (at_unique hs hu this)
  · intro e
    have : At s z t.2 := ⟨e.1.trans hq.1, e.2.trans hq.2⟩
    exact h2.ne (at_unique hs this hw)

/-- **Pieces alternate**: where a polygon crosses another one, the pieces before and after the crossing have different
winding numbers with respect to the other polygon. -/
theorem alternate {l m : List (Vertex K)} (hl : SimplePolygon l) (hm : SimplePolygon m) (hg : GeneralPosition l m)
    {r1 : List (Vertex K × Vertex K)} (c1 : Cuts (pairs l false) r1)
    (miss : ∀ s ∈ r1, ∀ q, StrictlyOn s.1 s.2 q → ¬ OnSome (pairs m false) q) {x s : Vertex K × Vertex K}
    (hx : x ∈ r1) (hs : s ∈ r1) (hxs : SamePoint x.2 s.1) (hb : OnSome (pairs m false) s.1) {q q' : Vertex K}
    (hq : StrictlyOn x.1 x.2 q) (hq' : StrictlyOn s.1 s.2 q') :
    windingNumber (pairs m false) q ≠ windingNumber (pairs m false) q' := by
  obtain ⟨cs, f1, f2⟩ := c1
  have side : ∀ {s}, s ∈ r1 → ∃ S ∈ pairs l false, ∃ u w, Part S u w s := by
    intro s hs
    obtain ⟨c, hc, hsc⟩ := List.mem_flatten.1 (f2.mem_iff.1 hs)
    obtain ⟨S, hS, hch⟩ := forall₂_mem f1 hc
    obtain ⟨u, w, hp⟩ := (chop_parts hch).1 s hsc
    exact ⟨S, hS, u, w, hp⟩
  obtain ⟨S, hS, u, w, ps⟩ := side hs
  obtain ⟨S', hS', u', w', px⟩ := side hx
  obtain ⟨T, hT, hbT⟩ := hb
  have onS := ps.on (onSegment_left s.1 s.2)
  have strS := hg.strict hS hT onS hbT
  have strT := hg.symm.strict hT hS hbT onS
  have hS'S : S' = S := hl.only hS hS' strS ((onSegment_congr ⟨rfl, rfl⟩ ⟨rfl, rfl⟩ hxs).1 (px.on (onSegment_right _ _)))
  subst hS'S
  have hSp := hl.proper S' hS
  have huw : w' = u := by
    refine at_unique hSp (v := s.1) ?_ ps.2.2.2.1
    have := px.2.2.2.2
    exact ⟨hxs.1.symm.trans this.1, hxs.2.symm.trans this.2⟩
  subst huw
  obtain ⟨l1, l2, hM⟩ := List.append_of_mem hT
  have hperm : (pairs m false).Perm (T :: (l1 ++ l2)) := by rw [hM]; exact List.perm_middle
  have hap' := (List.Perm.pairwise_iff (fun h => Separate.symm h) hperm).1 hm.separate
  have hsub : ∀ t ∈ l1 ++ l2, t ∈ pairs m false := fun t ht => hperm.mem_iff.2 (List.mem_cons_of_mem _ ht)
  have hd : 0 < min (w' - u') (w - w') / 2 := by
    have := px.2.1
    have := ps.2.1
    have : 0 < min (w' - u') (w - w') := lt_min (by linarith) (by linarith)
    linarith
  have hd1 : min (w' - u') (w - w') / 2 < w' - u' := by
    have := min_le_left (w' - u') (w - w')
    linarith
  have hd2 : min (w' - u') (w - w') / 2 < w - w' := by
    have := min_le_right (w' - u') (w - w')
    linarith
  generalize min (w' - u') (w - w') / 2 = d at hd hd1 hd2
  have htel := telescopes_pairs m
  rw [hM] at htel
  obtain ⟨e, e0, ed, he⟩ := cross_changes htel (S := S') (w := w') (d := d) (b := s.1)
    (hg.crosswise hl hm S' hS T hT s.1 onS hbT) hd ps.2.2.2.1 strT (by
      intro t ht z v z1 z2 hv hc
      rcases lt_trichotomy z w' with h | h | h
      · exact miss x hx v (px.strict hSp (by linarith) h hv) ⟨t, hsub t ht, hc⟩
      · subst h
        have hsame : SamePoint v s.1 := ⟨hv.1.trans ps.2.2.2.1.1.symm, hv.2.trans ps.2.2.2.1.2.symm⟩
        exact ((List.pairwise_cons.1 hap').1 t ht s.1 hbT
          ((onSegment_congr ⟨rfl, rfl⟩ ⟨rfl, rfl⟩ hsame).1 hc)).1 strT
      · exact miss s hs v (ps.strict hSp h (by linarith) hv) ⟨t, hsub t ht, hc⟩)
  obtain ⟨y, hy⟩ : ∃ y : Vertex K, At S' (w' - e) y := ⟨⟨_, _, false⟩, rfl, rfl⟩
  obtain ⟨y', hy'⟩ : ∃ y : Vertex K, At S' (w' + e) y := ⟨⟨_, _, false⟩, rfl, rfl⟩
  have := he y y' hy hy'
  rw [← hM] at this
  rw [winding_along (px.proper hSp) (miss x hx) hq (px.strict hSp (by linarith) (by linarith) hy),
    winding_along (ps.proper hSp) (miss s hs) hq' (ps.strict hSp (by linarith) (by linarith) hy')]
  exact this

end Verif
