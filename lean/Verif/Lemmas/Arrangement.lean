import Verif.Lemmas.Euler
import Verif.Spec.Regions

/-!
# Lemmas: the pieces of two simple polygons in general position
-/

namespace Verif

open Spec

variable {K : Type*} [Field K] [LinearOrder K] [IsStrictOrderedRing K]

set_option linter.unusedSectionVars false

/-- A point of the line at a given position. -/
def At (s : Vertex K × Vertex K) (u : K) (v : Vertex K) : Prop :=
  v.x = s.1.x + u * (s.2.x - s.1.x) ∧ v.y = s.1.y + u * (s.2.y - s.1.y)

theorem at_unique {s : Vertex K × Vertex K} (h : ¬ SamePoint s.1 s.2) {u w : K} {v : Vertex K} (h1 : At s u v)
    (h2 : At s w v) : u = w := by
  obtain ⟨a1, a2⟩ := h1
  obtain ⟨b1, b2⟩ := h2
  by_contra hne
  refine h ⟨?_, ?_⟩
  · have : (u - w) * (s.2.x - s.1.x) = 0 := by linear_combination b1 - a1
    rcases mul_eq_zero.1 this with h | h
    · exact absurd (sub_eq_zero.1 h) hne
    · linarith
  · have : (u - w) * (s.2.y - s.1.y) = 0 := by linear_combination b2 - a2
    rcases mul_eq_zero.1 this with h | h
    · exact absurd (sub_eq_zero.1 h) hne
    · linarith

/-- `t` runs along `s` from position `u` to position `w`. -/
def Part (s : Vertex K × Vertex K) (u w : K) (t : Vertex K × Vertex K) : Prop :=
  0 ≤ u ∧ u < w ∧ w ≤ 1 ∧ At s u t.1 ∧ At s w t.2

theorem Part.at {s t : Vertex K × Vertex K} {u w : K} (h : Part s u w t) {q : Vertex K} (hq : OnSegment t.1 t.2 q) :
    ∃ x, u ≤ x ∧ x ≤ w ∧ At s x q := by
  obtain ⟨-, h2, -, ⟨a1, a2⟩, b1, b2⟩ := h
  obtain ⟨c, c0, c1, cx, cy⟩ := hq
  refine ⟨u + c * (w - u), by nlinarith, by nlinarith, ?_, ?_⟩
  · rw [cx, a1, b1]; ring
  · rw [cy, a2, b2]; ring

theorem Part.on {s t : Vertex K × Vertex K} {u w : K} (h : Part s u w t) {q : Vertex K} (hq : OnSegment t.1 t.2 q) :
    OnSegment s.1 s.2 q := by
  obtain ⟨x, h1, h2, h3⟩ := h.at hq
  exact ⟨x, h.1.trans h1, h2.trans h.2.2.1, h3⟩

theorem chop_parts {s : Vertex K × Vertex K} {c : List (Vertex K × Vertex K)} (h : Chop s c) :
    (∀ t ∈ c, ∃ u w, Part s u w t) ∧
      c.Pairwise fun t t' => ∃ u w u' w', Part s u w t ∧ Part s u' w' t' ∧ w ≤ u' := by
  induction h with
  | whole s =>
    refine ⟨fun t ht => ⟨0, 1, ?_⟩, by simp⟩
    rw [List.mem_singleton] at ht
    subst ht
    exact ⟨le_rfl, one_pos, le_rfl, ⟨by ring, by ring⟩, ⟨by ring, by ring⟩⟩
  | @cut a p b l m h hl hm ihl ihm =>
    obtain ⟨⟨c, c0, c1, cx, cy⟩, h1, h2⟩ := h
    have c0' : 0 < c := lt_of_le_of_ne c0 fun h => h1 ⟨by rw [cx, ← h]; ring, by rw [cy, ← h]; ring⟩
    have c1' : c < 1 := lt_of_le_of_ne c1 fun h => h2 ⟨by rw [cx, h]; ring, by rw [cy, h]; ring⟩
    have low : ∀ {u w t}, Part (a, p) u w t → Part (a, b) (c * u) (c * w) t := by
      rintro u w t ⟨p1, p2, p3, ⟨p4, p5⟩, p6, p7⟩
      simp only at p4 p5 p6 p7
      refine ⟨by positivity, by nlinarith, by nlinarith, ⟨?_, ?_⟩, ?_, ?_⟩ <;> simp only
      · rw [p4, cx]; ring
      · rw [p5, cy]; ring
      · rw [p6, cx]; ring
      · rw [p7, cy]; ring
    have high : ∀ {u w t}, Part (p, b) u w t → Part (a, b) (c + (1 - c) * u) (c + (1 - c) * w) t := by
      rintro u w t ⟨p1, p2, p3, ⟨p4, p5⟩, p6, p7⟩
      simp only at p4 p5 p6 p7
      refine ⟨by nlinarith, by nlinarith, by nlinarith, ⟨?_, ?_⟩, ?_, ?_⟩ <;> simp only
      · rw [p4, cx]; ring
      · rw [p5, cy]; ring
      · rw [p6, cx]; ring
      · rw [p7, cy]; ring
    refine ⟨fun t ht => ?_, List.pairwise_append.2 ⟨?_, ?_, ?_⟩⟩
    · rcases List.mem_append.1 ht with ht | ht
      · obtain ⟨u, w, h⟩ := ihl.1 t ht
        exact ⟨_, _, low h⟩
      · obtain ⟨u, w, h⟩ := ihm.1 t ht
        exact ⟨_, _, high h⟩
    · refine ihl.2.imp ?_
      rintro t t' ⟨u, w, u', w', q1, q2, q3⟩
      exact ⟨_, _, _, _, low q1, low q2, by nlinarith⟩
    · refine ihm.2.imp ?_
      rintro t t' ⟨u, w, u', w', q1, q2, q3⟩
      exact ⟨_, _, _, _, high q1, high q2, by nlinarith⟩
    · intro t ht t' ht'
      obtain ⟨u, w, q1⟩ := ihl.1 t ht
      obtain ⟨u', w', q2⟩ := ihm.1 t' ht'
      refine ⟨_, _, _, _, low q1, high q2, ?_⟩
      have := q1.2.2.1
      have := q2.1
      nlinarith

theorem Part.proper {s t : Vertex K × Vertex K} {u w : K} (h : Part s u w t) (hs : ¬ SamePoint s.1 s.2) :
    ¬ SamePoint t.1 t.2 := by
  intro hsame
  obtain ⟨-, h2, -, h4, h5⟩ := h
  exact h2.ne (at_unique hs h4 ⟨hsame.1.trans h5.1, hsame.2.trans h5.2⟩)

theorem parts_separate {s t t' : Vertex K × Vertex K} (hs : ¬ SamePoint s.1 s.2) {u w u' w' : K}
    (h1 : Part s u w t) (h2 : Part s u' w' t') (h : w ≤ u') : Separate t t' := by
  intro q hq hq'
  obtain ⟨x, x1, x2, x3⟩ := h1.at hq
  obtain ⟨y, y1, y2, y3⟩ := h2.at hq'
  have hxy := at_unique hs x3 y3
  subst hxy
  have e1 : x = w := le_antisymm x2 (h.trans y1)
  have e2 : x = u' := le_antisymm (x2.trans h) y1
  obtain ⟨-, -, -, -, b1, b2⟩ := h1
  obtain ⟨-, -, -, ⟨c1, c2⟩, -⟩ := h2
  refine ⟨fun hc => hc.2.2 ⟨?_, ?_⟩, fun hc => hc.2.1 ⟨?_, ?_⟩⟩
  · rw [b1, x3.1, e1]
  · rw [b2, x3.2, e1]
  · rw [c1, x3.1, e2]
  · rw [c2, x3.2, e2]

theorem Part.dot {s t s' t' : Vertex K × Vertex K} {u w u' w' : K} (h1 : Part s u w s') (h2 : Part t u' w' t')
    (h : 0 < Verif.dot s.1 s.2 t.1 t.2) : 0 < Verif.dot s'.1 s'.2 t'.1 t'.2 := by
  obtain ⟨-, l1, -, ⟨a1, a2⟩, a3, a4⟩ := h1
  obtain ⟨-, l2, -, ⟨b1, b2⟩, b3, b4⟩ := h2
  have e : Verif.dot s'.1 s'.2 t'.1 t'.2 = (w - u) * (w' - u') * Verif.dot s.1 s.2 t.1 t.2 := by
    unfold Verif.dot; rw [a1, a2, a3, a4, b1, b2, b3, b4]; ring
  rw [e]
  exact mul_pos (mul_pos (by linarith) (by linarith)) h

theorem Part.parallel {s t s' t' : Vertex K × Vertex K} {u w u' w' : K} (h1 : Part s u w s') (h2 : Part t u' w' t')
    (h : Parallel s'.1 s'.2 t'.1 t'.2) : Parallel s.1 s.2 t.1 t.2 := by
  obtain ⟨-, l1, -, ⟨a1, a2⟩, a3, a4⟩ := h1
  obtain ⟨-, l2, -, ⟨b1, b2⟩, b3, b4⟩ := h2
  unfold Parallel at *
  rw [a1, a2, a3, a4, b1, b2, b3, b4] at h
  have e : (w - u) * (w' - u') ≠ 0 := mul_ne_zero (by intro h; linarith) (by intro h; linarith)
  apply mul_left_cancel₀ e
  linear_combination h

theorem dot_self_pos {a b : Vertex K} (h : ¬ SamePoint a b) : 0 < Verif.dot a b a b := by
  unfold Verif.dot
  by_cases hx : b.x - a.x = 0
  · have hy : b.y - a.y ≠ 0 := fun hy => h ⟨by linarith, by linarith⟩
    have := mul_self_pos.2 hy
    nlinarith
  · have := mul_self_pos.2 hx
    nlinarith [mul_self_nonneg (b.y - a.y)]

/-- Parallel segments that share an inner point of one of them share a second point. -/
theorem second_point {a b c d q : Vertex K} (hpar : Parallel a b c d) (hcd : ¬ SamePoint c d)
    (h1 : StrictlyOn a b q) (h2 : OnSegment c d q) :
    ∃ q', OnSegment a b q' ∧ OnSegment c d q' ∧ ¬ SamePoint q q' := by
  have key : ∀ e : Vertex K, OnSegment c d e → ¬ SamePoint q e →
      ∃ q', OnSegment a b q' ∧ OnSegment c d q' ∧ ¬ SamePoint q q' := by
    intro e he hne
    obtain ⟨t, t0, t1, tx, ty⟩ := h1.1
    have hab : ¬ SamePoint a b := fun h => h1.2.1 ⟨by rw [tx, h.1]; ring, by rw [ty, h.2]; ring⟩
    have hD := dot_self_pos hab
    have t0' : 0 < t := lt_of_le_of_ne t0 fun h => h1.2.1 ⟨by rw [tx, ← h]; ring, by rw [ty, ← h]; ring⟩
    have t1' : t < 1 := lt_of_le_of_ne t1 fun h => h1.2.2 ⟨by rw [tx, h]; ring, by rw [ty, h]; ring⟩
    obtain ⟨z1, -, -, z1x, z1y⟩ := id h2
    obtain ⟨z2, -, -, z2x, z2y⟩ := id he
    have hc : (b.x - a.x) * (e.y - a.y) - (b.y - a.y) * (e.x - a.x) = 0 := by
      have e1 : e.x = q.x + (z2 - z1) * (d.x - c.x) := by rw [z2x, z1x]; ring
      have e2 : e.y = q.y + (z2 - z1) * (d.y - c.y) := by rw [z2y, z1y]; ring
      unfold Parallel at hpar
      rw [e1, e2, tx, ty]
      linear_combination (z2 - z1) * hpar
    obtain ⟨μ, mx, my⟩ : ∃ μ : K, e.x = a.x + μ * (b.x - a.x) ∧ e.y = a.y + μ * (b.y - a.y) := by
      refine ⟨((e.x - a.x) * (b.x - a.x) + (e.y - a.y) * (b.y - a.y)) / Verif.dot a b a b, ?_, ?_⟩
      · rw [← sub_eq_iff_eq_add', div_mul_eq_mul_div, eq_div_iff hD.ne']
        unfold Verif.dot
        linear_combination -(b.y - a.y) * hc
      · rw [← sub_eq_iff_eq_add', div_mul_eq_mul_div, eq_div_iff hD.ne']
        unfold Verif.dot
        linear_combination (b.x - a.x) * hc
    rcases lt_or_ge μ 0 with hm | hm
    · refine ⟨a, onSegment_left a b, onSegment_trans h2 he ?_, fun h => h1.2.1 ⟨h.1.symm, h.2.symm⟩⟩
      have hp : 0 < t - μ := by linarith
      refine ⟨t / (t - μ), by positivity, (div_le_one hp).2 (by linarith), ?_, ?_⟩
      · rw [mx, tx]; field_simp; ring
      · rw [my, ty]; field_simp; ring
    · rcases le_or_gt μ 1 with hm' | hm'
      · exact ⟨e, ⟨μ, hm, hm', mx, my⟩, he, hne⟩
      · refine ⟨b, onSegment_right a b, onSegment_trans h2 he ?_, fun h => h1.2.2 ⟨h.1.symm, h.2.symm⟩⟩
        have hp : 0 < μ - t := by linarith
        refine ⟨(1 - t) / (μ - t), div_nonneg (by linarith) hp.le, (div_le_one hp).2 (by linarith), ?_, ?_⟩
        · rw [mx, tx]; field_simp; ring
        · rw [my, ty]; field_simp; ring
  by_cases hqc : SamePoint q c
  · refine key d (onSegment_right c d) fun h => hcd ⟨hqc.1.symm.trans h.1, hqc.2.symm.trans h.2⟩
  · exact key c (onSegment_left c d) hqc

/-- The segments share at most one point and, if they are parallel and touch, they run in the same direction. -/
def LooseSides (s t : Vertex K × Vertex K) : Prop :=
  (∀ p q, OnSegment s.1 s.2 p → OnSegment t.1 t.2 p → OnSegment s.1 s.2 q → OnSegment t.1 t.2 q → SamePoint p q) ∧
    ∀ q, OnSegment s.1 s.2 q → OnSegment t.1 t.2 q → Parallel s.1 s.2 t.1 t.2 → 0 < Verif.dot s.1 s.2 t.1 t.2

theorem parts_of_loose {s t s' t' : Vertex K × Vertex K} (hl : LooseSides s t) (hs : ¬ SamePoint s.1 s.2)
    (ht : ¬ SamePoint t.1 t.2) {u w u' w' : K} (h1 : Part s u w s') (h2 : Part t u' w' t')
    (hends : ¬ Parallel s'.1 s'.2 t'.1 t'.2 → ∀ q, OnSegment s'.1 s'.2 q → OnSegment t'.1 t'.2 q →
        (SamePoint s'.1 q ∨ SamePoint s'.2 q) ∧ (SamePoint t'.1 q ∨ SamePoint t'.2 q)) : Separate s' t' := by
  intro q hq hq'
  by_cases hp : Parallel s'.1 s'.2 t'.1 t'.2
  · constructor
    · intro hc
      obtain ⟨q', a1, a2, a3⟩ := second_point hp (h2.proper ht) hc hq'
      exact a3 (hl.1 q q' (h1.on hq) (h2.on hq') (h1.on a1) (h2.on a2))
    · intro hc
      obtain ⟨q', a1, a2, a3⟩ := second_point hp.symm (h1.proper hs) hc hq
      exact a3 (hl.1 q q' (h1.on hq) (h2.on hq') (h1.on a2) (h2.on a1))
  · obtain ⟨e1, e2⟩ := hends hp q hq hq'
    refine ⟨fun hc => ?_, fun hc => ?_⟩
    · rcases e1 with e | e
      · exact hc.2.1 e
      · exact hc.2.2 e
    · rcases e2 with e | e
      · exact hc.2.1 e
      · exact hc.2.2 e

theorem forall₂_mem {α β : Type*} {R : α → β → Prop} {l : List α} {m : List β} (h : List.Forall₂ R l m) {b : β}
    (hb : b ∈ m) : ∃ a ∈ l, R a b := by
  induction h with
  | nil => simp at hb
  | cons h _ ih =>
    rcases List.mem_cons.1 hb with rfl | hb
    · exact ⟨_, by simp, h⟩
    · obtain ⟨a, ha, hr⟩ := ih hb
      exact ⟨a, List.mem_cons_of_mem _ ha, hr⟩

theorem forall₂_pairwise {α β : Type*} {R : α → β → Prop} {S : α → α → Prop} {T : β → β → Prop} {l : List α}
    {m : List β} (h : List.Forall₂ R l m) (hl : l.Pairwise S)
    (hT : ∀ a ∈ l, ∀ b ∈ m, ∀ a' ∈ l, ∀ b' ∈ m, R a b → R a' b' → S a a' → T b b') : m.Pairwise T := by
  induction h with
  | nil => exact List.Pairwise.nil
  | @cons a b l m h hlm ih =>
    obtain ⟨h1, h2⟩ := List.pairwise_cons.1 hl
    refine List.pairwise_cons.2 ⟨fun b' hb' => ?_, ih h2 fun a ha b hb a' ha' b' hb' =>
      hT a (List.mem_cons_of_mem _ ha) b (List.mem_cons_of_mem _ hb) a' (List.mem_cons_of_mem _ ha') b'
        (List.mem_cons_of_mem _ hb')⟩
    obtain ⟨a', ha', hr⟩ := forall₂_mem hlm hb'
    exact hT a (by simp) b (by simp) a' (List.mem_cons_of_mem _ ha') b' (List.mem_cons_of_mem _ hb') h hr
      (h1 a' ha')

/-- The pieces of a cut arrangement share only ends, none is a point, and none touches another one head on. -/
theorem cuts_arranged {l r : List (Vertex K × Vertex K)} (hnd : ∀ s ∈ l, ¬ SamePoint s.1 s.2)
    (hl : l.Pairwise LooseSides) (hc : Cuts l r)
    (hends : ∀ s ∈ r, ∀ t ∈ r, ¬ Parallel s.1 s.2 t.1 t.2 → ∀ q, OnSegment s.1 s.2 q → OnSegment t.1 t.2 q →
        (SamePoint s.1 q ∨ SamePoint s.2 q) ∧ (SamePoint t.1 q ∨ SamePoint t.2 q)) :
    r.Pairwise Separate ∧ (∀ s ∈ r, ¬ SamePoint s.1 s.2) ∧
      r.Pairwise fun s t => ∀ q, OnSegment s.1 s.2 q → OnSegment t.1 t.2 q → Parallel s.1 s.2 t.1 t.2 →
        0 < Verif.dot s.1 s.2 t.1 t.2 := by
  obtain ⟨cs, h1, h2⟩ := hc
  have hmem : ∀ c ∈ cs, ∀ s ∈ c, s ∈ r := fun c hc s hs => h2.mem_iff.2 (List.mem_flatten.2 ⟨c, hc, hs⟩)
  have hin : ∀ c ∈ cs, ∃ s ∈ l, Chop s c := fun c hc => forall₂_mem h1 hc
  refine ⟨?_, ?_, ?_⟩
  · rw [List.Perm.pairwise_iff (fun h => Separate.symm h) h2, List.pairwise_flatten]
    constructor
    · intro c hc
      obtain ⟨s, hs, hch⟩ := hin c hc
      refine (chop_parts hch).2.imp ?_
      rintro t t' ⟨u, w, u', w', q1, q2, q3⟩
      exact parts_separate (hnd s hs) q1 q2 q3
    · refine forall₂_pairwise h1 hl ?_
      intro s hs c hc t ht d hd hsc htd hst x hx y hy
      obtain ⟨u, w, p1⟩ := (chop_parts hsc).1 x hx
      obtain ⟨u', w', p2⟩ := (chop_parts htd).1 y hy
      exact parts_of_loose hst (hnd s hs) (hnd t ht) p1 p2 (hends x (hmem c hc x hx) y (hmem d hd y hy))
  · intro x hx
    obtain ⟨c, hc, hxc⟩ := List.mem_flatten.1 (h2.mem_iff.1 hx)
    obtain ⟨s, hs, hch⟩ := hin c hc
    obtain ⟨u, w, p1⟩ := (chop_parts hch).1 x hxc
    exact p1.proper (hnd s hs)
  · rw [List.Perm.pairwise_iff (fun {s t} h q a1 a2 hp => by
      have := h q a2 a1 hp.symm
      unfold Verif.dot at *
      linarith) h2, List.pairwise_flatten]
    constructor
    · intro c hc
      obtain ⟨s, hs, hch⟩ := hin c hc
      refine (chop_parts hch).2.imp ?_
      rintro t t' ⟨u, w, u', w', q1, q2, q3⟩ q - - -
      exact q1.dot q2 (dot_self_pos (hnd s hs))
    · refine forall₂_pairwise h1 hl ?_
      intro s hs c hc t ht d hd hsc htd hst x hx y hy q a1 a2 hp
      obtain ⟨u, w, p1⟩ := (chop_parts hsc).1 x hx
      obtain ⟨u', w', p2⟩ := (chop_parts htd).1 y hy
      exact p1.dot p2 (hst.2 q (p1.on a1) (p2.on a2) (p1.parallel p2 hp))

end Verif
