import Verif.Lemmas.Duo

/-!
# Lemmas: a simple polygon with its sides cut is a simple polygon
-/

namespace Verif

open Spec

variable {K : Type*} [Field K] [LinearOrder K] [IsStrictOrderedRing K]

set_option linter.unusedSectionVars false

theorem consecutivePairs_join {V : Type*} (l : List V) (p : V) (m : List V) :
    consecutivePairs (l ++ [p]) ++ consecutivePairs (p :: m) = consecutivePairs (l ++ p :: m) := by
  induction l with
  | nil => simp [consecutivePairs]
  | cons a l ih =>
    cases l with
    | nil => simp [consecutivePairs]
    | cons b l =>
      simp only [List.cons_append, consecutivePairs] at ih ⊢
      rw [← ih]

theorem chop_consecutive {s : Vertex K × Vertex K} {c : List (Vertex K × Vertex K)} (h : Chop s c) :
    ∃ vs, c = consecutivePairs (s.1 :: (vs ++ [s.2])) := by
  induction h with
  | whole s => exact ⟨[], rfl⟩
  | @cut a p b l m _ _ _ ihl ihm =>
    obtain ⟨vs, rfl⟩ := ihl
    obtain ⟨ws, rfl⟩ := ihm
    refine ⟨vs ++ p :: ws, ?_⟩
    have := consecutivePairs_join (a :: vs) p (ws ++ [b])
    simpa using this

theorem chops_consecutive (l : List (Vertex K)) (b : Vertex K) : ∀ (a : Vertex K)
    {cs : List (List (Vertex K × Vertex K))}, List.Forall₂ Chop (consecutivePairs (a :: (l ++ [b]))) cs →
    ∃ vs, cs.flatten = consecutivePairs (a :: (vs ++ [b])) := by
  induction l with
  | nil =>
    intro a cs h
    cases h with
    | cons h1 h2 =>
      cases h2
      obtain ⟨vs, rfl⟩ := chop_consecutive h1
      exact ⟨vs, by simp⟩
  | cons x l ih =>
    intro a cs h
    cases h with
    | @cons _ c _ cs h1 h2 =>
      obtain ⟨vs, rfl⟩ := chop_consecutive h1
      obtain ⟨ws, hws⟩ := ih x h2
      refine ⟨vs ++ x :: ws, ?_⟩
      rw [List.flatten_cons, hws]
      have := consecutivePairs_join (a :: vs) x (ws ++ [b])
      simpa using this

theorem consecutivePairs_length {V : Type*} (l : List V) (a : V) : (consecutivePairs (a :: l)).length = l.length := by
  induction l generalizing a with
  | nil => rfl
  | cons b l ih => simp [consecutivePairs, ih]

theorem chops_length {l : List (Vertex K × Vertex K)} {cs : List (List (Vertex K × Vertex K))}
    (h : List.Forall₂ Chop l cs) : l.length ≤ cs.flatten.length := by
  induction h with
  | nil => simp
  | @cons s c l cs h _ ih =>
    rw [List.flatten_cons, List.length_append, List.length_cons]
    obtain ⟨vs, rfl⟩ := chop_consecutive h
    rw [consecutivePairs_length]
    simp only [List.length_append, List.length_singleton]
    omega

theorem adjoin_parts_same {s t t' : Vertex K × Vertex K} (hs : ¬ SamePoint s.1 s.2) {u w u' w' : K}
    (h1 : Part s u w t) (h2 : Part s u' w' t') (h : w ≤ u') : Adjoin t t' := by
  intro q hq hq'
  obtain ⟨x, x1, x2, x3⟩ := h1.at hq
  obtain ⟨y, y1, y2, y3⟩ := h2.at hq'
  have hxy := at_unique hs x3 y3
  subst hxy
  have e1 : x = w := le_antisymm x2 (h.trans y1)
  have e2 : x = u' := le_antisymm (x2.trans h) y1
  obtain ⟨-, -, -, -, b1, b2⟩ := h1
  obtain ⟨-, -, -, ⟨c1, c2⟩, -⟩ := h2
  refine Or.inl ⟨⟨?_, ?_⟩, ?_, ?_⟩
  · rw [b1, x3.1, e1]
  · rw [b2, x3.2, e1]
  · rw [c1, x3.1, e2]
  · rw [c2, x3.2, e2]

/-- A piece that reaches the end of a side ends there. -/
theorem Part.at_end {s t : Vertex K × Vertex K} (hs : ¬ SamePoint s.1 s.2) {u w : K} (h : Part s u w t) {q : Vertex K}
    (hq : OnSegment t.1 t.2 q) (he : SamePoint q s.2) : SamePoint q t.2 := by
  obtain ⟨x, x1, x2, x3⟩ := h.at hq
  have : At s 1 q := ⟨by rw [he.1]; ring, by rw [he.2]; ring⟩
  have hx := at_unique hs x3 this
  obtain ⟨-, -, h3, -, b1, b2⟩ := h
  have hw : w = 1 := le_antisymm h3 (hx ▸ x2)
  rw [hw] at b1 b2
  exact ⟨by rw [b1, he.1]; ring, by rw [b2, he.2]; ring⟩

theorem Part.at_start {s t : Vertex K × Vertex K} (hs : ¬ SamePoint s.1 s.2) {u w : K} (h : Part s u w t)
    {q : Vertex K} (hq : OnSegment t.1 t.2 q) (he : SamePoint q s.1) : SamePoint q t.1 := by
  obtain ⟨x, x1, x2, x3⟩ := h.at hq
  have : At s 0 q := ⟨by rw [he.1]; ring, by rw [he.2]; ring⟩
  have hx := at_unique hs x3 this
  obtain ⟨h0, -, h3, ⟨b1, b2⟩, -⟩ := h
  have hw : u = 0 := le_antisymm (hx ▸ x1) h0
  rw [hw] at b1 b2
  exact ⟨by rw [b1, he.1]; ring, by rw [b2, he.2]; ring⟩

theorem adjoin_parts {s t s' t' : Vertex K × Vertex K} (hs : ¬ SamePoint s.1 s.2) (ht : ¬ SamePoint t.1 t.2)
    {u w u' w' : K} (h1 : Part s u w s') (h2 : Part t u' w' t') (h : Adjoin s t) : Adjoin s' t' := by
  intro q hq hq'
  rcases h q (h1.on hq) (h2.on hq') with ⟨a, b⟩ | ⟨a, b⟩
  · exact Or.inl ⟨h1.at_end hs hq a, h2.at_start ht hq' b⟩
  · exact Or.inr ⟨h1.at_start hs hq a, h2.at_end ht hq' b⟩

/-- Cutting the sides of a simple polygon gives a simple polygon with more vertices. -/
theorem refined {p : Polyline (Vertex K)} (hs : SimplePolygon p.vertices) {r : List (Vertex K × Vertex K)}
    (hc : Cuts (pairs p.vertices false) r) :
    ∃ p' : Polyline (Vertex K), p'.opened = false ∧ (pairs p'.vertices false).Perm r ∧ SimplePolygon p'.vertices := by
  obtain ⟨cs, h1, h2⟩ := hc
  obtain ⟨a, l, hl⟩ : ∃ a l, p.vertices = a :: l := by
    have := p.two_le
    cases h : p.vertices with
    | nil => rw [h] at this; simp at this
    | cons a l => exact ⟨a, l, rfl⟩
  have h1' := h1
  rw [hl, pairs_closed_eq] at h1'
  obtain ⟨vs, hvs⟩ := chops_consecutive l a a h1'
  rw [← pairs_closed_eq] at hvs
  have hlen := chops_length h1'
  rw [hvs, pairs_closed_eq, consecutivePairs_length, consecutivePairs_length] at hlen
  have h2le := p.two_le
  rw [hl] at h2le
  simp only [List.length_append, List.length_cons, List.length_nil] at hlen h2le
  refine ⟨⟨a :: vs, false, by simp only [List.length_cons]; omega⟩, rfl, by rw [← hvs]; exact h2.symm, ?_, ?_⟩
  · intro t ht
    simp only at ht
    rw [← hvs] at ht
    obtain ⟨c, hc, htc⟩ := List.mem_flatten.1 ht
    obtain ⟨s, hs', hch⟩ := forall₂_mem h1 hc
    obtain ⟨u, w, hp⟩ := (chop_parts hch).1 t htc
    exact hp.proper (hs.proper s hs')
  · simp only
    rw [← hvs, List.pairwise_flatten]
    constructor
    · intro c hc
      obtain ⟨s, hs', hch⟩ := forall₂_mem h1 hc
      refine (chop_parts hch).2.imp ?_
      rintro t t' ⟨u, w, u', w', q1, q2, q3⟩
      exact adjoin_parts_same (hs.proper s hs') q1 q2 q3
    · refine forall₂_pairwise h1 hs.apart ?_
      intro s hs' c hc t ht d hd hsc htd hst x hx y hy
      obtain ⟨u, w, p1⟩ := (chop_parts hsc).1 x hx
      obtain ⟨u', w', p2⟩ := (chop_parts htd).1 y hy
      exact adjoin_parts (hs.proper s hs') (hs.proper t ht) p1 p2 hst

end Verif
