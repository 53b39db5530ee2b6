import Verif.Lemmas.Split
import Verif.Props.Boxes
import Verif.Spec.Geometry
import Mathlib.Tactic.LinearCombination

/-!
# `split_intersections` in exact arithmetic
-/

set_option linter.unusedSectionVars false

namespace Verif

open Spec

variable {K : Type*} [Field K] [LinearOrder K] [IsStrictOrderedRing K]

/-- No end of the segment is the ghost vertex. -/
def Solid (s : Vertex K × Vertex K) : Prop := s.1.isGhost = false ∧ s.2.isGhost = false

theorem parallel_iff (a b c d : Vertex K) : parallel a b c d = true ↔ Parallel a b c d := by
  have : parallel a b c d = true ↔
      -(b.y - a.y) * (d.x - c.x) - (b.x - a.x) * -(d.y - c.y) = 0 := by
    simp [parallel, Mat2.isInvertible, Mat2.det, segMatrix]
  rw [this]
  unfold Parallel
  constructor <;> intro h <;> linear_combination h

theorem Spec.Parallel.symm {a b c d : Vertex K} (h : Parallel a b c d) : Parallel c d a b := by
  unfold Parallel at *; linear_combination -h

theorem intersection_solid {eps : K} {a b c d p : Vertex K} (h : intersection eps a b c d = some p) :
    p.isGhost = false := by
  unfold intersection at h
  cases hr : intersectionRegion a b c d with
  | none => rw [hr] at h; simp at h
  | some bb =>
    rw [hr] at h
    simp only [] at h
    cases hv : intersectionVertex eps a b c d bb with
    | none => rw [hv] at h; simp at h
    | some v =>
      rw [hv] at h
      simp only [] at h
      split_ifs at h
      injection h with h
      subst h
      unfold intersectionVertex at hv
      simp only [] at hv
      split_ifs at hv <;> (injection hv with hv; rw [← hv]; rfl)

theorem eqv_zero {a b : Vertex K} (ha : a.isGhost = false) (hb : b.isGhost = false) :
    Vertex.eqv 0 a b = true ↔ SamePoint a b := by
  simp [Vertex.eqv, ha, hb, approxEq_zero_eps, SamePoint]

theorem Spec.SamePoint.symm {a b : Vertex K} (h : SamePoint a b) : SamePoint b a := ⟨h.1.symm, h.2.symm⟩

theorem Spec.SamePoint.trans {a b c : Vertex K} (h : SamePoint a b) (h' : SamePoint b c) : SamePoint a c :=
  ⟨h.1.trans h'.1, h.2.trans h'.2⟩

theorem onSegment_congr {a b p a' b' p' : Vertex K} (ha : SamePoint a a') (hb : SamePoint b b')
    (hp : SamePoint p p') : OnSegment a b p ↔ OnSegment a' b' p' := by
  unfold OnSegment; rw [ha.1, ha.2, hb.1, hb.2, hp.1, hp.2]

/-- Two points on lines that are not parallel coincide. -/
theorem unique_meet {a b c d p q : Vertex K} (hn : ¬ Parallel a b c d) (hp1 : OnSegment a b p)
    (hp2 : OnSegment c d p) (hq1 : OnSegment a b q) (hq2 : OnSegment c d q) : SamePoint p q := by
  have e1 := onSegment_cross hp1
  have e2 := onSegment_cross hp2
  have e3 := onSegment_cross hq1
  have e4 := onSegment_cross hq2
  simp only [cross] at e1 e2 e3 e4
  have hd : (b.x - a.x) * (d.y - c.y) - (b.y - a.y) * (d.x - c.x) ≠ 0 := fun h =>
    hn (sub_eq_zero.1 h)
  constructor
  · have : ((b.x - a.x) * (d.y - c.y) - (b.y - a.y) * (d.x - c.x)) * (p.x - q.x) = 0 := by
      linear_combination (d.x - c.x) * e1 - (d.x - c.x) * e3 - (b.x - a.x) * e2 + (b.x - a.x) * e4
    exact sub_eq_zero.1 ((mul_eq_zero.1 this).resolve_left hd)
  · have : ((b.x - a.x) * (d.y - c.y) - (b.y - a.y) * (d.x - c.x)) * (p.y - q.y) = 0 := by
      linear_combination (d.y - c.y) * e1 - (d.y - c.y) * e3 - (b.y - a.y) * e2 + (b.y - a.y) * e4
    exact sub_eq_zero.1 ((mul_eq_zero.1 this).resolve_left hd)

/-- A segment cut at one of its points is the union of the two pieces. -/
theorem onSegment_cut {a b p q : Vertex K} (hp : OnSegment a b p) :
    OnSegment a b q ↔ OnSegment a p q ∨ OnSegment p b q := by
  obtain ⟨t, t0, t1, hpx, hpy⟩ := hp
  constructor
  · rintro ⟨s, s0, s1, hqx, hqy⟩
    rcases le_total s t with hst | hst
    · left
      rcases eq_or_lt_of_le t0 with ht | ht
      · have hs : s = 0 := le_antisymm (hst.trans ht.symm.le) s0
        exact ⟨0, le_rfl, zero_le_one, by rw [hqx, hs]; ring, by rw [hqy, hs]; ring⟩
      · refine ⟨s / t, div_nonneg s0 ht.le, (div_le_one ht).2 hst, ?_, ?_⟩
        · rw [hqx, hpx]; field_simp; ring
        · rw [hqy, hpy]; field_simp; ring
    · right
      rcases eq_or_lt_of_le t1 with ht | ht
      · have hs : s = 1 := le_antisymm s1 (ht.symm.le.trans hst)
        exact ⟨1, zero_le_one, le_rfl, by rw [hqx, hs]; ring, by rw [hqy, hs]; ring⟩
      · have h1 : 0 < 1 - t := by linarith
        refine ⟨(s - t) / (1 - t), div_nonneg (by linarith) h1.le, (div_le_one h1).2 (by linarith), ?_, ?_⟩
        · rw [hqx, hpx]; field_simp; ring
        · rw [hqy, hpy]; field_simp; ring
  · rintro (⟨s, s0, s1, hqx, hqy⟩ | ⟨s, s0, s1, hqx, hqy⟩)
    · refine ⟨s * t, mul_nonneg s0 t0, mul_le_one₀ s1 t0 t1, ?_, ?_⟩
      · rw [hqx, hpx]; ring
      · rw [hqy, hpy]; ring
    · refine ⟨t + s * (1 - t), by nlinarith, by nlinarith, ?_, ?_⟩
      · rw [hqx, hpx]; ring
      · rw [hqy, hpy]; ring

/-- The two pieces of a cut segment share only the cut. -/
theorem onSegment_both {a b p q : Vertex K} (hp : OnSegment a b p) (h1 : OnSegment a p q)
    (h2 : OnSegment p b q) : SamePoint q p := by
  obtain ⟨t, t0, t1, hpx, hpy⟩ := hp
  obtain ⟨s, s0, s1, hqx, hqy⟩ := h1
  obtain ⟨r, r0, r1, hqx', hqy'⟩ := h2
  have hx : (b.x - a.x) * ((1 - s) * t + r * (1 - t)) = 0 := by
    have := hqx.symm.trans hqx'
    rw [hpx] at this; linear_combination -this
  have hy : (b.y - a.y) * ((1 - s) * t + r * (1 - t)) = 0 := by
    have := hqy.symm.trans hqy'
    rw [hpy] at this; linear_combination -this
  by_cases hz : (1 - s) * t + r * (1 - t) = 0
  · have g1 : 0 ≤ (1 - s) * t := mul_nonneg (by linarith) t0
    have g2 : 0 ≤ r * (1 - t) := mul_nonneg r0 (by linarith)
    have e1 : (1 - s) * t = 0 := by linarith
    constructor
    · rw [hqx, hpx]; linear_combination -(b.x - a.x) * e1
    · rw [hqy, hpy]; linear_combination -(b.y - a.y) * e1
  · have ex := (mul_eq_zero.1 hx).resolve_right hz
    have ey := (mul_eq_zero.1 hy).resolve_right hz
    constructor
    · rw [hqx, hpx, ex]; ring
    · rw [hqy, hpy, ey]; ring

/-- The pieces pushed for one segment `a b` and the crossing `p`. -/
def cutPieces (eps : K) (a b p : Vertex K) : List (Vertex K × Vertex K) :=
  (if Vertex.eqv eps b p then [] else [(p, b)]) ++ (if Vertex.eqv eps a p then [] else [(a, p)])

theorem cutPieces_solid {eps : K} {a b p : Vertex K} (h : Solid (a, b)) (hp : p.isGhost = false) :
    ∀ s ∈ cutPieces eps a b p, Solid s := by
  intro s hs
  simp only [cutPieces, List.mem_append] at hs
  rcases hs with hs | hs
  · split_ifs at hs
    · simp at hs
    · simp only [List.mem_singleton] at hs; subst hs; exact ⟨hp, h.2⟩
  · split_ifs at hs
    · simp at hs
    · simp only [List.mem_singleton] at hs; subst hs; exact ⟨h.1, hp⟩

theorem cutPieces_ne {a b p : Vertex K} (h : Solid (a, b)) (hp : p.isGhost = false) :
    ∀ s ∈ cutPieces 0 a b p, ¬ SamePoint s.1 s.2 := by
  intro s hs
  simp only [cutPieces, List.mem_append] at hs
  rcases hs with hs | hs
  · split_ifs at hs with hc
    · simp at hs
    · simp only [List.mem_singleton] at hs; subst hs
      exact fun h' => hc ((eqv_zero h.2 hp).2 h'.symm)
  · split_ifs at hs with hc
    · simp at hs
    · simp only [List.mem_singleton] at hs; subst hs
      exact fun h' => hc ((eqv_zero h.1 hp).2 h')

/-- The pieces of a segment that is not a point cover it. -/
theorem cutPieces_cover {a b p : Vertex K} (h : Solid (a, b)) (hp : p.isGhost = false)
    (hne : ¬ SamePoint a b) (hon : OnSegment a b p) (q : Vertex K) :
    OnSome (cutPieces 0 a b p) q ↔ OnSegment a b q := by
  rw [onSegment_cut hon]
  have hb := eqv_zero h.2 hp
  have ha := eqv_zero h.1 hp
  unfold cutPieces OnSome
  by_cases h1 : SamePoint b p
  · have h2 : ¬ SamePoint a p := fun h2 => hne (h2.trans h1.symm)
    rw [if_pos (hb.2 h1), if_neg (fun h => h2 (ha.1 h))]
    simp only [List.nil_append, List.mem_singleton, exists_eq_left]
    constructor
    · exact Or.inl
    · rintro (h | h)
      · exact h
      · have : SamePoint q p := by
          obtain ⟨t, -, -, hx, hy⟩ := h
          exact ⟨by rw [hx, h1.1]; ring, by rw [hy, h1.2]; ring⟩
        exact (onSegment_congr ⟨rfl, rfl⟩ ⟨rfl, rfl⟩ this).2 (onSegment_right _ _)
  · rw [if_neg (fun h => h1 (hb.1 h))]
    by_cases h2 : SamePoint a p
    · rw [if_pos (ha.2 h2)]
      simp only [List.append_nil, List.mem_singleton, exists_eq_left]
      constructor
      · exact Or.inr
      · rintro (h | h)
        · have : SamePoint q p := by
            obtain ⟨t, -, -, hx, hy⟩ := h
            exact ⟨by rw [hx, h2.1]; ring, by rw [hy, h2.2]; ring⟩
          exact (onSegment_congr ⟨rfl, rfl⟩ ⟨rfl, rfl⟩ this).2 (onSegment_left _ _)
        · exact h
    · rw [if_neg (fun h => h2 (ha.1 h))]
      simp only [List.cons_append, List.nil_append, List.mem_cons, List.not_mem_nil, or_false,
        exists_eq_or_imp, exists_eq_left]
      exact or_comm

theorem not_parallel_ne {a b c d : Vertex K} (h : ¬ Parallel a b c d) :
    ¬ SamePoint a b ∧ ¬ SamePoint c d := by
  constructor
  · intro h'; apply h; unfold Parallel; rw [h'.1, h'.2]; ring
  · intro h'; apply h; unfold Parallel; rw [h'.1, h'.2]; ring

theorem crosses_iff {a b c d : Vertex K} (h1 : Solid (a, b)) (h2 : Solid (c, d)) :
    crosses 0 a b c d = true ↔ (∃ p, OnSegment a b p ∧ OnSegment c d p) ∧ ¬ SamePoint a c ∧
      ¬ SamePoint a d ∧ ¬ SamePoint b c ∧ ¬ SamePoint b d ∧ ¬ Parallel a b c d := by
  have hs : (intersection 0 a b c d).isSome = true ↔ ∃ p, OnSegment a b p ∧ OnSegment c d p := by
    constructor
    · intro h
      obtain ⟨p, hp⟩ := Option.isSome_iff_exists.1 h
      exact ⟨p, Props.C06_sound_exact hp⟩
    · rintro ⟨p, h1, h2⟩
      exact Props.C06_complete le_rfl h1 h2
  have e1 := eqv_zero h1.1 h2.1
  have e2 := eqv_zero h1.1 h2.2
  have e3 := eqv_zero h1.2 h2.1
  have e4 := eqv_zero h1.2 h2.2
  have e5 := parallel_iff a b c d
  simp only [crosses, Bool.and_eq_true, hs, Bool.not_eq_true', ← Bool.not_eq_true, e1, e2, e3, e4, e5]
  tauto

/-- Two segments that are not parallel meet at most in a common end. -/
def MeetAtEnds (s t : Vertex K × Vertex K) : Prop :=
  ¬ Parallel s.1 s.2 t.1 t.2 → ∀ q, OnSegment s.1 s.2 q → OnSegment t.1 t.2 q →
    (SamePoint s.1 q ∨ SamePoint s.2 q) ∧ (SamePoint t.1 q ∨ SamePoint t.2 q)

theorem meetAtEnds_symm {s t : Vertex K × Vertex K} (h : MeetAtEnds s t) : MeetAtEnds t s :=
  fun hp q h1 h2 => (h (fun h' => hp h'.symm) q h2 h1).symm

theorem meetAtEnds_of {a b c d : Vertex K} (h1 : Solid (a, b)) (h2 : Solid (c, d))
    (h : ¬ crosses 0 a b c d = true) : MeetAtEnds (a, b) (c, d) := by
  intro hp q hq1 hq2
  rw [crosses_iff h1 h2] at h
  simp only at hp hq1 hq2
  have key : ∀ x : Vertex K, OnSegment a b x → OnSegment c d x → SamePoint x q := fun x hx hy =>
    unique_meet hp hx hy hq1 hq2
  by_cases e1 : SamePoint a c
  · have := key a (onSegment_left _ _) ((onSegment_congr ⟨rfl, rfl⟩ ⟨rfl, rfl⟩ e1).2 (onSegment_left _ _))
    exact ⟨Or.inl this, Or.inl (e1.symm.trans this)⟩
  by_cases e2 : SamePoint a d
  · have := key a (onSegment_left _ _) ((onSegment_congr ⟨rfl, rfl⟩ ⟨rfl, rfl⟩ e2).2 (onSegment_right _ _))
    exact ⟨Or.inl this, Or.inr (e2.symm.trans this)⟩
  by_cases e3 : SamePoint b c
  · have := key b (onSegment_right _ _) ((onSegment_congr ⟨rfl, rfl⟩ ⟨rfl, rfl⟩ e3).2 (onSegment_left _ _))
    exact ⟨Or.inr this, Or.inl (e3.symm.trans this)⟩
  by_cases e4 : SamePoint b d
  · have := key b (onSegment_right _ _) ((onSegment_congr ⟨rfl, rfl⟩ ⟨rfl, rfl⟩ e4).2 (onSegment_right _ _))
    exact ⟨Or.inr this, Or.inr (e4.symm.trans this)⟩
  exact absurd ⟨⟨q, hq1, hq2⟩, e1, e2, e3, e4, hp⟩ h

/-- One iteration of the loop: either the segment is kept, or it and the segment it crosses are cut at
their common point. -/
theorem splitLoop_step (eps : K) (n : Nat) (v1 v2 : Vertex K) (aux acc : List (Vertex K × Vertex K)) :
    ((∀ s ∈ acc, ¬ crosses eps v1 v2 s.1 s.2 = true) ∧
        splitLoop eps (n + 1) ((v1, v2) :: aux) acc = splitLoop eps n aux (acc ++ [(v1, v2)])) ∨
      ∃ v3 v4 p acc', ((v3, v4) :: acc').Perm acc ∧ acc'.Sublist acc ∧
        crosses eps v1 v2 v3 v4 = true ∧ intersection eps v1 v2 v3 v4 = some p ∧
        splitLoop eps (n + 1) ((v1, v2) :: aux) acc =
          splitLoop eps n (cutPieces eps v1 v2 p ++ cutPieces eps v3 v4 p ++ aux) acc' := by
  rw [splitLoop]
  cases hf : acc.findIdx? (fun s => crosses eps v1 v2 s.1 s.2) with
  | none =>
    refine Or.inl ⟨fun s hs => ?_, rfl⟩
    have := List.findIdx?_eq_none_iff.1 hf s hs
    simpa using this
  | some i =>
    rw [List.findIdx?_eq_some_iff_getElem] at hf
    obtain ⟨hi, hc, -⟩ := hf
    obtain ⟨p, hp⟩ := Option.isSome_iff_exists.1 (crosses_isSome hc)
    refine Or.inr ⟨acc[i].1, acc[i].2, p, acc.eraseIdx i, ?_, List.eraseIdx_sublist _ _, hc, hp, ?_⟩
    · exact List.getElem_cons_eraseIdx_perm hi
    · simp only []
      rw [List.getElem?_eq_getElem hi]
      rcases hq : acc[i] with ⟨v3, v4⟩
      rw [hq] at hp
      simp only [] at hp ⊢
      rw [hp]
      simp only [cutPieces, List.append_assoc]

/-- Invariants of the loop hold of its result. -/
theorem splitLoop_induct {eps : K} (I : List (Vertex K × Vertex K) → List (Vertex K × Vertex K) → Prop)
    (keep : ∀ s aux acc, I (s :: aux) acc → (∀ t ∈ acc, ¬ crosses eps s.1 s.2 t.1 t.2 = true) →
      I aux (acc ++ [s]))
    (cut : ∀ v1 v2 v3 v4 p aux acc acc', I ((v1, v2) :: aux) acc → ((v3, v4) :: acc').Perm acc →
      acc'.Sublist acc → crosses eps v1 v2 v3 v4 = true → intersection eps v1 v2 v3 v4 = some p →
      I (cutPieces eps v1 v2 p ++ cutPieces eps v3 v4 p ++ aux) acc')
    {n : Nat} {aux acc r : List (Vertex K × Vertex K)} (h0 : I aux acc)
    (h : splitLoop eps n aux acc = .ok r) : I [] r := by
  induction n generalizing aux acc with
  | zero =>
    cases aux with
    | nil =>
      simp only [splitLoop] at h
      injection h with h
      rw [← h]; exact h0
    | cons s aux => simp [splitLoop] at h
  | succ n ih =>
    cases aux with
    | nil =>
      simp only [splitLoop] at h
      injection h with h
      rw [← h]; exact h0
    | cons s aux =>
      obtain ⟨v1, v2⟩ := s
      rcases splitLoop_step eps n v1 v2 aux acc with ⟨h1, h2⟩ | ⟨v3, v4, p, acc', h1, h2, h3, h4, h5⟩
      · rw [h2] at h
        exact ih (keep _ _ _ h0 h1) h
      · rw [h5] at h
        exact ih (cut _ _ _ _ _ _ _ _ h0 h1 h2 h3 h4) h

theorem onSome_append {l l' : List (Vertex K × Vertex K)} {q : Vertex K} :
    OnSome (l ++ l') q ↔ OnSome l q ∨ OnSome l' q := by
  simp only [OnSome, List.mem_append]
  constructor
  · rintro ⟨s, h | h, h'⟩
    · exact Or.inl ⟨s, h, h'⟩
    · exact Or.inr ⟨s, h, h'⟩
  · rintro (⟨s, h, h'⟩ | ⟨s, h, h'⟩)
    · exact ⟨s, Or.inl h, h'⟩
    · exact ⟨s, Or.inr h, h'⟩

theorem onSome_cons {s : Vertex K × Vertex K} {l : List (Vertex K × Vertex K)} {q : Vertex K} :
    OnSome (s :: l) q ↔ OnSegment s.1 s.2 q ∨ OnSome l q := by
  simp [OnSome]

theorem onSome_perm {l l' : List (Vertex K × Vertex K)} (h : l.Perm l') {q : Vertex K} :
    OnSome l q ↔ OnSome l' q := by
  simp only [OnSome, h.mem_iff]

/-- What `split_intersections` keeps, in exact arithmetic. -/
structure SplitInv (l aux acc : List (Vertex K × Vertex K)) : Prop where
  solid : ∀ s ∈ aux ++ acc, Solid s
  apart : acc.Pairwise MeetAtEnds
  cover : ∀ q, OnSome (aux ++ acc) q ↔ OnSome l q
  parent : ∀ s ∈ aux ++ acc, ∃ t ∈ l, OnSegment t.1 t.2 s.1 ∧ OnSegment t.1 t.2 s.2
  fine : ∀ t ∈ l, ¬ SamePoint t.1 t.2 → ∀ q, OnSegment t.1 t.2 q → ∃ s ∈ aux ++ acc,
    OnSegment t.1 t.2 s.1 ∧ OnSegment t.1 t.2 s.2 ∧ OnSegment s.1 s.2 q ∧ ¬ SamePoint s.1 s.2

theorem onSegment_trans {u w a b q : Vertex K} (ha : OnSegment u w a) (hb : OnSegment u w b)
    (hq : OnSegment a b q) : OnSegment u w q := by
  obtain ⟨s, s0, s1, hax, hay⟩ := ha
  obtain ⟨t, t0, t1, hbx, hby⟩ := hb
  obtain ⟨r, r0, r1, hqx, hqy⟩ := hq
  refine ⟨s + r * (t - s), by nlinarith, by nlinarith, ?_, ?_⟩
  · rw [hqx, hax, hbx]; ring
  · rw [hqy, hay, hby]; ring

theorem cutPieces_parent {eps : K} {u w a b p : Vertex K} (ha : OnSegment u w a) (hb : OnSegment u w b)
    (hp : OnSegment a b p) :
    ∀ s ∈ cutPieces eps a b p, OnSegment u w s.1 ∧ OnSegment u w s.2 := by
  intro s hs
  simp only [cutPieces, List.mem_append] at hs
  rcases hs with hs | hs
  · split_ifs at hs
    · simp at hs
    · simp only [List.mem_singleton] at hs; subst hs
      exact ⟨onSegment_trans ha hb hp, hb⟩
  · split_ifs at hs
    · simp at hs
    · simp only [List.mem_singleton] at hs; subst hs
      exact ⟨ha, onSegment_trans ha hb hp⟩

theorem SplitInv.keep {l : List (Vertex K × Vertex K)} {s aux acc} (h : SplitInv l (s :: aux) acc)
    (hc : ∀ t ∈ acc, ¬ crosses 0 s.1 s.2 t.1 t.2 = true) : SplitInv l aux (acc ++ [s]) := by
  have hp : (aux ++ (acc ++ [s])).Perm (s :: aux ++ acc) := by
    rw [List.perm_iff_count]; intro x
    simp only [List.count_append, List.count_cons, List.count_nil, List.cons_append]; omega
  refine ⟨fun t ht => h.solid t (hp.mem_iff.1 ht), ?_, fun q => ?_, fun t ht => h.parent t (hp.mem_iff.1 ht),
    fun t ht hn q hq => ?_⟩
  · rw [List.pairwise_append]
    refine ⟨h.apart, List.pairwise_singleton _ _, fun t ht u hu => ?_⟩
    rw [List.mem_singleton] at hu
    subst hu
    exact meetAtEnds_symm (meetAtEnds_of (h.solid _ (by simp)) (h.solid t (by simp [ht])) (hc t ht))
  · rw [onSome_perm hp]; exact h.cover q
  · obtain ⟨u, hu, h'⟩ := h.fine t ht hn q hq
    exact ⟨u, hp.mem_iff.2 hu, h'⟩

theorem SplitInv.cut {l : List (Vertex K × Vertex K)} {v1 v2 v3 v4 p : Vertex K} {aux acc acc'}
    (h : SplitInv l ((v1, v2) :: aux) acc) (hp : ((v3, v4) :: acc').Perm acc)
    (hsub : acc'.Sublist acc) (hc : crosses 0 v1 v2 v3 v4 = true)
    (hi : intersection 0 v1 v2 v3 v4 = some p) :
    SplitInv l (cutPieces 0 v1 v2 p ++ cutPieces 0 v3 v4 p ++ aux) acc' := by
  have hg := intersection_solid hi
  obtain ⟨o1, o2⟩ := Props.C06_sound_exact hi
  have s1 : Solid (v1, v2) := h.solid _ (by simp)
  have s2 : Solid (v3, v4) := h.solid _ (by simp [hp.mem_iff.1 (List.mem_cons_self)])
  obtain ⟨-, -, -, -, -, hpar⟩ := (crosses_iff s1 s2).1 hc
  obtain ⟨n1, n2⟩ := not_parallel_ne hpar
  have hmem : ∀ s ∈ cutPieces 0 v1 v2 p ++ cutPieces 0 v3 v4 p ++ aux ++ acc',
      s ∈ cutPieces 0 v1 v2 p ∨ s ∈ cutPieces 0 v3 v4 p ∨ s ∈ (v1, v2) :: aux ++ acc := by
    intro s hs
    simp only [List.mem_append] at hs
    rcases hs with ((hs | hs) | hs) | hs
    · exact Or.inl hs
    · exact Or.inr (Or.inl hs)
    · exact Or.inr (Or.inr (by simp [hs]))
    · exact Or.inr (Or.inr (by simp [hsub.subset hs]))
  refine ⟨fun s hs => ?_, h.apart.sublist hsub, fun q => ?_, fun s hs => ?_,
    fun t ht hn q hq => ?_⟩
  · rcases hmem s hs with hs | hs | hs
    · exact cutPieces_solid s1 hg s hs
    · exact cutPieces_solid s2 hg s hs
    · exact h.solid s hs
  · rw [← h.cover q]
    simp only [onSome_append, onSome_cons, cutPieces_cover s1 hg n1 o1, cutPieces_cover s2 hg n2 o2,
      ← onSome_perm hp]
    tauto
  · rcases hmem s hs with hs | hs | hs
    · obtain ⟨t, ht, t1, t2⟩ := h.parent (v1, v2) (by simp)
      exact ⟨t, ht, cutPieces_parent t1 t2 o1 s hs⟩
    · obtain ⟨t, ht, t1, t2⟩ := h.parent (v3, v4) (by simp [hp.mem_iff.1 (List.mem_cons_self)])
      exact ⟨t, ht, cutPieces_parent t1 t2 o2 s hs⟩
    · exact h.parent s hs
  · obtain ⟨u, hu, u1, u2, u3, u4⟩ := h.fine t ht hn q hq
    have cases : u = (v1, v2) ∨ u = (v3, v4) ∨ u ∈ aux ∨ u ∈ acc' := by
      rcases List.mem_append.1 hu with hu | hu
      · rcases List.mem_cons.1 hu with hu | hu
        · exact Or.inl hu
        · exact Or.inr (Or.inr (Or.inl hu))
      · rcases List.mem_cons.1 (hp.mem_iff.2 hu) with hu | hu
        · exact Or.inr (Or.inl hu)
        · exact Or.inr (Or.inr (Or.inr hu))
    rcases cases with rfl | rfl | hu | hu
    · obtain ⟨s, hs, hsq⟩ := (cutPieces_cover s1 hg n1 o1 q).2 u3
      have := cutPieces_parent u1 u2 o1 s hs
      exact ⟨s, by simp [hs], this.1, this.2, hsq, cutPieces_ne s1 hg s hs⟩
    · obtain ⟨s, hs, hsq⟩ := (cutPieces_cover s2 hg n2 o2 q).2 u3
      have := cutPieces_parent u1 u2 o2 s hs
      exact ⟨s, by simp [hs], this.1, this.2, hsq, cutPieces_ne s2 hg s hs⟩
    · exact ⟨u, by simp [hu], u1, u2, u3, u4⟩
    · exact ⟨u, by simp [hu], u1, u2, u3, u4⟩

theorem SplitInv.start {l : List (Vertex K × Vertex K)} (h : ∀ s ∈ l, Solid s) :
    SplitInv l l.reverse [] :=
  ⟨by simpa using h, List.Pairwise.nil, fun q => by
    rw [List.append_nil, onSome_perm (List.reverse_perm l)],
    fun s hs => ⟨s, by simpa using hs, onSegment_left _ _, onSegment_right _ _⟩,
    fun t ht hn q hq => ⟨t, by simpa using ht, onSegment_left _ _, onSegment_right _ _, hq, hn⟩⟩

theorem splitIntersections_inv {l r : List (Vertex K × Vertex K)} (h : ∀ s ∈ l, Solid s) {fuel : Nat}
    (hr : splitIntersections 0 fuel l = .ok r) : SplitInv l [] r :=
  splitLoop_induct (SplitInv l) (fun _ _ _ h hc => h.keep hc)
    (fun _ _ _ _ _ _ _ _ h h1 h2 h3 h4 => h.cut h1 h2 h3 h4) (SplitInv.start h) hr

/-! ### Termination -/

/-- The pairwise crossings of the segments of a list. -/
def crossingPoints (l : List (Vertex K × Vertex K)) : List (Vertex K) :=
  l.flatMap fun s => l.filterMap fun t => intersection 0 s.1 s.2 t.1 t.2

open Classical in
/-- Number of crossings strictly inside a segment. -/
noncomputable def innerCount (P : List (Vertex K)) (s : Vertex K × Vertex K) : Nat :=
  (P.filter fun q => decide (StrictlyOn s.1 s.2 q)).length

/-- Number of crossings strictly inside the segments of a list. -/
noncomputable def innerTotal (P : List (Vertex K)) (l : List (Vertex K × Vertex K)) : Nat :=
  (l.map (innerCount P)).sum

theorem strictlyOn_congr {a b p a' b' p' : Vertex K} (ha : SamePoint a a') (hb : SamePoint b b')
    (hp : SamePoint p p') : StrictlyOn a b p ↔ StrictlyOn a' b' p' := by
  unfold StrictlyOn SamePoint
  rw [onSegment_congr ha hb hp, ha.1, ha.2, hb.1, hb.2, hp.1, hp.2]

theorem innerCount_congr {P : List (Vertex K)} {a b a' b' : Vertex K} (ha : SamePoint a a')
    (hb : SamePoint b b') : innerCount P (a, b) = innerCount P (a', b') := by
  unfold innerCount
  congr 1
  apply List.filter_congr
  intro q _
  exact decide_eq_decide.2 (strictlyOn_congr ha hb ⟨rfl, rfl⟩)

theorem strictlyOn_sub {a b p q : Vertex K} (hp : StrictlyOn a b p) :
    (StrictlyOn a p q → StrictlyOn a b q) ∧ (StrictlyOn p b q → StrictlyOn a b q) ∧
      ¬ (StrictlyOn a p q ∧ StrictlyOn p b q) := by
  refine ⟨fun h => ⟨(onSegment_cut hp.1).2 (Or.inl h.1), h.2.1, fun hb => ?_⟩,
    fun h => ⟨(onSegment_cut hp.1).2 (Or.inr h.1), fun ha => ?_, h.2.2⟩, ?_⟩
  · have : OnSegment p b q := (onSegment_congr ⟨rfl, rfl⟩ ⟨rfl, rfl⟩ hb).1 (onSegment_right _ _)
    exact h.2.2 (onSegment_both hp.1 h.1 this).symm
  · have : OnSegment a p q := (onSegment_congr ⟨rfl, rfl⟩ ⟨rfl, rfl⟩ ha).1 (onSegment_left _ _)
    exact h.2.1 (onSegment_both hp.1 this h.1).symm
  · rintro ⟨h1, h2⟩
    exact h1.2.2 (onSegment_both hp.1 h1.1 h2.1).symm

/-- Cutting at an inner crossing uses it up. -/
theorem innerCount_cut {P : List (Vertex K)} {a b p : Vertex K} (hp : StrictlyOn a b p)
    (hmem : ∃ q ∈ P, SamePoint p q) :
    innerCount P (a, p) + innerCount P (p, b) + 1 ≤ innerCount P (a, b) := by
  have base : ∀ L : List (Vertex K),
      innerCount L (a, p) + innerCount L (p, b) ≤ innerCount L (a, b) ∧
      ((∃ q ∈ L, SamePoint p q) →
        innerCount L (a, p) + innerCount L (p, b) + 1 ≤ innerCount L (a, b)) := by
    intro L
    induction L with
    | nil => simp [innerCount]
    | cons q L ih =>
      obtain ⟨i1, i2, i3⟩ := strictlyOn_sub (q := q) hp
      have hq : SamePoint p q → ¬ StrictlyOn a p q ∧ ¬ StrictlyOn p b q ∧ StrictlyOn a b q := fun h =>
        ⟨fun h' => h'.2.2 h, fun h' => h'.2.1 h, (strictlyOn_congr ⟨rfl, rfl⟩ ⟨rfl, rfl⟩ h).1 hp⟩
      have e : ∀ s : Vertex K × Vertex K, innerCount (q :: L) s =
          innerCount L s + (by classical exact if StrictlyOn s.1 s.2 q then 1 else 0) := by
        intro s
        unfold innerCount
        rw [List.filter_cons]
        split_ifs <;> simp_all
      rw [e, e, e]
      refine ⟨?_, ?_⟩
      · have := ih.1
        simp only []
        by_cases c1 : StrictlyOn a p q
        · have c2 : ¬ StrictlyOn p b q := fun c2 => i3 ⟨c1, c2⟩
          rw [if_pos c1, if_neg c2, if_pos (i1 c1)]; omega
        · rw [if_neg c1]
          by_cases c2 : StrictlyOn p b q
          · rw [if_pos c2, if_pos (i2 c2)]; omega
          · rw [if_neg c2]; omega
      · rintro ⟨x, hx, hpx⟩
        simp only []
        rcases List.mem_cons.1 hx with rfl | hx
        · obtain ⟨c1, c2, c3⟩ := hq hpx
          rw [if_neg c1, if_neg c2, if_pos c3]
          have := ih.1; omega
        · have := ih.2 ⟨x, hx, hpx⟩
          by_cases c1 : StrictlyOn a p q
          · have c2 : ¬ StrictlyOn p b q := fun c2 => i3 ⟨c1, c2⟩
            rw [if_pos c1, if_neg c2, if_pos (i1 c1)]; omega
          · rw [if_neg c1]
            by_cases c2 : StrictlyOn p b q
            · rw [if_pos c2, if_pos (i2 c2)]; omega
            · rw [if_neg c2]; omega
  exact (base P).2 hmem

theorem innerTotal_cutPieces {P : List (Vertex K)} {a b p : Vertex K} (hs : Solid (a, b))
    (hg : p.isGhost = false) (hne : ¬ SamePoint a b) (hon : OnSegment a b p)
    (hmem : ∃ q ∈ P, SamePoint p q) :
    innerTotal P (cutPieces 0 a b p) ≤ innerCount P (a, b) ∧
      (¬ SamePoint a p → ¬ SamePoint b p →
        innerTotal P (cutPieces 0 a b p) + 1 ≤ innerCount P (a, b)) := by
  have ha := eqv_zero hs.1 hg
  have hb := eqv_zero hs.2 hg
  unfold cutPieces innerTotal
  by_cases h1 : SamePoint b p
  · have h2 : ¬ SamePoint a p := fun h2 => hne (h2.trans h1.symm)
    rw [if_pos (hb.2 h1), if_neg (fun h => h2 (ha.1 h))]
    refine ⟨?_, fun _ h => absurd h1 h⟩
    simp only [List.nil_append, List.map_cons, List.map_nil, List.sum_cons, List.sum_nil, add_zero]
    exact (innerCount_congr ⟨rfl, rfl⟩ h1.symm).le
  · rw [if_neg (fun h => h1 (hb.1 h))]
    by_cases h2 : SamePoint a p
    · rw [if_pos (ha.2 h2)]
      refine ⟨?_, fun h => absurd h2 h⟩
      simp only [List.append_nil, List.map_cons, List.map_nil, List.sum_cons, List.sum_nil, add_zero]
      exact (innerCount_congr h2.symm ⟨rfl, rfl⟩).le
    · rw [if_neg (fun h => h2 (ha.1 h))]
      have := innerCount_cut ⟨hon, h2, h1⟩ hmem
      simp only [List.cons_append, List.nil_append, List.map_cons, List.map_nil, List.sum_cons,
        List.sum_nil, add_zero]
      constructor
      · omega
      · intro _ _; omega

/-- The crossing of two pieces is one of the crossings of the given segments. -/
theorem mem_crossingPoints {l : List (Vertex K × Vertex K)} {a b c d p : Vertex K}
    (h1 : ∃ t ∈ l, OnSegment t.1 t.2 a ∧ OnSegment t.1 t.2 b)
    (h2 : ∃ t ∈ l, OnSegment t.1 t.2 c ∧ OnSegment t.1 t.2 d) (hn : ¬ Parallel a b c d)
    (hp1 : OnSegment a b p) (hp2 : OnSegment c d p) : ∃ q ∈ crossingPoints l, SamePoint p q := by
  obtain ⟨s, hs, ha, hb⟩ := h1
  obtain ⟨t, ht, hc, hd⟩ := h2
  have e1 : OnSegment s.1 s.2 p := onSegment_trans ha hb hp1
  have e2 : OnSegment t.1 t.2 p := onSegment_trans hc hd hp2
  obtain ⟨q, hq⟩ := Option.isSome_iff_exists.1 (Props.C06_complete (eps := 0) le_rfl e1 e2)
  refine ⟨q, List.mem_flatMap.2 ⟨s, hs, List.mem_filterMap.2 ⟨t, ht, hq⟩⟩, ?_⟩
  obtain ⟨q1, q2⟩ := Props.C06_sound_exact hq
  refine unique_meet (fun hpar => hn ?_) e1 e2 q1 q2
  obtain ⟨α, -, -, hax, hay⟩ := ha
  obtain ⟨β, -, -, hbx, hby⟩ := hb
  obtain ⟨γ, -, -, hcx, hcy⟩ := hc
  obtain ⟨δ, -, -, hdx, hdy⟩ := hd
  unfold Parallel at hpar ⊢
  rw [hax, hay, hbx, hby, hcx, hcy, hdx, hdy]
  linear_combination (β - α) * (δ - γ) * hpar

theorem innerTotal_append (P : List (Vertex K)) (l l' : List (Vertex K × Vertex K)) :
    innerTotal P (l ++ l') = innerTotal P l + innerTotal P l' := by
  simp [innerTotal]

theorem innerTotal_perm {P : List (Vertex K)} {l l' : List (Vertex K × Vertex K)} (h : l.Perm l') :
    innerTotal P l = innerTotal P l' := (h.map _).sum_eq

theorem innerTotal_cons (P : List (Vertex K)) (s : Vertex K × Vertex K) (l) :
    innerTotal P (s :: l) = innerCount P s + innerTotal P l := by
  simp [innerTotal]

theorem length_cutPieces (eps : K) (a b p : Vertex K) : (cutPieces eps a b p).length ≤ 2 := by
  unfold cutPieces; split_ifs <;> simp

theorem splitLoop_total (l : List (Vertex K × Vertex K)) :
    ∀ (n : Nat) (aux acc : List (Vertex K × Vertex K)), SplitInv l aux acc →
      5 * innerTotal (crossingPoints l) (aux ++ acc) + aux.length ≤ n →
      ∃ r, splitLoop 0 n aux acc = .ok r := by
  intro n
  induction n with
  | zero =>
    intro aux acc h hn
    cases aux with
    | nil => exact ⟨acc, by simp [splitLoop]⟩
    | cons s aux => simp at hn
  | succ n ih =>
    intro aux acc h hn
    cases aux with
    | nil => exact ⟨acc, by simp [splitLoop]⟩
    | cons s aux =>
      obtain ⟨v1, v2⟩ := s
      rcases splitLoop_step 0 n v1 v2 aux acc with ⟨h1, h2⟩ | ⟨v3, v4, p, acc', h1, h2, h3, h4, h5⟩
      · rw [h2]
        refine ih _ _ (h.keep h1) ?_
        have hp : (aux ++ (acc ++ [(v1, v2)])).Perm ((v1, v2) :: aux ++ acc) := by
          rw [List.perm_iff_count]; intro x
          simp only [List.count_append, List.count_cons, List.count_nil, List.cons_append]; omega
        rw [innerTotal_perm hp]
        simp only [List.length_cons] at hn; omega
      · rw [h5]
        refine ih _ _ (h.cut h1 h2 h3 h4) ?_
        have hg := intersection_solid h4
        obtain ⟨o1, o2⟩ := Props.C06_sound_exact h4
        have s1 : Solid (v1, v2) := h.solid _ (by simp)
        have m2 : (v3, v4) ∈ acc := h1.mem_iff.1 List.mem_cons_self
        have s2 : Solid (v3, v4) := h.solid _ (by simp [m2])
        obtain ⟨-, d1, d2, d3, d4, hpar⟩ := (crosses_iff s1 s2).1 h3
        obtain ⟨n1, n2⟩ := not_parallel_ne hpar
        have hm := mem_crossingPoints (h.parent (v1, v2) (by simp)) (h.parent (v3, v4) (by simp [m2]))
          hpar o1 o2
        obtain ⟨t1, t1'⟩ := innerTotal_cutPieces s1 hg n1 o1 hm
        obtain ⟨t2, t2'⟩ := innerTotal_cutPieces s2 hg n2 o2 hm
        have hlt : innerTotal (crossingPoints l) (cutPieces 0 v1 v2 p) +
            innerTotal (crossingPoints l) (cutPieces 0 v3 v4 p) + 1 ≤
            innerCount (crossingPoints l) (v1, v2) + innerCount (crossingPoints l) (v3, v4) := by
          by_cases c1 : SamePoint v1 p ∨ SamePoint v2 p
          · have c3 : ¬ SamePoint v3 p := by
              intro c; rcases c1 with c1 | c1
              · exact d1 (c1.trans c.symm)
              · exact d3 (c1.trans c.symm)
            have c4 : ¬ SamePoint v4 p := by
              intro c; rcases c1 with c1 | c1
              · exact d2 (c1.trans c.symm)
              · exact d4 (c1.trans c.symm)
            have := t2' c3 c4; omega
          · have := t1' (fun h => c1 (Or.inl h)) (fun h => c1 (Or.inr h)); omega
        have l1 := length_cutPieces (0 : K) v1 v2 p
        have l2 := length_cutPieces (0 : K) v3 v4 p
        have hacc := innerTotal_perm (P := crossingPoints l) h1
        rw [innerTotal_cons] at hacc
        simp only [List.cons_append, innerTotal_cons, innerTotal_append, List.length_cons,
          List.length_append] at hn ⊢
        omega

theorem splitIntersections_total {l : List (Vertex K × Vertex K)} (h : ∀ s ∈ l, Solid s) :
    ∃ n, ∀ fuel, n ≤ fuel → ∃ r, splitIntersections 0 fuel l = .ok r :=
  ⟨5 * innerTotal (crossingPoints l) l.reverse + l.reverse.length, fun fuel hf =>
    splitLoop_total l fuel l.reverse [] (SplitInv.start h) (by rw [List.append_nil]; exact hf)⟩

end Verif
