import Verif.Lemmas.SeerRun
import Verif.Props.Minify

/-!
# Adding a vertex on a side of a polygon
-/

set_option linter.unusedSectionVars false

namespace Verif

open Spec Props

variable {K : Type*} [Field K] [LinearOrder K] [IsStrictOrderedRing K]

/-- `l'` is the polygon `l` with the vertex `v` on the side `s`. -/
structure Cut (l : List (Vertex K)) (s : Vertex K × Vertex K) (v : Vertex K) (l' : List (Vertex K))
    (r : List (Vertex K × Vertex K)) : Prop where
  old : (pairs l false).Perm (s :: r)
  new : (pairs l' false).Perm ((s.1, v) :: (v, s.2) :: r)
  verts : l'.Perm (v :: l)

theorem consecutive_split {V : Type*} {s : V × V} {l : List V} (h : s ∈ consecutivePairs l) :
    ∃ x y, l = x ++ s.1 :: s.2 :: y := by
  induction l with
  | nil => simp [consecutivePairs] at h
  | cons a l ih =>
    cases l with
    | nil => simp [consecutivePairs] at h
    | cons b l =>
      rw [consecutivePairs, List.mem_cons] at h
      rcases h with rfl | h
      · exact ⟨[], l, rfl⟩
      · obtain ⟨x, y, e⟩ := ih h
        exact ⟨a :: x, y, by rw [e]; rfl⟩

theorem consecutive_snoc {V : Type*} (x : List V) (a v : V) :
    consecutivePairs (x ++ [a, v]) = consecutivePairs (x ++ [a]) ++ [(a, v)] := by
  induction x with
  | nil => rfl
  | cons b x ih =>
    cases x with
    | nil => rfl
    | cons c x =>
      simp only [List.cons_append] at ih ⊢
      rw [consecutivePairs, ih, consecutivePairs]
      rfl

theorem exists_cut {l : List (Vertex K)} {s : Vertex K × Vertex K} (h : s ∈ pairs l false) (v : Vertex K) :
    ∃ l' r, Cut l s v l' r := by
  have hrot : ∃ k z, l.rotate k = s.2 :: z ∧ (l.rotate k).getLast? = some s.1 := by
    unfold pairs at h
    rw [List.mem_append] at h
    rcases h with h | h
    · obtain ⟨x, y, e⟩ := consecutive_split h
      refine ⟨(x ++ [s.1]).length, y ++ (x ++ [s.1]), ?_, ?_⟩
      · rw [e]
        have : x ++ s.1 :: s.2 :: y = (x ++ [s.1]) ++ (s.2 :: y) := by simp
        rw [this, List.rotate_append_length_eq]
        rfl
      · rw [e]
        have : x ++ s.1 :: s.2 :: y = (x ++ [s.1]) ++ (s.2 :: y) := by simp
        rw [this, List.rotate_append_length_eq]
        rw [← List.append_assoc, List.getLast?_append]
        rfl
    · simp only [Bool.false_eq_true, if_false] at h
      cases l with
      | nil => simp at h
      | cons b z =>
        cases hl : (b :: z).getLast? with
        | none => simp [hl] at h
        | some a =>
          rw [hl] at h
          simp only [List.head?_cons, List.mem_singleton] at h
          subst h
          exact ⟨0, z, by simp, by simp [hl]⟩
  obtain ⟨k, z, e1, e2⟩ := hrot
  obtain ⟨x, e3⟩ := List.getLast?_eq_some_iff.1 e2
  have p1 : pairs (l.rotate k) false = consecutivePairs (x ++ [s.1]) ++ [s] := by
    unfold pairs
    rw [e2, e1]
    simp only [Bool.false_eq_true, if_false, List.head?_cons]
    rw [← e1, e3]
  have p2 : pairs (l.rotate k ++ [v]) false = consecutivePairs (x ++ [s.1]) ++ [(s.1, v)] ++ [(v, s.2)] := by
    unfold pairs
    have : (l.rotate k ++ [v]).head? = some s.2 := by rw [e1]; rfl
    rw [this]
    simp only [Bool.false_eq_true, if_false, List.getLast?_append, List.getLast?_singleton, Option.some_or]
    rw [e3, List.append_assoc, List.singleton_append, consecutive_snoc]
  refine ⟨l.rotate k ++ [v], consecutivePairs (x ++ [s.1]), ⟨?_, ?_, ?_⟩⟩
  · refine (pairs_rotate l k).symm.trans ?_
    rw [p1]
    exact List.perm_append_singleton _ _
  · rw [p2, List.append_assoc]
    exact List.perm_append_comm
  · exact (List.perm_append_singleton _ _).trans ((List.rotate_perm l k).cons v)

/-- The two halves of a segment. -/
theorem onSegment_halves {a b v q : Vertex K} (hv : OnSegment a b v) :
    OnSegment a b q ↔ OnSegment a v q ∨ OnSegment v b q := by
  constructor
  · rintro ⟨k, k0, k1, kx, ky⟩
    obtain ⟨j, j0, j1, jx, jy⟩ := hv
    rcases le_total k j with h | h
    · left
      rcases j0.lt_or_eq with j0 | j0
      · refine ⟨k / j, div_nonneg k0 j0.le, (div_le_one j0).2 h, ?_, ?_⟩
        · rw [kx, jx]; field_simp; ring
        · rw [ky, jy]; field_simp; ring
      · have : k = 0 := le_antisymm (by rw [j0]; exact h) k0
        exact ⟨0, le_refl _, zero_le_one, by rw [kx, this]; ring, by rw [ky, this]; ring⟩
    · right
      rcases j1.lt_or_eq with j1 | j1
      · have hd : 0 < 1 - j := by linarith
        refine ⟨(k - j) / (1 - j), div_nonneg (by linarith) hd.le, (div_le_one hd).2 (by linarith), ?_, ?_⟩
        · rw [kx, jx]; field_simp; ring
        · rw [ky, jy]; field_simp; ring
      · have : k = 1 := le_antisymm k1 (by rw [← j1]; exact h)
        exact ⟨1, zero_le_one, le_refl _, by rw [kx, this]; ring, by rw [ky, this]; ring⟩
  · rintro (h | h)
    · exact onSegment_trans (onSegment_left a b) hv h
    · exact onSegment_trans hv (onSegment_right a b) h

theorem strictlyOn_param {a b v : Vertex K} (h : StrictlyOn a b v) :
    ∃ j : K, 0 < j ∧ j < 1 ∧ v.x = a.x + j * (b.x - a.x) ∧ v.y = a.y + j * (b.y - a.y) := by
  obtain ⟨⟨j, j0, j1, jx, jy⟩, h1, h2⟩ := h
  refine ⟨j, lt_of_le_of_ne j0 ?_, lt_of_le_of_ne j1 ?_, jx, jy⟩
  · rintro rfl
    exact h1 ⟨by rw [jx]; ring, by rw [jy]; ring⟩
  · rintro rfl
    exact h2 ⟨by rw [jx]; ring, by rw [jy]; ring⟩

/-- The two halves have only the middle in common. -/
theorem halves_meet {a b v q : Vertex K} (hab : ¬ SamePoint a b) (hv : StrictlyOn a b v) (h1 : OnSegment a v q)
    (h2 : OnSegment v b q) : SamePoint q v := by
  obtain ⟨j, j0, j1, jx, jy⟩ := strictlyOn_param hv
  obtain ⟨k, k0, k1, kx, ky⟩ := h1
  obtain ⟨i, i0, i1, ix, iy⟩ := h2
  have e : ∀ c : K, (k * j - (j + i * (1 - j))) * c = 0 → c ≠ 0 → k = 1 := by
    intro c hc hne
    have := (mul_eq_zero.1 hc).resolve_right hne
    have h3 : k * j ≤ j := by nlinarith
    have h4 : 0 ≤ i * (1 - j) := mul_nonneg i0 (by linarith)
    have h5 : (k - 1) * j = 0 := by nlinarith
    have := (mul_eq_zero.1 h5).resolve_right j0.ne'
    linarith
  have hk : k = 1 := by
    by_cases hx : b.x - a.x = 0
    · have hy : b.y - a.y ≠ 0 := fun hy => hab ⟨by linarith, by linarith⟩
      refine e (b.y - a.y) ?_ hy
      have := ky.symm.trans iy
      rw [jy] at this
      linear_combination this
    · refine e (b.x - a.x) ?_ hx
      have := kx.symm.trans ix
      rw [jx] at this
      linear_combination this
  subst hk
  exact ⟨by rw [kx]; ring, by rw [ky]; ring⟩

section

variable {l l' : List (Vertex K)} {s : Vertex K × Vertex K} {v : Vertex K} {r : List (Vertex K × Vertex K)}

theorem Cut.mem (h : Cut l s v l' r) : s ∈ pairs l false := h.old.mem_iff.2 (by simp)

theorem simplePolygon_of_perm {l : List (Vertex K)} {X : List (Vertex K × Vertex K)} (h : (pairs l false).Perm X) :
    SimplePolygon l ↔ (∀ s ∈ X, ¬ SamePoint s.1 s.2) ∧ X.Pairwise fun s t => ∀ q, OnSegment s.1 s.2 q → OnSegment t.1 t.2 q →
      (SamePoint q s.2 ∧ SamePoint q t.1) ∨ (SamePoint q s.1 ∧ SamePoint q t.2) := by
  have hp := h.pairwise_iff (R := fun s t : Vertex K × Vertex K => ∀ q, OnSegment s.1 s.2 q → OnSegment t.1 t.2 q →
      (SamePoint q s.2 ∧ SamePoint q t.1) ∨ (SamePoint q s.1 ∧ SamePoint q t.2)) (by
    intro x y hxy q h1 h2
    rcases hxy q h2 h1 with ⟨k1, k2⟩ | ⟨k1, k2⟩
    · exact Or.inr ⟨k2, k1⟩
    · exact Or.inl ⟨k2, k1⟩)
  constructor
  · intro hs
    exact ⟨fun s hm => hs.proper s (h.mem_iff.2 hm), hp.1 hs.apart⟩
  · rintro ⟨h1, h2⟩
    exact ⟨fun s hm => h1 s (h.mem_iff.1 hm), hp.2 h2⟩

/-- The polygon stays simple. -/
theorem Cut.simple (h : Cut l s v l' r) (hs : SimplePolygon l) (hv : StrictlyOn s.1 s.2 v) : SimplePolygon l' := by
  rw [simplePolygon_of_perm h.new]
  obtain ⟨h1, h2⟩ := (simplePolygon_of_perm h.old).1 hs
  rw [List.pairwise_cons] at h2
  have hss := h1 s (by simp)
  have hav : ∀ q, OnSegment s.1 v q → ¬ SamePoint q s.2 := by
    intro q hq hs2
    have := halves_meet hss hv hq ((onSegment_congr ⟨rfl, rfl⟩ ⟨rfl, rfl⟩ hs2).2 (onSegment_right v s.2))
    exact hv.2.2 ⟨hs2.1.symm.trans this.1, hs2.2.symm.trans this.2⟩
  have hvb : ∀ q, OnSegment v s.2 q → ¬ SamePoint q s.1 := by
    intro q hq hs1
    have := halves_meet hss hv ((onSegment_congr ⟨rfl, rfl⟩ ⟨rfl, rfl⟩ hs1).2 (onSegment_left s.1 v)) hq
    exact hv.2.1 ⟨hs1.1.symm.trans this.1, hs1.2.symm.trans this.2⟩
  refine ⟨?_, ?_⟩
  · intro t ht
    simp only [List.mem_cons] at ht
    rcases ht with rfl | rfl | ht
    · exact hv.2.1
    · exact fun k => hv.2.2 ⟨k.1.symm, k.2.symm⟩
    · exact h1 t (by simp [ht])
  · rw [List.pairwise_cons, List.pairwise_cons]
    refine ⟨?_, ?_, h2.2⟩
    · intro t ht q q1 q2
      rw [List.mem_cons] at ht
      rcases ht with rfl | ht
      · have := halves_meet hss hv q1 q2
        exact Or.inl ⟨this, this⟩
      · rcases h2.1 t ht q ((onSegment_halves hv.1).2 (Or.inl q1)) q2 with ⟨k1, k2⟩ | ⟨k1, k2⟩
        · exact absurd k1 (hav q q1)
        · exact Or.inr ⟨k1, k2⟩
    · intro t ht q q1 q2
      rcases h2.1 t ht q ((onSegment_halves hv.1).2 (Or.inr q1)) q2 with ⟨k1, k2⟩ | ⟨k1, k2⟩
      · exact Or.inl ⟨k1, k2⟩
      · exact absurd k1 (hvb q q1)

theorem Cut.winding (h : Cut l s v l' r) (hv : OnSegment s.1 s.2 v) (q : Vertex K) :
    windingNumber (pairs l' false) q = windingNumber (pairs l false) q := by
  unfold windingNumber
  rw [(h.new.map _).sum_eq, (h.old.map _).sum_eq]
  simp only [List.map_cons, List.sum_cons]
  have : cross s.1 v s.2 = 0 := by
    have := onSegment_cross hv
    have e : cross s.1 v s.2 = -cross s.1 s.2 v := by simp only [cross]; ring
    rw [e, this]; simp
  rw [← add_assoc, crossing_additive q s.1 v s.2 this]

theorem Cut.outline (h : Cut l s v l' r) (hv : OnSegment s.1 s.2 v) (q : Vertex K) :
    (∃ t ∈ pairs l' false, OnSegment t.1 t.2 q) ↔ ∃ t ∈ pairs l false, OnSegment t.1 t.2 q := by
  constructor
  · rintro ⟨t, ht, hq⟩
    rw [h.new.mem_iff, List.mem_cons, List.mem_cons] at ht
    rcases ht with rfl | rfl | ht
    · exact ⟨s, h.mem, (onSegment_halves hv).2 (Or.inl hq)⟩
    · exact ⟨s, h.mem, (onSegment_halves hv).2 (Or.inr hq)⟩
    · exact ⟨t, h.old.mem_iff.2 (by simp [ht]), hq⟩
  · rintro ⟨t, ht, hq⟩
    rw [h.old.mem_iff, List.mem_cons] at ht
    rcases ht with rfl | ht
    · rcases (onSegment_halves hv).1 hq with k | k
      · exact ⟨(t.1, v), h.new.mem_iff.2 (by simp), k⟩
      · exact ⟨(v, t.2), h.new.mem_iff.2 (by simp), k⟩
    · exact ⟨t, h.new.mem_iff.2 (by simp [ht]), hq⟩

end

section

variable {l m : List (Vertex K)}

theorem Spec.Subdivides.refl (l : List (Vertex K)) : Subdivides l l :=
  ⟨fun _ h => h, fun s hs => ⟨s, hs, onSegment_left _ _, onSegment_right _ _, onSegment_right _ _⟩, fun _ => Iff.rfl, fun _ => rfl⟩

theorem Spec.Subdivides.cut (h : Subdivides l m) {l' : List (Vertex K)} {s : Vertex K × Vertex K} {v : Vertex K}
    {r : List (Vertex K × Vertex K)} (hc : Cut l s v l' r) (hv : OnSegment s.1 s.2 v) : Subdivides l' m := by
  refine ⟨fun x hx => hc.verts.mem_iff.2 (List.mem_cons_of_mem _ (h.keeps x hx)), fun t ht => ?_,
    fun q => (hc.outline hv q).trans (h.outline q), fun q => (hc.winding hv q).trans (h.winding q)⟩
  rw [hc.new.mem_iff, List.mem_cons, List.mem_cons] at ht
  obtain ⟨S, hS, k1, k2, k3⟩ := h.along s hc.mem
  rcases ht with rfl | rfl | ht
  · exact ⟨S, hS, k1, onSegment_trans k1 k2 hv, onSegment_trans (onSegment_left _ _) k3 hv⟩
  · refine ⟨S, hS, onSegment_trans k1 k2 hv, k2, ?_⟩
    have h1 : OnSegment s.1 S.2 v := onSegment_trans (onSegment_left _ _) k3 hv
    simp only
    rcases (onSegment_halves h1).1 k3 with k | k
    · by_cases hsv : SamePoint s.2 v
      · exact (onSegment_congr ⟨rfl, rfl⟩ ⟨rfl, rfl⟩ hsv).2 (onSegment_left _ _)
      · exfalso
        obtain ⟨i, i0, i1, ix, iy⟩ := hv
        obtain ⟨j, j0, j1, jx, jy⟩ := k
        apply hsv
        have e : ∀ c : K, (1 - j * i) * c = 0 → c ≠ 0 → i = 1 := by
          intro c hc hne
          have := (mul_eq_zero.1 hc).resolve_right hne
          nlinarith
        by_cases hx : s.2.x - s.1.x = 0
        · by_cases hy : s.2.y - s.1.y = 0
          · exact ⟨by rw [ix, hx]; linarith, by rw [iy, hy]; linarith⟩
          · have := e (s.2.y - s.1.y) (by rw [iy] at jy; linear_combination jy) hy
            subst this
            exact ⟨by rw [ix]; ring, by rw [iy]; ring⟩
        · have := e (s.2.x - s.1.x) (by rw [ix] at jx; linear_combination jx) hx
          subst this
          exact ⟨by rw [ix]; ring, by rw [iy]; ring⟩
    · exact k
  · exact h.along t (hc.old.mem_iff.2 (by simp [ht]))

theorem Spec.Subdivides.beyond (h : Subdivides l m) (q : Vertex K) : Beyond l q ↔ Beyond m q := by
  unfold Beyond
  rw [h.winding q]
  have := h.outline q
  constructor
  · rintro ⟨h1, h2⟩
    refine ⟨fun S hS ho => ?_, h2⟩
    obtain ⟨s, hs, hq⟩ := this.2 ⟨S, hS, ho⟩
    exact h1 s hs hq
  · rintro ⟨h1, h2⟩
    refine ⟨fun S hS ho => ?_, h2⟩
    obtain ⟨s, hs, hq⟩ := this.1 ⟨S, hS, ho⟩
    exact h1 s hs hq

theorem Spec.Subdivides.inside (h : Subdivides l m) (q : Vertex K) : InsidePolygon l q ↔ InsidePolygon m q := by
  unfold InsidePolygon
  rw [h.winding q]
  have := h.outline q
  constructor
  · rintro ⟨h1, h2⟩
    refine ⟨fun S hS ho => ?_, h2⟩
    obtain ⟨s, hs, hq⟩ := this.2 ⟨S, hS, ho⟩
    exact h1 s hs hq
  · rintro ⟨h1, h2⟩
    refine ⟨fun S hS ho => ?_, h2⟩
    obtain ⟨s, hs, hq⟩ := this.1 ⟨S, hS, ho⟩
    exact h1 s hs hq

theorem Cut.subdivides {l' : List (Vertex K)} {s : Vertex K × Vertex K} {v : Vertex K}
    {r : List (Vertex K × Vertex K)} (hc : Cut l s v l' r) (hv : OnSegment s.1 s.2 v) : Subdivides l' l :=
  (Subdivides.refl l).cut hc hv

theorem Spec.Subdivides.windsOnce (h : Subdivides l m) (hw : WindsOnce m) : WindsOnce l := by
  intro v hv
  rw [h.winding]
  refine hw v fun S hS ho => ?_
  obtain ⟨s, hs, hq⟩ := (h.outline v).2 ⟨S, hS, ho⟩
  exact hv s hs hq

end

end Verif
