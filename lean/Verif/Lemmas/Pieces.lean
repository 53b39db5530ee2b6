import Mathlib.Algebra.Order.Ring.Rat
import Mathlib.Algebra.Field.Rat
import Verif.Lemmas.ContinenceGeo
import Verif.Spec.Pieces
import Verif.Spec.Shoelace

/-!
# The pieces into which `split_intersections` cuts segments, in exact arithmetic
-/

set_option linter.unusedSectionVars false

namespace Verif

open Spec

variable {K : Type*} [Field K] [LinearOrder K] [IsStrictOrderedRing K]

theorem vertex_eq {a b : Vertex K} (h : SamePoint a b) (ha : a.isGhost = false) (hb : b.isGhost = false) :
    a = b := by
  cases a; cases b
  obtain ⟨h1, h2⟩ := h
  simp_all

/-- Cutting one piece of a cut segment. -/
theorem Spec.Chop.refine {t s : Vertex K × Vertex K} {c : List (Vertex K × Vertex K)} (h : Chop t c)
    {p : Vertex K} (hp : StrictlyOn s.1 s.2 p) :
    ∀ l1 l2, c = l1 ++ s :: l2 → Chop t (l1 ++ (s.1, p) :: (p, s.2) :: l2) := by
  induction h with
  | whole t =>
    intro l1 l2 h
    cases l1 with
    | nil =>
      simp only [List.nil_append, List.cons.injEq] at h
      obtain ⟨rfl, rfl⟩ := h
      exact Chop.cut (l := [(t.1, p)]) (m := [(p, t.2)]) hp (Chop.whole _) (Chop.whole _)
    | cons x l1 => simp at h
  | @cut a q b l m hq hl hm ihl ihm =>
    intro l1 l2 h
    rcases List.append_eq_append_iff.1 h with ⟨a', h1, h2⟩ | ⟨c', h1, h2⟩
    · rw [h1, List.append_assoc]
      exact Chop.cut hq hl (ihm a' l2 h2)
    · cases c' with
      | nil =>
        simp only [List.append_nil, List.nil_append] at h1 h2
        have := Chop.cut hq hl (ihm [] l2 (by rw [← h2]; rfl))
        rwa [h1, List.nil_append] at this
      | cons x c' =>
        simp only [List.cons_append, List.cons.injEq] at h2
        obtain ⟨rfl, rfl⟩ := h2
        have := Chop.cut hq (ihl l1 c' h1) hm
        simpa using this

theorem chops_replace {l : List (Vertex K × Vertex K)} {cs : List (List (Vertex K × Vertex K))}
    (h : List.Forall₂ Chop l cs) {s : Vertex K × Vertex K} {rest : List (Vertex K × Vertex K)}
    (hperm : (s :: rest).Perm cs.flatten) {p : Vertex K} (hp : StrictlyOn s.1 s.2 p) :
    ∃ cs', List.Forall₂ Chop l cs' ∧ ((s.1, p) :: (p, s.2) :: rest).Perm cs'.flatten := by
  have hs : s ∈ cs.flatten := hperm.mem_iff.1 (by simp)
  obtain ⟨c, hc, hsc⟩ := List.mem_flatten.1 hs
  obtain ⟨A, B, rfl⟩ := List.append_of_mem hc
  obtain ⟨l1, l2, rfl⟩ := List.append_of_mem hsc
  obtain ⟨L1, L2, h1, h2, rfl⟩ : ∃ L1 L2, List.Forall₂ Chop L1 A ∧
      List.Forall₂ Chop L2 ((l1 ++ s :: l2) :: B) ∧ l = L1 ++ L2 := by
    refine ⟨l.take A.length, l.drop A.length, ?_, ?_, (List.take_append_drop _ _).symm⟩
    · have := List.forall₂_take A.length h
      rwa [List.take_left' rfl] at this
    · have := List.forall₂_drop A.length h
      rwa [List.drop_left' rfl] at this
  cases h2 with
  | @cons t _ L2 _ ht hB =>
    refine ⟨A ++ (l1 ++ (s.1, p) :: (p, s.2) :: l2) :: B,
      List.rel_append h1 (List.Forall₂.cons (ht.refine hp l1 l2 rfl) hB), ?_⟩
    rw [List.perm_iff_count] at hperm ⊢
    intro x
    have := hperm x
    simp only [List.flatten_append, List.flatten_cons, List.count_append, List.count_cons] at this ⊢
    omega

theorem chops_cut {l : List (Vertex K × Vertex K)} {cs : List (List (Vertex K × Vertex K))}
    (h : List.Forall₂ Chop l cs) {a b : Vertex K} {rest : List (Vertex K × Vertex K)}
    (hperm : ((a, b) :: rest).Perm cs.flatten) {p : Vertex K} (hs : Solid (a, b)) (hg : p.isGhost = false)
    (hne : ¬ SamePoint a b) (hp : OnSegment a b p) :
    ∃ cs', List.Forall₂ Chop l cs' ∧ (cutPieces 0 a b p ++ rest).Perm cs'.flatten := by
  have hb := eqv_zero hs.2 hg
  have ha := eqv_zero hs.1 hg
  unfold cutPieces
  by_cases h1 : SamePoint b p
  · have h2 : ¬ SamePoint a p := fun h2 => hne (h2.trans h1.symm)
    rw [if_pos (hb.2 h1), if_neg (fun h => h2 (ha.1 h))]
    have : p = b := vertex_eq h1.symm hg hs.2
    subst this
    exact ⟨cs, h, hperm⟩
  · rw [if_neg (fun h => h1 (hb.1 h))]
    by_cases h2 : SamePoint a p
    · rw [if_pos (ha.2 h2)]
      have : p = a := vertex_eq h2.symm hg hs.1
      subst this
      exact ⟨cs, h, hperm⟩
    · rw [if_neg (fun h => h2 (ha.1 h))]
      obtain ⟨cs', h3, h4⟩ := chops_replace h hperm ⟨hp, h2, h1⟩
      exact ⟨cs', h3, (List.Perm.swap _ _ _).trans h4⟩

theorem splitIntersections_cuts {l r : List (Vertex K × Vertex K)} (h : ∀ s ∈ l, Solid s) {fuel : Nat}
    (hr : splitIntersections 0 fuel l = .ok r) : Cuts l r := by
  have := splitLoop_induct (fun aux acc => (∀ s ∈ aux ++ acc, Solid s) ∧ Cuts l (aux ++ acc))
    (n := fuel) (aux := l.reverse) (acc := []) (r := r) ?_ ?_ ?_ hr
  · simpa using this.2
  · rintro s aux acc ⟨h1, cs, h2, h3⟩ -
    have hp : (aux ++ (acc ++ [s])).Perm (s :: aux ++ acc) := by
      rw [List.perm_iff_count]; intro x
      simp only [List.count_append, List.count_cons, List.count_nil, List.cons_append]; omega
    exact ⟨fun t ht => h1 t (hp.mem_iff.1 ht), cs, h2, hp.trans h3⟩
  · rintro v1 v2 v3 v4 p aux acc acc' ⟨h1, cs, h2, h3⟩ hp hsub hc hi
    have hg := intersection_solid hi
    obtain ⟨o1, o2⟩ := Props.C06_sound_exact hi
    have s1 : Solid (v1, v2) := h1 _ (by simp)
    have s2 : Solid (v3, v4) := h1 _ (by simp [hp.mem_iff.1 (List.mem_cons_self)])
    obtain ⟨-, -, -, -, -, hpar⟩ := (crosses_iff s1 s2).1 hc
    obtain ⟨n1, n2⟩ := not_parallel_ne hpar
    refine ⟨fun s hs => ?_, ?_⟩
    · simp only [List.mem_append] at hs
      rcases hs with ((hs | hs) | hs) | hs
      · exact cutPieces_solid s1 hg s hs
      · exact cutPieces_solid s2 hg s hs
      · exact h1 s (by simp [hs])
      · exact h1 s (by simp [hsub.subset hs])
    · obtain ⟨cs1, h4, h5⟩ := chops_cut h2 (a := v1) (b := v2) (rest := aux ++ acc) h3 s1 hg n1 o1
      have h6 : ((v3, v4) :: (cutPieces 0 v1 v2 p ++ aux ++ acc')).Perm cs1.flatten := by
        refine List.Perm.trans ?_ h5
        rw [List.perm_iff_count] at hp ⊢
        intro x
        have := hp x
        simp only [List.count_append, List.count_cons] at this ⊢
        omega
      obtain ⟨cs2, h7, h8⟩ := chops_cut h4 h6 s2 hg n2 o2
      refine ⟨cs2, h7, List.Perm.trans ?_ h8⟩
      rw [List.perm_iff_count]; intro x
      simp only [List.count_append]
      omega
  · refine ⟨fun s hs => h s (by simpa using hs), l.map fun s => [s], ?_, ?_⟩
    · clear h hr
      induction l with
      | nil => exact List.Forall₂.nil
      | cons s l ih => exact List.Forall₂.cons (Chop.whole s) ih
    · have : (l.map fun s => [s]).flatten = l := by
        clear h hr
        induction l with
        | nil => rfl
        | cons s l ih => simpa using ih
      rw [this, List.append_nil]
      exact List.reverse_perm l

/-- A quantity that adds up along a segment adds up over the pieces. -/
theorem Spec.Cuts.sum {R : Type*} [AddCommMonoid R] {l r : List (Vertex K × Vertex K)} (h : Cuts l r)
    (f : Vertex K × Vertex K → R)
    (hf : ∀ a b p : Vertex K, StrictlyOn a b p → f (a, p) + f (p, b) = f (a, b)) :
    (r.map f).sum = (l.map f).sum := by
  obtain ⟨cs, h1, h2⟩ := h
  have chop : ∀ {s : Vertex K × Vertex K} {c}, Chop s c → (c.map f).sum = f s := by
    intro s c hc
    induction hc with
    | whole s => simp
    | cut h hl hm ihl ihm => rw [List.map_append, List.sum_append, ihl, ihm]; exact hf _ _ _ h
  rw [(h2.map f).sum_eq]
  clear h2
  induction h1 with
  | nil => rfl
  | cons h _ ih => rw [List.flatten_cons, List.map_append, List.sum_append, ih, chop h, List.map_cons,
      List.sum_cons]

theorem half_open_cut {x p y v : K} (h1 : x ≤ p) (h2 : p ≤ y) (c : ℤ) :
    ((if x ≤ v ∧ v < p then c else 0) + if p ≤ v ∧ v < y then c else 0) = if x ≤ v ∧ v < y then c else 0 := by
  by_cases g1 : x ≤ v
  · by_cases g2 : v < p
    · rw [if_pos ⟨g1, g2⟩, if_neg (fun h => absurd g2 (not_lt.2 h.1)), if_pos ⟨g1, g2.trans_le h2⟩, add_zero]
    · rw [if_neg (fun h => g2 h.2), zero_add]
      have g3 := not_lt.1 g2
      by_cases g4 : v < y
      · rw [if_pos ⟨g3, g4⟩, if_pos ⟨g1, g4⟩]
      · rw [if_neg (fun h => g4 h.2), if_neg (fun h => g4 h.2)]
  · rw [if_neg (fun h => g1 h.1), if_neg (fun h => g1 (h1.trans h.1)), if_neg (fun h => g1 h.1), zero_add]

theorem crossingAbove_cut {a b p : Vertex K} (h : OnSegment a b p) (v : Vertex K) :
    crossingAbove v a p + crossingAbove v p b = crossingAbove v a b := by
  obtain ⟨t, t0, t1, hx, hy⟩ := h
  have e1 : cross a p v = t * cross a b v := by unfold cross; rw [hx, hy]; ring
  have e2 : cross p b v = (1 - t) * cross a b v := by unfold cross; rw [hx, hy]; ring
  unfold crossingAbove
  rw [e1, e2]
  rcases lt_trichotomy (cross a b v) 0 with hc | hc | hc
  · have i1 : ¬ 0 < t * cross a b v := by nlinarith
    have i2 : ¬ 0 < (1 - t) * cross a b v := by nlinarith
    have i3 : ¬ 0 < cross a b v := by linarith
    simp only [i1, i2, i3, and_false, if_false, hc, and_true]
    by_cases h0 : t = 0
    · have : p.x = a.x := by rw [hx, h0]; ring
      have j : ¬ (a.x ≤ v.x ∧ v.x < a.x) := fun h => absurd h.1 (not_le.2 h.2)
      simp only [this, h0, hc, sub_zero, one_mul, and_true, ← and_assoc, j, false_and, if_false, zero_add]
    by_cases h1 : t = 1
    · have : p.x = b.x := by rw [hx, h1]; ring
      have j : ¬ (b.x ≤ v.x ∧ v.x < b.x) := fun h => absurd h.1 (not_le.2 h.2)
      simp only [this, h1, hc, one_mul, and_true, ← and_assoc, j, false_and, if_false, add_zero]
    have t0' : 0 < t := lt_of_le_of_ne t0 (Ne.symm h0)
    have t1' : t < 1 := lt_of_le_of_ne t1 h1
    have c1 : t * cross a b v < 0 := by nlinarith
    have c2 : (1 - t) * cross a b v < 0 := by nlinarith
    simp only [c1, c2, and_true]
    by_cases hab : a.x < b.x
    · have g1 : a.x ≤ p.x := by rw [hx]; nlinarith
      have g2 : p.x ≤ b.x := by rw [hx]; nlinarith
      exact half_open_cut g1 g2 (-1)
    · have g1 : p.x ≤ a.x := by rw [hx]; nlinarith
      have g2 : b.x ≤ p.x := by rw [hx]; nlinarith
      rw [if_neg (fun h => absurd (h.1.trans_lt h.2) (not_lt.2 g1)),
        if_neg (fun h => absurd (h.1.trans_lt h.2) (not_lt.2 g2)),
        if_neg (fun h => absurd (h.1.trans_lt h.2) hab)]
      rfl
  · simp [hc]
  · have i1 : ¬ t * cross a b v < 0 := by nlinarith
    have i2 : ¬ (1 - t) * cross a b v < 0 := by nlinarith
    have i3 : ¬ cross a b v < 0 := by linarith
    simp only [i1, i2, i3, and_false, if_false, hc, and_true]
    by_cases h0 : t = 0
    · have : p.x = a.x := by rw [hx, h0]; ring
      have j : ¬ (a.x ≤ v.x ∧ v.x < a.x) := fun h => absurd h.1 (not_le.2 h.2)
      simp only [this, h0, hc, sub_zero, one_mul, and_true, ← and_assoc, j, false_and, if_false, zero_add]
    by_cases h1 : t = 1
    · have : p.x = b.x := by rw [hx, h1]; ring
      have j : ¬ (b.x ≤ v.x ∧ v.x < b.x) := fun h => absurd h.1 (not_le.2 h.2)
      simp only [this, h1, hc, one_mul, and_true, ← and_assoc, j, false_and, if_false, add_zero]
    have t0' : 0 < t := lt_of_le_of_ne t0 (Ne.symm h0)
    have t1' : t < 1 := lt_of_le_of_ne t1 h1
    have c1 : 0 < t * cross a b v := by nlinarith
    have c2 : 0 < (1 - t) * cross a b v := by nlinarith
    simp only [c1, c2, and_true]
    by_cases hab : b.x < a.x
    · have g1 : p.x ≤ a.x := by rw [hx]; nlinarith
      have g2 : b.x ≤ p.x := by rw [hx]; nlinarith
      rw [add_comm]
      exact half_open_cut g2 g1 1
    · have g1 : a.x ≤ p.x := by rw [hx]; nlinarith
      have g2 : p.x ≤ b.x := by rw [hx]; nlinarith
      rw [if_neg (fun h => absurd (h.1.trans_lt h.2) (not_lt.2 g1)),
        if_neg (fun h => absurd (h.1.trans_lt h.2) (not_lt.2 g2)),
        if_neg (fun h => absurd (h.1.trans_lt h.2) hab)]
      rfl

/-- Splitting changes no winding number. -/
theorem Spec.Cuts.winding {l r : List (Vertex K × Vertex K)} (h : Cuts l r) (v : Vertex K) :
    windingNumber r v = windingNumber l v :=
  h.sum (fun s => crossingAbove v s.1 s.2) fun _ _ _ hp => crossingAbove_cut hp.1 v

theorem areaSegments_sum (l : List (Vertex K × Vertex K)) :
    areaSegments l = (l.map fun s => (s.2.x - s.1.x) * (s.2.y + s.1.y) / 2).sum := by
  have : ∀ (l : List (Vertex K × Vertex K)) (c : K),
      l.foldl (fun acc s => acc + (s.2.x - s.1.x) * (s.2.y + s.1.y) / 2) c =
        c + (l.map fun s => (s.2.x - s.1.x) * (s.2.y + s.1.y) / 2).sum := by
    intro l
    induction l with
    | nil => intro c; simp
    | cons s l ih => intro c; simp only [List.foldl_cons, ih, List.map_cons, List.sum_cons]; ring
  rw [areaSegments, this, zero_add]

/-- Splitting changes no area. -/
theorem Spec.Cuts.area {l r : List (Vertex K × Vertex K)} (h : Cuts l r) : areaSegments r = areaSegments l := by
  rw [areaSegments_sum, areaSegments_sum]
  refine h.sum _ fun a b p hp => ?_
  obtain ⟨t, -, -, hx, hy⟩ := hp.1
  simp only [hx, hy]; ring

/-- Inside a piece, point-in-polygon for either polygon gives the same answer everywhere. -/
theorem piece_uniform {l r : List (Vertex K × Vertex K)} (hl : ∀ s ∈ l, Solid s) {fuel : Nat}
    (hr : splitIntersections 0 fuel l = .ok r) {p : Polyline (Vertex K)} (ho : p.opened = false)
    (hn : 0 < p.vertices.length) (hfold : NoFold p.vertices)
    (hp : ∀ s ∈ pairs p.vertices false, s ∈ l ∨ s.swap ∈ l) {s : Vertex K × Vertex K} (hs : s ∈ r)
    {x y : Vertex K} (hx : StrictlyOn s.1 s.2 x) (hy : StrictlyOn s.1 s.2 y) :
    p.contains 0 x = p.contains 0 y := by
  have hinv := splitIntersections_inv hl hr
  have hsn : ¬ SamePoint s.1 s.2 := by
    intro h
    obtain ⟨t, -, -, tx, ty⟩ := hx.1
    exact hx.2.1 ⟨by rw [tx, h.1]; ring, by rw [ty, h.2]; ring⟩
  by_cases hmeet : ∃ e ∈ pairs p.vertices false, ∃ z, OnSegment e.1 e.2 z ∧ StrictlyOn s.1 s.2 z
  · obtain ⟨e, he, z, hez, hsz⟩ := hmeet
    obtain ⟨i, rfl⟩ := (mem_pairs_cyc ho hn).1 he
    have key : ∀ w, OnSegment s.1 s.2 w → ∃ e ∈ pairs p.vertices false, OnSegment e.1 e.2 w := by
      intro w hw
      have := chain_covers hsn (cyc p.vertices) p.vertices.length hn (cyc_period _)
        (fun i => (cyc_nofold hn hfold i).1) (fun i => (cyc_nofold hn hfold i).2) ?_ i z hez hsz w hw
      · obtain ⟨j, hj⟩ := this
        exact ⟨_, (mem_pairs_cyc ho hn).2 ⟨j, rfl⟩, hj⟩
      · intro j u hu hsu
        have hej : (cyc p.vertices j, cyc p.vertices (j + 1)) ∈ pairs p.vertices false :=
          (mem_pairs_cyc ho hn).2 ⟨j, rfl⟩
        obtain ⟨s', hs', h1, h2, h3, h4⟩ : ∃ s' ∈ [] ++ r, OnSegment (cyc p.vertices j) (cyc p.vertices (j + 1)) s'.1 ∧
            OnSegment (cyc p.vertices j) (cyc p.vertices (j + 1)) s'.2 ∧ OnSegment s'.1 s'.2 u ∧
            ¬ SamePoint s'.1 s'.2 := by
          rcases hp _ hej with hl' | hl'
          · exact hinv.fine _ hl' (cyc_nofold hn hfold j).1 u hu
          · obtain ⟨s', h0, h1, h2, h3, h4⟩ := hinv.fine _ hl'
              (fun h => (cyc_nofold hn hfold j).1 h.symm) u (onSegment_symm hu)
            exact ⟨s', h0, onSegment_symm h1, onSegment_symm h2, h3, h4⟩
        rw [List.nil_append] at hs'
        by_contra hnp
        have hnp' : ¬ Parallel s.1 s.2 s'.1 s'.2 := fun hc => hnp (parallel_of_sub h4 h1 h2 hc)
        have hne : s ≠ s' := by
          rintro rfl
          exact hnp' (by unfold Parallel; ring)
        have hsym : Std.Symm (MeetAtEnds (K := K)) := ⟨fun _ _ => meetAtEnds_symm⟩
        have hmeets : MeetAtEnds s s' := hinv.apart.forall hs hs' hne
        rcases (hmeets hnp' u hsu.1 h3).1 with h5 | h5
        · exact hsu.2.1 h5
        · exact hsu.2.2 h5
    rw [(Props.C08_boundary_exact p ho x).2 (key x hx.1), (Props.C08_boundary_exact p ho y).2 (key y hy.1)]
  · refine (contains_const ho ?_).1
    intro e he z hz hxz
    rcases strictlyOn_between hsn hx.1 hy hxz with h1 | h1
    · exact hmeet ⟨e, he, z, hz, h1⟩
    · exact hmeet ⟨e, he, x, (onSegment_congr ⟨rfl, rfl⟩ ⟨rfl, rfl⟩ h1).2 hz, hx⟩

/-- A test that decides `NoFold` for rational vertices. -/
def noFoldCheck (l : List (Vertex ℚ)) : Bool :=
  (List.range l.length).all fun i =>
    match l[i]?, l[(i + 1) % l.length]?, l[(i + 2) % l.length]? with
    | some u, some v, some w =>
      !(decide (u.x = v.x) && decide (u.y = v.y)) &&
        (decide (cross u v w ≠ 0) || decide (0 < (v.x - u.x) * (w.x - v.x) + (v.y - u.y) * (w.y - v.y)))
    | _, _, _ => true

theorem noFold_of_check {l : List (Vertex ℚ)} (h : noFoldCheck l = true) : NoFold l := by
  intro i u v w hu hv hw
  unfold noFoldCheck at h
  rw [List.all_eq_true] at h
  have hl : 0 < l.length := by
    cases l with
    | nil => simp at hu
    | cons a l => simp
  have h1 := h (i % l.length) (List.mem_range.2 (Nat.mod_lt _ hl))
  have e1 : (i % l.length + 1) % l.length = (i + 1) % l.length := Nat.mod_add_mod i l.length 1
  have e2 : (i % l.length + 2) % l.length = (i + 2) % l.length := Nat.mod_add_mod i l.length 2
  rw [e1, e2, hu, hv, hw] at h1
  simp only [Bool.and_eq_true, Bool.not_eq_true', Bool.or_eq_true, decide_eq_true_eq, Bool.and_eq_false_iff,
    decide_eq_false_iff_not] at h1
  refine ⟨fun hs => ?_, fun hc => ?_⟩
  · rcases h1.1 with h2 | h2
    · exact h2 hs.1
    · exact h2 hs.2
  · exact h1.2.resolve_left (fun h3 => h3 hc)

end Verif
