import Verif.Lemmas.Sides
import Verif.Lemmas.RegionCheck
import Verif.Props.Shoelace
import Mathlib.Algebra.Order.Ring.Rat
import Mathlib.Algebra.Field.Rat
import Mathlib.Tactic.LinearCombination
import Mathlib.Tactic.Abel

/-!
# C52: minifying a polyline
-/

set_option linter.unusedSectionVars false

namespace Verif.Props

open Spec Polyline

variable {K : Type*} [Field K] [LinearOrder K] [IsStrictOrderedRing K]

/-! ## Which vertices stay -/

/-- The corners of a closed chain: the vertices, in order, for which twice the area of the triangle with the vertices
before and after exceeds `eps`. -/
def cornersOf (eps : K) (l : List (Vertex K)) : List (Vertex K) :=
  ((List.range l.length).filter fun i =>
    match l[(i + l.length - 1) % l.length]?, l[i]?, l[(i + 1) % l.length]? with
    | some a, some b, some c => decide (eps < |cross a b c|)
    | _, _, _ => false).filterMap fun i => l[i]?

theorem middles_range (eps : K) : ∀ l : List (Vertex K),
    nonColinearMiddles eps l = ((List.range (l.length - 2)).filter fun i =>
      match l[i]?, l[i + 1]?, l[i + 2]? with
      | some a, some b, some c => decide (eps < |cross a b c|)
      | _, _, _ => false).filterMap fun i => l[i + 1]?
  | [] => rfl
  | [_] => rfl
  | [_, _] => rfl
  | a :: b :: c :: rest => by
    have ih := middles_range eps (b :: c :: rest)
    have e : (a :: b :: c :: rest).length - 2 = ((b :: c :: rest).length - 2) + 1 := by simp
    rw [e, List.range_succ_eq_map, List.filter_cons, List.filter_map]
    have hmap : ∀ (m : List Nat), (m.map Nat.succ).filterMap (fun i => (a :: b :: c :: rest)[i + 1]?) =
        m.filterMap fun i => (b :: c :: rest)[i + 1]? := by
      intro m
      rw [List.filterMap_map]
      rfl
    have hfil : ((fun i => match (a :: b :: c :: rest)[i]?, (a :: b :: c :: rest)[i + 1]?, (a :: b :: c :: rest)[i + 2]? with
        | some a, some b, some c => decide (eps < |cross a b c|)
        | _, _, _ => false) ∘ Nat.succ) = fun i =>
        match (b :: c :: rest)[i]?, (b :: c :: rest)[i + 1]?, (b :: c :: rest)[i + 2]? with
        | some a, some b, some c => decide (eps < |cross a b c|)
        | _, _, _ => false := rfl
    rw [hfil]
    unfold nonColinearMiddles
    rw [ih]
    by_cases hc : orientation eps a b c = .colinear
    · rw [if_neg (not_not.2 hc)]
      rw [orientation_colinear] at hc
      have : decide (eps < |cross a b c|) = false := by simpa using hc
      simp only [List.getElem?_cons_zero, zero_add, List.getElem?_cons_succ, this, Bool.false_eq_true, if_false]
      exact (hmap _).symm
    · rw [if_pos hc]
      rw [orientation_colinear] at hc
      have : decide (eps < |cross a b c|) = true := by simpa using hc
      simp only [List.getElem?_cons_zero, zero_add, List.getElem?_cons_succ, this, if_true, List.filterMap_cons]
      rw [List.cons_inj_right]
      exact (hmap _).symm

theorem middles_corners (eps : K) {l : List (Vertex K)} {h t : Vertex K} (hh : l.head? = some h)
    (ht : l.getLast? = some t) : nonColinearMiddles eps (t :: l ++ [h]) = cornersOf eps l := by
  have hn : 0 < l.length := by
    cases l with
    | nil => simp at hh
    | cons _ _ => simp
  have ht' : l[l.length - 1]? = some t := by rw [← ht, List.getLast?_eq_getElem?]
  have hh' : l[0]? = some h := by rw [← hh, List.head?_eq_getElem?]
  rw [middles_range]
  unfold cornersOf
  have e : (t :: l ++ [h]).length - 2 = l.length := by simp
  rw [e]
  have g1 : ∀ i, i < l.length → (t :: l ++ [h])[i + 1]? = l[i]? := by
    intro i hi
    simp [List.getElem?_append, hi]
  have g0 : ∀ i, i < l.length → (t :: l ++ [h])[i]? = l[(i + l.length - 1) % l.length]? := by
    intro i hi
    cases i with
    | zero => rw [zero_add, Nat.mod_eq_of_lt (by omega), ht']; simp
    | succ i =>
      rw [g1 i (by omega), show i + 1 + l.length - 1 = i + l.length by omega, Nat.add_mod_right,
        Nat.mod_eq_of_lt (by omega)]
  have g2 : ∀ i, i < l.length → (t :: l ++ [h])[i + 2]? = l[(i + 1) % l.length]? := by
    intro i hi
    by_cases h' : i + 1 < l.length
    · rw [g1 (i + 1) h', Nat.mod_eq_of_lt h']
    · have : i + 1 = l.length := by omega
      rw [this, Nat.mod_self, hh', show i + 2 = l.length + 1 by omega]
      simp
  rw [List.filterMap_congr (g := fun i => l[i]?)]
  · congr 1
    refine List.filter_congr fun i hi => ?_
    rw [List.mem_range] at hi
    rw [g0 i hi, g1 i hi, g2 i hi]
  · intro i hi
    exact g1 i (List.mem_range.1 (List.mem_of_mem_filter hi))

/-- C52: minifying a closed polyline returns the closed polyline of its corners, and fails exactly if it has fewer than
three. -/
theorem C52_corners (eps : K) (p : Polyline (Vertex K)) (hp : p.opened = false) :
    (∀ m, minifiedNoncolinear eps p = .ok m → m.opened = false ∧ m.vertices = cornersOf eps p.vertices) ∧
      ((∃ m, minifiedNoncolinear eps p = .ok m) ↔ 3 ≤ (cornersOf eps p.vertices).length) ∧
      (minifiedNoncolinear eps p = .panic ↔ (cornersOf eps p.vertices).length < 3) := by
  have hn : p.vertices ≠ [] := by
    intro h
    have := p.two_le
    simp [h] at this
  obtain ⟨h, hh⟩ : ∃ h, p.vertices.head? = some h := by
    cases hv : p.vertices with
    | nil => exact absurd hv hn
    | cons a _ => exact ⟨a, rfl⟩
  have ht : p.vertices.getLast? = some (p.vertices.getLast hn) := List.getLast?_eq_some_getLast hn
  have hm : minifiedNoncolinear eps p = Res.unwrap (newClosed (cornersOf eps p.vertices)) := by
    unfold minifiedNoncolinear
    rw [hh, ht]
    simp only [hp, Bool.false_eq_true, if_false]
    rw [middles_corners eps hh ht]
  rw [hm]
  unfold newClosed
  by_cases h3 : 3 ≤ (cornersOf eps p.vertices).length
  · rw [dif_pos h3]
    refine ⟨fun m e => ?_, ⟨fun _ => h3, fun _ => ⟨_, rfl⟩⟩, ⟨fun h => by simp [Res.unwrap] at h, fun h => by omega⟩⟩
    simp only [Res.unwrap, Res.ok.injEq] at e
    rw [← e]
    exact ⟨rfl, rfl⟩
  · rw [dif_neg h3]
    refine ⟨fun m e => by simp [Res.unwrap] at e, ⟨fun ⟨m, e⟩ => by simp [Res.unwrap] at e, fun h => absurd h h3⟩,
      ⟨fun _ => by omega, fun _ => rfl⟩⟩

/-! ## The region does not change -/

variable {M : Type*} [AddCommGroup M]

/-- What a chain collects from its sides. -/
def collect (F : Vertex K → Vertex K → M) (l : List (Vertex K)) : M :=
  ((consecutivePairs l).map fun s => F s.1 s.2).sum

theorem collect_cons (F : Vertex K → Vertex K → M) (a b : Vertex K) (l : List (Vertex K)) :
    collect F (a :: b :: l) = F a b + collect F (b :: l) := by
  rfl

theorem on_line {a b z e : Vertex K} (h : ¬ SamePoint a b) (hz : cross a b z = 0) (he : cross a b e = 0)
    (c : Vertex K) (hc : cross a b c = 0) : cross z e c = 0 := by
  unfold SamePoint at h
  unfold cross at *
  by_cases hx : a.x = b.x
  · have hy : b.y - a.y ≠ 0 := fun h' => h ⟨hx, by linarith⟩
    refine mul_left_cancel₀ (mul_ne_zero hy hy) ?_
    have hx' : b.x - a.x = 0 := by rw [hx, sub_self]
    rw [hx', zero_mul, zero_sub, neg_eq_zero] at hz he hc
    have z1 := (mul_eq_zero.1 hz).resolve_left hy
    have e1 := (mul_eq_zero.1 he).resolve_left hy
    have c1 := (mul_eq_zero.1 hc).resolve_left hy
    have : e.x - z.x = 0 := by linear_combination e1 - z1
    have h2 : c.x - z.x = 0 := by linear_combination c1 - z1
    rw [this, h2]; ring
  · have hy : b.x - a.x ≠ 0 := sub_ne_zero.2 (Ne.symm hx)
    refine mul_left_cancel₀ hy ?_
    linear_combination (e.x - z.x) * (hc - hz) - (c.x - z.x) * (he - hz)

/-- Dropping the collinear vertices of a chain changes nothing for sums that are additive along a line. -/
theorem middles_collect {F : Vertex K → Vertex K → M}
    (hF : ∀ a b c : Vertex K, cross a b c = 0 → F a b + F b c = F a c) {p q e : Vertex K} :
    ∀ (rest : List (Vertex K)) (z a b : Vertex K), (a :: b :: rest).IsChain (fun s t => ¬ SamePoint s t) →
      cross a b z = 0 → (∃ front, a :: b :: rest = front ++ [p, q]) → cross p q e = 0 →
      collect F (z :: nonColinearMiddles 0 (a :: b :: rest) ++ [e]) = F z a + collect F (a :: b :: rest) + F q e
  | [], z, a, b, hd, hz, ⟨front, hf⟩, he => by
    have hab : ¬ SamePoint a b := (List.isChain_cons_cons.1 hd).1
    have hl : front = [] := by
      have := congrArg List.length hf
      simp only [List.length_append, List.length_cons, List.length_nil] at this
      exact List.length_eq_zero_iff.1 (by omega)
    rw [hl] at hf
    simp only [List.nil_append, List.cons.injEq, and_true] at hf
    obtain ⟨rfl, rfl⟩ := hf
    have h1 : cross z a b = 0 := on_line hab hz (by simp [cross]) b (by simp [cross]; ring)
    have h2 : cross z b e = 0 := on_line hab hz (by simp [cross]; ring) e he
    simp only [nonColinearMiddles, List.cons_append, List.nil_append, collect, consecutivePairs, List.map_cons,
      List.map_nil, List.sum_cons, List.sum_nil, add_zero]
    rw [hF _ _ _ h1, hF _ _ _ h2]
  | c :: rest, z, a, b, hd, hz, ⟨front, hf⟩, he => by
    obtain ⟨hab, hd'⟩ := List.isChain_cons_cons.1 hd
    have hf' : ∃ front', b :: c :: rest = front' ++ [p, q] := by
      cases front with
      | nil =>
        have := congrArg List.length hf
        simp at this
      | cons _ front' =>
        rw [List.cons_append, List.cons.injEq] at hf
        exact ⟨front', hf.2⟩
    have hzero : ∀ v, F v v = 0 := fun v => by
      have := hF v v v (by simp [cross])
      simpa using this
    have h1 : F z a + F a b = F z b := hF _ _ _ (on_line hab hz (by simp [cross]) b (by simp [cross]; ring))
    unfold nonColinearMiddles
    by_cases hc : orientation 0 a b c = .colinear
    · rw [if_neg (not_not.2 hc)]
      rw [orientation_colinear, abs_nonpos_iff] at hc
      have h2 : cross b c z = 0 := on_line hab (by simp [cross]; ring) hc z hz
      rw [middles_collect hF rest z b c hd' h2 hf' he, collect_cons F a b, ← h1]
      abel
    · rw [if_pos hc]
      have := middles_collect hF rest b b c hd' (by simp [cross]) hf' he
      rw [hzero, zero_add] at this
      rw [List.cons_append, List.cons_append, collect_cons, ← List.cons_append, this, collect_cons F a b, ← h1]
      abel

/-- The first vertex that stays is on the line of the first two. -/
theorem middles_first {m : Vertex K} {ms : List (Vertex K)} : ∀ (rest : List (Vertex K)) (a b : Vertex K),
    (a :: b :: rest).IsChain (fun s t => ¬ SamePoint s t) → nonColinearMiddles 0 (a :: b :: rest) = m :: ms →
      cross a b m = 0
  | [], a, b, _, h => by simp [nonColinearMiddles] at h
  | c :: rest, a, b, hd, h => by
    obtain ⟨hab, hd'⟩ := List.isChain_cons_cons.1 hd
    unfold nonColinearMiddles at h
    by_cases hc : orientation 0 a b c = .colinear
    · rw [if_neg (not_not.2 hc)] at h
      rw [orientation_colinear, abs_nonpos_iff] at hc
      have h1 := middles_first rest b c hd' h
      obtain ⟨hbc, -⟩ := List.isChain_cons_cons.1 hd'
      refine on_line hbc ?_ (by simp [cross]) m h1
      exact on_line hab (by simp [cross]; ring) hc a (by simp [cross])
    · rw [if_pos hc, List.cons.injEq] at h
      rw [← h.1]
      simp [cross]; ring

theorem collect_closed (F : Vertex K → Vertex K → M) (a : Vertex K) (l : List (Vertex K)) :
    ((pairs (a :: l) false).map fun s => F s.1 s.2).sum = collect F (a :: l ++ [a]) := by
  rw [pairs_closed_eq]; rfl

/-- The corners of a closed chain without repeated neighbours collect what the chain does. -/
theorem corners_collect {F : Vertex K → Vertex K → M}
    (hF : ∀ a b c : Vertex K, cross a b c = 0 → F a b + F b c = F a c) {l : List (Vertex K)} (hl : 2 ≤ l.length)
    (hd : ∀ s ∈ pairs l false, ¬ SamePoint s.1 s.2) :
    ((pairs (cornersOf 0 l) false).map fun s => F s.1 s.2).sum = ((pairs l false).map fun s => F s.1 s.2).sum := by
  have hzero : ∀ v, F v v = 0 := fun v => by
    have := hF v v v (by simp [cross])
    simpa using this
  obtain ⟨h, l', rfl⟩ : ∃ h l', l = h :: l' := by
    cases l with
    | nil => simp at hl
    | cons a l => exact ⟨a, l, rfl⟩
  have hne : h :: l' ≠ [] := by simp
  have hlast : (h :: l').getLast? = some ((h :: l').getLast hne) := List.getLast?_eq_some_getLast hne
  have hlast' : (h :: l').dropLast ++ [(h :: l').getLast hne] = h :: l' := List.dropLast_append_getLast hne
  obtain ⟨t, ht⟩ : ∃ t, t = (h :: l').getLast hne := ⟨_, rfl⟩
  rw [← ht] at hlast hlast'
  have hend : ∃ front, t :: h :: (l' ++ [h]) = front ++ [t, h] := ⟨t :: (h :: l').dropLast, by
    rw [List.cons_append, show [t, h] = [t] ++ [h] from rfl, ← List.append_assoc, hlast']
    rfl⟩
  have hchain : ∀ m : List (Vertex K), (∀ s ∈ consecutivePairs m, ¬ SamePoint s.1 s.2) →
      m.IsChain fun s t => ¬ SamePoint s t := by
    intro m
    induction m with
    | nil => intro _; exact List.IsChain.nil
    | cons a m ih =>
      cases m with
      | nil => intro _; exact List.IsChain.singleton _
      | cons b m =>
        intro hm
        exact List.isChain_cons_cons.2 ⟨hm (a, b) (by simp [consecutivePairs]),
          ih fun s hs => hm s (by simp [consecutivePairs, hs])⟩
  have hth : (t, h) ∈ pairs (h :: l') false := by
    unfold pairs
    rw [hlast]
    simp
  have hd' : (t :: h :: (l' ++ [h])).IsChain fun s t => ¬ SamePoint s t := by
    rw [List.isChain_cons_cons]
    refine ⟨hd _ hth, hchain _ ?_⟩
    rw [pairs_closed_eq] at hd
    exact hd
  have hmid : nonColinearMiddles 0 (t :: h :: (l' ++ [h])) = cornersOf 0 (h :: l') := by
    rw [← middles_corners 0 (rfl : (h :: l').head? = some h) hlast]
    rfl
  rw [collect_closed F h l']
  have hback : ∀ v, cross t h v = 0 → F v t + F t h + F h v = 0 := by
    intro v hv
    have h1 : cross v t h = 0 := on_line (hd _ hth) hv (by simp [cross]) h (by simp [cross]; ring)
    rw [hF _ _ _ h1, hF _ _ _ (by simp [cross]), hzero]
  cases hc : cornersOf 0 (h :: l') with
  | nil =>
    rw [hc] at hmid
    have := middles_collect hF (l' ++ [h]) t t h hd' (by simp [cross]) hend (e := t) (by simp [cross])
    rw [hmid, collect_cons] at this
    have e2 := hback t (by simp [cross])
    simp only [List.cons_append, List.nil_append, collect, consecutivePairs, List.map_cons, List.map_nil, List.sum_cons,
      List.sum_nil, add_zero, hzero, zero_add] at this e2
    simp only [pairs, consecutivePairs, List.getLast?_nil, Bool.false_eq_true, if_false, List.nil_append, List.map_nil,
      List.sum_nil, List.cons_append, collect]
    rw [this]
    rw [add_right_comm, e2, zero_add]
  | cons m ms =>
    rw [hc] at hmid
    have hm := middles_first _ _ _ hd' hmid
    have := middles_collect hF (l' ++ [h]) m t h hd' hm hend hm
    rw [hmid, List.cons_append, List.cons_append, collect_cons, hzero, zero_add, collect_cons F t h] at this
    rw [collect_closed, List.cons_append, this]
    have e2 := hback m hm
    rw [List.cons_append]
    calc F m t + (F t h + collect F (h :: (l' ++ [h]))) + F h m =
        (F m t + F t h + F h m) + collect F (h :: (l' ++ [h])) := by abel
      _ = _ := by rw [e2, zero_add]

theorem crossing_additive (w a b c : Vertex K) (h : cross a b c = 0) :
    crossingAbove w a b + crossingAbove w b c = crossingAbove w a c := by
  have key : ∀ s t : Vertex K, cross s t w = (t.x - s.x) * (w.y - s.y) - (t.y - s.y) * (w.x - s.x) := fun _ _ => rfl
  by_cases hab : a.x = b.x
  · rw [crossing_upright hab, zero_add]
    by_cases hy : a.y = b.y
    · unfold crossingAbove
      simp only [key, hab, hy]
    · have : c.x = a.x := by
        unfold cross at h
        have h' : (b.y - a.y) * (c.x - a.x) = 0 := by rw [hab] at h ⊢; linear_combination -h
        rcases mul_eq_zero.1 h' with h' | h'
        · exact absurd (by linarith) hy
        · linarith
      rw [crossing_upright (by rw [← hab, this]), crossing_upright this.symm]
  · have hz : ∀ s t : Vertex K, cross a b s = 0 → cross a b t = 0 → s.x ≠ t.x →
        heightAt s t w.x = heightAt a b w.x := by
      intro s t hs ht hst
      have h1 : b.x - a.x ≠ 0 := sub_ne_zero.2 (Ne.symm hab)
      have h2 : t.x - s.x ≠ 0 := sub_ne_zero.2 (Ne.symm hst)
      unfold heightAt
      unfold cross at hs ht
      field_simp
      linear_combination (w.x - s.x) * ht - (w.x - t.x) * hs
    have hs : ∀ s t : Vertex K, cross a b s = 0 → cross a b t = 0 →
        crossingAbove w s t = if w.y < heightAt a b w.x then span s t w.x else 0 := by
      intro s t hs ht
      by_cases hst : s.x = t.x
      · rw [crossing_upright hst]
        have : span s t w.x = 0 := by
          unfold span
          rw [if_neg (fun h' => by linarith [h'.1, h'.2]), if_neg (fun h' => by linarith [h'.1, h'.2])]
        simp [this]
      · rw [crossing_eq, hz s t hs ht hst]
    have ha : cross a b a = 0 := by simp [cross]
    have hb : cross a b b = 0 := by simp [cross]; ring
    rw [hs a b ha hb, hs b c hb h, hs a c ha h]
    by_cases hw : w.y < heightAt a b w.x
    · simp only [if_pos hw]
      unfold span
      rcases lt_or_ge w.x a.x with h1 | h1 <;> rcases lt_or_ge w.x b.x with h2 | h2 <;>
        rcases lt_or_ge w.x c.x with h3 | h3 <;>
        simp [h1, h2, h3, not_le.2, not_lt.2]
    · simp [if_neg hw]

/-- C52: a minified outline runs around every point as often as the outline does and has the same signed area, if no
two consecutive vertices of the outline coincide. -/
theorem C52_region {p m : Polyline (Vertex K)} (hp : p.opened = false)
    (hd : ∀ s ∈ pairs p.vertices false, ¬ SamePoint s.1 s.2) (h : minifiedNoncolinear 0 p = .ok m) :
    (∀ w, windingNumber (pairs m.vertices false) w = windingNumber (pairs p.vertices false) w) ∧
      shoelace m.vertices = shoelace p.vertices := by
  rw [((C52_corners 0 p hp).1 m h).2]
  refine ⟨fun w => corners_collect (crossing_additive w) p.two_le hd, ?_⟩
  rw [Polyline.shoelace_enclosed, Polyline.shoelace_enclosed]
  exact corners_collect (F := fun a b : Vertex K => (a.x * b.y - b.x * a.y) / 2)
    (fun a b c h => by unfold cross at h; linear_combination (1 / 2) * h) p.two_le hd

/-- C52: simple polygons can be minified. -/
theorem C52_returns {p : Polyline (Vertex K)} (hp : p.opened = false) (hs : SimplePolygon p.vertices) :
    ∃ m, minifiedNoncolinear 0 p = .ok m := by
  rw [(C52_corners 0 p hp).2.1]
  by_contra hn
  obtain ⟨v, -, hv⟩ := hs.encloses hp hs.separate fun _ h => h
  refine hv ?_
  have := corners_collect (crossing_additive v) p.two_le hs.proper
  unfold windingNumber
  rw [← this]
  have hself : ∀ a : Vertex K, crossingAbove v a a = 0 := fun a => crossing_upright rfl v
  match hc : cornersOf 0 p.vertices with
  | [] => simp [pairs, consecutivePairs]
  | [a] => simp [pairs, consecutivePairs, hself]
  | [a, b] =>
    have := crossing_additive v a b a (by simp [cross])
    rw [hself] at this
    simpa [pairs, consecutivePairs] using this
  | a :: b :: c :: l => rw [hc] at hn; simp at hn

/-! ## Cases -/

/-- A square with a vertex in the middle of two sides. -/
def knobbySquare : Polyline (Vertex ℚ) :=
  ⟨[⟨1, 0, false⟩, ⟨2, 0, false⟩, ⟨2, 2, false⟩, ⟨1, 2, false⟩, ⟨0, 2, false⟩, ⟨0, 0, false⟩], false, by simp⟩

example : SimplePolygon knobbySquare.vertices ∧ (∀ s ∈ pairs knobbySquare.vertices false, ¬ SamePoint s.1 s.2) ∧
    (∃ m, minifiedNoncolinear 0 knobbySquare = .ok m) ∧
    cornersOf 0 knobbySquare.vertices = [⟨2, 0, false⟩, ⟨2, 2, false⟩, ⟨0, 2, false⟩, ⟨0, 0, false⟩] := by
  have hs : SimplePolygon knobbySquare.vertices := simple_of_check (by decide +kernel)
  exact ⟨hs, hs.proper, C52_returns rfl hs, by decide +kernel⟩

/-- An opened polyline with a bend. -/
def bentLine : Polyline (Vertex ℚ) := ⟨[⟨0, 0, false⟩, ⟨2, 0, false⟩, ⟨2, 2, false⟩], true, by simp⟩

/-- An opened polyline along a line. -/
def straightLine : Polyline (Vertex ℚ) := ⟨[⟨0, 0, false⟩, ⟨1, 0, false⟩, ⟨2, 0, false⟩], true, by simp⟩

/-- C52 fails for opened polylines: minifying closes one with a bend, and panics on a straight one. -/
theorem C52_opened_false :
    (∃ m, minifiedNoncolinear 0 bentLine = .ok m ∧ bentLine.opened = true ∧ m.opened = false) ∧
      minifiedNoncolinear 0 straightLine = .panic := by
  constructor
  · have h : (match minifiedNoncolinear 0 bentLine with | .ok m => decide (m.opened = false) | _ => false) = true := by
      decide +kernel
    split at h
    · rename_i m h'; exact ⟨m, h', rfl, by simpa using h⟩
    · simp at h
  · have h : (match minifiedNoncolinear 0 straightLine with | .panic => true | _ => false) = true := by decide +kernel
    split at h
    · assumption
    · simp at h

end Verif.Props
