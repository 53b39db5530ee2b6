import Verif.Model.Boolean
import Verif.Lemmas.Pieces
import Verif.Lemmas.Sets
import Verif.Props.Shoelace

/-!
# Intersection, union and subtraction of polylines
-/

set_option linter.unusedSectionVars false

namespace Verif

open Spec

variable {K : Type*} [Field K] [LinearOrder K] [IsStrictOrderedRing K]

theorem firstMin_mem {α : Type*} {lt : α → α → Bool} {l : List α} {a : α} (h : firstMin lt l = some a) :
    a ∈ l := by
  induction l generalizing a with
  | nil => simp [firstMin] at h
  | cons b l ih =>
    rw [firstMin] at h
    cases hm : firstMin lt l with
    | none => rw [hm] at h; simp only [Option.some.injEq] at h; simp [h]
    | some c =>
      rw [hm] at h
      simp only at h
      split_ifs at h
      · injection h with h; subst h; exact List.mem_cons_of_mem _ (ih hm)
      · injection h with h; simp [h]

theorem firstMin_none {α : Type*} {lt : α → α → Bool} {l : List α} : firstMin lt l = none ↔ l = [] := by
  cases l with
  | nil => simp [firstMin]
  | cons b l =>
    simp only [firstMin, reduceCtorEq, iff_false]
    cases firstMin lt l with
    | none => simp
    | some c => simp only; split_ifs <;> simp

/-- The element found is minimal, for a comparison that orders. -/
theorem firstMin_le {α : Type*} {lt : α → α → Bool}
    (htrans : ∀ a b c, lt a b = false → lt b c = false → lt a c = false)
    (hasymm : ∀ a b, lt a b = true → lt b a = false) {l : List α} {a : α}
    (h : firstMin lt l = some a) : ∀ b ∈ l, lt b a = false := by
  have hirr : ∀ a, lt a a = false := fun a => by
    cases hh : lt a a with
    | false => rfl
    | true => exact absurd (hasymm a a hh) (by simp [hh])
  induction l generalizing a with
  | nil => simp
  | cons c l ih =>
    rw [firstMin] at h
    cases hm : firstMin lt l with
    | none =>
      rw [hm] at h
      simp only [Option.some.injEq] at h
      rw [firstMin_none] at hm
      subst hm; subst h
      simp [hirr]
    | some d =>
      rw [hm] at h
      simp only at h
      have ih' := ih hm
      split_ifs at h with hlt
      · injection h with h; subst h
        intro b hb
        rcases List.mem_cons.1 hb with rfl | hb
        · exact hasymm _ _ hlt
        · exact ih' b hb
      · injection h with h; subst h
        intro b hb
        rcases List.mem_cons.1 hb with rfl | hb
        · exact hirr _
        · exact htrans b d _ (ih' b hb) (by simpa using hlt)

theorem foldl_fmin_attained {α : Type*} (f : α → K) (l : List α) (m : K) :
    l.foldl (fun m v => fmin m (f v)) m = m ∨ ∃ v ∈ l, l.foldl (fun m v => fmin m (f v)) m = f v := by
  induction l generalizing m with
  | nil => exact Or.inl rfl
  | cons a l ih =>
    rw [List.foldl_cons]
    rcases ih (fmin m (f a)) with h | ⟨v, hv, h⟩
    · rw [h]
      unfold fmin
      split_ifs
      · exact Or.inl rfl
      · exact Or.inr ⟨a, by simp, rfl⟩
    · exact Or.inr ⟨v, List.mem_cons_of_mem _ hv, h⟩

theorem foldl_fmax_attained {α : Type*} (f : α → K) (l : List α) (m : K) :
    l.foldl (fun m v => fmax m (f v)) m = m ∨ ∃ v ∈ l, l.foldl (fun m v => fmax m (f v)) m = f v := by
  induction l generalizing m with
  | nil => exact Or.inl rfl
  | cons a l ih =>
    rw [List.foldl_cons]
    rcases ih (fmax m (f a)) with h | ⟨v, hv, h⟩
    · rw [h]
      unfold fmax
      split_ifs
      · exact Or.inl rfl
      · exact Or.inr ⟨a, by simp, rfl⟩
    · exact Or.inr ⟨v, List.mem_cons_of_mem _ hv, h⟩

/-- The sides of the box of a list of points pass through some of them. -/
theorem fromVertices_attained {l : List (Vertex K)} {b : BBox K} (h : BBox.fromVertices l = some b) :
    (∃ v ∈ l, b.origin.x = v.x) ∧ (∃ v ∈ l, b.destin.x = v.x) ∧ (∃ v ∈ l, b.origin.y = v.y) ∧
      ∃ v ∈ l, b.destin.y = v.y := by
  cases l with
  | nil => simp [BBox.fromVertices] at h
  | cons v0 rest =>
    simp only [BBox.fromVertices, Option.some.injEq] at h
    subst h
    refine ⟨?_, ?_, ?_, ?_⟩
    · rcases foldl_fmin_attained (fun v : Vertex K => v.x) (v0 :: rest) v0.x with h | h
      · exact ⟨v0, by simp, h⟩
      · exact h
    · rcases foldl_fmax_attained (fun v : Vertex K => v.x) (v0 :: rest) v0.x with h | h
      · exact ⟨v0, by simp, h⟩
      · exact h
    · rcases foldl_fmin_attained (fun v : Vertex K => v.y) (v0 :: rest) v0.y with h | h
      · exact ⟨v0, by simp, h⟩
      · exact h
    · rcases foldl_fmax_attained (fun v : Vertex K => v.y) (v0 :: rest) v0.y with h | h
      · exact ⟨v0, by simp, h⟩
      · exact h

namespace Polyline

/-- `t` may follow `s`. -/
def Follows (eps : K) (s t : Seg K) : Prop :=
  Vertex.eqv eps s.2 t.1 = true ∧ Vertex.eqv eps s.1 t.1 = false ∧ Vertex.eqv eps s.1 t.2 = false ∧
    Vertex.eqv eps s.2 t.2 = false

theorem mem_nextSegments {eps : K} {s t : Seg K} {l : List (Seg K)} :
    t ∈ nextSegments eps s l ↔ t ∈ l ∧ Follows eps s t := by
  simp only [nextSegments, List.mem_filter, Follows, Bool.and_eq_true, Bool.not_eq_true',
    Bool.or_eq_false_iff]
  tauto

/-- The comparison used at `s`. -/
def prefer (eps : K) (least : Bool) (s : Seg K) (t u : Seg K) : Bool :=
  if least then angleLt eps s.1 s.2 t.2 u.2 else angleLt eps s.1 s.2 u.2 t.2

theorem angleLt_trans {eps : K} {a b c d e : Vertex K} (h1 : angleLt eps a b c d = false)
    (h2 : angleLt eps a b d e = false) : angleLt eps a b c e = false := by
  unfold angleLt at *
  split_ifs at * <;> simp_all <;> linarith

theorem angleLt_asymm {eps : K} {a b c d : Vertex K} (h1 : angleLt eps a b c d = true) :
    angleLt eps a b d c = false := by
  unfold angleLt at *
  split_ifs at * <;> simp_all <;> linarith

theorem prefer_trans {eps : K} {least : Bool} {s : Seg K} (a b c : Seg K)
    (h1 : prefer eps least s a b = false) (h2 : prefer eps least s b c = false) :
    prefer eps least s a c = false := by
  unfold prefer at *
  cases least
  · simp only [Bool.false_eq_true, if_false] at *; exact angleLt_trans h2 h1
  · simp only [if_true] at *; exact angleLt_trans h1 h2

theorem prefer_asymm {eps : K} {least : Bool} {s : Seg K} (a b : Seg K)
    (h1 : prefer eps least s a b = true) : prefer eps least s b a = false := by
  unfold prefer at *
  cases least
  · simp only [Bool.false_eq_true, if_false] at *; exact angleLt_asymm h1
  · simp only [if_true] at *; exact angleLt_asymm h1

/-- The chain `ext` continues `last`, each time with the preferred segment among those that come later in it or
stay in `rest`; nothing in `rest` continues it. -/
inductive Traced (eps : K) (least : Bool) : Seg K → List (Seg K) → List (Seg K) → Prop
  | stop {last rest} (h : ∀ u ∈ rest, ¬ Follows eps last u) : Traced eps least last [] rest
  | step {last t ext rest} (h : Follows eps last t)
      (hmin : ∀ u ∈ ext ++ rest, Follows eps last u → prefer eps least last u t = false)
      (hnext : Traced eps least t ext rest) : Traced eps least last (t :: ext) rest

theorem follow_spec {eps : K} {least : Bool} {n : Nat} : ∀ {σ : Sched} {chain possible : List (Seg K)}
    {last : Seg K} {r : List (Seg K) × List (Seg K)}, possible.Nodup →
    follow eps least n σ chain last possible = .ok r →
    ∃ ext, r.1 = chain ++ ext ∧ (ext ++ r.2).Perm possible ∧ Traced eps least last ext r.2 := by
  induction n with
  | zero => intro σ chain possible last r _ h; simp [follow] at h
  | succ n ih =>
    intro σ chain possible last r hn h
    rw [follow] at h
    split at h
    · rename_i hm
      injection h with h
      subst h
      rw [firstMin_none] at hm
      refine ⟨[], by simp, by simp, Traced.stop ?_⟩
      intro u hu hf
      have : u ∈ shuffle (σ.sub 0) (nextSegments eps last possible) :=
        mem_shuffle.2 (mem_nextSegments.2 ⟨hu, hf⟩)
      rw [hm] at this
      simp at this
    · rename_i s hm
      have hs := mem_nextSegments.1 (mem_shuffle.1 (firstMin_mem hm))
      obtain ⟨ext, h1, h2, h3⟩ := ih (nodup_setErase hn) h
      have hp : (s :: (ext ++ r.2)).Perm possible :=
        (List.Perm.cons s h2).trans (setErase_perm hn hs.1)
      refine ⟨s :: ext, by rw [h1]; simp, hp, Traced.step hs.2 ?_ h3⟩
      intro u hu hf
      refine firstMin_le (lt := prefer eps least last) prefer_trans prefer_asymm hm u ?_
      exact mem_shuffle.2 (mem_nextSegments.2 ⟨hp.mem_iff.1 (List.mem_cons_of_mem _ hu), hf⟩)

theorem follow_total {eps : K} {least : Bool} {n : Nat} : ∀ {σ : Sched} {chain possible : List (Seg K)}
    {last : Seg K}, possible.Nodup → possible.length < n →
    ∃ r, follow eps least n σ chain last possible = .ok r := by
  induction n with
  | zero => intro σ chain possible last _ h; simp at h
  | succ n ih =>
    intro σ chain possible last hn h
    rw [follow]
    split
    · exact ⟨_, rfl⟩
    · rename_i s hm
      have hs := mem_nextSegments.1 (mem_shuffle.1 (firstMin_mem hm))
      have hl := (setErase_perm hn hs.1).length_eq
      simp only [List.length_cons] at hl
      exact ih (nodup_setErase hn) (by omega)

/-- `follow` ends within the number of segments. -/
theorem follow_ok {eps : K} {least : Bool} {σ : Sched} {h : Seg K} {possible : List (Seg K)}
    (hn : possible.Nodup) :
    ∃ ext rest, follow eps least (possible.length + 1) σ [h] h possible = .ok (h :: ext, rest) ∧
      (ext ++ rest).Perm possible ∧ Traced eps least h ext rest := by
  obtain ⟨r, hr⟩ := follow_total (eps := eps) (least := least) (σ := σ) (chain := [h]) (last := h) hn
    (Nat.lt_succ_self possible.length)
  obtain ⟨ext, h1, h2, h3⟩ := follow_spec hn hr
  refine ⟨ext, r.2, ?_, h2, h3⟩
  rw [hr]
  congr 1
  exact Prod.ext h1 rfl

/-- Each segment of the list ends where the next one starts. -/
def Linked : List (Seg K) → Prop
  | [] => True
  | [_] => True
  | s :: t :: l => s.2 = t.1 ∧ Linked (t :: l)

theorem Traced.linked {least : Bool} {last : Seg K} {ext rest : List (Seg K)}
    (h : Traced 0 least last ext rest) (hs : ∀ s ∈ last :: ext, Solid s) : Linked (last :: ext) := by
  induction h with
  | stop h => trivial
  | @step last t ext rest hf hmin hnext ih =>
    refine ⟨?_, ih (fun s hs' => hs s (List.mem_cons_of_mem _ hs'))⟩
    have h1 := (hs last (by simp)).2
    have h2 := (hs t (by simp)).1
    exact vertex_eq ((eqv_zero h1 h2).1 hf.1) h1 h2

theorem consecutive_linked (l : List (Seg K)) (s : Seg K) (h : Linked (s :: l)) (v : Vertex K)
    (hv : ((s :: l).getLast (by simp)).2 = v) :
    consecutivePairs ((s :: l).map (·.1) ++ [v]) = s :: l := by
  induction l generalizing s with
  | nil =>
    simp only [List.getLast_singleton] at hv
    subst hv
    rfl
  | cons t l ih =>
    obtain ⟨h1, h2⟩ := h
    have := ih t h2 (by rw [List.getLast_cons (by simp)] at hv; exact hv)
    simp only [List.map_cons, List.cons_append] at this ⊢
    rw [consecutivePairs, this, ← h1]

/-- A chain that closes up is the list of the sides of the polygon made of its starting points. -/
theorem pairs_linked {l : List (Seg K)} {s : Seg K} (h : Linked (s :: l))
    (hv : ((s :: l).getLast (by simp)).2 = s.1) : pairs ((s :: l).map (·.1)) false = s :: l := by
  rw [List.map_cons, pairs_closed_eq]
  exact consecutive_linked l s h s.1 hv

theorem closes_iff {l : List (Seg K)} {s : Seg K} (hs : ∀ t ∈ s :: l, Solid t) :
    closes 0 (s :: l) = true ↔ 2 < (s :: l).length ∧ ((s :: l).getLast (by simp)).2 = s.1 := by
  have h1 := (hs _ (List.getLast_mem (l := s :: l) (by simp))).2
  have h2 := (hs s (by simp)).1
  unfold closes
  rw [List.head?_cons, List.getLast?_eq_getLast_of_ne_nil (by simp)]
  simp only [Bool.and_eq_true, decide_eq_true_eq, eqv_zero h1 h2]
  constructor
  · rintro ⟨a, b⟩; exact ⟨a, vertex_eq b h1 h2⟩
  · rintro ⟨a, b⟩; exact ⟨a, by rw [b]; exact ⟨rfl, rfl⟩⟩

/-- The segments of the list form a path from `a` to `b`; when it comes back to its start after more than two steps, its
first points make a polygon with that list of sides. -/
theorem traced_facts {least : Bool} {h : Seg K} {ext rest : List (Seg K)} (ht : Traced 0 least h ext rest)
    (hs : ∀ s ∈ h :: ext, Solid s) :
    (closes 0 (h :: ext) = true →
      2 < (h :: ext).length ∧ pairs ((h :: ext).map (·.1)) false = h :: ext) := by
  intro hc
  obtain ⟨h1, h2⟩ := (closes_iff hs).1 hc
  exact ⟨h1, pairs_linked (ht.linked hs) h2⟩

/-- A chain that `union` gives up: it does not come back to its start in more than two steps, or it does not run
counterclockwise. -/
def GivenUp (c : List (Seg K)) : Prop :=
  c ≠ [] ∧ Linked c ∧ (closes 0 c = true → shoelace (c.map (·.1)) < 0)

/-- What `union` makes of the segments `possible`. -/
structure UnionOut (possible unused : List (Seg K)) (p : Polyline (Vertex K)) (out : List (Seg K)) : Prop where
  closed : p.opened = false
  ccw : 0 < shoelace p.vertices
  split : ∃ (gone : List (List (Seg K))) (rest : List (Seg K)), (pairs p.vertices false ++ gone.flatten ++ rest).Perm possible ∧
    (∀ c ∈ gone, GivenUp c) ∧ (∀ s, s ∈ out ↔ s ∈ unused ∨ s ∈ gone.flatten ∨ s ∈ rest) ∧
    ∃ h ext, pairs p.vertices false = h :: ext ∧ Traced 0 false h ext rest
  nodup : out.Nodup

theorem perm_unfold {possible ext rest : List (Seg K)} {h : Seg K} (hn : possible.Nodup) (hm : h ∈ possible)
    (hp : (ext ++ rest).Perm (setErase h possible)) : ((h :: ext) ++ rest).Perm possible :=
  (List.Perm.cons h hp).trans (setErase_perm hn hm)

theorem unionLoop_spec : ∀ (n : Nat) (σ : Sched) (possible unused : List (Seg K)),
    possible.length ≤ n → possible.Nodup → (∀ s ∈ possible, Solid s) →
    (∃ p out, unionLoop 0 n σ possible unused = .ok (some (p, out)) ∧ UnionOut possible unused p out) ∨
    (unionLoop 0 n σ possible unused = .ok none ∧
      ∃ gone : List (List (Seg K)), gone.flatten.Perm possible ∧ ∀ c ∈ gone, GivenUp c) ∨
    (unionLoop 0 n σ possible unused = .panic ∧ ∃ c : List (Seg K), c.Subperm possible ∧ 2 < c.length ∧
      pairs (c.map (·.1)) false = c ∧ shoelace (c.map (·.1)) = 0) := by
  intro n
  induction n with
  | zero =>
    intro σ possible unused hl hn hs
    have : possible = [] := List.length_eq_zero_iff.1 (Nat.le_zero.1 hl)
    subst this
    right; left
    exact ⟨by simp [unionLoop], [], by simp, by simp⟩
  | succ n ih =>
    intro σ possible unused hl hn hs
    rw [unionLoop]
    cases hc : choose (σ.sub 0) possible with
    | none =>
      rw [choose_eq_none] at hc
      subst hc
      right; left
      exact ⟨rfl, [], by simp, by simp⟩
    | some h =>
      have hm := choose_mem hc
      obtain ⟨ext, rest, h1, h2, h3⟩ := follow_ok (eps := (0 : K)) (least := false) (σ := σ.sub 1) (h := h)
        (nodup_setErase (a := h) hn)
      have hperm := perm_unfold hn hm h2
      have hsol : ∀ s ∈ h :: ext, Solid s := fun s hs' =>
        hs s (hperm.mem_iff.1 (List.mem_append_left _ hs'))
      have hsol' : ∀ s ∈ rest, Solid s := fun s hs' =>
        hs s (hperm.mem_iff.1 (List.mem_append_right _ hs'))
      have hnr : rest.Nodup := (hperm.nodup_iff.2 hn).of_append_right
      have hlr : rest.length ≤ n := by
        have := hperm.length_eq
        simp only [List.cons_append, List.length_cons, List.length_append] at this
        omega
      have hfacts := traced_facts h3 hsol
      simp only
      rw [h1, Res.bind_ok]
      simp only
      -- the rest of the loop, when this chain is given up
      have again : ∀ u', (∀ s, s ∈ u' ↔ s ∈ unused ∨ s ∈ h :: ext) → GivenUp (h :: ext) →
          (∃ p out, unionLoop 0 n (σ.sub 2) rest u' = .ok (some (p, out)) ∧ UnionOut possible unused p out) ∨
          (unionLoop 0 n (σ.sub 2) rest u' = .ok none ∧
            ∃ gone : List (List (Seg K)), gone.flatten.Perm possible ∧ ∀ c ∈ gone, GivenUp c) ∨
          (unionLoop 0 n (σ.sub 2) rest u' = .panic ∧ ∃ c : List (Seg K), c.Subperm possible ∧ 2 < c.length ∧
            pairs (c.map (·.1)) false = c ∧ shoelace (c.map (·.1)) = 0) := by
        intro u' hu' hg
        rcases ih (σ.sub 2) rest u' hlr hnr hsol' with ⟨p, out, e, ho⟩ | ⟨e, gone, g1, g2⟩ | ⟨e, c, c1, c2⟩
        · refine Or.inl ⟨p, out, e, ho.closed, ho.ccw, ?_, ho.nodup⟩
          obtain ⟨gone, rest', g1, g2, g3, h', ext', g4, g5⟩ := ho.split
          refine ⟨(h :: ext) :: gone, rest', ?_, ?_, ?_, h', ext', g4, g5⟩
          · refine List.Perm.trans ?_ hperm
            refine List.Perm.trans ?_ (List.Perm.append_left (h :: ext) g1)
            rw [List.perm_iff_count]; intro x
            simp only [List.flatten_cons, List.count_append]
            omega
          · intro c hc
            rcases List.mem_cons.1 hc with rfl | hc
            · exact hg
            · exact g2 c hc
          · intro s
            rw [g3, hu', List.flatten_cons, List.mem_append]
            tauto
        · refine Or.inr (Or.inl ⟨e, (h :: ext) :: gone, ?_, ?_⟩)
          · rw [List.flatten_cons]
            exact (List.Perm.append_left _ g1).trans hperm
          · intro c hc
            rcases List.mem_cons.1 hc with rfl | hc
            · exact hg
            · exact g2 c hc
        · refine Or.inr (Or.inr ⟨e, c, c1.trans ?_, c2⟩)
          exact (List.sublist_append_right (h :: ext) rest).subperm.trans hperm.subperm
      have hu : ∀ s, s ∈ toSet (unused ++ (h :: ext)) ↔ s ∈ unused ∨ s ∈ h :: ext := by
        intro s; rw [mem_toSet, List.mem_append]
      by_cases hcl : closes 0 (h :: ext) = true
      · obtain ⟨f1, f2⟩ := hfacts hcl
        obtain ⟨o1, o2, o3⟩ := Props.C39_orientation ((h :: ext).map (·.1))
        rw [f2] at o1 o2 o3
        rw [if_pos hcl]
        rcases lt_trichotomy 0 (shoelace ((h :: ext).map (·.1))) with hlt | heq | hgt
        · have hnc : newClosed ((h :: ext).map (·.1)) =
              some ⟨(h :: ext).map (·.1), false, by simp only [List.length_map]; omega⟩ := by
            unfold newClosed
            rw [dif_pos (by simp only [List.length_map]; omega)]
          rw [o1.2 hlt, Res.bind_ok, if_pos rfl, hnc]
          refine Or.inl ⟨_, _, rfl, rfl, hlt, ?_, nodup_toSet _⟩
          refine ⟨[], rest, ?_, by simp, ?_, h, ext, f2, h3⟩
          · simp only [f2, List.flatten_nil, List.append_nil]
            exact hperm
          · intro s
            rw [mem_toSet, List.mem_append]
            simp only [List.flatten_nil, List.not_mem_nil, false_or]
            tauto
        · rw [o3.2 heq.symm, Res.bind_panic]
          refine Or.inr (Or.inr ⟨rfl, h :: ext, ?_, f1, f2, heq.symm⟩)
          exact (List.sublist_append_left (h :: ext) rest).subperm.trans hperm.subperm
        · rw [o2.2 hgt, Res.bind_ok, if_neg (by simp)]
          exact again _ hu ⟨by simp, h3.linked hsol, fun _ => hgt⟩
      · rw [if_neg hcl]
        exact again _ hu ⟨by simp, h3.linked hsol, fun h => absurd h hcl⟩

theorem sieve_mem {keep : Seg K → Bool} {l u : List (Seg K)} :
    (∀ s, s ∈ (sieve keep l u).1 ↔ s ∈ l ∧ keep s = true) ∧
      (∀ s, s ∈ (sieve keep l u).2 ↔ (s ∈ l ∧ keep s = false) ∨ s ∈ u) := by
  unfold sieve
  constructor
  · intro s
    simp only [mem_toSet, List.mem_filter, List.mem_reverse]
  · intro s
    rw [mem_foldl_setInsert]
    simp only [List.mem_filter, List.mem_reverse, Bool.not_eq_true']

theorem sieve_nodup {keep : Seg K → Bool} {l u : List (Seg K)} (hu : u.Nodup) :
    (sieve keep l u).1.Nodup ∧ (sieve keep l u).2.Nodup :=
  ⟨nodup_toSet _, nodup_foldl_setInsert _ _ hu⟩

theorem pairs_solid' {l : List (Vertex K)} {o : Bool} (h : ∀ v ∈ l, v.isGhost = false) :
    ∀ s ∈ pairs l o, Solid s := fun _ hs => ⟨h _ (mem_pairs hs).1, h _ (mem_pairs hs).2⟩

theorem two_solid {l1 l2 : List (Vertex K)} {o1 o2 : Bool} (h1 : ∀ v ∈ l1, v.isGhost = false)
    (h2 : ∀ v ∈ l2, v.isGhost = false) : ∀ s ∈ pairs l1 o1 ++ pairs l2 o2, Solid s := by
  intro s hs
  rcases List.mem_append.1 hs with hs | hs
  · exact pairs_solid' h1 s hs
  · exact pairs_solid' h2 s hs

theorem midpoint_solid {s : Seg K} (h : Solid s) :
    midpoint s.1 s.2 = (⟨(s.1.x + s.2.x) / 2, (s.1.y + s.2.y) / 2, false⟩ : Vertex K) := by
  unfold midpoint
  rw [h.1, h.2]
  rfl

theorem midpoint_eq_edge {s : Seg K} (h : Solid s) : midpoint s.1 s.2 = Edge.midpoint ⟨s.1, s.2⟩ := by
  rw [midpoint_solid h]; rfl

theorem boxesDisjoint_ok (p1 p2 : Polyline (Vertex K)) : ∃ d, boxesDisjoint p1 p2 = .ok d := by
  have key : ∀ p : Polyline (Vertex K), ∃ b, p.boundingBox = some b := by
    intro p
    have := p.two_le
    unfold boundingBox BBox.fromVertices
    cases hv : p.vertices with
    | nil => rw [hv] at this; simp at this
    | cons v l => exact ⟨_, rfl⟩
  obtain ⟨b1, h1⟩ := key p1
  obtain ⟨b2, h2⟩ := key p2
  exact ⟨_, by unfold boxesDisjoint; rw [h1, h2]⟩

/-- `union` on closed polylines whose boxes meet. -/
theorem union_unfold {fuel : Nat} {σ : Sched} {p1 p2 : Polyline (Vertex K)} (h1 : p1.opened = false)
    (h2 : p2.opened = false) (hd : boxesDisjoint p1 p2 = .ok false) :
    union 0 fuel σ p1 p2 =
      (splitIntersections 0 fuel (pairs p1.vertices false ++ pairs p2.vertices false)).bind fun segments =>
        unionLoop 0 (sieve (keepUnion 0 p1 p2) segments []).1.length σ
          (sieve (keepUnion 0 p1 p2) segments []).1 (sieve (keepUnion 0 p1 p2) segments []).2 := by
  unfold union splitTwo
  rw [h1, h2, hd]
  simp

theorem union_early {eps : K} {fuel : Nat} {σ : Sched} {p1 p2 : Polyline (Vertex K)}
    (h : p1.opened = true ∨ p2.opened = true ∨ boxesDisjoint p1 p2 = .ok true) :
    union eps fuel σ p1 p2 = .ok none := by
  unfold union
  by_cases ho : (p1.opened || p2.opened) = true
  · rw [if_pos ho]
  · rw [if_neg ho]
    rw [Bool.or_eq_true, not_or] at ho
    rcases h with h | h | h
    · exact absurd h ho.1
    · exact absurd h ho.2
    · rw [h]; simp

theorem segments_solid {l r : List (Seg K)} (hl : ∀ s ∈ l, Solid s) {fuel : Nat}
    (hr : splitIntersections 0 fuel l = .ok r) : ∀ s ∈ r, Solid s := fun s hs =>
  (splitIntersections_inv hl hr).solid s (by simpa using hs)

theorem linked_pred : ∀ {l : List (Seg K)} {h t : Seg K}, Linked (h :: l) → t ∈ l →
    ∃ s A B, h :: l = A ++ s :: t :: B ∧ s.2 = t.1 := by
  intro l
  induction l with
  | nil => intro h t _ ht; simp at ht
  | cons u l ih =>
    intro h t hl ht
    by_cases htu : t = u
    · subst htu
      exact ⟨h, [], l, rfl, hl.1⟩
    · obtain ⟨s, A, B, h1, h2⟩ := ih hl.2 ((List.mem_cons.1 ht).resolve_left htu)
      exact ⟨s, h :: A, B, by rw [h1]; rfl, h2⟩

/-- In circuits that do not branch, a chain comes back to its start and leaves circuits. -/
theorem traced_circuit {least : Bool} {h : Seg K} {ext rest k : List (Seg K)} (ht : Traced 0 least h ext rest)
    (hs : ∀ s ∈ k, Solid s) (hk : Circuits k) (hn : k.Nodup) (hp : ((h :: ext) ++ rest).Perm k) :
    closes 0 (h :: ext) = true ∧ Circuits rest := by
  have hsol : ∀ s ∈ h :: ext, Solid s := fun s hs' => hs s (hp.mem_iff.1 (List.mem_append_left _ hs'))
  have hlink := ht.linked hsol
  have hnd : ((h :: ext) ++ rest).Nodup := hp.nodup_iff.2 hn
  have memc : ∀ s ∈ h :: ext, s ∈ k := fun s hs' => hp.mem_iff.1 (List.mem_append_left _ hs')
  have memr : ∀ s ∈ rest, s ∈ k := fun s hs' => hp.mem_iff.1 (List.mem_append_right _ hs')
  have hstop : ∀ {last : Seg K} {ext rest}, Traced 0 least last ext rest →
      ∀ u ∈ rest, ¬ Follows 0 ((last :: ext).getLast (by simp)) u := by
    intro last ext rest ht
    induction ht with
    | stop h => exact h
    | step _ _ _ ih => rw [List.getLast_cons (by simp)]; exact ih
  have hfollows : ∀ s ∈ k, ∀ t ∈ k, t.1 = s.2 → Follows 0 s t := by
    intro s hsk t htk he
    have ss := hs s hsk
    have st := hs t htk
    obtain ⟨p1, p2⟩ := hk.proper s hsk
    obtain ⟨q1, -⟩ := hk.proper t htk
    have neq : ∀ {a b : Vertex K}, a.isGhost = false → b.isGhost = false → a ≠ b →
        Vertex.eqv 0 a b = false := by
      intro a b ha hb hne
      cases hh : Vertex.eqv 0 a b with
      | false => rfl
      | true => exact absurd (vertex_eq ((eqv_zero ha hb).1 hh) ha hb) hne
    refine ⟨(eqv_zero ss.2 st.1).2 (by rw [he]; exact ⟨rfl, rfl⟩), neq ss.1 st.1 (by rw [he]; exact p1),
      neq ss.1 st.2 (fun h' => p2 ?_), neq ss.2 st.2 (fun h' => q1 (he.trans h'))⟩
    have : t = (s.2, s.1) := Prod.ext he h'.symm
    exact this ▸ htk
  obtain ⟨L, hL⟩ : ∃ L, L = (h :: ext).getLast (by simp) := ⟨_, rfl⟩
  have hLm : L ∈ h :: ext := hL ▸ List.getLast_mem _
  have hback : L.2 = h.1 := by
    obtain ⟨t, ht', he⟩ := hk.next L (memc L hLm)
    have htc : t ∈ h :: ext := by
      rcases List.mem_append.1 (hp.mem_iff.2 ht') with h' | h'
      · exact h'
      · exact absurd (hfollows L (memc L hLm) t ht' he) (hL ▸ hstop ht t h')
    rcases List.mem_cons.1 htc with rfl | hte
    · exact he.symm
    · obtain ⟨s, A, B, h1, h2⟩ := linked_pred hlink hte
      have hsm : s ∈ h :: ext := by rw [h1]; simp
      have : s = L := hk.ends s (memc s hsm) L (memc L hLm) (h2.trans he)
      exfalso
      have hLast : L ∈ t :: B := by
        have e : (h :: ext).getLast (by simp) = (t :: B).getLast (by simp) := by
          simp only [h1]
          rw [List.getLast_append_of_ne_nil (by simp) (by simp), List.getLast_cons (by simp)]
        rw [hL, e]; exact List.getLast_mem _
      have hnd' : (h :: ext).Nodup := hnd.of_append_left
      rw [h1, this] at hnd'
      exact (List.nodup_cons.1 hnd'.of_append_right).1 hLast
  have hpred : ∀ t ∈ h :: ext, ∃ s ∈ h :: ext, s.2 = t.1 := by
    intro t htc
    rcases List.mem_cons.1 htc with rfl | hte
    · exact ⟨L, hLm, hback⟩
    · obtain ⟨s, A, B, h1, h2⟩ := linked_pred hlink hte
      exact ⟨s, by rw [h1]; simp, h2⟩
  refine ⟨(closes_iff hsol).2 ⟨?_, by rw [← hL]; exact hback⟩, ⟨fun s hsr => ?_,
    fun s hs' t ht' => hk.starts s (memr s hs') t (memr t ht'),
    fun s hs' t ht' => hk.ends s (memr s hs') t (memr t ht'),
    fun s hs' => ⟨(hk.proper s (memr s hs')).1, fun hm => (hk.proper s (memr s hs')).2 (memr _ hm)⟩⟩⟩
  · rcases ext with _ | ⟨e, _ | ⟨f, l⟩⟩
    · simp only [List.getLast_singleton] at hL
      subst hL
      exact absurd hback.symm (hk.proper L (memc L hLm)).1
    · simp only [List.getLast_cons_cons, List.getLast_singleton] at hL
      subst hL
      have he : h.2 = L.1 := hlink.1
      have : L = (h.2, h.1) := Prod.ext he.symm hback
      exact absurd (this ▸ memc L hLm) (hk.proper h (memc h (by simp))).2
    · simp only [List.length_cons]; omega
  · obtain ⟨t, ht', he⟩ := hk.next s (memr s hsr)
    rcases List.mem_append.1 (hp.mem_iff.2 ht') with h' | h'
    · obtain ⟨s', hs', he'⟩ := hpred t h'
      have : s' = s := hk.ends s' (memc s' hs') s (memr s hsr) (he'.trans he)
      subst this
      exact absurd hsr (List.disjoint_of_nodup_append hnd hs')
    · exact ⟨t, h', he⟩

theorem shoelace_enclosed (l : List (Vertex K)) : shoelace l = enclosed (pairs l false) := by
  cases l with
  | nil => simp [shoelace, enclosed, pairs, consecutivePairs]
  | cons a l =>
    rw [pairs_closed_eq]
    unfold shoelace enclosed
    have : ∀ (b : Vertex K) (m : List (Vertex K)), shoelaceFrom a (b :: m) =
        ((consecutivePairs (b :: (m ++ [a]))).map fun s => (s.1.x * s.2.y - s.2.x * s.1.y) / 2).sum := by
      intro b m
      induction m generalizing b with
      | nil => simp [shoelaceFrom, consecutivePairs]
      | cons c m ih =>
        rw [shoelaceFrom, ih c]
        simp [consecutivePairs]
    exact this a l

theorem enclosed_append (l m : List (Seg K)) : enclosed (l ++ m) = enclosed l + enclosed m := by
  simp [enclosed]

theorem enclosed_perm {l m : List (Seg K)} (h : l.Perm m) : enclosed l = enclosed m := (h.map _).sum_eq

/-- Circuits that do not branch and enclose a positive area contain a polygon that `union` accepts. -/
theorem unionLoop_complete : ∀ (n : Nat) (σ : Sched) (possible unused : List (Seg K)),
    possible.length ≤ n → possible.Nodup → (∀ s ∈ possible, Solid s) → Circuits possible →
    0 < enclosed possible → unionLoop 0 n σ possible unused ≠ .ok none := by
  intro n
  induction n with
  | zero =>
    intro σ possible unused hl _ _ _ hpos
    have : possible = [] := List.length_eq_zero_iff.1 (Nat.le_zero.1 hl)
    subst this
    simp [enclosed] at hpos
  | succ n ih =>
    intro σ possible unused hl hn hs hk hpos
    rw [unionLoop]
    cases hc : choose (σ.sub 0) possible with
    | none =>
      rw [choose_eq_none] at hc
      subst hc
      simp [enclosed] at hpos
    | some h =>
      have hm := choose_mem hc
      obtain ⟨ext, rest, h1, h2, h3⟩ := follow_ok (eps := (0 : K)) (least := false) (σ := σ.sub 1) (h := h)
        (nodup_setErase (a := h) hn)
      have hperm := perm_unfold hn hm h2
      obtain ⟨hcl, hkr⟩ := traced_circuit h3 hs hk hn hperm
      have hsol : ∀ s ∈ h :: ext, Solid s := fun s hs' =>
        hs s (hperm.mem_iff.1 (List.mem_append_left _ hs'))
      obtain ⟨f1, f2⟩ := traced_facts h3 hsol hcl
      simp only
      rw [h1, Res.bind_ok]
      simp only
      rw [if_pos hcl]
      obtain ⟨o1, o2, o3⟩ := Props.C39_orientation ((h :: ext).map (·.1))
      rw [f2] at o1 o2 o3
      rcases lt_trichotomy 0 (shoelace ((h :: ext).map (·.1))) with hlt | heq | hgt
      · have hnc : newClosed ((h :: ext).map (·.1)) =
            some ⟨(h :: ext).map (·.1), false, by simp only [List.length_map]; omega⟩ := by
          unfold newClosed
          rw [dif_pos (by simp only [List.length_map]; omega)]
        rw [o1.2 hlt, Res.bind_ok, if_pos rfl, hnc]
        simp
      · rw [o3.2 heq.symm, Res.bind_panic]
        simp
      · rw [o2.2 hgt, Res.bind_ok, if_neg (by simp)]
        refine ih _ _ _ ?_ (hperm.nodup_iff.2 hn).of_append_right
          (fun s hs' => hs s (hperm.mem_iff.1 (List.mem_append_right _ hs'))) hkr ?_
        · have := hperm.length_eq
          simp only [List.cons_append, List.length_cons, List.length_append] at this
          omega
        · rw [← enclosed_perm hperm, enclosed_append] at hpos
          rw [shoelace_enclosed, f2] at hgt
          linarith

/-- No polygon has all its sides going up. -/
theorem no_polygon_of_rank {V : Type*} (rank : V → ℤ) {l : List V} (hl : l ≠ [])
    (h : ∀ s ∈ pairs l false, rank s.1 < rank s.2) : False := by
  have h0 := sum_pairs_closed rank l
  have hne : pairs l false ≠ [] := by
    cases l with
    | nil => exact absurd rfl hl
    | cons a l => rw [pairs_closed_eq]; cases l <;> simp [consecutivePairs]
  have : ∀ m : List (V × V), (∀ s ∈ m, rank s.1 < rank s.2) → m ≠ [] →
      0 < (m.map fun s => rank s.2 - rank s.1).sum := by
    intro m
    induction m with
    | nil => intro _ h; exact absurd rfl h
    | cons s m ih =>
      intro hm _
      have h1 := hm s (by simp)
      rw [List.map_cons, List.sum_cons]
      by_cases hm' : m = []
      · subst hm'; simp; omega
      · have := ih (fun t ht => hm t (List.mem_cons_of_mem _ ht)) hm'
        omega
  exact absurd h0 (this _ h hne).ne'

/-- The three ways `union` can end once the segments are split. -/
theorem union_cases {fuel : Nat} {σ : Sched} {p1 p2 : Polyline (Vertex K)} (h1 : p1.opened = false)
    (h2 : p2.opened = false) (hd : boxesDisjoint p1 p2 = .ok false)
    (g1 : ∀ v ∈ p1.vertices, v.isGhost = false) (g2 : ∀ v ∈ p2.vertices, v.isGhost = false)
    {segments : List (Seg K)}
    (hs : splitIntersections 0 fuel (pairs p1.vertices false ++ pairs p2.vertices false) = .ok segments) :
    let k := sieve (keepUnion 0 p1 p2) segments []
    (∃ p out, union 0 fuel σ p1 p2 = .ok (some (p, out)) ∧ UnionOut k.1 k.2 p out) ∨
    (union 0 fuel σ p1 p2 = .ok none ∧
      ∃ gone : List (List (Seg K)), gone.flatten.Perm k.1 ∧ ∀ c ∈ gone, GivenUp c) ∨
    (union 0 fuel σ p1 p2 = .panic ∧ ∃ c : List (Seg K), c.Subperm k.1 ∧ 2 < c.length ∧
      pairs (c.map (·.1)) false = c ∧ shoelace (c.map (·.1)) = 0) := by
  intro k
  rw [union_unfold h1 h2 hd, hs, Res.bind_ok]
  refine unionLoop_spec _ _ _ _ le_rfl (sieve_nodup List.nodup_nil).1 fun s hs' => ?_
  exact segments_solid (two_solid g1 g2) hs s (sieve_mem.1 s |>.1 hs').1

theorem union_some {fuel : Nat} {σ : Sched} {p1 p2 p : Polyline (Vertex K)} {out : List (Seg K)}
    (g1 : ∀ v ∈ p1.vertices, v.isGhost = false) (g2 : ∀ v ∈ p2.vertices, v.isGhost = false)
    (h : union 0 fuel σ p1 p2 = .ok (some (p, out))) :
    p1.opened = false ∧ p2.opened = false ∧ ∃ segments,
      splitIntersections 0 fuel (pairs p1.vertices false ++ pairs p2.vertices false) = .ok segments ∧
      UnionOut (sieve (keepUnion 0 p1 p2) segments []).1 (sieve (keepUnion 0 p1 p2) segments []).2 p out := by
  have h1 : p1.opened = false := by
    cases ho : p1.opened with
    | false => rfl
    | true => rw [union_early (Or.inl ho)] at h; simp at h
  have h2 : p2.opened = false := by
    cases ho : p2.opened with
    | false => rfl
    | true => rw [union_early (Or.inr (Or.inl ho))] at h; simp at h
  obtain ⟨d, hd⟩ := boxesDisjoint_ok p1 p2
  cases d with
  | true => rw [union_early (Or.inr (Or.inr hd))] at h; simp at h
  | false =>
    have h' := h
    rw [union_unfold h1 h2 hd] at h'
    obtain ⟨segments, hs, -⟩ := Res.bind_eq_ok.1 h'
    refine ⟨h1, h2, segments, hs, ?_⟩
    rcases union_cases (σ := σ) h1 h2 hd g1 g2 hs with ⟨p', out', e, ho⟩ | ⟨e, -⟩ | ⟨e, -⟩
    · rw [h] at e
      injection e with e
      injection e with e
      injection e with e1 e2
      subst e1; subst e2
      exact ho
    · rw [h] at e; simp at e
    · rw [h] at e; simp at e

/-- A piece that lies on the first polygon where the second one leaves it outside. -/
theorem keepUnion_piece {fuel : Nat} {p1 p2 : Polyline (Vertex K)} (h1 : p1.opened = false)
    (h2 : p2.opened = false) (g1 : ∀ v ∈ p1.vertices, v.isGhost = false)
    (g2 : ∀ v ∈ p2.vertices, v.isGhost = false) (n1 : NoFold p1.vertices) (n2 : NoFold p2.vertices)
    {segments : List (Seg K)}
    (hs : splitIntersections 0 fuel (pairs p1.vertices false ++ pairs p2.vertices false) = .ok segments)
    {s : Seg K} (hm : s ∈ segments) (hk : keepUnion 0 p1 p2 s = true) :
    (∀ x, StrictlyOn s.1 s.2 x → p1.contains 0 x = some .boundary ∧ p2.contains 0 x = some .outside) ∨
      ∀ x, StrictlyOn s.1 s.2 x → p2.contains 0 x = some .boundary ∧ p1.contains 0 x = some .outside := by
  have hsol := two_solid (o1 := false) (o2 := false) g1 g2
  have hinv := splitIntersections_inv hsol hs
  have hss := segments_solid hsol hs s hm
  by_cases hdeg : SamePoint s.1 s.2
  · left
    rintro x ⟨⟨t, -, -, tx, ty⟩, hx, -⟩
    exact absurd ⟨by rw [tx, hdeg.1]; ring, by rw [ty, hdeg.2]; ring⟩ hx
  have hmid : StrictlyOn s.1 s.2 (midpoint s.1 s.2) := by
    rw [midpoint_eq_edge hss]; exact midpoint_strictlyOn hdeg
  obtain ⟨t, ht, t1, t2⟩ := hinv.parent s (by simpa using hm)
  have len1 : 0 < p1.vertices.length := by have := p1.two_le; omega
  have len2 : 0 < p2.vertices.length := by have := p2.two_le; omega
  have u1 : ∀ x y, StrictlyOn s.1 s.2 x → StrictlyOn s.1 s.2 y → p1.contains 0 x = p1.contains 0 y :=
    fun x y hx hy => piece_uniform hsol hs h1 len1 n1
      (fun e he => Or.inl (List.mem_append_left _ he)) hm hx hy
  have u2 : ∀ x y, StrictlyOn s.1 s.2 x → StrictlyOn s.1 s.2 y → p2.contains 0 x = p2.contains 0 y :=
    fun x y hx hy => piece_uniform hsol hs h2 len2 n2
      (fun e he => Or.inl (List.mem_append_right _ he)) hm hx hy
  unfold keepUnion outsideOne at hk
  rw [Bool.or_eq_true, decide_eq_true_eq, decide_eq_true_eq] at hk
  rcases List.mem_append.1 ht with ht | ht
  · left
    have hb : ∀ x, StrictlyOn s.1 s.2 x → p1.contains 0 x = some .boundary := fun x hx =>
      (Props.C08_boundary_exact p1 h1 x).2 ⟨t, ht, onSegment_trans t1 t2 hx.1⟩
    have ho : p2.contains 0 (midpoint s.1 s.2) = some .outside := by
      rcases hk with hk | hk
      · rw [hb _ hmid] at hk; simp at hk
      · exact hk
    exact fun x hx => ⟨hb x hx, (u2 x _ hx hmid).trans ho⟩
  · right
    have hb : ∀ x, StrictlyOn s.1 s.2 x → p2.contains 0 x = some .boundary := fun x hx =>
      (Props.C08_boundary_exact p2 h2 x).2 ⟨t, ht, onSegment_trans t1 t2 hx.1⟩
    have ho : p1.contains 0 (midpoint s.1 s.2) = some .outside := by
      rcases hk with hk | hk
      · exact hk
      · rw [hb _ hmid] at hk; simp at hk
    exact fun x hx => ⟨hb x hx, (u1 x _ hx hmid).trans ho⟩

end Polyline

end Verif
