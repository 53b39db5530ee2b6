import Verif.Lemmas.Orders
import Verif.Lemmas.EdgeOps
import Verif.Model.EdgeMaps

/-!
# The two hash maps of `Edge::arrange` represent one set of edges
-/

set_option linter.unusedSectionVars false

namespace Verif

namespace VertexMap

variable {V : Type*} [DecidableEq V]

theorem get_cons (e : V × List V) (m : VertexMap V) (k : V) :
    get (e :: m) k = if e.1 = k then some e.2 else get m k := by
  unfold get
  by_cases h : e.1 = k <;> simp [h]

theorem get_set (m : VertexMap V) (k k' : V) (s : List V) :
    (m.set k s).get k' = if k' = k then (m.get k).map (fun _ => s) else m.get k' := by
  induction m with
  | nil => simp [set, get]
  | cons e m ih =>
    have h1 : set (e :: m) k s = (if e.1 = k then (e.1, s) else e) :: set m k s := rfl
    rw [h1, get_cons, ih, get_cons, get_cons]
    by_cases h2 : e.1 = k
    · by_cases h3 : k' = k
      · simp [h2, h3]
      · have : ¬ k = k' := fun h => h3 h.symm
        simp [h2, h3, this]
    · by_cases h3 : k' = k
      · subst h3; simp [h2]
      · simp [h2, h3]

theorem get_erase (m : VertexMap V) (k k' : V) :
    (m.erase k).get k' = if k' = k then none else m.get k' := by
  induction m with
  | nil => simp [erase, get]
  | cons e m ih =>
    unfold erase at ih ⊢
    by_cases h2 : e.1 = k
    · rw [List.filter_cons_of_neg (by simpa using h2), ih, get_cons]
      by_cases h3 : k' = k
      · simp [h3]
      · have : ¬ e.1 = k' := fun h => h3 (h.symm.trans h2)
        simp [h3, this]
    · rw [List.filter_cons_of_pos (by simpa using h2), get_cons, ih, get_cons]
      by_cases h3 : k' = k
      · subst h3; simp [h2]
      · simp [h3]

theorem keys_set (m : VertexMap V) (k : V) (s : List V) : (m.set k s).map (·.1) = m.map (·.1) := by
  unfold set
  rw [List.map_map]
  congr 1
  funext e
  simp only [Function.comp]
  split_ifs <;> rfl

theorem keys_erase {m : VertexMap V} (k : V) (h : (m.map (·.1)).Nodup) : ((m.erase k).map (·.1)).Nodup :=
  h.sublist (List.filter_sublist.map _)

theorem get_none {m : VertexMap V} {k : V} (h : m.get k = none) : k ∉ m.map (·.1) := by
  intro hk
  obtain ⟨e, he, rfl⟩ := List.mem_map.1 hk
  simp only [get, Option.map_eq_none_iff, List.find?_eq_none] at h
  simpa using h e he

theorem get_of_mem {m : VertexMap V} (hn : (m.map (·.1)).Nodup) {e : V × List V} (he : e ∈ m) :
    m.get e.1 = some e.2 := by
  induction m with
  | nil => simp at he
  | cons f m ih =>
    rw [List.map_cons, List.nodup_cons] at hn
    rw [get_cons]
    rcases List.mem_cons.1 he with rfl | he
    · simp
    · have : f.1 ≠ e.1 := fun h => hn.1 (by rw [h]; exact List.mem_map.2 ⟨e, he, rfl⟩)
      rw [if_neg this, ih hn.2 he]

/-- The map lists exactly the pairs of a relation, with one entry for a key and no empty entries. -/
structure Rep (m : VertexMap V) (R : V → V → Prop) : Prop where
  keys : (m.map (·.1)).Nodup
  full : ∀ k s, m.get k = some s → s ≠ []
  holds : ∀ k w, (∃ s, m.get k = some s ∧ w ∈ s) ↔ R k w

theorem Rep.congr {m : VertexMap V} {R S : V → V → Prop} (h : m.Rep R) (hRS : ∀ k w, R k w ↔ S k w) : m.Rep S :=
  ⟨h.keys, h.full, fun k w => (h.holds k w).trans (hRS k w)⟩

theorem Rep.empty : Rep ([] : VertexMap V) fun _ _ => False :=
  ⟨List.nodup_nil, fun k s h => by simp [get] at h, fun k w => by simp [get]⟩

theorem Rep.add {m : VertexMap V} {R : V → V → Prop} (h : m.Rep R) (k w : V) :
    (m.add k w).Rep fun a b => (a = k ∧ b = w) ∨ R a b := by
  unfold VertexMap.add
  cases hg : m.get k with
  | some s =>
    simp only []
    refine ⟨by rw [keys_set]; exact h.keys, ?_, ?_⟩
    · intro a b hb
      rw [get_set, hg] at hb
      split_ifs at hb
      · rw [Option.map_some, Option.some.injEq] at hb
        rw [← hb]
        exact List.ne_nil_of_mem (mem_setInsert.2 (Or.inl rfl))
      · exact h.full a b hb
    · intro a b
      rw [get_set, hg, ← h.holds]
      by_cases hak : a = k
      · subst hak; simp [hg]
      · simp [hak]
  | none =>
    simp only []
    refine ⟨?_, ?_, ?_⟩
    · rw [List.map_cons, List.nodup_cons]
      exact ⟨get_none hg, h.keys⟩
    · intro a b hb
      rw [get_cons] at hb
      split_ifs at hb
      · rw [Option.some.injEq] at hb
        rw [← hb]
        simp
      · exact h.full a b hb
    · intro a b
      rw [get_cons, ← h.holds]
      by_cases hak : k = a
      · subst hak; simp [hg]
      · have : a ≠ k := Ne.symm hak
        simp [hak, this]

theorem Rep.drop {m : VertexMap V} {R : V → V → Prop} (h : m.Rep R) {k w : V} (hR : R k w) :
    ∃ m', m.drop k w = .ok m' ∧ m'.Rep fun a b => R a b ∧ ¬ (a = k ∧ b = w) := by
  obtain ⟨s, hs, hw⟩ := (h.holds k w).2 hR
  unfold VertexMap.drop
  rw [hs]
  refine ⟨_, rfl, ?_⟩
  split_ifs with he
  · rw [List.isEmpty_iff] at he
    refine ⟨keys_erase k h.keys, ?_, ?_⟩
    · intro a b hb
      rw [get_erase] at hb
      split_ifs at hb
      exact h.full a b hb
    · intro a b
      rw [get_erase, ← h.holds]
      by_cases hak : a = k
      · subst hak
        simp only [if_true, reduceCtorEq, false_and, exists_false, hs, Option.some.injEq, exists_eq_left', true_and,
          false_iff, not_and, not_not]
        intro hb
        by_contra hbw
        have : b ∈ setErase w s := mem_setErase.2 ⟨hb, hbw⟩
        rw [he] at this
        simp at this
      · simp [hak]
  · refine ⟨by rw [keys_set]; exact h.keys, ?_, ?_⟩
    · intro a b hb
      rw [get_set, hs] at hb
      split_ifs at hb
      · rw [Option.map_some, Option.some.injEq] at hb
        rw [← hb]
        simpa using he
      · exact h.full a b hb
    · intro a b
      rw [get_set, hs, ← h.holds]
      by_cases hak : a = k
      · subst hak; simp [hs]
      · simp [hak]

end VertexMap

namespace Edge

section maps

variable {V : Type*} [DecidableEq V]

/-- The two maps represent the edges of a list. -/
def Maps (ht th : VertexMap V) (l : List (Edge V)) : Prop :=
  ht.Rep (fun a b => (⟨a, b⟩ : Edge V) ∈ l) ∧ th.Rep (fun b a => (⟨a, b⟩ : Edge V) ∈ l)

theorem Maps.congr {ht th : VertexMap V} {l l' : List (Edge V)} (h : Maps ht th l) (hl : ∀ e, e ∈ l ↔ e ∈ l') :
    Maps ht th l' :=
  ⟨h.1.congr fun _ _ => hl _, h.2.congr fun _ _ => hl _⟩

theorem intoHashmap_maps (σ : Sched) (base : List (Edge V)) :
    Maps (intoHashmap σ base).1 (intoHashmap σ base).2 base := by
  unfold intoHashmap
  have key : ∀ (l : List (Edge V)) (m : VertexMap V × VertexMap V) (done : List (Edge V)),
      Maps m.1 m.2 done →
      Maps (l.foldl (fun m e => (m.1.add e.v1 e.v2, m.2.add e.v2 e.v1)) m).1
        (l.foldl (fun m e => (m.1.add e.v1 e.v2, m.2.add e.v2 e.v1)) m).2 (l ++ done) := by
    intro l
    induction l with
    | nil => intro m done h; exact h
    | cons e l ih =>
      intro m done h
      refine (ih (m.1.add e.v1 e.v2, m.2.add e.v2 e.v1) (e :: done) ⟨?_, ?_⟩).congr ?_
      · refine (h.1.add e.v1 e.v2).congr fun a b => ?_
        cases e; simp
      · refine (h.2.add e.v2 e.v1).congr fun b a => ?_
        cases e; simp [and_comm]
      · intro f; simp; tauto
  refine (key (shuffle σ base) ([], []) [] ⟨?_, ?_⟩).congr fun e => ?_
  · exact VertexMap.Rep.empty.congr fun _ _ => by simp
  · exact VertexMap.Rep.empty.congr fun _ _ => by simp
  · simp

theorem Maps.symm_remove {ht th : VertexMap V} {l : List (Edge V)} (h : Maps ht th l) {a b : V}
    (hm : (⟨a, b⟩ : Edge V) ∈ l) :
    ∃ ht' th', removeEdge ht th a b = .ok (ht', th') ∧ removeEdge th ht b a = .ok (th', ht') ∧
      Maps ht' th' (setErase ⟨a, b⟩ l) := by
  obtain ⟨ht', h1, h2⟩ := h.1.drop (k := a) (w := b) hm
  obtain ⟨th', h3, h4⟩ := h.2.drop (k := b) (w := a) hm
  refine ⟨ht', th', by simp [removeEdge, h1, h3], by simp [removeEdge, h1, h3], ?_, ?_⟩
  · exact h2.congr fun x y => by simp
  · exact h4.congr fun x y => by simp [and_comm]

end maps

variable {K : Type*} [Field K] [LinearOrder K]

theorem Maps.tails {V : Type*} [DecidableEq V] {ht th : VertexMap V} {l : List (Edge V)} (h : Maps ht th l) {a : V} {ts : List V}
    (hg : ht.get a = some ts) (b : V) : b ∈ ts ↔ (⟨a, b⟩ : Edge V) ∈ l := by
  rw [← h.1.holds a b, hg]; simp

theorem Maps.heads {V : Type*} [DecidableEq V] {ht th : VertexMap V} {l : List (Edge V)} (h : Maps ht th l) {b : V} {hs : List V}
    (hg : th.get b = some hs) (a : V) : a ∈ hs ↔ (⟨a, b⟩ : Edge V) ∈ l := by
  rw [← h.2.holds b a, hg]; simp

/-- No edge to extend with at the tail: what both ways of finding nothing mean. -/
theorem Maps.head_step {eps : K} {ht th : VertexMap (Vertex K)} {l : List (Edge (Vertex K))} (h : Maps ht th l)
    (σ : Sched) (e : Edge (Vertex K)) (hno : ∀ f ∈ l, f.v1 = e.v2 → extendsTail eps e.v1 e.v2 f.v2 = false) :
    (∃ τ, extendOnce eps τ e l = none ∧ extendMapsHead eps σ e ht th = .ok none) ∨
    ∃ τ r ht' th', extendOnce eps τ e l = some r ∧ extendMapsHead eps σ e ht th = .ok (some (r.1, ht', th')) ∧
      Maps ht' th' r.2 := by
  have h0 : ∀ τ : Sched, (shuffle (τ.sub 0) l).find? (fun f =>
      decide (f.v1 = e.v2) && extendsTail eps e.v1 e.v2 f.v2) = none := by
    intro τ
    rw [List.find?_eq_none]
    intro f hf
    have := hno f (mem_shuffle.1 hf)
    by_cases h1 : f.v1 = e.v2
    · simp [h1, this h1]
    · simp [h1]
  have hnone : (∀ f ∈ l, f.v2 = e.v1 → extendsTail eps e.v2 e.v1 f.v1 = false) →
      extendOnce eps Sched.first e l = none := by
    intro hk
    unfold extendOnce
    rw [h0]
    simp only []
    have : (shuffle (Sched.first.sub 1) l).find? (fun f =>
        decide (f.v2 = e.v1) && extendsTail eps e.v2 e.v1 f.v1) = none := by
      rw [List.find?_eq_none]
      intro f hf
      have := hk f (mem_shuffle.1 hf)
      by_cases h1 : f.v2 = e.v1
      · simp [h1, this h1]
      · simp [h1]
    rw [this]
  unfold extendMapsHead
  cases hg : th.get e.v1 with
  | none =>
    refine .inl ⟨Sched.first, hnone ?_, rfl⟩
    intro f hf hfe
    exfalso
    have : ∃ s, th.get e.v1 = some s ∧ f.v1 ∈ s := (h.2.holds _ _).2 (by rw [← hfe]; exact hf)
    simp [hg] at this
  | some hs =>
    simp only []
    cases hf : (shuffle σ hs).find? fun h => extendsTail eps e.v2 e.v1 h with
    | none =>
      refine .inl ⟨Sched.first, hnone ?_, rfl⟩
      intro f hfl hfe
      rw [List.find?_eq_none] at hf
      have := hf f.v1 (mem_shuffle.2 ((h.heads hg f.v1).2 (by rw [← hfe]; exact hfl)))
      simpa using this
    | some a =>
      have h1 := mem_shuffle.1 (List.mem_of_find?_eq_some hf)
      have h2 := List.find?_some hf
      rw [h.heads hg] at h1
      obtain ⟨ht', th', _, h4, h5⟩ := h.symm_remove h1
      obtain ⟨τ, hτ⟩ := exists_find (p := fun f : Edge (Vertex K) =>
        decide (f.v2 = e.v1) && extendsTail eps e.v2 e.v1 f.v1) h1 (by simpa using h2)
      refine .inr ⟨Sched.join fun _ => τ, (⟨a, e.v2⟩, setErase ⟨a, e.v1⟩ l), ht', th', ?_, ?_, h5⟩
      · unfold extendOnce
        rw [h0]
        simp only [Sched.join_sub, hτ]
      · simp only []
        rw [h4]
        rfl

/-- One round with the maps is one round with the set. -/
theorem Maps.step {eps : K} {ht th : VertexMap (Vertex K)} {l : List (Edge (Vertex K))} (h : Maps ht th l)
    (σ : Sched) (e : Edge (Vertex K)) :
    (∃ τ, extendOnce eps τ e l = none ∧ extendMaps eps σ e ht th = .ok none) ∨
    ∃ τ r ht' th', extendOnce eps τ e l = some r ∧ extendMaps eps σ e ht th = .ok (some (r.1, ht', th')) ∧
      Maps ht' th' r.2 := by
  unfold extendMaps
  cases hg : ht.get e.v2 with
  | none =>
    simp only []
    refine h.head_step (σ.sub 1) e ?_
    intro f hf hfe
    exfalso
    have : ∃ s, ht.get e.v2 = some s ∧ f.v2 ∈ s := (h.1.holds _ _).2 (by rw [← hfe]; exact hf)
    simp [hg] at this
  | some ts =>
    simp only []
    cases hf : (shuffle (σ.sub 0) ts).find? fun t => extendsTail eps e.v1 e.v2 t with
    | none =>
      simp only []
      refine h.head_step (σ.sub 1) e ?_
      intro f hfl hfe
      rw [List.find?_eq_none] at hf
      have := hf f.v2 (mem_shuffle.2 ((h.tails hg f.v2).2 (by rw [← hfe]; exact hfl)))
      simpa using this
    | some b =>
      have h1 := mem_shuffle.1 (List.mem_of_find?_eq_some hf)
      have h2 := List.find?_some hf
      rw [h.tails hg] at h1
      obtain ⟨ht', th', h4, _, h5⟩ := h.symm_remove h1
      obtain ⟨τ, hτ⟩ := exists_find (p := fun f : Edge (Vertex K) =>
        decide (f.v1 = e.v2) && extendsTail eps e.v1 e.v2 f.v2) h1 (by simpa using h2)
      refine .inr ⟨Sched.join fun _ => τ, (⟨e.v1, b⟩, setErase ⟨e.v2, b⟩ l), ht', th', ?_, ?_, h5⟩
      · unfold extendOnce
        simp only [Sched.join_sub, hτ]
      · simp only []
        rw [h4]
        rfl

theorem Maps.isEmpty {V : Type*} [DecidableEq V] {ht th : VertexMap V} {l : List (Edge V)} (h : Maps ht th l) :
    ht = [] ↔ l = [] := by
  constructor
  · rintro rfl
    rw [List.eq_nil_iff_forall_not_mem]
    intro e he
    obtain ⟨s, hs, _⟩ := (h.1.holds e.v1 e.v2).2 he
    simp [VertexMap.get] at hs
  · rintro rfl
    rw [List.eq_nil_iff_forall_not_mem]
    intro x hx
    have h1 := VertexMap.get_of_mem h.1.keys hx
    obtain ⟨b, hb⟩ := List.exists_mem_of_ne_nil _ (h.1.full _ _ h1)
    have := (h.tails h1 b).1 hb
    simp at this

/-- The program with the two maps does what the program on the set does, for some order. -/
theorem arrangeMapsLoop_refines {eps : K} (n : Nat) : ∀ (σ : Sched) (cur : Option (Edge (Vertex K)))
    (ht th : VertexMap (Vertex K)) (l acc : List (Edge (Vertex K))), Maps ht th l →
    ∃ τ, arrangeMapsLoop eps n σ cur ht th acc = arrangeLoop eps n τ cur l acc := by
  induction n with
  | zero =>
    intro σ cur ht th l acc h
    refine ⟨σ, ?_⟩
    cases cur with
    | some e => simp [arrangeMapsLoop, arrangeLoop]
    | none =>
      by_cases hl : l = []
      · have := h.isEmpty.2 hl
        subst hl; subst this
        simp [arrangeMapsLoop, arrangeLoop]
      · have h1 : ht ≠ [] := fun h2 => hl (h.isEmpty.1 h2)
        obtain ⟨x, l', rfl⟩ := List.exists_cons_of_ne_nil hl
        obtain ⟨y, ht', rfl⟩ := List.exists_cons_of_ne_nil h1
        simp [arrangeMapsLoop, arrangeLoop]
  | succ n ih =>
    intro σ cur ht th l acc h
    cases cur with
    | none =>
      simp only [arrangeMapsLoop]
      cases hc : choose (σ.sub 0) ht with
      | none =>
        have h1 := h.isEmpty.1 (choose_eq_none.1 hc)
        subst h1
        exact ⟨σ, by simp [arrangeLoop, choose]⟩
      | some entry =>
        simp only []
        have hg := VertexMap.get_of_mem h.1.keys (choose_mem hc)
        cases ht' : choose (σ.sub 2) entry.2 with
        | none => exact absurd (choose_eq_none.1 ht') (h.1.full _ _ hg)
        | some t =>
          simp only []
          have hm := (h.tails hg t).1 (choose_mem ht')
          obtain ⟨a, b, h1, _, h2⟩ := h.symm_remove hm
          obtain ⟨τ, hτ⟩ := ih (σ.sub 1) (some ⟨entry.1, t⟩) a b _ acc h2
          obtain ⟨ρ, hρ⟩ := exists_choose hm
          refine ⟨Sched.join fun k => if k = 0 then ρ else τ, ?_⟩
          rw [h1, Res.bind_ok, hτ]
          simp only [arrangeLoop, Sched.join_sub, if_true, hρ, one_ne_zero, if_false]
    | some e =>
      simp only [arrangeMapsLoop, arrangeLoop]
      rcases h.step (eps := eps) (σ.sub 0) e with ⟨ρ, h1, h2⟩ | ⟨ρ, r, a, b, h1, h2, h3⟩
      · obtain ⟨τ, hτ⟩ := ih (σ.sub 1) none ht th l (setInsert e acc) h
        refine ⟨Sched.join fun k => if k = 0 then ρ else τ, ?_⟩
        simp only [h2, Res.bind_ok, Sched.join_sub, if_true, h1, one_ne_zero, if_false]
        exact hτ
      · obtain ⟨τ, hτ⟩ := ih (σ.sub 1) (some r.1) a b r.2 acc h3
        refine ⟨Sched.join fun k => if k = 0 then ρ else τ, ?_⟩
        simp only [h2, Res.bind_ok, Sched.join_sub, if_true, h1, one_ne_zero, if_false]
        exact hτ

end Edge

end Verif
