import Verif.Lemmas.Mesh
import Verif.Model.Vertices

/-!
# Facts about the conflict map
-/

set_option linter.unusedSectionVars false

namespace Verif

variable {V : Type*} [DecidableEq V]

/-- Distinct keys and no empty bucket. -/
def CMap.WF (c : CMap V) : Prop := (c.map (·.1)).Nodup ∧ ∀ p ∈ c, p.2 ≠ []

/-- All the vertices held in buckets. -/
def CMap.flat (c : CMap V) : List V := c.flatMap (·.2)

theorem CMap.wf_nil : CMap.WF ([] : CMap V) := ⟨List.nodup_nil, by simp⟩

theorem CMap.get_eq_some {c : CMap V} (h : c.WF) {t : Tri V} {l : List V} :
    c.get t = some l ↔ (t, l) ∈ c := by
  unfold CMap.get
  constructor
  · intro hg
    rw [Option.map_eq_some_iff] at hg
    obtain ⟨p, hp, rfl⟩ := hg
    have h1 := List.mem_of_find?_eq_some hp
    have h2 := List.find?_some hp
    simp only [decide_eq_true_eq] at h2
    rw [← h2]; exact h1
  · intro hm
    induction c with
    | nil => simp at hm
    | cons p c ih =>
      have hn := h.1
      rw [List.map_cons, List.nodup_cons] at hn
      rcases List.mem_cons.1 hm with rfl | hm
      · simp
      · have hne : p.1 ≠ t := by
          rintro rfl
          exact hn.1 (List.mem_map.2 ⟨_, hm, rfl⟩)
        rw [List.find?_cons_of_neg (by simpa using hne)]
        exact ih ⟨hn.2, fun q hq => h.2 q (List.mem_cons_of_mem _ hq)⟩ hm

theorem CMap.wf_erase {c : CMap V} (h : c.WF) (t : Tri V) : (c.erase t).WF :=
  ⟨h.1.sublist (List.Sublist.map _ List.filter_sublist),
    fun p hp => h.2 p (List.mem_filter.1 hp).1⟩

theorem CMap.mem_erase {c : CMap V} {t : Tri V} {p : Tri V × List V} :
    p ∈ c.erase t ↔ p ∈ c ∧ p.1 ≠ t := by
  simp [CMap.erase]

theorem CMap.erase_perm {c : CMap V} (h : c.WF) {t : Tri V} {l : List V} (hm : (t, l) ∈ c) :
    ((t, l) :: c.erase t).Perm c := by
  have hn : c.Nodup := List.Nodup.of_map _ h.1
  have hn' : ((t, l) :: c.erase t).Nodup :=
    List.nodup_cons.2 ⟨by simp [CMap.mem_erase], hn.filter _⟩
  refine (List.perm_ext_iff_of_nodup hn' hn).2 ?_
  intro p
  simp only [List.mem_cons, CMap.mem_erase]
  constructor
  · rintro (rfl | ⟨hp, -⟩) <;> assumption
  · intro hp
    by_cases hpt : p.1 = t
    · left
      have := (CMap.get_eq_some h).2 hm
      have h2 := (CMap.get_eq_some h (t := p.1) (l := p.2)).2 hp
      rw [hpt, this] at h2
      cases p; simp at hpt h2 ⊢; exact ⟨hpt, h2.symm⟩
    · exact Or.inr ⟨hp, hpt⟩

theorem CMap.get_eq_none {c : CMap V} {t : Tri V} :
    c.get t = none ↔ ∀ p ∈ c, p.1 ≠ t := by
  simp [CMap.get]

theorem CMap.erase_of_none {c : CMap V} {t : Tri V} (h : c.get t = none) : c.erase t = c := by
  rw [CMap.erase, List.filter_eq_self]
  intro p hp
  simpa using CMap.get_eq_none.1 h p hp

/-- Taking the bucket of `t` out of the map moves its vertices, it does not lose them. -/
theorem CMap.flat_erase {c : CMap V} (h : c.WF) (t : Tri V) :
    ((c.get t).getD [] ++ (c.erase t).flat).Perm c.flat := by
  cases hg : c.get t with
  | none => rw [CMap.erase_of_none hg]; simp
  | some l =>
    have := (CMap.erase_perm h ((CMap.get_eq_some h).1 hg)).flatMap_right (fun p => p.2)
    simpa [CMap.flat] using this

theorem CMap.wf_append {c : CMap V} (h : c.WF) (t : Tri V) (vs : List V) : (c.append t vs).WF := by
  unfold CMap.append
  split_ifs with hv
  · exact h
  · cases hg : c.get t with
    | none =>
      simp only []
      refine ⟨?_, ?_⟩
      · rw [List.map_cons, List.nodup_cons]
        refine ⟨?_, h.1⟩
        intro hm
        obtain ⟨p, hp, hpt⟩ := List.mem_map.1 hm
        exact CMap.get_eq_none.1 hg p hp hpt
      · intro p hp
        rcases List.mem_cons.1 hp with rfl | hp
        · exact hv
        · exact h.2 p hp
    | some old =>
      simp only []
      refine ⟨?_, ?_⟩
      · rw [List.map_cons, List.nodup_cons]
        refine ⟨?_, (CMap.wf_erase h t).1⟩
        intro hm
        obtain ⟨p, hp, hpt⟩ := List.mem_map.1 hm
        exact (CMap.mem_erase.1 hp).2 hpt
      · intro p hp
        rcases List.mem_cons.1 hp with rfl | hp
        · simp [hv]
        · exact (CMap.wf_erase h t).2 p hp

theorem CMap.flat_append {c : CMap V} (h : c.WF) (t : Tri V) (vs : List V) :
    ((c.append t vs).flat).Perm (c.flat ++ vs) := by
  unfold CMap.append
  split_ifs with hv
  · rw [hv, List.append_nil]
  · cases hg : c.get t with
    | none =>
      simp only []
      change (vs ++ c.flat).Perm _
      exact List.perm_append_comm
    | some old =>
      simp only []
      change ((old ++ vs) ++ (c.erase t).flat).Perm _
      have h1 := CMap.flat_erase h t
      rw [hg] at h1
      simp only [Option.getD_some] at h1
      refine List.Perm.trans ?_ (h1.append_right vs)
      rw [List.append_assoc, List.append_assoc]
      exact List.Perm.append_left _ List.perm_append_comm

theorem CMap.mem_append {c : CMap V} (h : c.WF) {t : Tri V} {vs : List V} {s : Tri V} {l : List V}
    (hm : (s, l) ∈ c.append t vs) :
    (s ≠ t ∧ (s, l) ∈ c) ∨ (s = t ∧ ∃ old, l = old ++ vs ∧ (old = [] ∨ (t, old) ∈ c)) := by
  unfold CMap.append at hm
  split_ifs at hm with hv
  · by_cases hst : s = t
    · refine Or.inr ⟨hst, l, by simp [hv], Or.inr (hst ▸ hm)⟩
    · exact Or.inl ⟨hst, hm⟩
  · cases hg : c.get t with
    | none =>
      rw [hg] at hm
      simp only [List.mem_cons, Prod.mk.injEq] at hm
      rcases hm with ⟨rfl, rfl⟩ | hm
      · exact Or.inr ⟨rfl, [], rfl, Or.inl rfl⟩
      · exact Or.inl ⟨CMap.get_eq_none.1 hg _ hm, hm⟩
    | some old =>
      rw [hg] at hm
      simp only [List.mem_cons, Prod.mk.injEq] at hm
      rcases hm with ⟨rfl, rfl⟩ | hm
      · exact Or.inr ⟨rfl, old, rfl, Or.inr ((CMap.get_eq_some h).1 hg)⟩
      · rw [CMap.mem_erase] at hm
        exact Or.inl ⟨hm.2, hm.1⟩

/-- Every key of the old map is still there, and the only possible new key is `t`. -/
theorem CMap.keys_append {c : CMap V} (h : c.WF) {t : Tri V} {vs : List V} {s : Tri V} {l : List V}
    (hm : (s, l) ∈ c.append t vs) : s = t ∨ ∃ l', (s, l') ∈ c := by
  rcases CMap.mem_append h hm with ⟨-, h'⟩ | ⟨h', -⟩
  · exact Or.inr ⟨l, h'⟩
  · exact Or.inl h'

theorem splitConflicts_spec {P : Preds V} {t : Tri V} {vs : List V} {r : List V × List V}
    (h : splitConflicts P t vs = .ok r) :
    (r.1 ++ r.2).Perm vs ∧ r.1.Sublist vs ∧ r.2.Sublist vs ∧
      (∀ v ∈ r.1, P.inside t v = true ∧ P.mayInsert t v = .ok true) ∧
      (∀ v ∈ r.2, ¬ (P.inside t v = true ∧ P.mayInsert t v = .ok true)) := by
  induction vs generalizing r with
  | nil =>
    simp only [splitConflicts, Res.ok.injEq] at h
    subst h; simp
  | cons v vs ih =>
    simp only [splitConflicts] at h
    rw [Res.bind_eq_ok] at h
    obtain ⟨may, hmay, h⟩ := h
    rw [Res.bind_eq_ok] at h
    obtain ⟨q, hq, h⟩ := h
    obtain ⟨k1, k2, k3, k4, k5⟩ := ih hq
    split_ifs at h with hc
    · simp only [Res.ok.injEq] at h
      subst h
      rw [Bool.and_eq_true] at hc
      refine ⟨List.Perm.cons _ k1, k2.cons_cons _, k3.cons _, ?_, k5⟩
      intro w hw
      rcases List.mem_cons.1 hw with rfl | hw
      · exact ⟨hc.1, by rw [hmay, hc.2]⟩
      · exact k4 w hw
    · simp only [Res.ok.injEq] at h
      subst h
      refine ⟨List.perm_middle.trans (List.Perm.cons _ k1), k2.cons _, k3.cons_cons _, k4, ?_⟩
      intro w hw
      rcases List.mem_cons.1 hw with rfl | hw
      · rintro ⟨h1, h2⟩
        rw [hmay] at h2
        simp only [Res.ok.injEq] at h2
        exact hc (by rw [h1, h2]; rfl)
      · exact k5 w hw

/-- What `distribute_conflicts` does. -/
theorem distribute_spec {P : Preds V} {t : Tri V} {c : CMap V} (hw : c.WF) {vs : List V}
    {r : CMap V × List V} (h : distribute P t c vs = .ok r) :
    r.1.WF ∧ (r.1.flat ++ r.2).Perm (c.flat ++ vs) ∧ r.2.Sublist vs ∧
      (∀ v ∈ r.2, ¬ (P.inside t v = true ∧ P.mayInsert t v = .ok true)) ∧
      (∀ s l, (s, l) ∈ r.1 → (s ≠ t ∧ (s, l) ∈ c) ∨
        (s = t ∧ ∃ old new, l = old ++ new ∧ (old = [] ∨ (t, old) ∈ c) ∧ new.Sublist vs ∧
          ∀ v ∈ new, P.inside t v = true ∧ P.mayInsert t v = .ok true)) := by
  unfold distribute at h
  rw [Res.bind_eq_ok] at h
  obtain ⟨q, hq, h⟩ := h
  simp only [Res.ok.injEq] at h
  subst h
  obtain ⟨k1, k2, k3, k4, k5⟩ := splitConflicts_spec hq
  refine ⟨CMap.wf_append hw _ _, ?_, k3, k5, ?_⟩
  · refine ((CMap.flat_append hw t q.1).append_right q.2).trans ?_
    rw [List.append_assoc]
    exact k1.append_left _
  · intro s l hm
    rcases CMap.mem_append hw hm with h1 | ⟨h1, old, h2, h3⟩
    · exact Or.inl h1
    · exact Or.inr ⟨h1, old, q.1, h2, h3, k2, k4⟩

end Verif
