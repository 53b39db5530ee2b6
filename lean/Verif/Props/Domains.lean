import Verif.Lemmas.Sets
import Verif.Model.Cli
import Mathlib.Logic.Relation
import Mathlib.Algebra.Order.Ring.Rat
import Mathlib.Algebra.Field.Rat

/-!
# Evaluating the domain (C33, C43)
-/

set_option linter.unusedSectionVars false

namespace Verif.Props

variable {P : Type*} [DecidableEq P]

theorem resBind_ok {α β : Type*} {r : Res α} {f : α → Res β} {b : β} :
    r.bind f = .ok b ↔ ∃ a, r = .ok a ∧ f a = .ok b := by
  cases r <;> simp [Res.bind]

/-! ## C33 -/

/-- The union of `a` and `b` is `u`, for some order in which hash sets are iterated. -/
def UnionIs (O : DomainOps P) (a b u : P) : Prop := ∃ σ, O.union σ a b = .ok (some u)

/-- `b` results from uniting `a` with something. -/
def Unites (O : DomainOps P) (a b : P) : Prop := ∃ c, UnionIs O a c b ∨ UnionIs O c a b

theorem uniteHole_spec {O : DomainOps P} {r : P} : ∀ (l : List P) (σ : Sched),
    (∀ h u, uniteHole O σ r l = .ok (some (h, u)) → h ∈ l ∧ UnionIs O h r u) ∧
      (uniteHole O σ r l = .ok none → ∀ h ∈ l, ∃ σ, O.union σ h r = .ok none)
  | [], σ => by simp [uniteHole]
  | q :: l, σ => by
    obtain ⟨i1, i2⟩ := uniteHole_spec (O := O) (r := r) l (σ.sub 1)
    constructor
    · intro h u e
      rw [uniteHole, resBind_ok] at e
      obtain ⟨o, e1, e2⟩ := e
      cases o with
      | some v =>
        simp only [Res.ok.injEq, Option.some.injEq, Prod.mk.injEq] at e2
        obtain ⟨rfl, rfl⟩ := e2
        exact ⟨List.mem_cons_self, _, e1⟩
      | none =>
        obtain ⟨k1, k2⟩ := i1 h u e2
        exact ⟨List.mem_cons_of_mem _ k1, k2⟩
    · intro e h hh
      rw [uniteHole, resBind_ok] at e
      obtain ⟨o, e1, e2⟩ := e
      cases o with
      | some v => simp at e2
      | none =>
        rcases List.mem_cons.1 hh with rfl | hh
        · exact ⟨_, e1⟩
        · exact i2 e2 h hh

/-- What becomes of the removals that satisfy `In`, if `In` is what the test recognises and uniting preserves it. -/
theorem holes_track (O : DomainOps P) (b : P) (In : P → Prop) (fuel : Nat) (σ : Sched) (removes res : List P)
    (hin : ∀ x, In x → O.strictlyInside b x ≠ .ok false)
    (hun : ∀ x y u, In x → In y → UnionIs O x y u → In u)
    (hout : ∀ x ∈ removes, ¬ In x → O.strictlyInside b x ≠ .ok true)
    (h : evalHoles O fuel σ b removes = .ok res) :
    (∀ r ∈ removes, In r → ∃ x ∈ res, Relation.ReflTransGen (Unites O) r x) ∧
    (∀ x ∈ res, In x ∧ ∃ r ∈ removes, In r ∧ Relation.ReflTransGen (Unites O) r x) := by
  have gen : ∀ (n : Nat) (σ : Sched) (l holes res : List P), (∀ x ∈ holes, In x) →
      (∀ x ∈ l, ¬ In x → O.strictlyInside b x ≠ .ok true) →
      holesLoop O b n σ l holes = .ok res →
      (∀ r, (r ∈ l ∨ r ∈ holes) → In r → ∃ x ∈ res, Relation.ReflTransGen (Unites O) r x) ∧
      (∀ x ∈ res, In x ∧ ∃ r, (r ∈ l ∨ r ∈ holes) ∧ In r ∧ Relation.ReflTransGen (Unites O) r x) := by
    intro n
    induction n with
    | zero =>
      intro σ l holes res hh _ h
      cases l with
      | nil =>
        simp only [holesLoop, Res.ok.injEq] at h; subst h
        exact ⟨fun r hr _ => by simp at hr; exact ⟨r, hr, .refl⟩,
          fun x hx => ⟨hh x hx, x, Or.inr hx, hh x hx, .refl⟩⟩
      | cons a l => simp [holesLoop] at h
    | succ n ih =>
      intro σ l holes res hh hl h
      cases l with
      | nil =>
        simp only [holesLoop, Res.ok.injEq] at h; subst h
        exact ⟨fun r hr _ => by simp at hr; exact ⟨r, hr, .refl⟩,
          fun x hx => ⟨hh x hx, x, Or.inr hx, hh x hx, .refl⟩⟩
      | cons a l =>
        have hl' : ∀ x ∈ l, ¬ In x → O.strictlyInside b x ≠ .ok true := fun x hx => hl x (List.mem_cons_of_mem _ hx)
        rw [holesLoop, resBind_ok] at h
        obtain ⟨c, hc, h⟩ := h
        cases c with
        | false =>
          simp only [Bool.not_false, if_true] at h
          obtain ⟨k1, k2⟩ := ih _ _ _ _ hh hl' h
          constructor
          · rintro r (hr | hr) hi
            · rcases List.mem_cons.1 hr with rfl | hr
              · exact absurd hc (hin r hi)
              · exact k1 r (Or.inl hr) hi
            · exact k1 r (Or.inr hr) hi
          · intro x hx
            obtain ⟨e1, r, e2, e3⟩ := k2 x hx
            exact ⟨e1, r, e2.imp (List.mem_cons_of_mem _) id, e3⟩
        | true =>
          have ha : In a := by
            by_contra hn
            exact hl a List.mem_cons_self hn hc
          simp only [Bool.not_true, Bool.false_eq_true, if_false] at h
          rw [resBind_ok] at h
          obtain ⟨q, hq, h⟩ := h
          cases q with
          | none =>
            simp only [] at h
            obtain ⟨k1, k2⟩ := ih _ _ _ _ (fun x hx => by
              rcases mem_setInsert.1 hx with rfl | hx
              · exact ha
              · exact hh x hx) hl' h
            constructor
            · rintro r (hr | hr) hi
              · rcases List.mem_cons.1 hr with rfl | hr
                · exact k1 r (Or.inr (mem_setInsert.2 (Or.inl rfl))) hi
                · exact k1 r (Or.inl hr) hi
              · exact k1 r (Or.inr (mem_setInsert.2 (Or.inr hr))) hi
            · intro x hx
              obtain ⟨e1, r, e2, e3⟩ := k2 x hx
              refine ⟨e1, r, ?_, e3⟩
              rcases e2 with e2 | e2
              · exact Or.inl (List.mem_cons_of_mem _ e2)
              · rcases mem_setInsert.1 e2 with rfl | e2
                · exact Or.inl List.mem_cons_self
                · exact Or.inr e2
          | some gu =>
            obtain ⟨g, u⟩ := gu
            simp only [] at h
            obtain ⟨hg, hu⟩ := (uniteHole_spec _ _).1 g u hq
            rw [mem_shuffle] at hg
            have hui := hun g a u (hh g hg) ha hu
            obtain ⟨k1, k2⟩ := ih _ _ _ _ (fun x hx => by
              rcases mem_setInsert.1 hx with rfl | hx
              · exact ha
              · exact hh x (mem_setErase.1 hx).1) (fun x hx hn => by
              rcases List.mem_cons.1 hx with rfl | hx
              · exact absurd hui hn
              · exact hl' x hx hn) h
            constructor
            · rintro r (hr | hr) hi
              · rcases List.mem_cons.1 hr with rfl | hr
                · exact k1 r (Or.inr (mem_setInsert.2 (Or.inl rfl))) hi
                · exact k1 r (Or.inl (List.mem_cons_of_mem _ hr)) hi
              · by_cases hrg : r = g
                · subst hrg
                  obtain ⟨x, hx, e⟩ := k1 u (Or.inl List.mem_cons_self) hui
                  exact ⟨x, hx, .head ⟨a, Or.inl hu⟩ e⟩
                · exact k1 r (Or.inr (mem_setInsert.2 (Or.inr (mem_setErase.2 ⟨hr, hrg⟩)))) hi
            · intro x hx
              obtain ⟨e1, r, e2, e3, e4⟩ := k2 x hx
              refine ⟨e1, ?_⟩
              rcases e2 with e2 | e2
              · rcases List.mem_cons.1 e2 with rfl | e2
                · exact ⟨a, Or.inl List.mem_cons_self, ha, .head ⟨g, Or.inr hu⟩ e4⟩
                · exact ⟨r, Or.inl (List.mem_cons_of_mem _ e2), e3, e4⟩
              · rcases mem_setInsert.1 e2 with rfl | e2
                · exact ⟨r, Or.inl List.mem_cons_self, e3, e4⟩
                · exact ⟨r, Or.inr (mem_setErase.1 e2).1, e3, e4⟩
  obtain ⟨k1, k2⟩ := gen _ _ _ _ _ (by simp) (fun x hx => hout x (List.mem_reverse.1 hx)) h
  refine ⟨fun r hr hi => k1 r (Or.inl (List.mem_reverse.2 hr)) hi, fun x hx => ?_⟩
  obtain ⟨e1, r, e2, e3⟩ := k2 x hx
  exact ⟨e1, r, by simpa using e2, e3⟩

/-! ## C43 -/

/-- `b'` is obtained from `b` by uniting, one after the other, the polygons of `l`. -/
inductive UnitesAll (O : DomainOps P) : P → List P → P → Prop
  | nil (b : P) : UnitesAll O b [] b
  | cons {b u b' : P} {p : P} {l : List P} : UnionIs O b p u → UnitesAll O u l b' →
      UnitesAll O b (p :: l) b'

theorem absorbOne_spec {O : DomainOps P} {b : P} : ∀ (l : List P) (σ : Sched),
    (∀ u p, absorbOne O σ b l = .ok (some (u, p)) → p ∈ l ∧ UnionIs O b p u) ∧
      (absorbOne O σ b l = .ok none → ∀ p ∈ l, ∃ σ, O.union σ b p = .ok none)
  | [], σ => by simp [absorbOne]
  | q :: l, σ => by
    obtain ⟨i1, i2⟩ := absorbOne_spec (O := O) (b := b) l (σ.sub 1)
    constructor
    · intro u h e
      rw [absorbOne, resBind_ok] at e
      obtain ⟨o, e1, e2⟩ := e
      cases o with
      | some v =>
        simp only [Res.ok.injEq, Option.some.injEq, Prod.mk.injEq] at e2
        obtain ⟨rfl, rfl⟩ := e2
        exact ⟨List.mem_cons_self, _, e1⟩
      | none =>
        obtain ⟨k1, k2⟩ := i1 u h e2
        exact ⟨List.mem_cons_of_mem _ k1, k2⟩
    · intro e h hh
      rw [absorbOne, resBind_ok] at e
      obtain ⟨o, e1, e2⟩ := e
      cases o with
      | some v => simp at e2
      | none =>
        rcases List.mem_cons.1 hh with rfl | hh
        · exact ⟨_, e1⟩
        · exact i2 e2 h hh

/-- After the passes, all polygons have been united, or at some time none of those left united. -/
theorem absorbPasses_spec (O : DomainOps P) : ∀ (n : Nat) (σ : Sched) (b b0 : P) (l left : List P), l.Nodup →
    l.length ≤ n → absorbPasses O n σ b l = .ok (b0, left) →
    (∃ used, UnitesAll O b used b0 ∧ (used ++ left).Perm l) ∧
      (left ≠ [] → ∃ used b1 left', UnitesAll O b used b1 ∧ (used ++ left').Perm l ∧ left' ≠ [] ∧
        ∀ p ∈ left', ∃ σ, O.union σ b1 p = .ok none) := by
  intro n
  induction n with
  | zero =>
    intro σ b b0 l left _ hl h
    have : l = [] := List.length_eq_zero_iff.1 (by omega)
    subst this
    simp only [absorbPasses, Res.ok.injEq, Prod.mk.injEq] at h
    obtain ⟨rfl, rfl⟩ := h
    exact ⟨⟨[], .nil _, List.Perm.refl _⟩, fun h => absurd rfl h⟩
  | succ n ih =>
    intro σ b b0 l left hn hl h
    rw [absorbPasses, resBind_ok] at h
    obtain ⟨r, hr, h⟩ := h
    cases r with
    | none =>
      simp only [] at h
      have hnone : ∀ p ∈ l, ∃ σ, O.union σ b p = .ok none := fun p hp =>
        (absorbOne_spec _ _).2 hr p (mem_shuffle.2 hp)
      have hused : ∀ (n : Nat) (σ : Sched) (b b0 : P) (l left : List P), l.Nodup →
          absorbPasses O n σ b l = .ok (b0, left) → ∃ used, UnitesAll O b used b0 ∧ (used ++ left).Perm l := by
        intro n
        induction n with
        | zero =>
          intro σ b b0 l left _ h
          simp only [absorbPasses, Res.ok.injEq, Prod.mk.injEq] at h
          obtain ⟨rfl, rfl⟩ := h
          exact ⟨[], .nil _, List.Perm.refl _⟩
        | succ n ih =>
          intro σ b b0 l left hn h
          rw [absorbPasses, resBind_ok] at h
          obtain ⟨r, hr, h⟩ := h
          cases r with
          | none => exact ih _ _ _ _ _ hn h
          | some q =>
            obtain ⟨u, p⟩ := q
            obtain ⟨hp, hu⟩ := (absorbOne_spec _ _).1 u p hr
            obtain ⟨used, k1, k2⟩ := ih _ _ _ _ _ (nodup_setErase hn) h
            exact ⟨p :: used, .cons hu k1, (List.Perm.cons _ k2).trans (setErase_perm hn (mem_shuffle.1 hp))⟩
      obtain ⟨used, k1, k2⟩ := hused _ _ _ _ _ _ hn h
      refine ⟨⟨used, k1, k2⟩, fun hne => ⟨[], b, l, .nil b, List.Perm.refl _, ?_, hnone⟩⟩
      rintro rfl
      have := k2.length_eq
      rw [List.length_append, List.length_nil] at this
      exact hne (List.length_eq_zero_iff.1 (by omega))
    | some q =>
      obtain ⟨u, p⟩ := q
      simp only [] at h
      obtain ⟨hp, hu⟩ := (absorbOne_spec _ _).1 u p hr
      have hperm := setErase_perm hn (mem_shuffle.1 hp)
      obtain ⟨⟨used, k1, k2⟩, k3⟩ := ih (σ.sub 1) u b0 (setErase p l) left (nodup_setErase hn)
        (by have := hperm.length_eq; simp at this; omega) h
      refine ⟨⟨p :: used, .cons hu k1, (List.Perm.cons _ k2).trans hperm⟩, fun hne => ?_⟩
      obtain ⟨used', b1, left', m1, m2, m3, m4⟩ := k3 hne
      exact ⟨p :: used', b1, left', .cons hu m1, (List.Perm.cons _ m2).trans hperm, m3, m4⟩

/-- The subtraction of `r` from `b` returns the polygons of `l`, for some order in which hash sets are iterated. -/
def SubtractionIs (O : DomainOps P) (b r : P) (l : List P) : Prop := ∃ σ, O.subtraction σ b r = .ok l

/-- `b'` and the list of unused removals result from treating the removals in order: one whose subtraction yields
nothing is unused, one whose subtraction yields a single polygon replaces the boundary. -/
inductive Subtracts (O : DomainOps P) : P → List P → List P → P → Prop
  | nil (b : P) : Subtracts O b [] [] b
  | skip {b b' r : P} {l u : List P} : SubtractionIs O b r [] → Subtracts O b l u b' →
      Subtracts O b (r :: l) (r :: u) b'
  | cut {b s b' r : P} {l u : List P} : SubtractionIs O b r [s] → Subtracts O s l u b' →
      Subtracts O b (r :: l) u b'

/-- Some removal splits the polygon reached by treating the removals before it. -/
def Splits (O : DomainOps P) (b : P) (removes : List P) : Prop :=
  ∃ before r after unused b' parts, removes = before ++ r :: after ∧ Subtracts O b before unused b' ∧
    SubtractionIs O b' r parts ∧ 2 ≤ parts.length

theorem subtractAll_ok {O : DomainOps P} : ∀ (l : List P) (σ : Sched) (b : P) (acc unused : List P) (b' : P),
    subtractAll O σ l b acc = .ok (.ok (b', unused)) → ∃ u, unused = acc ++ u ∧ Subtracts O b l u b' := by
  intro l
  induction l with
  | nil =>
    intro σ b acc unused b' h
    simp only [subtractAll, Res.ok.injEq, Parsed.ok.injEq, Prod.mk.injEq] at h
    obtain ⟨rfl, rfl⟩ := h
    exact ⟨[], by simp, .nil b⟩
  | cons r l ih =>
    intro σ b acc unused b' h
    rw [subtractAll, resBind_ok] at h
    obtain ⟨parts, hs, h⟩ := h
    match parts, hs, h with
    | [], hs, h =>
      obtain ⟨u, rfl, h2⟩ := ih _ _ _ _ _ h
      exact ⟨r :: u, by simp, .skip ⟨_, hs⟩ h2⟩
    | [s], hs, h =>
      obtain ⟨u, rfl, h2⟩ := ih _ _ _ _ _ h
      exact ⟨u, rfl, .cut ⟨_, hs⟩ h2⟩
    | _ :: _ :: _, _, h => simp at h

theorem subtractAll_err {O : DomainOps P} : ∀ (l : List P) (σ : Sched) (b : P) (acc : List P),
    subtractAll O σ l b acc = .ok .err → Splits O b l := by
  intro l
  induction l with
  | nil => intro σ b acc h; simp [subtractAll] at h
  | cons r l ih =>
    intro σ b acc h
    rw [subtractAll, resBind_ok] at h
    obtain ⟨parts, hs, h⟩ := h
    match parts, hs, h with
    | [], hs, h =>
      obtain ⟨before, r', after, unused, b', parts, rfl, h2, h3⟩ := ih _ _ _ h
      exact ⟨r :: before, r', after, r :: unused, b', parts, rfl, .skip ⟨_, hs⟩ h2, h3⟩
    | [s], hs, h =>
      obtain ⟨before, r', after, unused, b', parts, rfl, h2, h3⟩ := ih _ _ _ h
      exact ⟨r :: before, r', after, unused, b', parts, rfl, .cut ⟨_, hs⟩ h2, h3⟩
    | x :: y :: z, hs, _ =>
      exact ⟨[], r, l, [], b, x :: y :: z, rfl, .nil b, ⟨_, hs⟩, by simp⟩

theorem evalBoundary_cases (O : DomainOps P) (σ : Sched) (includes removes : List P) {r : Parsed (P × List P)}
    (hne : includes ≠ []) (h : evalBoundary O σ includes removes = .ok r) :
    ∃ (first : P) (rest left : List P) (b0 : P) (n : Nat) (σ' σ'' : Sched),
      (first :: rest).Perm (toSet includes) ∧ rest.Nodup ∧ rest.length ≤ n ∧
        absorbPasses O n σ' first rest = .ok (b0, left) ∧
        ((left ≠ [] ∧ r = .err) ∨ (left = [] ∧ subtractAll O σ'' removes b0 [] = .ok r)) := by
  have hempty : toSet includes ≠ [] := by
    intro h
    apply hne
    rw [List.eq_nil_iff_forall_not_mem]
    intro a ha
    have := mem_toSet.2 ha
    rw [h] at this
    simp at this
  unfold evalBoundary at h
  cases hc : choose (σ.sub 0) (toSet includes) with
  | none => exact absurd (choose_eq_none.1 hc) hempty
  | some b =>
    have hn : (toSet includes).Nodup := nodup_toSet _
    simp only [hc] at h
    rw [resBind_ok] at h
    obtain ⟨⟨b0, left⟩, hp, h⟩ := h
    refine ⟨b, setErase b (toSet includes), left, b0, _, _, σ.sub 2, setErase_perm hn (choose_mem hc), nodup_setErase hn,
      Nat.le_refl _, hp, ?_⟩
    by_cases hl : left = []
    · right
      simp only [hl, ne_eq, not_true_eq_false, if_false] at h
      exact ⟨hl, h⟩
    · left
      simp only [ne_eq, hl, not_false_eq_true, if_true, Res.ok.injEq] at h
      exact ⟨hl, h.symm⟩

/-- C43: evaluating the boundary succeeds only if all the (distinct) included polygons have been united into one,
in some order; every removal was then either subtracted (leaving one polygon) or is returned as unused, in
order. -/
theorem C43_ok (O : DomainOps P) (σ : Sched) (includes removes unused : List P) (b : P)
    (h : evalBoundary O σ includes removes = .ok (.ok (b, unused))) :
    ∃ first used b0, (∀ p, p ∈ first :: used ↔ p ∈ includes) ∧ (first :: used).Nodup ∧
      UnitesAll O first used b0 ∧ Subtracts O b0 removes unused b := by
  by_cases hne : includes = []
  · subst hne
    simp [evalBoundary, toSet, choose] at h
  · obtain ⟨first, rest, left, b0, n, σ', σ'', k1, k2, k3, k4, k5⟩ := evalBoundary_cases O σ includes removes hne h
    obtain ⟨-, k5⟩ | ⟨hl, k5⟩ := k5
    · simp at k5
    subst hl
    obtain ⟨⟨used, m1, m2⟩, -⟩ := absorbPasses_spec O n σ' first b0 rest [] k2 k3 k4
    rw [List.append_nil] at m2
    obtain ⟨u, hu, hs⟩ := subtractAll_ok _ _ _ _ _ _ k5
    rw [List.nil_append] at hu
    subst hu
    have hp := (List.Perm.cons first m2).trans k1
    exact ⟨first, used, b0, fun p => by rw [hp.mem_iff, mem_toSet],
      (hp.nodup_iff).2 (nodup_toSet _), m1, hs⟩

/-- C43: it fails only if no polygon is included, if the union of some of the included polygons does not unite with
any other one, or if some removal splits the domain. -/
theorem C43_err (O : DomainOps P) (σ : Sched) (includes removes : List P)
    (h : evalBoundary O σ includes removes = .ok .err) :
    includes = [] ∨
      (∃ first used b0, UnitesAll O first used b0 ∧ (∀ p ∈ first :: used, p ∈ includes) ∧
        (∃ p ∈ includes, p ∉ first :: used) ∧
        ∀ p ∈ includes, p ∉ first :: used → ∃ σ, O.union σ b0 p = .ok none) ∨
      (∃ first used b0, UnitesAll O first used b0 ∧ (∀ p, p ∈ first :: used ↔ p ∈ includes) ∧
        Splits O b0 removes) := by
  by_cases hne : includes = []
  · exact Or.inl hne
  right
  obtain ⟨first, rest, left, b0, n, σ', σ'', k1, k2, k3, k4, k5⟩ := evalBoundary_cases O σ includes removes hne h
  obtain ⟨⟨used, m1, m2⟩, m3⟩ := absorbPasses_spec O n σ' first b0 rest left k2 k3 k4
  obtain ⟨hl, -⟩ | ⟨hl, k5⟩ := k5
  · left
    obtain ⟨used', b1, left', n1, n2, n3, n4⟩ := m3 hl
    have hp : (first :: (used' ++ left')).Perm (toSet includes) := (List.Perm.cons first n2).trans k1
    have hmem : ∀ p, p ∈ includes ↔ p = first ∨ p ∈ used' ∨ p ∈ left' := fun p => by
      rw [← mem_toSet, ← hp.mem_iff]; simp
    have hnd : (first :: (used' ++ left')).Nodup := hp.nodup_iff.2 (nodup_toSet _)
    obtain ⟨p, hpl⟩ := List.exists_mem_of_ne_nil _ n3
    refine ⟨first, used', b1, n1, ?_, ⟨p, (hmem p).2 (Or.inr (Or.inr hpl)), ?_⟩, ?_⟩
    · intro q hq
      rw [hmem]
      rcases List.mem_cons.1 hq with h | h
      · exact Or.inl h
      · exact Or.inr (Or.inl h)
    · intro hc
      rw [List.nodup_cons, List.nodup_append] at hnd
      rcases List.mem_cons.1 hc with rfl | hc
      · exact hnd.1 (List.mem_append.2 (Or.inr hpl))
      · exact hnd.2.2.2 p hc p hpl rfl
    · intro q hq hq'
      rcases (hmem q).1 hq with rfl | h | h
      · exact absurd List.mem_cons_self hq'
      · exact absurd (List.mem_cons_of_mem _ h) hq'
      · exact n4 q h
  · right
    subst hl
    rw [List.append_nil] at m2
    have hp := (List.Perm.cons first m2).trans k1
    exact ⟨first, used, b0, m1, fun p => by rw [hp.mem_iff, mem_toSet], subtractAll_err _ _ _ _ k5⟩

/-- C43: with no included polygon it fails. -/
theorem C43_empty (O : DomainOps P) (σ : Sched) (removes : List P) :
    evalBoundary O σ [] removes = .ok .err := by
  simp [evalBoundary, toSet, choose]

end Verif.Props
