import Verif.Model.Basic
import Mathlib.Data.List.Count
import Mathlib.Data.List.Dedup

/-!
# Facts about results, schedulers and list-based sets
-/

set_option linter.unusedSectionVars false

namespace Verif

namespace Res

variable {α β γ : Type*}

@[simp] theorem bind_ok (a : α) (f : α → Res β) : (Res.ok a).bind f = f a := rfl
@[simp] theorem bind_panic (f : α → Res β) : (Res.panic : Res α).bind f = .panic := rfl
@[simp] theorem bind_diverged (f : α → Res β) : (Res.diverged : Res α).bind f = .diverged := rfl

theorem bind_eq_ok {r : Res α} {f : α → Res β} {b : β} :
    r.bind f = .ok b ↔ ∃ a, r = .ok a ∧ f a = .ok b := by
  cases r <;> simp

theorem unwrap_eq_ok {o : Option α} {a : α} : Res.unwrap o = .ok a ↔ o = some a := by
  cases o <;> simp [Res.unwrap]

end Res

section choose

variable {α : Type*}

theorem choose_mem {σ : Sched} {l : List α} {a : α} (h : choose σ l = some a) : a ∈ l :=
  List.mem_of_getElem? h

theorem choose_eq_none {σ : Sched} {l : List α} : choose σ l = none ↔ l = [] := by
  constructor
  · intro h
    rw [choose, List.getElem?_eq_none_iff] at h
    by_contra hne
    have hpos : 0 < l.length := List.length_pos_iff.2 hne
    have := Nat.mod_lt σ.here hpos
    omega
  · rintro rfl; rfl

theorem shuffleAux_perm (σ : Sched) :
    ∀ (n : Nat) (l : List α), l.length = n → (shuffleAux σ n l).Perm l := by
  intro n
  induction n with
  | zero => intro l hl; rw [List.length_eq_zero_iff] at hl; subst hl; exact List.Perm.nil
  | succ n ih =>
    intro l hl
    have hpos : 0 < l.length := by omega
    have hlt : (σ.sub n).here % l.length < l.length := Nat.mod_lt _ hpos
    rw [shuffleAux, List.getElem?_eq_getElem hlt]
    simp only []
    have h1 := ih (l.eraseIdx ((σ.sub n).here % l.length))
      (by rw [List.length_eraseIdx_of_lt hlt]; omega)
    exact (List.Perm.cons _ h1).trans (List.getElem_cons_eraseIdx_perm hlt)

theorem shuffle_perm (σ : Sched) (l : List α) : (shuffle σ l).Perm l := shuffleAux_perm σ _ l rfl

@[simp] theorem mem_shuffle {σ : Sched} {l : List α} {a : α} : a ∈ shuffle σ l ↔ a ∈ l :=
  (shuffle_perm σ l).mem_iff

theorem nodup_shuffle {σ : Sched} {l : List α} : (shuffle σ l).Nodup ↔ l.Nodup :=
  (shuffle_perm σ l).nodup_iff

@[simp] theorem length_shuffle (σ : Sched) (l : List α) : (shuffle σ l).length = l.length :=
  (shuffle_perm σ l).length_eq

theorem shuffle_first (l : List α) : shuffle Sched.first l = l := by
  have : ∀ n (l : List α), l.length = n → shuffleAux Sched.first n l = l := by
    intro n
    induction n with
    | zero => intro l hl; rw [List.length_eq_zero_iff] at hl; subst hl; rfl
    | succ n ih =>
      intro l hl
      cases l with
      | nil => simp at hl
      | cons a l =>
        simp only [shuffleAux, Sched.here, Sched.sub, Sched.first, Nat.zero_mod,
          List.getElem?_cons_zero, List.eraseIdx_cons_zero]
        rw [ih l (by simpa using hl)]
  exact this _ l rfl

end choose

section sets

variable {α : Type*} [DecidableEq α]

@[simp] theorem mem_setInsert {a b : α} {l : List α} : b ∈ setInsert a l ↔ b = a ∨ b ∈ l := by
  unfold setInsert
  split_ifs with h
  · constructor
    · exact Or.inr
    · rintro (rfl | h') <;> assumption
  · exact List.mem_cons

@[simp] theorem mem_setErase {a b : α} {l : List α} : b ∈ setErase a l ↔ b ∈ l ∧ b ≠ a := by
  simp [setErase]

theorem nodup_setInsert {a : α} {l : List α} (h : l.Nodup) : (setInsert a l).Nodup := by
  unfold setInsert
  split_ifs with h'
  · exact h
  · exact List.nodup_cons.2 ⟨h', h⟩

theorem nodup_setErase {a : α} {l : List α} (h : l.Nodup) : (setErase a l).Nodup := h.filter _

theorem mem_foldl_setInsert (l s : List α) (b : α) :
    b ∈ l.foldl (fun s a => setInsert a s) s ↔ b ∈ l ∨ b ∈ s := by
  induction l generalizing s with
  | nil => simp
  | cons a l ih => rw [List.foldl_cons, ih, mem_setInsert, List.mem_cons]; tauto

theorem nodup_foldl_setInsert (l s : List α) (h : s.Nodup) :
    (l.foldl (fun s a => setInsert a s) s).Nodup := by
  induction l generalizing s with
  | nil => exact h
  | cons a l ih => rw [List.foldl_cons]; exact ih _ (nodup_setInsert h)

@[simp] theorem mem_toSet {l : List α} {b : α} : b ∈ toSet l ↔ b ∈ l := by
  rw [toSet, mem_foldl_setInsert]; simp

theorem nodup_toSet (l : List α) : (toSet l).Nodup := nodup_foldl_setInsert _ _ List.nodup_nil

@[simp] theorem mem_setUnion {a b : List α} {c : α} : c ∈ setUnion a b ↔ c ∈ a ∨ c ∈ b := by
  rw [setUnion, mem_toSet, List.mem_append]

theorem nodup_setUnion (a b : List α) : (setUnion a b).Nodup := nodup_toSet _

theorem setErase_perm {a : α} {l : List α} (hn : l.Nodup) (h : a ∈ l) :
    (a :: setErase a l).Perm l := by
  rw [List.perm_ext_iff_of_nodup (List.nodup_cons.2 ⟨by simp, nodup_setErase hn⟩) hn]
  intro b
  simp only [List.mem_cons, mem_setErase]
  constructor
  · rintro (rfl | ⟨h', -⟩) <;> assumption
  · intro hb; by_cases hba : b = a <;> simp [hba, hb]

theorem setErase_of_not_mem {a : α} {l : List α} (h : a ∉ l) : setErase a l = l := by
  rw [setErase, List.filter_eq_self]
  intro b hb
  simp only [Bool.not_eq_true', decide_eq_false_iff_not]
  rintro rfl; exact h hb

end sets

end Verif
