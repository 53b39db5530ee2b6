import Verif.Lemmas.Sets

/-!
# Schedulers realise every iteration order
-/

set_option linter.unusedSectionVars false

namespace Verif

variable {α : Type*}

/-- A pass over `n` elements only asks the first `n` sub-schedulers. -/
theorem shuffleAux_congr {σ τ : Sched} : ∀ (n : Nat) (l : List α), (∀ k < n, σ [k] = τ [k]) →
    shuffleAux σ n l = shuffleAux τ n l := by
  intro n
  induction n with
  | zero => intro l _; rfl
  | succ n ih =>
    intro l h
    have h1 : (σ.sub n).here = (τ.sub n).here := h n (by omega)
    simp only [shuffleAux, h1]
    cases l[(τ.sub n).here % l.length]? with
    | none => rfl
    | some a => simp only []; rw [ih _ fun k hk => h k (by omega)]

/-- Every order of the elements is the order of some scheduler. -/
theorem exists_order {l l' : List α} (h : l'.Perm l) : ∃ σ, shuffle σ l = l' := by
  induction l' generalizing l with
  | nil => exact ⟨Sched.first, by rw [List.nil_perm.1 h]; rfl⟩
  | cons a t ih =>
    obtain ⟨i, hi, ha⟩ := List.getElem_of_mem (h.mem_iff.1 (List.mem_cons_self ..))
    have hp : t.Perm (l.eraseIdx i) := by
      have h1 := List.getElem_cons_eraseIdx_perm hi
      rw [ha] at h1
      exact (List.perm_cons a).1 (h.trans h1.symm)
    obtain ⟨σ, hσ⟩ := ih hp
    have hlen : l.length = (l.eraseIdx i).length + 1 := by
      rw [List.length_eraseIdx_of_lt hi]; omega
    refine ⟨fun p => if p = [(l.eraseIdx i).length] then i else σ p, ?_⟩
    unfold shuffle
    rw [hlen]
    show (match l[(Sched.sub (fun p => if p = [(l.eraseIdx i).length] then i else σ p)
        (l.eraseIdx i).length).here % l.length]? with | none => [] | some b => b :: _) = _
    have h1 : (Sched.sub (fun p => if p = [(l.eraseIdx i).length] then i else σ p)
        (l.eraseIdx i).length).here % l.length = i := by
      simp only [Sched.sub, Sched.here, if_pos]
      exact Nat.mod_eq_of_lt hi
    rw [h1, List.getElem?_eq_getElem hi, ha]
    simp only []
    rw [← hσ]
    congr 1
    refine shuffleAux_congr _ _ fun k hk => ?_
    rw [if_neg]
    intro h2
    injection h2 with h2
    omega

/-- Any element can be chosen. -/
theorem exists_choose {l : List α} {a : α} (h : a ∈ l) : ∃ σ, choose σ l = some a := by
  obtain ⟨i, hi, ha⟩ := List.getElem_of_mem h
  exact ⟨fun _ => i, by
    show l[i % l.length]? = some a
    rw [Nat.mod_eq_of_lt hi, List.getElem?_eq_getElem hi, ha]⟩

/-- Any element that passes a test can be the first one found. -/
theorem exists_find {l : List α} {a : α} {p : α → Bool} (h : a ∈ l) (hp : p a = true) :
    ∃ σ, (shuffle σ l).find? p = some a := by
  obtain ⟨s, t, rfl⟩ := List.append_of_mem h
  obtain ⟨σ, hσ⟩ := exists_order (l := s ++ a :: t) (l' := a :: (s ++ t)) List.perm_middle.symm
  exact ⟨σ, by rw [hσ, List.find?_cons_of_pos hp]⟩

/-- A scheduler with given sub-schedulers. -/
def Sched.join (f : Nat → Sched) : Sched := fun p =>
  match p with
  | [] => 0
  | k :: p => f k p

@[simp] theorem Sched.join_sub (f : Nat → Sched) (k : Nat) : (Sched.join f).sub k = f k := rfl

end Verif
