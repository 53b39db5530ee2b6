import Verif.Lemmas.Bisection

/-!
# Counting the iterations of `unencroach_segment`
-/

set_option linter.unusedSectionVars false

namespace Verif

variable {V : Type*} [DecidableEq V]

/-- If each segment has a budget that pays for one iteration and for the budgets of its encroached halves, then the loop
needs no more iterations than the budgets of the segments on the stack. -/
theorem unencLoop_count {P : RPreds V} {C : List (Edge V)} {fuel n : Nat} {A : Nat → Edge V → Prop} {W : V → Prop}
    (hs : ∀ k e, A k e → ∃ k1 k2, k1 + k2 + 1 ≤ k ∧
      ((∃ v, W v ∧ P.encroaches ⟨e.v1, P.mid e⟩ v = true) → A k1 ⟨e.v1, P.mid e⟩) ∧
      ((∃ v, W v ∧ P.encroaches ⟨P.mid e, e.v2⟩ v = true) → A k2 ⟨P.mid e, e.v2⟩)) :
    ∀ {σ : Sched} {stack : List (Edge V)} {ks : List Nat} {s : UnencState V}, (∀ v ∈ s.vertices, W v) →
    List.Forall₂ A ks stack → ks.sum ≤ n → unencLoop P C fuel n σ stack s = .diverged →
    ∃ σ' m' e', splitSegment P fuel σ' C m' e' = .diverged := by
  induction n with
  | zero =>
    intro σ stack ks s _ hf hn h
    cases hf with
    | nil => rw [unencLoop] at h; cases h
    | @cons k e ks stack hk hf =>
      exfalso
      obtain ⟨k1, k2, h1, -⟩ := hs k e hk
      simp only [List.sum_cons] at hn
      omega
  | succ n ih =>
    intro σ stack ks s hW hf hn h
    cases hf with
    | nil => rw [unencLoop] at h; cases h
    | @cons k e ks stack hk hf =>
      rw [unencLoop] at h
      cases hsp : splitSegment P fuel ((σ.sub 0)) C s.mesh e with
      | diverged => exact ⟨_, _, _, hsp⟩
      | panic => rw [unencStep, hsp] at h; cases h
      | ok st =>
        rw [unencStep, hsp] at h
        simp only [Res.bind_ok] at h
        simp only [List.sum_cons] at hn
        obtain ⟨k1, k2, hk12, a1, a2⟩ := hs k e hk
        have g1 : (s.vertices.any fun v => P.encroaches ⟨e.v1, P.mid e⟩ v) = true → A k1 ⟨e.v1, P.mid e⟩ := by
          intro hb
          obtain ⟨v, hv, hb⟩ := List.any_eq_true.1 hb
          exact a1 ⟨v, hW v hv, hb⟩
        have g2 : (s.vertices.any fun v => P.encroaches ⟨P.mid e, e.v2⟩ v) = true → A k2 ⟨P.mid e, e.v2⟩ := by
          intro hb
          obtain ⟨v, hv, hb⟩ := List.any_eq_true.1 hb
          exact a2 ⟨v, hW v hv, hb⟩
        by_cases b1 : (s.vertices.any fun v => P.encroaches ⟨e.v1, P.mid e⟩ v) = true <;>
          by_cases b2 : (s.vertices.any fun v => P.encroaches ⟨P.mid e, e.v2⟩ v) = true
        · simp only [b1, b2, if_true, List.cons_append, List.nil_append] at h
          refine ih (ks := k2 :: k1 :: ks) (fun v hv => hW v (List.mem_of_mem_filter hv))
            (List.Forall₂.cons (g2 b2) (List.Forall₂.cons (g1 b1) hf)) ?_ h
          simp only [List.sum_cons]
          omega
        · simp only [b1, if_true, if_neg b2, List.cons_append, List.nil_append] at h
          refine ih (ks := k1 :: ks) (fun v hv => hW v (List.mem_of_mem_filter hv)) (List.Forall₂.cons (g1 b1) hf) ?_ h
          simp only [List.sum_cons]
          omega
        · simp only [b2, if_true, if_neg b1, List.cons_append, List.nil_append] at h
          refine ih (ks := k2 :: ks) (fun v hv => hW v (List.mem_of_mem_filter hv)) (List.Forall₂.cons (g2 b2) hf) ?_ h
          simp only [List.sum_cons]
          omega
        · simp only [if_neg b2, if_neg b1, List.nil_append] at h
          refine ih (ks := ks) (fun v hv => hW v (List.mem_of_mem_filter hv)) hf ?_ h
          omega

end Verif
