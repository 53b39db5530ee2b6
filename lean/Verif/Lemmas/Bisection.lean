import Verif.Lemmas.Geometry
import Verif.Lemmas.Sets
import Verif.Model.Refine
import Verif.Spec.Bisection
import Mathlib.Tactic.Positivity

/-!
# The loop of `unencroach_segment`
-/

set_option linter.unusedSectionVars false

namespace Verif

open Spec

section generic

variable {V : Type*} [DecidableEq V]

/-- `l` are the pieces of `e` after at least one cut. -/
def CutOnce (mid : Edge V → V) (e : Edge V) (l : List (Edge V)) : Prop :=
  ∃ l1 l2, l = l1 ++ l2 ∧ Bisects mid ⟨e.v1, mid e⟩ l1 ∧ Bisects mid ⟨mid e, e.v2⟩ l2

theorem CutOnce.bisects {mid : Edge V → V} {e : Edge V} {l : List (Edge V)} (h : CutOnce mid e l) :
    Bisects mid e l := by
  obtain ⟨l1, l2, rfl, h1, h2⟩ := h
  exact Bisects.halves h1 h2

theorem any_false {v : List V} {p : V → Bool} (h : ¬ (v.any p = true)) : ∀ x ∈ v, p x = false := by
  intro x hx
  by_contra hp
  exact h (List.any_eq_true.2 ⟨x, hx, by simpa using hp⟩)

/-- Where the subsegments come from, and that none is encroached by the vertices left. -/
theorem unencLoop_tiles {P : RPreds V} {C : List (Edge V)} {fuel n : Nat} : ∀ {σ : Sched}
    {stack : List (Edge V)} {s s' : UnencState V}, unencLoop P C fuel n σ stack s = .ok s' →
    ∃ ls : List (List (Edge V)), List.Forall₂ (CutOnce P.mid) stack ls ∧
      (∀ h, h ∈ s'.newEdges ↔ h ∈ s.newEdges ∨ h ∈ ls.flatten) ∧
      (∀ v ∈ s'.vertices, v ∈ s.vertices) ∧
      ∀ h ∈ s'.newEdges, h ∈ s.newEdges ∨ ∀ v ∈ s'.vertices, P.encroaches h v = false := by
  induction n with
  | zero =>
    intro σ stack s s' h
    cases stack with
    | nil =>
      rw [unencLoop] at h
      injection h with h
      subst h
      exact ⟨[], List.Forall₂.nil, by simp, fun _ h => h, fun _ h => Or.inl h⟩
    | cons e stack => rw [unencLoop] at h; cases h
  | succ n ih =>
    intro σ stack s s' h
    cases stack with
    | nil =>
      rw [unencLoop] at h
      injection h with h
      subst h
      exact ⟨[], List.Forall₂.nil, by simp, fun _ h => h, fun _ h => Or.inl h⟩
    | cons e stack =>
      rw [unencLoop, Res.bind_eq_ok] at h
      obtain ⟨r, hr, h⟩ := h
      rw [unencStep, Res.bind_eq_ok] at hr
      obtain ⟨st, -, hr⟩ := hr
      injection hr with hr
      subst hr
      obtain ⟨ls, k1, k2, k3, k4⟩ := ih h
      simp only at k1 k2 k3 k4
      have k3' : ∀ v ∈ s'.vertices, v ∈ s.vertices := fun v hv => List.mem_of_mem_filter (k3 v hv)
      by_cases b1 : (s.vertices.any fun v => P.encroaches ⟨e.v1, P.mid e⟩ v) = true <;>
        by_cases b2 : (s.vertices.any fun v => P.encroaches ⟨P.mid e, e.v2⟩ v) = true
      · simp only [b1, b2, if_true, List.cons_append, List.nil_append] at k1 k2 k4
        rw [List.forall₂_cons_left_iff] at k1
        obtain ⟨l2, ls1, c2, k1, rfl⟩ := k1
        rw [List.forall₂_cons_left_iff] at k1
        obtain ⟨l1, ls2, c1, k1, rfl⟩ := k1
        refine ⟨(l1 ++ l2) :: ls2, List.Forall₂.cons ⟨l1, l2, rfl, c1.bisects, c2.bisects⟩ k1, ?_, k3', ?_⟩
        · intro x
          rw [k2]
          simp only [List.flatten_cons, List.mem_append]
          tauto
        · exact k4
      · simp only [b1, if_true, if_neg b2, List.cons_append, List.nil_append] at k1 k2 k4
        rw [List.forall₂_cons_left_iff] at k1
        obtain ⟨l1, ls2, c1, k1, rfl⟩ := k1
        refine ⟨(l1 ++ [⟨P.mid e, e.v2⟩]) :: ls2,
          List.Forall₂.cons ⟨l1, _, rfl, c1.bisects, Bisects.whole _⟩ k1, ?_, k3', ?_⟩
        · intro x
          rw [k2]
          simp only [List.flatten_cons, List.mem_append, mem_setInsert, List.mem_singleton]
          tauto
        · intro x hx
          rcases k4 x hx with k | k
          · rcases mem_setInsert.1 k with rfl | k
            · exact Or.inr fun v hv => any_false b2 v (k3' v hv)
            · exact Or.inl k
          · exact Or.inr k
      · simp only [b2, if_true, if_neg b1, List.nil_append, List.cons_append] at k1 k2 k4
        rw [List.forall₂_cons_left_iff] at k1
        obtain ⟨l2, ls2, c2, k1, rfl⟩ := k1
        refine ⟨([⟨e.v1, P.mid e⟩] ++ l2) :: ls2,
          List.Forall₂.cons ⟨_, l2, rfl, Bisects.whole _, c2.bisects⟩ k1, ?_, k3', ?_⟩
        · intro x
          rw [k2]
          simp only [List.flatten_cons, List.mem_append, mem_setInsert, List.mem_singleton]
          tauto
        · intro x hx
          rcases k4 x hx with k | k
          · rcases mem_setInsert.1 k with rfl | k
            · exact Or.inr fun v hv => any_false b1 v (k3' v hv)
            · exact Or.inl k
          · exact Or.inr k
      · simp only [if_neg b2, if_neg b1, List.nil_append] at k1 k2 k4
        refine ⟨([⟨e.v1, P.mid e⟩] ++ [⟨P.mid e, e.v2⟩]) :: ls,
          List.Forall₂.cons ⟨_, _, rfl, Bisects.whole _, Bisects.whole _⟩ k1, ?_, k3', ?_⟩
        · intro x
          rw [k2]
          simp only [List.flatten_cons, List.mem_append, mem_setInsert, List.mem_singleton]
          tauto
        · intro x hx
          rcases k4 x hx with k | k
          · rcases mem_setInsert.1 k with rfl | k
            · exact Or.inr fun v hv => any_false b2 v (k3' v hv)
            · rcases mem_setInsert.1 k with rfl | k
              · exact Or.inr fun v hv => any_false b1 v (k3' v hv)
              · exact Or.inl k
          · exact Or.inr k

/-- One vertex that never encroaches both halves of a segment. -/
theorem unencLoop_single {P : RPreds V} {C : List (Edge V)} {fuel n : Nat} {v : V}
    (hd : ∀ e : Edge V, P.encroaches ⟨e.v1, P.mid e⟩ v = true → P.encroaches ⟨P.mid e, e.v2⟩ v = false) :
    ∀ {σ : Sched} {e : Edge V} {s s' : UnencState V}, s.vertices = [v] →
    unencLoop P C fuel n σ [e] s = .ok s' →
    ∀ h ∈ s'.newEdges, h ∈ s.newEdges ∨ P.encroaches h v = false := by
  induction n with
  | zero => intro σ e s s' _ h; rw [unencLoop] at h; cases h
  | succ n ih =>
    intro σ e s s' hv h
    rw [unencLoop, Res.bind_eq_ok] at h
    obtain ⟨r, hr, h⟩ := h
    rw [unencStep, Res.bind_eq_ok] at hr
    obtain ⟨st, -, hr⟩ := hr
    injection hr with hr
    subst hr
    simp only [hv, List.any_cons, List.any_nil, Bool.or_false, List.append_nil] at h
    cases b1 : P.encroaches ⟨e.v1, P.mid e⟩ v <;> cases b2 : P.encroaches ⟨P.mid e, e.v2⟩ v
    · simp only [b1, b2, Bool.false_eq_true, if_false, List.append_nil] at h
      cases n <;> (rw [unencLoop] at h; injection h with h; subst h; intro x hx)
      all_goals
        simp only [mem_setInsert] at hx
        rcases hx with rfl | rfl | hx
        · exact Or.inr b2
        · exact Or.inr b1
        · exact Or.inl hx
    · simp only [b1, b2, Bool.false_eq_true, if_false, if_true, List.append_nil] at h
      intro x hx
      rcases ih (by simp [b1, b2]) h x hx with k | k
      · rcases mem_setInsert.1 k with rfl | k
        · exact Or.inr b1
        · exact Or.inl k
      · exact Or.inr k
    · simp only [b1, b2, Bool.false_eq_true, if_false, if_true, List.nil_append] at h
      intro x hx
      rcases ih (by simp [b1]) h x hx with k | k
      · rcases mem_setInsert.1 k with rfl | k
        · exact Or.inr b2
        · exact Or.inl k
      · exact Or.inr k
    · rw [hd e b1] at b2; cases b2

/-- A property of edges that holds of encroached halves holds of all edges that are split. -/
theorem unencLoop_induct {P : RPreds V} {C : List (Edge V)} {fuel n : Nat} {A B : Edge V → Prop}
    {W : V → Prop}
    (hA : ∀ e v, A e → W v → (P.encroaches ⟨e.v1, P.mid e⟩ v = true → A ⟨e.v1, P.mid e⟩) ∧
      (P.encroaches ⟨P.mid e, e.v2⟩ v = true → A ⟨P.mid e, e.v2⟩))
    (hB : ∀ e, A e → B ⟨e.v1, P.mid e⟩ ∧ B ⟨P.mid e, e.v2⟩) :
    ∀ {σ : Sched} {stack : List (Edge V)} {s s' : UnencState V}, (∀ v ∈ s.vertices, W v) →
    (∀ e ∈ stack, A e) → unencLoop P C fuel n σ stack s = .ok s' →
    ∀ h ∈ s'.newEdges, h ∈ s.newEdges ∨ B h := by
  induction n with
  | zero =>
    intro σ stack s s' _ _ h
    cases stack with
    | nil => rw [unencLoop] at h; injection h with h; subst h; exact fun _ h => Or.inl h
    | cons e stack => rw [unencLoop] at h; cases h
  | succ n ih =>
    intro σ stack s s' hW hs h
    cases stack with
    | nil => rw [unencLoop] at h; injection h with h; subst h; exact fun _ h => Or.inl h
    | cons e stack =>
      rw [unencLoop, Res.bind_eq_ok] at h
      obtain ⟨r, hr, h⟩ := h
      rw [unencStep, Res.bind_eq_ok] at hr
      obtain ⟨st, -, hr⟩ := hr
      injection hr with hr
      subst hr
      have hAe : A e := hs e List.mem_cons_self
      intro x hx
      have := ih (fun v hv => hW v (List.mem_of_mem_filter hv)) (by
        intro f hf
        simp only [List.mem_append] at hf
        rcases hf with (hf | hf) | hf
        · split_ifs at hf with hb
          · rw [List.mem_singleton] at hf
            obtain ⟨v, hv, hve⟩ := List.any_eq_true.1 hb
            subst hf
            exact (hA e v hAe (hW v hv)).2 hve
          · cases hf
        · split_ifs at hf with hb
          · rw [List.mem_singleton] at hf
            obtain ⟨v, hv, hve⟩ := List.any_eq_true.1 hb
            subst hf
            exact (hA e v hAe (hW v hv)).1 hve
          · cases hf
        · exact hs f (List.mem_cons_of_mem _ hf)) h x hx
      rcases this with k | k
      · have key : ∀ (a b : Edge V) (c1 c2 : Bool),
            x ∈ (if c2 = true then (if c1 = true then s.newEdges else setInsert a s.newEdges)
              else setInsert b (if c1 = true then s.newEdges else setInsert a s.newEdges)) →
            x = a ∨ x = b ∨ x ∈ s.newEdges := by
          intro a b c1 c2 hm
          cases c1 <;> cases c2 <;> simp at hm <;> tauto
        rcases key _ _ _ _ k with rfl | rfl | k
        · exact Or.inr (hB e hAe).1
        · exact Or.inr (hB e hAe).2
        · exact Or.inl k
      · exact Or.inr k

/-- The number of iterations is bounded when the halves of small enough edges are not encroached. -/
theorem unencLoop_bound {P : RPreds V} {C : List (Edge V)} {fuel n : Nat} {A : Nat → Edge V → Prop}
    {W : V → Prop}
    (h0 : ∀ e v, A 0 e → W v → P.encroaches ⟨e.v1, P.mid e⟩ v = false ∧
      P.encroaches ⟨P.mid e, e.v2⟩ v = false)
    (hs : ∀ k e, A (k + 1) e → A k ⟨e.v1, P.mid e⟩ ∧ A k ⟨P.mid e, e.v2⟩) :
    ∀ {σ : Sched} {stack : List (Edge V)} {ks : List Nat} {s : UnencState V}, (∀ v ∈ s.vertices, W v) →
    List.Forall₂ A ks stack → (ks.map fun k => 2 ^ (k + 1) - 1).sum ≤ n →
    unencLoop P C fuel n σ stack s = .diverged →
    ∃ σ' m' e', splitSegment P fuel σ' C m' e' = .diverged := by
  induction n with
  | zero =>
    intro σ stack ks s _ hf hn h
    cases hf with
    | nil => rw [unencLoop] at h; cases h
    | @cons k e ks stack hk hf =>
      exfalso
      have : 2 ^ (k + 1) ≥ 2 := by
        rw [pow_succ]; have := Nat.one_le_two_pow (n := k); omega
      simp only [List.map_cons, List.sum_cons] at hn
      omega
  | succ n ih =>
    intro σ stack ks s hW hf hn h
    cases hf with
    | nil => rw [unencLoop] at h; cases h
    | @cons k e ks stack hk hf =>
      rw [unencLoop] at h
      cases hsp : splitSegment P fuel ((σ.sub 0)) C s.mesh e with
      | diverged => exact ⟨_, _, _, hsp⟩
      | panic => rw [unencStep, hsp] at h; cases h
      | ok st =>
        rw [unencStep, hsp] at h
        simp only [Res.bind_ok] at h
        simp only [List.map_cons, List.sum_cons] at hn
        cases k with
        | zero =>
          have b1 : (s.vertices.any fun v => P.encroaches ⟨e.v1, P.mid e⟩ v) = false := by
            rw [List.any_eq_false]
            intro v hv
            rw [(h0 e v hk (hW v hv)).1]; simp
          have b2 : (s.vertices.any fun v => P.encroaches ⟨P.mid e, e.v2⟩ v) = false := by
            rw [List.any_eq_false]
            intro v hv
            rw [(h0 e v hk (hW v hv)).2]; simp
          simp only [b1, b2, Bool.false_eq_true, if_false, List.nil_append] at h
          refine ih (fun v hv => hW v (List.mem_of_mem_filter hv)) hf ?_ h
          omega
        | succ k =>
          obtain ⟨a1, a2⟩ := hs k e hk
          have hp : 2 ^ (k + 1 + 1) = 2 * 2 ^ (k + 1) := by rw [pow_succ]; ring
          have hp1 := Nat.one_le_two_pow (n := k + 1)
          by_cases b1 : (s.vertices.any fun v => P.encroaches ⟨e.v1, P.mid e⟩ v) = true <;>
            by_cases b2 : (s.vertices.any fun v => P.encroaches ⟨P.mid e, e.v2⟩ v) = true
          · simp only [b1, b2, if_true, List.cons_append, List.nil_append] at h
            refine ih (ks := k :: k :: ks) (fun v hv => hW v (List.mem_of_mem_filter hv))
              (List.Forall₂.cons a2 (List.Forall₂.cons a1 hf)) ?_ h
            simp only [List.map_cons, List.sum_cons]
            omega
          · simp only [b1, if_true, if_neg b2, List.cons_append, List.nil_append] at h
            refine ih (ks := k :: ks) (fun v hv => hW v (List.mem_of_mem_filter hv))
              (List.Forall₂.cons a1 hf) ?_ h
            simp only [List.map_cons, List.sum_cons]
            omega
          · simp only [b2, if_true, if_neg b1, List.cons_append, List.nil_append] at h
            refine ih (ks := k :: ks) (fun v hv => hW v (List.mem_of_mem_filter hv))
              (List.Forall₂.cons a2 hf) ?_ h
            simp only [List.map_cons, List.sum_cons]
            omega
          · simp only [if_neg b2, if_neg b1, List.nil_append] at h
            refine ih (ks := ks) (fun v hv => hW v (List.mem_of_mem_filter hv)) hf ?_ h
            omega

end generic

end Verif
