import Verif.Model.Vertices

/-!
# More fuel does not change what an insertion returns
-/

namespace Verif

section

variable {V : Type*} [DecidableEq V]

theorem Res.bind_settled {α β : Type*} {x : Res α} {k k' : α → Res β} (h : x.bind k ≠ .diverged)
    (hk : ∀ a, x = .ok a → k a ≠ .diverged → k' a = k a) : x.bind k' = x.bind k := by
  cases x with
  | ok a => exact hk a rfl h
  | panic => rfl
  | diverged => exact absurd rfl h

theorem cavityLoop_more {P : Preds V} {C : List (Edge V)} {v : V} : ∀ {n k : Nat} {B : List (Edge V)} {s : SolveState V},
    cavityLoop P C v n B s ≠ .diverged → n ≤ k → cavityLoop P C v k B s = cavityLoop P C v n B s
  | 0, k, [], s, _, _ => by cases k <;> rfl
  | 0, k, e :: B, s, h, _ => absurd rfl h
  | n + 1, k, [], s, _, _ => by cases k <;> rfl
  | n + 1, 0, e :: B, s, _, hk => by omega
  | n + 1, k + 1, e :: B, s, h, hk => by
    rw [cavityLoop] at h
    rw [cavityLoop, cavityLoop]
    exact Res.bind_settled h fun a _ ha => cavityLoop_more ha (by omega)

theorem solveStep_more {P : Preds V} {C : List (Edge V)} {n k : Nat} {σ : Sched} {s : SolveState V}
    (h : solveStep P C n σ s ≠ .diverged) (hk : n ≤ k) : solveStep P C k σ s = solveStep P C n σ s := by
  unfold solveStep at h ⊢
  cases hc : choose σ s.cmap with
  | none => rfl
  | some q =>
    obtain ⟨t, vs⟩ := q
    rw [hc] at h
    simp only at h ⊢
    cases hv : vs.getLast? with
    | none => rfl
    | some v =>
      rw [hv] at h
      exact cavityLoop_more h hk

theorem solveLoop_more {P : Preds V} {C : List (Edge V)} {f f' : Nat} (hf : f ≤ f') :
    ∀ {n k : Nat} {σ : Sched} {s : SolveState V},
      solveLoop P C f n σ s ≠ .diverged → n ≤ k → solveLoop P C f' k σ s = solveLoop P C f n σ s
  | 0, k, σ, s, h, _ => by
    rw [solveLoop] at h ⊢
    split_ifs at h with hc
    · cases k <;> simp [solveLoop, hc]
    · exact absurd rfl h
  | n + 1, 0, σ, s, _, hk => by omega
  | n + 1, k + 1, σ, s, h, hk => by
    rw [solveLoop] at h
    rw [solveLoop, solveLoop]
    split_ifs at h ⊢ with hc
    · rfl
    · have h1 : solveStep P C f (σ.sub 0) s ≠ .diverged := by
        intro hd
        rw [hd] at h
        exact h rfl
      rw [solveStep_more h1 hf]
      exact Res.bind_settled h fun a _ ha => solveLoop_more hf ha (by omega)

/-- An insertion that ends with some fuel ends in the same way with more fuel. -/
theorem includeVertices_more {P : Preds V} {C : List (Edge V)} {n k : Nat} {σ : Sched} {m : Mesh V} {vs : List V}
    (h : includeVertices P C n σ m vs ≠ .diverged) (hk : n ≤ k) :
    includeVertices P C k σ m vs = includeVertices P C n σ m vs := by
  unfold includeVertices at h ⊢
  simp only at h ⊢
  exact Res.bind_settled h fun a _ ha => solveLoop_more hk ha hk

end

end Verif
