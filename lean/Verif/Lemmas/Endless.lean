import Verif.Lemmas.Continence
import Verif.Lemmas.Fuel
import Verif.Model.Triangulator

/-!
# More fuel does not change an answer, and a walk that never comes back
-/

set_option linter.unusedSectionVars false

namespace Verif

/-- More fuel changes nothing, unless the fuel was exhausted. -/
def Lasting {α : Type*} (x : Nat → Res α) : Prop := ∀ n k, x n ≠ .diverged → n ≤ k → x k = x n

theorem Lasting.ok {α : Type*} {x : Nat → Res α} (h : Lasting x) {n : Nat} {a : α} (hn : x n = .ok a) (f : Nat) :
    x f = .diverged ∨ x f = .ok a := by
  rcases le_total n f with hf | hf
  · exact Or.inr ((h n f (by rw [hn]; simp) hf).trans hn)
  · by_cases hd : x f = .diverged
    · exact Or.inl hd
    · exact Or.inr ((h f n hd hf).symm.trans hn)

theorem Lasting.const {α : Type*} (x : Res α) : Lasting fun _ => x := fun _ _ _ _ => rfl

theorem Lasting.bind {α β : Type*} {x : Nat → Res α} {k : Nat → α → Res β} (hx : Lasting x)
    (hk : ∀ a, Lasting fun n => k n a) : Lasting fun n => (x n).bind (k n) := by
  intro n m h hm
  have h' : x n ≠ .diverged := by
    intro e
    simp only [e] at h
    exact h rfl
  simp only
  rw [hx n m h' hm]
  simp only at h
  exact Res.bind_settled h fun a _ ha => hk a n m ha hm

theorem Lasting.bind' {α β : Type*} {x : Nat → Res α} {k : α → Res β} (hx : Lasting x) :
    Lasting fun n => (x n).bind k := Lasting.bind (k := fun _ => k) hx fun a => Lasting.const (k a)

section arrange

variable {V : Type*} [DecidableEq V]

/-- A walk that cannot leave a set of vertices and does not meet the head there. -/
theorem arrangeLoop_endless {veq : V → V → Bool} {next : V → Option V} {head : V} {S : List V}
    (hS : ∀ v ∈ S, ∃ w ∈ S, next v = some w ∧ veq w head = false) :
    ∀ (n : Nat) {tail : V} (acc : List V), tail ∈ S → arrangeLoop veq next head n tail acc = .diverged
  | 0, tail, acc, _ => by rw [arrangeLoop]
  | n + 1, tail, acc, ht => by
    obtain ⟨w, hw, h1, h2⟩ := hS tail ht
    rw [arrangeLoop, h1]
    simp only
    rw [h2]
    exact arrangeLoop_endless hS n _ hw

theorem flood_lasting {S : List (Edge V)} {pending : List (Edge V)} {m : Mesh V} :
    Lasting fun n => flood S n pending m := by
  intro n
  induction n generalizing pending m with
  | zero =>
    intro k h hk
    cases pending with
    | nil => cases k <;> rfl
    | cons e pending => exact absurd rfl h
  | succ n ih =>
    intro k h hk
    cases pending with
    | nil => cases k <;> rfl
    | cons e pending =>
      obtain ⟨k, rfl⟩ : ∃ j, k = j + 1 := ⟨k - 1, by omega⟩
      simp only [flood] at h ⊢
      cases ha : m.adj e with
      | none =>
        simp only [ha] at h ⊢
        exact ih k h (by omega)
      | some t =>
        simp only [ha] at h ⊢
        exact ih k h (by omega)

theorem includeVertices_lasting {P : Preds V} {C : List (Edge V)} {σ : Sched} {m : Mesh V} {vs : List V} :
    Lasting fun n => includeVertices P C n σ m vs := fun _ _ h hk => includeVertices_more h hk

theorem includeBoundary_lasting {P : Preds V} {g : V} {C : List (Edge V)} {σ : Sched} {m : Mesh V} {b : Polyline V} :
    Lasting fun n => includeBoundary P g C n σ m b := by
  unfold includeBoundary
  refine Lasting.bind includeVertices_lasting fun s => ?_
  unfold carveBoundary
  exact Lasting.bind' flood_lasting

theorem filterRes_lasting {α : Type*} {p : Nat → α → Res Bool} (hp : ∀ a, Lasting fun n => p n a) (l : List α) :
    Lasting fun n => filterRes (p n) l := by
  induction l with
  | nil => exact Lasting.const _
  | cons a l ih =>
    simp only [filterRes]
    exact Lasting.bind (k := fun n b => (filterRes (p n) l).bind fun r => .ok (if b then a :: r else r)) (hp a)
      fun b => Lasting.bind' ih

end arrange

section geometry

variable {K : Type*} [Field K] [LinearOrder K]

/-- Without boundary and holes the predicates need no fuel. -/
theorem geoPreds_free (eps : K) (n k : Nat) : geoPreds eps n none [] = geoPreds eps k none [] := by
  have : mayInsertTriangle eps n none [] = mayInsertTriangle eps k none [] := by
    funext t v
    simp [mayInsertTriangle, outsideHoles]
  simp only [geoPreds, this]

theorem splitLoop_lasting {eps : K} {aux acc : List (Vertex K × Vertex K)} :
    Lasting fun n => splitLoop eps n aux acc := by
  intro n
  induction n generalizing aux acc with
  | zero =>
    intro m h hm
    cases aux with
    | nil => cases m <;> rfl
    | cons s aux => exact absurd rfl h
  | succ n ih =>
    intro m h hm
    cases aux with
    | nil => cases m <;> rfl
    | cons s aux =>
      obtain ⟨v1, v2⟩ := s
      obtain ⟨m, rfl⟩ : ∃ k, m = k + 1 := ⟨m - 1, by omega⟩
      simp only [splitLoop] at h ⊢
      cases hf : acc.findIdx? (fun s => crosses eps v1 v2 s.1 s.2) with
      | none =>
        simp only [hf] at h ⊢
        exact ih m h (by omega)
      | some i =>
        simp only [hf] at h ⊢
        cases hi : acc[i]? with
        | none => rfl
        | some t =>
          obtain ⟨v3, v4⟩ := t
          simp only [hi] at h ⊢
          cases hx : intersection eps v1 v2 v3 v4 with
          | none => rfl
          | some p =>
            simp only [hx] at h ⊢
            exact ih m h (by omega)

theorem continence_lasting {eps : K} {p q : Polyline (Vertex K)} : Lasting fun n => Polyline.continence eps n p q := by
  unfold Polyline.continence
  by_cases hp : p.opened = true
  · simp only [if_pos hp]
    exact Lasting.const _
  · simp only [if_neg hp]
    refine Lasting.bind (x := fun _ => _) (Lasting.const _) fun r => ?_
    cases r with
    | none => exact Lasting.const _
    | some s =>
      obtain ⟨pc, pb⟩ := s
      exact Lasting.bind' (x := fun n => splitIntersections eps n _) splitLoop_lasting

theorem segmentTouches_lasting {eps : K} {s : Edge (Vertex K)} (t : Tri (Vertex K)) :
    Lasting fun n => segmentTouches eps n s t := by
  unfold segmentTouches
  cases t.asPolyline with
  | none => exact Lasting.const _
  | some p =>
    cases s.asPolyline with
    | none => exact Lasting.const _
    | some q => exact Lasting.bind' continence_lasting

theorem segmentConflicts_lasting {eps : K} {C : List (Edge (Vertex K))} {s : Edge (Vertex K)} {m : Mesh (Vertex K)} :
    Lasting fun n => segmentConflicts eps n C s m := by
  unfold segmentConflicts
  exact Lasting.bind' (filterRes_lasting segmentTouches_lasting _)

end geometry

end Verif
