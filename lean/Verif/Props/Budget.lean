import Verif.Lemmas.Budget
import Verif.Model.Json
import Verif.Props.HoleLimits
import Verif.Spec.Outcome

/-!
# C82: each call has one outcome
-/

set_option linter.unusedSectionVars false

namespace Verif.Props

open Spec

theorem outcome_of {α : Type*} {x : Nat → Res α} (h : ∀ n k, n ≤ k → Ext (x n) (x k)) : ∃! o, Outcome x o := by
  have uniq : ∀ o o', Outcome x o → Outcome x o' → o = o' := by
    intro o o' h h'
    obtain ⟨n, hn⟩ := h.settled
    obtain ⟨m, hm⟩ := h'.settled
    rw [← hn (max n m) (le_max_left _ _), hm (max n m) (le_max_right _ _)]
  by_cases hd : ∀ n, x n = .diverged
  · have : Outcome x .diverged := ⟨fun n => Or.inl (hd n), 0, fun k _ => hd k⟩
    exact ⟨_, this, fun o ho => uniq o _ ho this⟩
  · push Not at hd
    obtain ⟨n, hn⟩ := hd
    have : Outcome x (x n) := by
      refine ⟨fun k => ?_, n, fun k hk => h n k hk hn⟩
      by_cases hk : x k = .diverged
      · exact Or.inl hk
      · rcases le_total n k with hnk | hnk
        · exact Or.inr (h n k hnk hn)
        · exact Or.inr (h k n hnk hk).symm
    exact ⟨_, this, fun o ho => uniq o _ ho this⟩

/-- If the outcome is an answer or a panic, it is what some number of steps gives. -/
theorem outcome_iff {α : Type*} {x : Nat → Res α} (h : ∃! o, Outcome x o) {o : Res α} (ho : o ≠ .diverged) :
    Outcome x o ↔ ∃ n, x n = o := by
  constructor
  · rintro ⟨-, n, hn⟩
    exact ⟨n, hn n le_rfl⟩
  · rintro ⟨n, hn⟩
    obtain ⟨o', ho', -⟩ := h
    rcases ho'.only n with k | k
    · exact absurd (hn.symm.trans k) ho
    · rw [← hn, k]
      exact ho'

section

variable {K : Type*} [Field K] [LinearOrder K]

/-- C82 for the methods of the triangulator: for given arguments and given orders of the hash tables, each method has one
outcome (it returns one value, or panics, or never ends). -/
theorem C82_methods (eps : K) (dist : Vertex K → Vertex K → K) (σ : Sched) (T : Triangulator K) (r : Request K) :
    ∃! o, Outcome (fun fuel => T.perform eps fuel dist σ r) o :=
  outcome_of fun _ _ hk => Triangulator.perform_ext hk dist σ T r

/-- C82 for the operations on polylines and edges. -/
theorem C82_operations (eps : K) (σ : Sched) (p q : Polyline (Vertex K)) (l : List (Edge (Vertex K))) (e : Edge (Vertex K))
    (ts : List (Tri (Vertex K))) :
    (∃! o, Outcome (fun fuel => Polyline.continence eps fuel p q) o) ∧
    (∃! o, Outcome (fun fuel => Polyline.intersection eps fuel σ p q) o) ∧
    (∃! o, Outcome (fun fuel => Polyline.union eps fuel σ p q) o) ∧
    (∃! o, Outcome (fun fuel => Polyline.subtraction eps fuel σ p q) o) ∧
    (∃! o, Outcome (fun fuel => Polyline.arrange (Vertex.eqv eps) σ fuel l) o) ∧
    (∃! o, Outcome (fun fuel => Polyline.trianglesHull (Vertex.eqv eps) σ fuel ts) o) ∧
    (∃! o, Outcome (fun fuel => Edge.decompose eps fuel σ l e) o) ∧
    (∃! o, Outcome (fun fuel => Edge.arrange eps fuel σ l) o) :=
  ⟨outcome_of fun _ _ hk => continence_ext hk p q, outcome_of fun _ _ hk => Polyline.intersection_ext hk σ p q,
    outcome_of fun _ _ hk => Polyline.union_ext hk σ p q, outcome_of fun _ _ hk => Polyline.subtraction_ext hk σ p q,
    outcome_of fun _ _ hk => polylineArrange_ext _ σ hk l, outcome_of fun _ _ hk => trianglesHull_ext _ σ hk ts,
    outcome_of fun _ _ hk => Edge.decompose_ext hk σ l e,
    outcome_of fun _ _ hk => Edge.edgeArrangeLoop_ext hk σ none l []⟩

/-- C82 for the program: for a given document and given orders of the hash tables it has one outcome. -/
theorem C82_program {U : Type*} (L : Libs U) (eps : K) (F : CircleFns K) (dist : Vertex K → Vertex K → K) (σ : Sched)
    (file : Option (Json K)) : ∃! o, Outcome (fun fuel => mainProgram L eps fuel F dist σ file) o := by
  refine outcome_of fun n k hk => ?_
  unfold mainProgram
  cases file.bind (Json.readInput L) with
  | none => exact Ext.refl _
  | some d => exact (runProgram_ext hk F dist σ d.input).bind'

end

open ValidityExample HoleExample ThinExample

/-- The three kinds of outcomes occur: the triangulation of the square ends with a mesh, that of the square with one thin
hole panics, and that of the square with another one never ends. -/
example : (∃ T, Outcome (fun fuel => (Triangulator.new wide).triangulate 0 fuel (order 0)) (.ok T)) ∧
    (∃ T : Triangulator ℚ, Outcome (fun fuel => T.triangulate 0 fuel (order 0)) .panic) ∧
    (∃ T : Triangulator ℚ, ∃ σ, Outcome (fun fuel => T.triangulate 0 fuel σ) .diverged) := by
  have one : ∀ (T : Triangulator ℚ) σ, ∃! o, Outcome (fun fuel => T.triangulate 0 fuel σ) o :=
    fun T σ => outcome_of fun _ _ hk => Triangulator.triangulate_ext hk σ T
  refine ⟨⟨_, (outcome_iff (one _ _) (by simp)).2 ⟨60, valueOr_ok (d := Triangulator.new wide) (by decide +kernel)⟩⟩,
    ⟨punch (Triangulator.new wide) thin, (outcome_iff (one _ _) (by simp)).2 ⟨60, ?_⟩⟩, ?_⟩
  · have : (match (punch (Triangulator.new wide) thin).triangulate 0 60 (order 0) with
      | .panic => true
      | _ => false) = true := by decide +kernel
    split at this
    · assumption
    · simp at this
  · obtain ⟨b, h, σ, T, -, -, -, -, -, -, -, -, hd⟩ := C59_endless_false
    exact ⟨T, σ, fun n => Or.inl (hd n), 0, fun k _ => hd k⟩

end Verif.Props
