import Verif.Lemmas.Sets
import Verif.Model.Polyline

/-!
# `split_intersections` never panics
-/

set_option linter.unusedSectionVars false

namespace Verif

variable {K : Type*} [Field K] [LinearOrder K]

theorem crosses_isSome {eps : K} {a b c d : Vertex K} (h : crosses eps a b c d = true) :
    (intersection eps a b c d).isSome = true := by
  unfold crosses at h
  rw [Bool.and_eq_true] at h
  exact h.1

theorem splitLoop_ne_panic (eps : K) (n : Nat) :
    ∀ aux acc, splitLoop eps n aux acc ≠ .panic := by
  induction n with
  | zero =>
    intro aux acc
    cases aux <;> simp [splitLoop]
  | succ n ih =>
    intro aux acc
    cases aux with
    | nil => simp [splitLoop]
    | cons s aux =>
      obtain ⟨v1, v2⟩ := s
      rw [splitLoop]
      cases hf : acc.findIdx? (fun s => crosses eps v1 v2 s.1 s.2) with
      | none => exact ih _ _
      | some i =>
        simp only []
        rw [List.findIdx?_eq_some_iff_getElem] at hf
        obtain ⟨hi, hc, -⟩ := hf
        rw [List.getElem?_eq_getElem hi]
        have hs := crosses_isSome hc
        rcases hq : acc[i] with ⟨v3, v4⟩
        rw [hq] at hs
        simp only [] at hs ⊢
        rw [Option.isSome_iff_exists] at hs
        obtain ⟨p, hp⟩ := hs
        rw [hp]
        exact ih _ _

theorem splitIntersections_ne_panic (eps : K) (fuel : Nat) (l : List (Vertex K × Vertex K)) :
    splitIntersections eps fuel l ≠ .panic := splitLoop_ne_panic _ _ _ _

end Verif
