import Verif.Lemmas.Conflicts
import Verif.Props.Predicates
import Mathlib.Tactic.NormNum

/-!
# C36: conflict bookkeeping
-/

set_option linter.unusedSectionVars false

namespace Verif.Props

open Spec

variable {V : Type*} [DecidableEq V]

/-- C36: when the pending vertices `vs` are distributed over the triangles `ts`, each occurrence of a vertex ends
up in exactly one bucket or stays pending, pending vertices keep their order, a bucket belongs to one of
the triangles and its vertices conflict with it and may be inserted there, and vertices that stay pending
conflict admissibly with no triangle. -/
theorem C36_distribute (P : Preds V) (ts : List (Tri V)) (vs rest : List V) (c : CMap V)
    (h : distributeAll P ts [] vs = .ok (c, rest)) :
    (c.flatMap (·.2) ++ rest).Perm vs ∧ rest.Sublist vs ∧ (c.map (·.1)).Nodup ∧
      (∀ t l, (t, l) ∈ c → t ∈ ts ∧ l ≠ [] ∧
        ∀ v ∈ l, P.inside t v = true ∧ P.mayInsert t v = .ok true) ∧
      (∀ v ∈ rest, ∀ t ∈ ts, ¬ (P.inside t v = true ∧ P.mayInsert t v = .ok true)) := by
  have gen : ∀ (ts : List (Tri V)) (c0 : CMap V) (vs rest : List V) (c : CMap V), c0.WF →
      distributeAll P ts c0 vs = .ok (c, rest) →
      (c.flat ++ rest).Perm (c0.flat ++ vs) ∧ rest.Sublist vs ∧ c.WF ∧
        (∀ t l, (t, l) ∈ c → ∀ v ∈ l,
          (t ∈ ts ∧ P.inside t v = true ∧ P.mayInsert t v = .ok true) ∨
            ∃ l', (t, l') ∈ c0 ∧ v ∈ l') ∧
        (∀ v ∈ rest, ∀ t ∈ ts, ¬ (P.inside t v = true ∧ P.mayInsert t v = .ok true)) := by
    intro ts
    induction ts with
    | nil =>
      intro c0 vs rest c hw h
      simp only [distributeAll, Res.ok.injEq, Prod.mk.injEq] at h
      obtain ⟨rfl, rfl⟩ := h
      exact ⟨List.Perm.refl _, List.Sublist.refl _, hw, fun t l h v hv => Or.inr ⟨l, h, hv⟩, by simp⟩
    | cons t ts ih =>
      intro c0 vs rest c hw h
      rw [distributeAll] at h
      split_ifs at h with hvs
      · simp only [Res.ok.injEq, Prod.mk.injEq] at h
        obtain ⟨rfl, rfl⟩ := h
        exact ⟨List.Perm.refl _, List.Sublist.refl _, hw, fun t l h v hv => Or.inr ⟨l, h, hv⟩,
          by simp [hvs]⟩
      · rw [Res.bind_eq_ok] at h
        obtain ⟨r, hr, h⟩ := h
        obtain ⟨d1, d2, d3, d4, d5⟩ := distribute_spec hw hr
        obtain ⟨k1, k2, k3, k4, k5⟩ := ih r.1 r.2 rest c d1 h
        refine ⟨k1.trans d2, k2.trans d3, k3, ?_, ?_⟩
        · intro s l hm v hv
          rcases k4 s l hm v hv with ⟨e1, e2⟩ | ⟨l', e1, e2⟩
          · exact Or.inl ⟨List.mem_cons_of_mem _ e1, e2⟩
          · rcases d5 s l' e1 with ⟨-, e⟩ | ⟨rfl, old, new, rfl, ho, hn, hc⟩
            · exact Or.inr ⟨l', e, e2⟩
            · rcases List.mem_append.1 e2 with hv' | hv'
              · rcases ho with rfl | ho
                · simp at hv'
                · exact Or.inr ⟨old, ho, hv'⟩
              · exact Or.inl ⟨List.mem_cons_self, hc v hv'⟩
        · intro v hv s hs
          rcases List.mem_cons.1 hs with rfl | hs
          · exact d4 v (k2.subset hv)
          · exact k5 v hv s hs
  obtain ⟨k1, k2, k3, k4, k5⟩ := gen ts [] vs rest c CMap.wf_nil h
  refine ⟨by simpa [CMap.flat] using k1, k2, k3.1, ?_, k5⟩
  intro t l hm
  have hne : l ≠ [] := k3.2 _ hm
  have hall : ∀ v ∈ l, t ∈ ts ∧ P.inside t v = true ∧ P.mayInsert t v = .ok true := by
    intro v hv
    rcases k4 t l hm v hv with h | ⟨l', h, -⟩
    · exact h
    · simp at h
  obtain ⟨v, hv⟩ := List.exists_mem_of_ne_nil l hne
  exact ⟨(hall v hv).1, hne, fun w hw => (hall w hw).2⟩

/-- A triangle with corners 0, 1, 2 encircles 5 but not 7. -/
example : distributeAll
    (⟨fun _ => false, fun a b => a == b, fun _ v => v == 5, fun _ _ => false, fun _ _ => .ok true⟩ : Preds Nat)
    [⟨0, 1, 2⟩] [] [7, 5, 8] = .ok ([(⟨0, 1, 2⟩, [5])], [7, 8]) := by decide

variable {K : Type*} [Field K] [LinearOrder K] [IsStrictOrderedRing K]

/-- C36, geometric meaning: a vertex put in the bucket of a solid counterclockwise triangle is strictly inside
its circumcircle (`o` is the circumcentre). -/
theorem C36_geometric {eps : K} (fuel : Nat) (b : Option (Polyline (Vertex K)))
    (holes : List (Polyline (Vertex K))) (ts : List (Tri (Vertex K))) (vs rest : List (Vertex K))
    (c : CMap (Vertex K)) (h : distributeAll (geoPreds eps fuel b holes) ts [] vs = .ok (c, rest))
    (t : Tri (Vertex K)) (l : List (Vertex K)) (hm : (t, l) ∈ c) (v : Vertex K) (hv : v ∈ l)
    (hs : t.v1.isGhost = false ∧ t.v2.isGhost = false ∧ t.v3.isGhost = false)
    (hccw : 0 < cross t.v1 t.v2 t.v3) (o : Vertex K) (ho : Equidistant o t.v1 t.v2 t.v3) :
    dist2 o v < dist2 o t.v1 := by
  have h1 := (((C36_distribute _ ts vs rest c h).2.2.2.1 t l hm).2.2 v hv).1
  simp only [geoPreds, decide_eq_true_eq, Tri.encircles, Tri.isGhost, hs.1, hs.2.1, hs.2.2,
    Bool.or_self, Bool.not_false, if_true] at h1
  exact C02_inside hccw ho h1

end Verif.Props
