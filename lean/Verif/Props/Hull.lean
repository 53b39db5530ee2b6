import Verif.Lemmas.Mesh
import Verif.Model.Cli

/-!
# C10 (hull of a set of triangles) and C37 (edges drawn once)
-/

set_option linter.unusedSectionVars false

namespace Verif.Props

open Spec

variable {V : Type*} [DecidableEq V]

theorem mem_hullLoop (rest : List (Edge V)) :
    ∀ (done acc : List (Edge V)), (rest ++ done).Nodup → (∀ e ∈ acc, e ∈ done) →
      (∀ e : Edge V, e.v1 ≠ e.v2 → (e ∈ acc ↔ e ∈ done ∧ e.opposite ∉ done)) →
      ∀ e : Edge V, e.v1 ≠ e.v2 →
        (e ∈ hullLoop rest acc ↔ (e ∈ rest ∨ e ∈ done) ∧ ¬ (e.opposite ∈ rest ∨ e.opposite ∈ done)) := by
  induction rest with
  | nil => intro done acc _ _ h2 e he; simpa [hullLoop] using h2 e he
  | cons s rest ih =>
    intro done acc hn h1 h2 e he
    have hn' : (rest ++ s :: done).Nodup := by
      have := (List.perm_middle (a := s) (l₁ := rest) (l₂ := done)).nodup_iff
      rw [this]; simpa using hn
    have hs : s ∉ done := by
      rw [List.cons_append, List.nodup_cons] at hn
      exact fun h => hn.1 (List.mem_append_right _ h)
    have key : ∀ acc', (∀ e ∈ acc', e ∈ s :: done) →
        (∀ e : Edge V, e.v1 ≠ e.v2 → (e ∈ acc' ↔ e ∈ s :: done ∧ e.opposite ∉ s :: done)) →
        (e ∈ hullLoop rest acc' ↔ (e ∈ s :: rest ∨ e ∈ done) ∧
          ¬ (e.opposite ∈ s :: rest ∨ e.opposite ∈ done)) := by
      intro acc' k1 k2
      rw [ih (s :: done) acc' hn' k1 k2 e he]
      simp only [List.mem_cons]; tauto
    rw [hullLoop]
    split_ifs with hmem
    · apply key
      · intro f hf
        exact List.mem_cons_of_mem _ (h1 f (List.mem_filter.1 hf).1)
      · intro f hf
        simp only [List.mem_filter, Bool.not_eq_true', decide_eq_false_iff_not, List.mem_cons,
          not_or]
        rw [h2 f hf]
        have hopp : f = s.opposite ↔ f.opposite = s := by
          constructor <;> (rintro rfl; rfl)
        rw [hopp]
        constructor
        · rintro ⟨⟨a, b⟩, c⟩; exact ⟨Or.inr a, c, b⟩
        · rintro ⟨a | a, c, b⟩
          · subst a; exact absurd (h1 _ hmem) b
          · exact ⟨⟨a, b⟩, c⟩
    · apply key
      · intro f hf
        rcases List.mem_cons.1 hf with rfl | hf
        · exact List.mem_cons_self
        · exact List.mem_cons_of_mem _ (h1 f hf)
      · intro f hf
        simp only [List.mem_cons, not_or]
        rw [h2 f hf]
        constructor
        · rintro (rfl | ⟨a, b⟩)
          · refine ⟨Or.inl rfl, ?_, ?_⟩
            · intro h
              apply hf
              have : f.opposite.v1 = f.v1 := by rw [h]
              exact this.symm
            · intro h
              by_cases h' : f.opposite.opposite ∈ done
              · exact hs h'
              · exact hmem ((h2 f.opposite (fun h => hf h.symm)).2 ⟨h, h'⟩)
          · refine ⟨Or.inr a, ?_, b⟩
            intro h
            subst h
            exact hmem (by rw [opposite_opposite]; exact (h2 f hf).2 ⟨a, b⟩)
        · rintro ⟨a | a, c, b⟩
          · exact Or.inl a
          · exact Or.inr ⟨a, b⟩

/-- C10: whatever the hashing order `σ`, the edges collected for the hull of a set of triangles are exactly
the sides whose reverse is not a side. -/
theorem C10_hull_edges (σ : Sched) (tris : List (Tri V)) (a b : V) (hab : a ≠ b) :
    (⟨a, b⟩ : Edge V) ∈ hullEdges σ tris ↔
      (∃ t ∈ tris, IsSide t ⟨a, b⟩) ∧ ¬ ∃ t ∈ tris, IsSide t ⟨b, a⟩ := by
  have hn : (shuffle σ (toSet (tris.flatMap Tri.innerEdges)) ++ []).Nodup := by
    rw [List.append_nil, nodup_shuffle]; exact nodup_toSet _
  have := mem_hullLoop _ [] [] hn (by simp) (by simp) ⟨a, b⟩ hab
  rw [hullEdges, this]
  simp [mem_innerEdges, Edge.opposite]

/-- C10: each edge is collected once. -/
theorem C10_nodup (σ : Sched) (tris : List (Tri V)) : (hullEdges σ tris).Nodup := by
  have gen : ∀ (rest acc : List (Edge V)), rest.Nodup → acc.Nodup → (∀ e ∈ acc, e ∉ rest) →
      (hullLoop rest acc).Nodup := by
    intro rest
    induction rest with
    | nil => intro acc _ h _; exact h
    | cons s rest ih =>
      intro acc h1 h2 h3
      rw [List.nodup_cons] at h1
      rw [hullLoop]
      split_ifs with hm
      · refine ih _ h1.2 (h2.filter _) ?_
        intro e he h
        exact h3 e (List.mem_filter.1 he).1 (List.mem_cons_of_mem _ h)
      · refine ih _ h1.2 (List.nodup_cons.2 ⟨fun h => h3 s h List.mem_cons_self, h2⟩) ?_
        intro e he h
        rcases List.mem_cons.1 he with rfl | he
        · exact h1.1 h
        · exact h3 e he (List.mem_cons_of_mem _ h)
  exact gen _ _ (nodup_shuffle.2 (nodup_toSet _)) List.nodup_nil (by simp)

/-- Two triangles glued along an edge: the hull has the four outer sides. -/
example : hullEdges Sched.first [(⟨0, 1, 2⟩ : Tri Nat), ⟨2, 1, 3⟩] =
    [⟨0, 1⟩, ⟨2, 0⟩, ⟨1, 3⟩, ⟨3, 2⟩] := by decide

theorem cleanEdges_spec (rest : List (Edge V)) : ∀ (acc : List (Edge V)), acc.Nodup →
    (∀ e ∈ acc, e.opposite ∈ acc → e = e.opposite) →
    (cleanEdges rest acc).Nodup ∧
    (∀ e ∈ cleanEdges rest acc, e.opposite ∈ cleanEdges rest acc → e = e.opposite) ∧
    (∀ e ∈ cleanEdges rest acc, e ∈ rest ∨ e ∈ acc) ∧
    (∀ e, e ∈ rest ∨ e ∈ acc → e ∈ cleanEdges rest acc ∨ e.opposite ∈ cleanEdges rest acc) := by
  induction rest with
  | nil =>
    intro acc h1 h2
    refine ⟨h1, h2, fun e h => Or.inr h, ?_⟩
    rintro e (h | h)
    · simp at h
    · exact Or.inl h
  | cons s rest ih =>
    intro acc h1 h2
    rw [cleanEdges]
    split_ifs with h
    · simp only [Bool.and_eq_true, Bool.not_eq_true', decide_eq_false_iff_not] at h
      obtain ⟨k1, k2, k3, k4⟩ := ih (setInsert s acc) (nodup_setInsert h1) (by
        intro e he ho
        rw [mem_setInsert] at he ho
        rcases he with rfl | he
        · rcases ho with ho | ho
          · exact ho.symm
          · exact absurd ho h.2
        · rcases ho with ho | ho
          · rw [← ho, opposite_opposite] at h; exact absurd he h.2
          · exact h2 e he ho)
      refine ⟨k1, k2, ?_, ?_⟩
      · intro e he
        rcases k3 e he with h' | h'
        · exact Or.inl (List.mem_cons_of_mem _ h')
        · rcases mem_setInsert.1 h' with rfl | h'
          · exact Or.inl List.mem_cons_self
          · exact Or.inr h'
      · rintro e (he | he)
        · rcases List.mem_cons.1 he with rfl | he
          · exact k4 e (Or.inr (mem_setInsert.2 (Or.inl rfl)))
          · exact k4 e (Or.inl he)
        · exact k4 e (Or.inr (mem_setInsert.2 (Or.inr he)))
    · have h' : s ∈ acc ∨ s.opposite ∈ acc := by
        by_contra hc
        rw [not_or] at hc
        exact h (by simp [hc.1, hc.2])
      obtain ⟨k1, k2, k3, k4⟩ := ih acc h1 h2
      refine ⟨k1, k2, ?_, ?_⟩
      · intro e he
        rcases k3 e he with h' | h'
        · exact Or.inl (List.mem_cons_of_mem _ h')
        · exact Or.inr h'
      · rintro e (he | he)
        · rcases List.mem_cons.1 he with rfl | he
          · rcases h' with h' | h'
            · exact k4 e (Or.inr h')
            · rcases k4 e.opposite (Or.inr h') with k | k
              · exact Or.inr k
              · exact Or.inl k
          · exact k4 e (Or.inl he)
        · exact k4 e (Or.inr he)

/-- C37: the drawn edges are sides of solid triangles, without repetition; for every side of a solid triangle
one of the two directions is drawn, and never both. -/
theorem C37_drawn_once (ghost : V → Bool) (σ : Sched) (m : Mesh V) :
    (drawnEdges ghost σ m).Nodup ∧
      (∀ e ∈ drawnEdges ghost σ m, ∃ t ∈ m.tris, t.isGhost ghost = false ∧ IsSide t e) ∧
      ∀ t ∈ m.tris, t.isGhost ghost = false → ∀ a b, a ≠ b → IsSide t ⟨a, b⟩ →
        ((⟨a, b⟩ ∈ drawnEdges ghost σ m ∧ ⟨b, a⟩ ∉ drawnEdges ghost σ m) ∨
          (⟨b, a⟩ ∈ drawnEdges ghost σ m ∧ ⟨a, b⟩ ∉ drawnEdges ghost σ m)) := by
  obtain ⟨k1, k2, k3, k4⟩ := cleanEdges_spec
    (((shuffle σ m.tris).filter fun t => !t.isGhost ghost).flatMap Tri.innerEdges).reverse []
    List.nodup_nil (by simp)
  refine ⟨k1, ?_, ?_⟩
  · intro e he
    rcases k3 e he with h | h
    · simp only [List.mem_reverse, List.mem_flatMap, List.mem_filter, mem_shuffle,
        Bool.not_eq_true'] at h
      obtain ⟨t, ⟨h1, h2⟩, h3⟩ := h
      exact ⟨t, h1, h2, mem_innerEdges.1 h3⟩
    · simp at h
  · intro t ht hg a b hab hside
    have hm : (⟨a, b⟩ : Edge V) ∈
        (((shuffle σ m.tris).filter fun t => !t.isGhost ghost).flatMap Tri.innerEdges).reverse := by
      simp only [List.mem_reverse, List.mem_flatMap, List.mem_filter, mem_shuffle,
        Bool.not_eq_true']
      exact ⟨t, ⟨ht, hg⟩, mem_innerEdges.2 hside⟩
    have hne : ∀ e : Edge V, e.v1 ≠ e.v2 → e ≠ e.opposite := by
      intro e he h
      apply he
      have : e.v1 = e.opposite.v1 := by rw [← h]
      exact this
    rcases k4 _ (Or.inl hm) with h | h
    · exact Or.inl ⟨h, fun h' => hne _ hab (k2 _ h h')⟩
    · exact Or.inr ⟨h, fun h' => hne _ hab (k2 _ h' h)⟩

example : drawnEdges (fun v => v == 9) Sched.first
    (⟨[(⟨0, 1, 2⟩ : Tri Nat), ⟨2, 1, 3⟩, ⟨1, 0, 9⟩], fun _ => none⟩ : Mesh Nat) =
    [⟨0, 1⟩, ⟨2, 0⟩, ⟨2, 1⟩, ⟨1, 3⟩, ⟨3, 2⟩] := by decide

end Verif.Props
