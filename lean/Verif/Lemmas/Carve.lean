import Verif.Lemmas.Run
import Verif.Model.Carve
import Verif.Spec.Carve

/-!
# What the flood fills of the boundary and hole procedures remove
-/

set_option linter.unusedSectionVars false

namespace Verif

open Spec

variable {V : Type*} [DecidableEq V]

theorem Spec.Reach.mem {T : List (Tri V)} {S : List (Edge V)} {t : Tri V} (h : Reach T S t) :
    t ∈ T := by
  cases h <;> assumption

theorem mem_carvePushes {S : List (Edge V)} {t : Tri V} {e : Edge V} :
    e ∈ carvePushes S t ↔ IsSide t e.opposite ∧ e.opposite ∉ S := by
  simp only [carvePushes, List.mem_reverse, List.mem_map, List.mem_filter, mem_innerEdges,
    Bool.not_eq_true', decide_eq_false_iff_not]
  constructor
  · rintro ⟨a, h, rfl⟩; exact h
  · intro h; exact ⟨e.opposite, h, rfl⟩

theorem length_carvePushes (S : List (Edge V)) (t : Tri V) : (carvePushes S t).length ≤ 3 := by
  simp only [carvePushes, List.length_reverse, List.length_map]
  exact (List.length_filter_le _ _).trans (by simp [Tri.innerEdges])

/-- The state of a flood fill: `R` was removed from `T`, the ghosts `G` were added, `pending` is to be looked at.
The adjacency map is right for the edges of `Q`. -/
structure FloodInv (Q : Edge V → Prop) (T : List (Tri V)) (S : List (Edge V)) (G : List (Tri V))
    (m : Mesh V) (pending : List (Edge V)) (R : List (Tri V)) : Prop where
  adj : ∀ e, Q e → ∀ t, m.adj e = some t ↔ t ∈ m.tris ∧ IsSide t e
  tris : ∀ t, t ∈ m.tris ↔ (t ∈ T ∧ t ∉ R) ∨ t ∈ G
  reach : ∀ r ∈ R, Reach T S r
  pend : ∀ e ∈ pending, ∃ r ∈ R, IsSide r e.opposite ∧ e.opposite ∉ S
  closed : ∀ r ∈ R, ∀ e, IsSide r e → e ∉ S →
    e.opposite ∈ pending ∨ ∀ t ∈ m.tris, ¬ IsSide t e.opposite
  nodup : m.tris.Nodup

section

variable {Q : Edge V → Prop} {T : List (Tri V)} {S : List (Edge V)} {G : List (Tri V)}
  {m : Mesh V} {P : List (Edge V)} {R : List (Tri V)}

theorem FloodInv.remove (h : FloodInv Q T S G m P R)
    (hQ : ∀ t, Reach T S t → ∀ e, IsSide t e → Q e ∧ Q e.opposite)
    {t : Tri V} (ht : t ∈ m.tris) (hr : Reach T S t) (hg : t ∉ G) {P' : List (Edge V)}
    (h1 : ∀ x ∈ P, x ∈ P' ∨ IsSide t x) (h2 : ∀ x ∈ P', x ∈ P) :
    FloodInv Q T S G (m.del t) (carvePushes S t ++ P') (t :: R) := by
  have hdisj : ∀ e, Q e → ∀ s ∈ m.tris, IsSide s e → IsSide t e → s = t := by
    intro e he s hs h3 h4
    have a := (h.adj e he s).2 ⟨hs, h3⟩
    have b := (h.adj e he t).2 ⟨ht, h4⟩
    rw [a] at b
    exact Option.some.inj b
  refine ⟨?_, ?_, ?_, ?_, ?_, nodup_del h.nodup⟩
  · intro e he s
    rw [del_adj ht, mem_del]
    by_cases hte : e ∈ t.innerEdges
    · rw [if_pos hte]
      constructor
      · intro h; cases h
      · rintro ⟨⟨k1, k2⟩, k3⟩
        exact absurd (hdisj e he s k1 k3 (mem_innerEdges.1 hte)) k2
    · rw [if_neg hte, h.adj e he s]
      constructor
      · rintro ⟨k1, k2⟩
        refine ⟨⟨k1, ?_⟩, k2⟩
        rintro rfl
        exact hte (mem_innerEdges.2 k2)
      · rintro ⟨⟨k1, -⟩, k3⟩
        exact ⟨k1, k3⟩
  · intro s
    rw [mem_del, h.tris, List.mem_cons]
    constructor
    · rintro ⟨⟨k1, k2⟩ | k, k3⟩
      · left; exact ⟨k1, by tauto⟩
      · exact Or.inr k
    · rintro (⟨k1, k2⟩ | k)
      · push Not at k2
        exact ⟨Or.inl ⟨k1, k2.2⟩, k2.1⟩
      · exact ⟨Or.inr k, fun e => hg (e ▸ k)⟩
  · intro r hr'
    rcases List.mem_cons.1 hr' with rfl | hr'
    · exact hr
    · exact h.reach r hr'
  · intro e he
    rcases List.mem_append.1 he with he | he
    · exact ⟨t, List.mem_cons_self, mem_carvePushes.1 he⟩
    · obtain ⟨r, k1, k2⟩ := h.pend e (h2 e he)
      exact ⟨r, List.mem_cons_of_mem _ k1, k2⟩
  · intro r hr' e k1 k2
    rcases List.mem_cons.1 hr' with rfl | hr'
    · left
      exact List.mem_append.2 (Or.inl (mem_carvePushes.2 ⟨k1, k2⟩))
    · rcases h.closed r hr' e k1 k2 with k3 | k3
      · rcases h1 _ k3 with k4 | k4
        · left; exact List.mem_append.2 (Or.inr k4)
        · right
          intro s hs hse
          obtain ⟨hs, hne⟩ := mem_del.1 hs
          exact hne (hdisj _ (hQ r (h.reach r hr') e k1).2 s hs hse k4)
      · right
        intro s hs
        exact k3 s (mem_del.1 hs).1

theorem FloodInv.skip {e : Edge V} (h : FloodInv Q T S G m (e :: P) R)
    (hQ : ∀ t, Reach T S t → ∀ e, IsSide t e → Q e ∧ Q e.opposite) (he : m.adj e = none) :
    FloodInv Q T S G m P R := by
  obtain ⟨r, k1, k2, -⟩ := h.pend e List.mem_cons_self
  have hq : Q e := (hQ r (h.reach r k1) _ k2).2
  refine ⟨h.adj, h.tris, h.reach, fun x hx => h.pend x (List.mem_cons_of_mem _ hx), ?_, h.nodup⟩
  intro r hr f k1 k2
  rcases h.closed r hr f k1 k2 with k | k
  · rcases List.mem_cons.1 k with k | k
    · right
      intro t ht hte
      rw [k] at hte
      have := (h.adj e hq t).2 ⟨ht, hte⟩
      rw [he] at this; cases this
    · exact Or.inl k
  · exact Or.inr k

/-- The flood fill ends with nothing pending. -/
theorem flood_inv {S' : List (Edge V)}
    (hQ : ∀ t, Reach T S t → ∀ e, IsSide t e → Q e ∧ Q e.opposite)
    (hG : ∀ t ∈ G, ∀ r, Reach T S r → ∀ e, IsSide r e → e ∉ S → ¬ IsSide t e.opposite)
    (n : Nat) : ∀ {m : Mesh V} {P : List (Edge V)} {R : List (Tri V)} {m' : Mesh V},
    FloodInv Q T S G m P R →
    (∀ t, Reach T S t → t ∉ R → carvePushes S' t = carvePushes S t) →
    flood S' n P m = .ok m' →
    ∃ R', FloodInv Q T S G m' [] R' ∧ ∀ r ∈ R, r ∈ R' := by
  induction n with
  | zero =>
    intro m P R m' h hp hf
    cases P with
    | nil =>
      rw [flood] at hf
      injection hf with hf
      subst hf
      exact ⟨R, h, fun _ h => h⟩
    | cons e P => rw [flood] at hf; cases hf
  | succ n ih =>
    intro m P R m' h hp hf
    cases P with
    | nil =>
      rw [flood] at hf
      injection hf with hf
      subst hf
      exact ⟨R, h, fun _ h => h⟩
    | cons e P =>
      rw [flood] at hf
      obtain ⟨r, k1, k2, k3⟩ := h.pend e List.mem_cons_self
      have hq : Q e := (hQ r (h.reach r k1) _ k2).2
      cases hadj : m.adj e with
      | none =>
        rw [hadj] at hf
        exact ih (h.skip hQ hadj) hp hf
      | some t =>
        rw [hadj] at hf
        obtain ⟨ht, hte⟩ := (h.adj e hq t).1 hadj
        have hg : t ∉ G := fun hg => hG t hg r (h.reach r k1) _ k2 k3 hte
        have hT : t ∈ T ∧ t ∉ R := by
          rcases (h.tris t).1 ht with k | k
          · exact k
          · exact absurd k hg
        have hr : Reach T S t := Reach.step (h.reach r k1) k2 k3 hT.1 hte
        simp only [hp t hr hT.2] at hf
        obtain ⟨R', j1, j2⟩ := ih (h.remove hQ ht hr hg (P' := P) (by
          intro x hx
          rcases List.mem_cons.1 hx with rfl | hx
          · exact Or.inr hte
          · exact Or.inl hx) (fun x hx => List.mem_cons_of_mem _ hx))
          (fun s k4 k5 => hp s k4 (fun k => k5 (List.mem_cons_of_mem _ k))) hf
        exact ⟨R', j1, fun x hx => j2 x (List.mem_cons_of_mem _ hx)⟩

theorem FloodInv.exact (h : FloodInv Q T S G m [] R)
    (hs : ∀ t ∈ T, ∀ e ∈ S, IsSide t e → t ∈ R) (t : Tri V) : t ∈ R ↔ Reach T S t := by
  refine ⟨h.reach t, ?_⟩
  intro hr
  induction hr with
  | start h1 h2 h3 => exact hs _ h1 _ h2 h3
  | @step s t e _ k2 k3 k4 k5 ih =>
    rcases h.closed _ ih _ k2 k3 with k | k
    · cases k
    · by_contra hn
      exact k _ ((h.tris _).2 (Or.inl ⟨k4, hn⟩)) k5

/-- The flood fill terminates. -/
theorem flood_total (S' : List (Edge V)) (n : Nat) : ∀ {m : Mesh V} {P : List (Edge V)}, AdjSound m →
    P.length + 3 * m.tris.length ≤ n → flood S' n P m ≠ .diverged := by
  induction n with
  | zero =>
    intro m P _ hn
    cases P with
    | nil => rw [flood]; simp
    | cons e P => simp at hn
  | succ n ih =>
    intro m P hs hn
    cases P with
    | nil => rw [flood]; simp
    | cons e P =>
      rw [flood]
      cases hadj : m.adj e with
      | none =>
        refine ih hs ?_
        simp only [List.length_cons] at hn; omega
      | some t =>
        refine ih (adjSound_del hs) ?_
        have h1 := length_carvePushes S' t
        have h2 := (hs e t hadj).1
        rw [del_tris]
        have h3 : (setErase t m.tris).length < m.tris.length := by
          rw [setErase, List.length_filter_lt_length_iff_exists]
          exact ⟨t, h2, by simp⟩
        simp only [List.length_append, List.length_cons] at hn ⊢
        omega

/-- The first loop of the boundary procedure. -/
theorem boundaryFirst_inv
    (hQ : ∀ t, Reach T S t → ∀ e, IsSide t e → Q e ∧ Q e.opposite) (hS : ∀ e ∈ S, Q e)
    (es : List (Edge V)) : ∀ {m : Mesh V} {P : List (Edge V)} {R : List (Tri V)},
    FloodInv Q T S [] m P R → (∀ e ∈ es, e ∈ S) →
    ∃ R', FloodInv Q T S [] (boundaryFirst S es m P).1 (boundaryFirst S es m P).2 R' ∧
      (∀ r ∈ R, r ∈ R') ∧ ∀ t ∈ T, ∀ e ∈ es, IsSide t e → t ∈ R' := by
  induction es with
  | nil => intro m P R h _; exact ⟨R, h, fun _ h => h, by simp⟩
  | cons e es ih =>
    intro m P R h hes
    have heS : e ∈ S := hes e List.mem_cons_self
    have hes' : ∀ x ∈ es, x ∈ S := fun x hx => hes x (List.mem_cons_of_mem _ hx)
    rw [boundaryFirst]
    cases hadj : m.adj e with
    | none =>
      obtain ⟨R', k1, k2, k3⟩ := ih h hes'
      refine ⟨R', k1, k2, ?_⟩
      intro t ht f hf htf
      rcases List.mem_cons.1 hf with rfl | hf
      · by_contra hn
        have htm : t ∈ m.tris := (h.tris t).2 (Or.inl ⟨ht, fun k => hn (k2 t k)⟩)
        have := (h.adj f (hS f heS) t).2 ⟨htm, htf⟩
        rw [hadj] at this; cases this
      · exact k3 t ht f hf htf
    | some t =>
      obtain ⟨ht, hte⟩ := (h.adj e (hS e heS) t).1 hadj
      have hT : t ∈ T ∧ t ∉ R := by simpa using (h.tris t).1 ht
      obtain ⟨R', k1, k2, k3⟩ := ih (h.remove hQ ht (Reach.start hT.1 heS hte) (by simp) (P' := P)
        (fun x hx => Or.inl hx) (fun x hx => hx)) hes'
      refine ⟨R', k1, fun r hr => k2 r (List.mem_cons_of_mem _ hr), ?_⟩
      intro s hs f hf hsf
      rcases List.mem_cons.1 hf with rfl | hf
      · by_cases hsR : s ∈ R
        · exact k2 s (List.mem_cons_of_mem _ hsR)
        · have hsm : s ∈ m.tris := (h.tris s).2 (Or.inl ⟨hs, hsR⟩)
          have := (h.adj f (hS f heS) s).2 ⟨hsm, hsf⟩
          rw [hadj] at this
          cases this
          exact k2 _ List.mem_cons_self
      · exact k3 s hs f hf hsf

theorem boundaryFirst_size (S es : List (Edge V)) : ∀ {m : Mesh V} {P : List (Edge V)}, AdjSound m →
    AdjSound (boundaryFirst S es m P).1 ∧
    (boundaryFirst S es m P).2.length + 3 * (boundaryFirst S es m P).1.tris.length ≤
      P.length + 3 * m.tris.length := by
  induction es with
  | nil => intro m P hs; exact ⟨hs, le_rfl⟩
  | cons e es ih =>
    intro m P hs
    rw [boundaryFirst]
    cases hadj : m.adj e with
    | none => exact ih hs
    | some t =>
      obtain ⟨k1, k2⟩ := ih (m := m.del t) (P := carvePushes S t ++ P) (adjSound_del hs)
      refine ⟨k1, k2.trans ?_⟩
      have h1 := length_carvePushes S t
      have h2 := (hs e t hadj).1
      rw [del_tris]
      have h3 : (setErase t m.tris).length < m.tris.length := by
        rw [setErase, List.length_filter_lt_length_iff_exists]
        exact ⟨t, h2, by simp⟩
      simp only [List.length_append]
      omega

/-- Adding a ghost on an edge of the wall that has no triangle. -/
theorem FloodInv.addGhost (h : FloodInv Q T S G m P R) {s : Tri V} {e : Edge V}
    (hse : IsSide s e) (hs : ∀ f, Q f → IsSide s f → f = e) (hq : Q e)
    (hno : ∀ t ∈ m.tris, ¬ IsSide t e)
    (hG : ∀ r, Reach T S r → ∀ e, IsSide r e → e ∉ S → ¬ IsSide s e.opposite) :
    FloodInv Q T S (s :: G) (m.add s) P R := by
  have hn : s ∉ m.tris := fun hm => hno s hm hse
  refine ⟨?_, ?_, h.reach, h.pend, ?_, nodup_add h.nodup⟩
  · intro f hf t
    rw [add_adj hn, mem_add]
    by_cases hfe : f ∈ s.innerEdges
    · have := hs f hf (mem_innerEdges.1 hfe)
      subst this
      rw [if_pos hfe]
      constructor
      · intro k; cases k; exact ⟨Or.inl rfl, hse⟩
      · rintro ⟨rfl | k, k2⟩
        · rfl
        · exact absurd k2 (hno t k)
    · rw [if_neg hfe, h.adj f hf]
      constructor
      · rintro ⟨k1, k2⟩; exact ⟨Or.inr k1, k2⟩
      · rintro ⟨rfl | k, k2⟩
        · exact absurd (mem_innerEdges.2 k2) hfe
        · exact ⟨k, k2⟩
  · intro t
    rw [mem_add, h.tris, List.mem_cons]
    tauto
  · intro r hr f k1 k2
    rcases h.closed r hr f k1 k2 with k | k
    · exact Or.inl k
    · right
      intro t ht
      rcases mem_add.1 ht with rfl | ht
      · exact hG r (h.reach r hr) f k1 k2
      · exact k t ht

theorem ghostOn_side {g : V} {e f : Edge V} :
    IsSide (ghostOn g e) f ↔ f = e ∨ f = ⟨e.v2, g⟩ ∨ f = ⟨g, e.v1⟩ := by
  cases e; cases f
  simp [IsSide, ghostOn]

/-- The first loop of the hole procedure. -/
theorem holeFirst_inv {g : V}
    (hQ : ∀ t, Reach T S t → ∀ e, IsSide t e →
      (e.v1 ≠ g ∧ e.v2 ≠ g) ∧ e.opposite.v1 ≠ g ∧ e.opposite.v2 ≠ g)
    (hS : ∀ e ∈ S, e.v1 ≠ g ∧ e.v2 ≠ g)
    (hleak : ∀ t, Reach T S t → ∀ e, IsSide t e → e.opposite ∉ S)
    (es : List (Edge V)) : ∀ {m : Mesh V} {P : List (Edge V)} {R G : List (Tri V)},
    FloodInv (fun e => e.v1 ≠ g ∧ e.v2 ≠ g) T S G m P R → (∀ e ∈ es, e ∈ S) → es.Nodup →
    (∀ t ∈ G, ∃ e ∈ S, e ∉ es ∧ t = ghostOn g e) →
    ∃ R' G', FloodInv (fun e => e.v1 ≠ g ∧ e.v2 ≠ g) T S G' (holeFirst g S es m P).1
        (holeFirst g S es m P).2 R' ∧
      (∀ r ∈ R, r ∈ R') ∧ (∀ t ∈ T, ∀ e ∈ es, IsSide t e → t ∈ R') ∧
      ∀ t, t ∈ G' ↔ t ∈ G ∨ ∃ e ∈ es, t = ghostOn g e := by
  have hgs : ∀ e f : Edge V, f.v1 ≠ g → f.v2 ≠ g → IsSide (ghostOn g e) f → f = e := by
    intro e f h1 h2 h3
    rcases ghostOn_side.1 h3 with h3 | h3 | h3
    · exact h3
    · rw [h3] at h2; exact absurd rfl h2
    · rw [h3] at h1; exact absurd rfl h1
  have hgr : ∀ e ∈ S, ∀ r, Reach T S r → ∀ f, IsSide r f → f ∉ S → ¬ IsSide (ghostOn g e) f.opposite := by
    intro e he r hr f k1 k2 k3
    have hq := (hQ r hr f k1).2
    have := hgs e _ hq.1 hq.2 k3
    exact hleak r hr f k1 (this ▸ he)
  induction es with
  | nil => intro m P R G h _ _ _; exact ⟨R, G, h, fun _ h => h, by simp, by simp⟩
  | cons e es ih =>
    intro m P R G h hes hnd hG
    have heS : e ∈ S := hes e List.mem_cons_self
    have hes' : ∀ x ∈ es, x ∈ S := fun x hx => hes x (List.mem_cons_of_mem _ hx)
    obtain ⟨hne, hnd'⟩ := List.nodup_cons.1 hnd
    have hG' : ∀ t ∈ ghostOn g e :: G, ∃ f ∈ S, f ∉ es ∧ t = ghostOn g f := by
      intro t ht
      rcases List.mem_cons.1 ht with rfl | ht
      · exact ⟨e, heS, hne, rfl⟩
      · obtain ⟨f, k1, k2, k3⟩ := hG t ht
        exact ⟨f, k1, fun k => k2 (List.mem_cons_of_mem _ k), k3⟩
    have hse : IsSide (ghostOn g e) e := ghostOn_side.2 (Or.inl rfl)
    rw [holeFirst]
    cases hadj : m.adj e with
    | none =>
      have hno : ∀ t ∈ m.tris, ¬ IsSide t e := by
        intro t ht hte
        have := (h.adj e (hS e heS) t).2 ⟨ht, hte⟩
        rw [hadj] at this; cases this
      obtain ⟨R', G', k1, k2, k3, k4⟩ := ih (h.addGhost hse (fun f hf => hgs e f hf.1 hf.2) (hS e heS)
        hno (hgr e heS)) hes' hnd' hG'
      refine ⟨R', G', k1, k2, ?_, ?_⟩
      · intro t ht f hf htf
        rcases List.mem_cons.1 hf with rfl | hf
        · by_contra hn
          exact hno t ((h.tris t).2 (Or.inl ⟨ht, fun k => hn (k2 t k)⟩)) htf
        · exact k3 t ht f hf htf
      · intro t
        rw [k4]
        simp only [List.mem_cons, exists_eq_or_imp]
        tauto
    | some t =>
      obtain ⟨ht, hte⟩ := (h.adj e (hS e heS) t).1 hadj
      have hg : t ∉ G := by
        intro hg
        obtain ⟨f, k1, k2, rfl⟩ := hG t hg
        have := hgs f e (hS e heS).1 (hS e heS).2 hte
        exact k2 (this ▸ List.mem_cons_self)
      have hT : t ∈ T ∧ t ∉ R := by
        rcases (h.tris t).1 ht with k | k
        · exact k
        · exact absurd k hg
      have hrem := h.remove hQ ht (Reach.start hT.1 heS hte) hg (P' := P)
        (fun x hx => Or.inl hx) (fun x hx => hx)
      have hno : ∀ s ∈ (m.del t).tris, ¬ IsSide s e := by
        intro s hs hse'
        obtain ⟨hs, hst⟩ := mem_del.1 hs
        have := (h.adj e (hS e heS) s).2 ⟨hs, hse'⟩
        rw [hadj] at this
        exact hst (Option.some.inj this).symm
      obtain ⟨R', G', k1, k2, k3, k4⟩ := ih (hrem.addGhost hse (fun f hf => hgs e f hf.1 hf.2)
        (hS e heS) hno (hgr e heS)) hes' hnd' hG'
      refine ⟨R', G', k1, fun r hr => k2 r (List.mem_cons_of_mem _ hr), ?_, ?_⟩
      · intro s hs f hf hsf
        rcases List.mem_cons.1 hf with rfl | hf
        · by_contra hn
          by_cases hst : s = t
          · subst hst; exact hn (k2 _ List.mem_cons_self)
          · have hsm : s ∈ (m.del t).tris := by
              rw [mem_del]
              refine ⟨(h.tris s).2 (Or.inl ⟨hs, fun k => hn (k2 s (List.mem_cons_of_mem _ k))⟩), hst⟩
            exact hno s hsm hsf
        · exact k3 s hs f hf hsf
      · intro t
        rw [k4]
        simp only [List.mem_cons, exists_eq_or_imp]
        tauto

theorem holeFirst_size (g : V) (S es : List (Edge V)) : ∀ {m : Mesh V} {P : List (Edge V)},
    AdjSound m →
    AdjSound (holeFirst g S es m P).1 ∧
    (holeFirst g S es m P).2.length + 3 * (holeFirst g S es m P).1.tris.length ≤
      P.length + 3 * m.tris.length + 3 * es.length := by
  induction es with
  | nil => intro m P hs; exact ⟨hs, le_rfl⟩
  | cons e es ih =>
    intro m P hs
    have hadd : ∀ (m : Mesh V) (s : Tri V), (m.add s).tris.length ≤ m.tris.length + 1 := by
      intro m s
      by_cases h : s ∈ m.tris
      · rw [add_of_mem h]; omega
      · rw [add_tris h]; simp
    rw [holeFirst]
    cases hadj : m.adj e with
    | none =>
      obtain ⟨k1, k2⟩ := ih (m := m.add ⟨e.v1, e.v2, g⟩) (P := P) (adjSound_add hs)
      refine ⟨k1, k2.trans ?_⟩
      have := hadd m ⟨e.v1, e.v2, g⟩
      simp only [List.length_cons]
      omega
    | some t =>
      obtain ⟨k1, k2⟩ := ih (m := (m.del t).add ⟨e.v1, e.v2, g⟩) (P := carvePushes S t ++ P)
        (adjSound_add (adjSound_del hs))
      refine ⟨k1, k2.trans ?_⟩
      have h0 := hadd (m.del t) ⟨e.v1, e.v2, g⟩
      have h1 := length_carvePushes S t
      have h2 := (hs e t hadj).1
      rw [del_tris] at h0
      have h3 : (setErase t m.tris).length < m.tris.length := by
        rw [setErase, List.length_filter_lt_length_iff_exists]
        exact ⟨t, h2, by simp⟩
      simp only [List.length_append, List.length_cons]
      omega

/-- The state before anything is removed. -/
theorem floodInv_start {m : Mesh V} (hs : AdjSound m) (hc : AdjComplete m) (hn : m.tris.Nodup)
    (Q : Edge V → Prop) (S : List (Edge V)) : FloodInv Q m.tris S [] m [] [] := by
  refine ⟨fun e _ t => ⟨hs e t, fun h => hc t h.1 e h.2⟩, by simp, by simp, by simp, by simp, hn⟩

theorem mem_addGhosts {g : V} (es : List (Edge V)) : ∀ {m : Mesh V} {t : Tri V},
    t ∈ (addGhosts g es m).tris ↔ t ∈ m.tris ∨ ∃ e ∈ es, t = ghostOn g e := by
  induction es with
  | nil => intro m t; simp [addGhosts]
  | cons e es ih =>
    intro m t
    have : addGhosts g (e :: es) m = addGhosts g es (m.add (ghostOn g e)) := rfl
    rw [this, ih, mem_add]
    simp only [List.mem_cons, exists_eq_or_imp]
    tauto

theorem nodup_addGhosts {g : V} (es : List (Edge V)) : ∀ {m : Mesh V}, m.tris.Nodup →
    (addGhosts g es m).tris.Nodup := by
  induction es with
  | nil => intro m h; exact h
  | cons e es ih =>
    intro m h
    exact ih (m := m.add (ghostOn g e)) (nodup_add h)

theorem adjSound_addGhosts {g : V} (es : List (Edge V)) : ∀ {m : Mesh V}, AdjSound m →
    AdjSound (addGhosts g es m) := by
  induction es with
  | nil => intro m h; exact h
  | cons e es ih =>
    intro m h
    exact ih (m := m.add (ghostOn g e)) (adjSound_add h)

/-- The triangles left by carving: the unreachable ones and the ghosts. -/
theorem carveBoundary_mem {g : V} {fuel : Nat} {S : List (Edge V)} {m m' : Mesh V} (hs : AdjSound m)
    (hc : AdjComplete m) (hn : m.tris.Nodup) (h : carveBoundary g fuel S m = .ok m') :
    m'.tris.Nodup ∧
    ∀ t, t ∈ m'.tris ↔ (t ∈ m.tris ∧ ¬ Reach m.tris S t) ∨ ∃ e ∈ S, t = ghostOn g e := by
  simp only [carveBoundary] at h
  rw [Res.bind_eq_ok] at h
  obtain ⟨m1, h1, h2⟩ := h
  injection h2 with h2
  subst h2
  obtain ⟨R, k1, -, k3⟩ := boundaryFirst_inv (Q := fun _ => True) (T := m.tris) (S := S)
    (fun _ _ _ _ => ⟨trivial, trivial⟩) (fun _ _ => trivial) S
    (floodInv_start hs hc hn (fun _ => True) S) (fun _ h => h)
  obtain ⟨R', j1, j2⟩ := flood_inv (fun _ _ _ _ => ⟨trivial, trivial⟩) (by simp) fuel k1
    (fun _ _ _ => rfl) h1
  have hex := j1.exact (fun t ht e he hte => j2 t (k3 t ht e he hte))
  refine ⟨nodup_addGhosts S j1.nodup, ?_⟩
  intro t
  rw [mem_addGhosts, j1.tris, hex]
  simp

theorem carveHole_mem {g : V} {fuel : Nat} {S : List (Edge V)} {m m' : Mesh V} (hs : AdjSound m)
    (hc : AdjComplete m) (hn : m.tris.Nodup) (hS : ∀ e ∈ S, e.v1 ≠ g ∧ e.v2 ≠ g) (hnd : S.Nodup)
    (hg : ∀ t, Reach m.tris S t → ¬ IsCorner t g)
    (hleak : ∀ t, Reach m.tris S t → ∀ e, IsSide t e → e.opposite ∉ S)
    (h : carveHole g fuel S m = .ok m') :
    m'.tris.Nodup ∧
    ∀ t, t ∈ m'.tris ↔ (t ∈ m.tris ∧ ¬ Reach m.tris S t) ∨ ∃ e ∈ S, t = ghostOn g e := by
  simp only [carveHole] at h
  have hQ : ∀ t, Reach m.tris S t → ∀ e, IsSide t e →
      (e.v1 ≠ g ∧ e.v2 ≠ g) ∧ e.opposite.v1 ≠ g ∧ e.opposite.v2 ≠ g := by
    intro t ht e hte
    have h1 : e.v1 ≠ g := by
      intro k
      refine hg t ht ?_
      rcases hte with ⟨a, -⟩ | ⟨a, -⟩ | ⟨a, -⟩ <;> rw [k] at a <;> simp [IsCorner, a]
    have h2 : e.v2 ≠ g := by
      intro k
      refine hg t ht ?_
      rcases hte with ⟨-, a⟩ | ⟨-, a⟩ | ⟨-, a⟩ <;> rw [k] at a <;> simp [IsCorner, a]
    exact ⟨⟨h1, h2⟩, h2, h1⟩
  obtain ⟨R, G, k1, -, k3, k4⟩ := holeFirst_inv (T := m.tris) (S := S) hQ hS hleak S
    (floodInv_start hs hc hn (fun e => e.v1 ≠ g ∧ e.v2 ≠ g) S) (fun _ h => h) hnd (by simp)
  have hG : ∀ t ∈ G, ∀ r, Reach m.tris S r → ∀ e, IsSide r e → e ∉ S → ¬ IsSide t e.opposite := by
    intro t ht r hr e hre _ hte
    obtain ⟨f, hf, rfl⟩ : ∃ e ∈ S, t = ghostOn g e := by simpa using (k4 t).1 ht
    obtain ⟨-, q1, q2⟩ := hQ r hr e hre
    rcases ghostOn_side.1 hte with k | k | k
    · exact hleak r hr e hre (k ▸ hf)
    · rw [k] at q2; exact q2 rfl
    · rw [k] at q1; exact q1 rfl
  obtain ⟨R', j1, j2⟩ := flood_inv hQ hG fuel k1 (S' := []) (by
    intro t ht htR
    have : ∀ e ∈ t.innerEdges, e ∉ S := by
      intro e he heS
      exact htR (k3 t ht.mem e heS (mem_innerEdges.1 he))
    simp only [carvePushes]
    congr 2
    refine List.filter_congr ?_
    intro e he
    simp [this e he]) h
  have hex := j1.exact (fun t ht e he hte => j2 t (k3 t ht e he hte))
  refine ⟨j1.nodup, ?_⟩
  intro t
  rw [j1.tris, hex, k4]
  simp

end

end Verif

namespace Verif

open Spec

variable {V : Type*} [DecidableEq V]

theorem ghostOn_inj {g : V} {e f : Edge V} (h : ghostOn g e = ghostOn g f) : e = f := by
  cases e; cases f
  simp only [ghostOn, Tri.mk.injEq] at h
  rw [h.1, h.2.1]

theorem sides_map_ghostOn (g : V) (L : List (Edge V)) :
    (sides (L.map (ghostOn g))).Perm
      (L ++ (L.map (fun l => (⟨l.v2, g⟩ : Edge V)) ++ L.map (fun l => (⟨g, l.v1⟩ : Edge V)))) := by
  induction L with
  | nil => simp [sides]
  | cons l L ih =>
    obtain ⟨a, b⟩ := l
    rw [List.map_cons, sides_cons]
    refine (ih.append_left _).trans ?_
    rw [List.perm_iff_count]
    intro x
    simp only [ghostOn, Tri.innerEdges, List.count_append, List.count_cons, List.map_cons,
      List.count_nil]
    omega

section

open Classical in
/-- The triangles that are kept. -/
noncomputable def kept (T : List (Tri V)) (S : List (Edge V)) : List (Tri V) :=
  T.filter fun t => ¬ Reach T S t

variable {T : List (Tri V)} {S : List (Edge V)} {g : V} {L : List (Tri V)}

theorem mem_kept {t : Tri V} : t ∈ kept T S ↔ t ∈ T ∧ ¬ Reach T S t := by
  simp [kept]

theorem kept_simple (h : Simple T) : Simple (kept T S) := by
  rw [simple_iff] at h ⊢
  refine h.sublist ?_
  unfold sides kept
  exact (List.filter_sublist).flatMap _

/-- Crossing a side of a kept triangle one finds a kept triangle or the wall. -/
theorem kept_neighbour (hw : Watertight T) {e : Edge V} (he : e ∈ sides (kept T S)) :
    e.opposite ∈ sides (kept T S) ∨ e.opposite ∈ S := by
  obtain ⟨t, ht, hte⟩ := mem_sides.1 he
  obtain ⟨ht1, ht2⟩ := mem_kept.1 ht
  have h1 : 0 < (sides T).count e := List.count_pos_iff.2 (mem_sides.2 ⟨t, ht1, hte⟩)
  have h2 := hw e.v1 e.v2
  rw [sideCount_sides, sideCount_sides] at h2
  have h3 : e.opposite ∈ sides T := by
    rw [← List.count_pos_iff]
    have : (sides T).count e.opposite = (sides T).count e := h2.symm
    omega
  obtain ⟨s, hs, hse⟩ := mem_sides.1 h3
  by_cases hr : Reach T S s
  · right
    by_contra hn
    exact ht2 (Reach.step hr hse hn ht1 hte)
  · left
    exact mem_sides.2 ⟨s, mem_kept.2 ⟨hs, hr⟩, hse⟩

theorem wall_not_kept {e : Edge V} (he : e ∈ S) : e ∉ sides (kept T S) := by
  intro h
  obtain ⟨t, ht, hte⟩ := mem_sides.1 h
  obtain ⟨ht1, ht2⟩ := mem_kept.1 ht
  exact ht2 (Reach.start ht1 he hte)

theorem carved_perm (hT : T.Nodup) (hS : S.Nodup) (hL : L.Nodup)
    (hmem : ∀ t, t ∈ L ↔ (t ∈ T ∧ ¬ Reach T S t) ∨ ∃ e ∈ S, t = ghostOn g e) :
    L.Perm (kept T S ++ S.map (ghostOn g)) := by
  rw [List.perm_ext_iff_of_nodup hL]
  · intro t
    rw [hmem, List.mem_append, mem_kept, List.mem_map]
    simp only [eq_comm]
  · rw [List.nodup_append]
    refine ⟨hT.filter _, hS.map fun _ _ h => ghostOn_inj h, ?_⟩
    rintro a ha b hb rfl
    obtain ⟨e, he, rfl⟩ := List.mem_map.1 hb
    exact wall_not_kept he (mem_sides.2 ⟨_, ha, ghostOn_side.2 (Or.inl rfl)⟩)

theorem count_carved (hp : L.Perm (kept T S ++ S.map (ghostOn g))) (e : Edge V) :
    sideCount L e = (sides (kept T S)).count e + (S.count e +
      ((S.map (fun l => (⟨l.v2, g⟩ : Edge V))).count e
        + (S.map (fun l => (⟨g, l.v1⟩ : Edge V))).count e)) := by
  rw [sideCount_sides, (sides_perm hp).count_eq, sides_append, List.count_append,
    (sides_map_ghostOn g S).count_eq, List.count_append, List.count_append]

theorem count_in_zero (S : List (Edge V)) {e : Edge V} (h : e.v2 ≠ g) :
    (S.map (fun l => (⟨l.v2, g⟩ : Edge V))).count e = 0 := by
  rw [List.count_eq_zero]
  intro hm
  obtain ⟨l, -, hl⟩ := List.mem_map.1 hm
  exact h (by rw [← hl])

theorem count_out_zero (S : List (Edge V)) {e : Edge V} (h : e.v1 ≠ g) :
    (S.map (fun l => (⟨g, l.v1⟩ : Edge V))).count e = 0 := by
  rw [List.count_eq_zero]
  intro hm
  obtain ⟨l, -, hl⟩ := List.mem_map.1 hm
  exact h (by rw [← hl])

theorem count_wall_zero (hg : ∀ e ∈ S, e.v1 ≠ g ∧ e.v2 ≠ g) {e : Edge V} (h : e.v1 = g ∨ e.v2 = g) :
    S.count e = 0 := by
  rw [List.count_eq_zero]
  intro hm
  have := hg e hm
  tauto

theorem indicator_balance {p q r s : Prop} [Decidable p] [Decidable q] [Decidable r] [Decidable s]
    (h1 : p → q ∨ s) (h2 : q → p ∨ r) (h3 : r → q) (h4 : s → p) (h5 : r → ¬ p) (h6 : s → ¬ q) :
    (if p then 1 else 0) + ((if r then 1 else 0) + (0 + 0)) =
      (if q then 1 else 0) + ((if s then 1 else 0) + (0 + 0)) := by
  by_cases hp : p <;> by_cases hq : q <;> by_cases hr : r <;> by_cases hs : s <;> simp_all

/-- A carved mesh is closed if the wall is and each edge of the wall has a kept triangle behind it. -/
theorem carved_watertight (hT : Simple T) (hw : Watertight T) (hS : S.Nodup) (hc : ClosedWall S)
    (hg : ∀ e ∈ S, e.v1 ≠ g ∧ e.v2 ≠ g) (hp : L.Perm (kept T S ++ S.map (ghostOn g)))
    (hin : ∀ e ∈ S, e.opposite ∈ sides (kept T S)) : Watertight L := by
  have hk := kept_simple (S := S) hT
  rw [simple_iff] at hk
  have c1 : ∀ (l : List (Edge V)), l.Nodup → ∀ e, l.count e = if e ∈ l then 1 else 0 := by
    intro l hl e
    split_ifs with h
    · exact List.count_eq_one_of_mem hl h
    · exact List.count_eq_zero.2 h
  have spoke : ∀ x, x ≠ g → sideCount L ⟨x, g⟩ = sideCount L ⟨g, x⟩ := by
    intro x hx
    rw [count_carved hp, count_carved hp, count_in, count_out, count_in_zero (e := ⟨g, x⟩) S hx,
      count_out_zero (e := ⟨x, g⟩) S hx, count_wall_zero hg (Or.inr rfl),
      count_wall_zero hg (Or.inl rfl), c1 _ hk, c1 _ hk]
    have h1 : (⟨x, g⟩ : Edge V) ∈ sides (kept T S) ↔ ⟨g, x⟩ ∈ sides (kept T S) := by
      constructor
      · intro h
        rcases kept_neighbour hw h with h | h
        · exact h
        · exact absurd rfl (hg _ h).1
      · intro h
        rcases kept_neighbour hw h with h | h
        · exact h
        · exact absurd rfl (hg _ h).2
    have h2 := hc x
    simp only [h1]
    omega
  intro a b
  by_cases ha : a = g
  · subst ha
    by_cases hb : b = a
    · rw [hb]
    · exact (spoke b hb).symm
  · by_cases hb : b = g
    · subst hb; exact spoke a ha
    · rw [count_carved hp, count_carved hp, count_in_zero (e := ⟨a, b⟩) S hb,
        count_in_zero (e := ⟨b, a⟩) S ha, count_out_zero (e := ⟨a, b⟩) S ha,
        count_out_zero (e := ⟨b, a⟩) S hb, c1 _ hk, c1 _ hk, c1 _ hS, c1 _ hS]
      have k1 : (⟨a, b⟩ : Edge V) ∈ sides (kept T S) → ⟨b, a⟩ ∈ sides (kept T S) ∨ ⟨b, a⟩ ∈ S :=
        kept_neighbour hw
      have k2 : (⟨b, a⟩ : Edge V) ∈ sides (kept T S) → ⟨a, b⟩ ∈ sides (kept T S) ∨ ⟨a, b⟩ ∈ S :=
        kept_neighbour hw
      have k3 : (⟨a, b⟩ : Edge V) ∈ S → ⟨b, a⟩ ∈ sides (kept T S) := hin _
      have k4 : (⟨b, a⟩ : Edge V) ∈ S → ⟨a, b⟩ ∈ sides (kept T S) := hin _
      have k5 : (⟨a, b⟩ : Edge V) ∈ S → (⟨a, b⟩ : Edge V) ∉ sides (kept T S) := wall_not_kept
      have k6 : (⟨b, a⟩ : Edge V) ∈ S → (⟨b, a⟩ : Edge V) ∉ sides (kept T S) := wall_not_kept
      exact indicator_balance k1 k2 k3 k4 k5 k6

/-- A carved mesh uses each directed edge once. -/
theorem carved_simple (hT : Simple T) (hS : S.Nodup) (h1 : (S.map Edge.v1).Nodup)
    (h2 : (S.map Edge.v2).Nodup) (hg : ∀ e ∈ S, e.v1 ≠ g ∧ e.v2 ≠ g)
    (hp : L.Perm (kept T S ++ S.map (ghostOn g)))
    (hno : ∀ t ∈ kept T S, ¬ IsCorner t g) : Simple L := by
  have hk := kept_simple (S := S) hT
  have hk' := hk
  rw [simple_iff] at hk'
  have hz : ∀ e : Edge V, (e.v1 = g ∨ e.v2 = g) → (sides (kept T S)).count e = 0 := by
    intro e he
    rw [List.count_eq_zero]
    intro hm
    obtain ⟨t, ht, hte⟩ := mem_sides.1 hm
    refine hno t ht ?_
    have := isCorner_of_isSide hte
    rcases he with he | he
    · exact he ▸ this.1
    · exact he ▸ this.2
  rintro ⟨a, b⟩
  rw [count_carved hp]
  by_cases ha : a = g
  · subst ha
    rw [hz _ (Or.inl rfl), count_wall_zero hg (Or.inl rfl)]
    by_cases hb : b = a
    · subst hb
      have : (S.map (fun l => (⟨l.v2, b⟩ : Edge V))).count ⟨b, b⟩ = 0 ∧
          (S.map (fun l => (⟨b, l.v1⟩ : Edge V))).count ⟨b, b⟩ = 0 := by
        constructor
        · rw [List.count_eq_zero]
          intro hm
          obtain ⟨l, hl, hle⟩ := List.mem_map.1 hm
          exact (hg l hl).2 (congrArg Edge.v1 hle)
        · rw [List.count_eq_zero]
          intro hm
          obtain ⟨l, hl, hle⟩ := List.mem_map.1 hm
          exact (hg l hl).1 (congrArg Edge.v2 hle)
      omega
    · rw [count_in_zero (e := ⟨a, b⟩) S hb, count_out]
      have := List.nodup_iff_count_le_one.1 h1 b
      omega
  · rw [count_out_zero (e := ⟨a, b⟩) S ha]
    by_cases hb : b = g
    · subst hb
      rw [hz _ (Or.inr rfl), count_wall_zero hg (Or.inr rfl), count_in]
      have := List.nodup_iff_count_le_one.1 h2 a
      omega
    · rw [count_in_zero (e := ⟨a, b⟩) S hb]
      by_cases hm : (⟨a, b⟩ : Edge V) ∈ S
      · rw [List.count_eq_zero.2 (wall_not_kept hm), List.count_eq_one_of_mem hS hm]
      · rw [List.count_eq_zero.2 hm]
        have := List.nodup_iff_count_le_one.1 hk' ⟨a, b⟩
        omega

end

end Verif
