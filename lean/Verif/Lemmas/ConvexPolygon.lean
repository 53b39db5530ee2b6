import Verif.Lemmas.BoundaryStep
import Verif.Lemmas.ConvexInsert

/-!
# Strictly convex polygons are simple and counterclockwise, and their sides are free
-/

set_option linter.unusedSectionVars false

namespace Verif

open Spec Props

variable {K : Type*} [Field K] [LinearOrder K] [IsStrictOrderedRing K]

theorem strictlyConvex_of_check {l : List (Vertex K)} (h : strictlyConvexCheck l = true) : StrictlyConvex l := by
  induction l with
  | nil => intro p q r hs; simp at hs
  | cons a l ih =>
    simp only [strictlyConvexCheck, Bool.and_eq_true, decide_eq_true_eq] at h
    intro p q r hs
    rcases List.sublist_cons_iff.1 hs with k | ⟨m, hm, k⟩
    · exact ih h.2 p q r k
    · injection hm with e1 e2
      subst e1 e2
      have := h.1.sublist k
      simpa using this

theorem double_third {V : Type*} {l : List V} {p : V} (h : [p, p].Sublist l) (h3 : 3 ≤ l.length) :
    ∃ q, [q, p, p].Sublist l ∨ [p, q, p].Sublist l ∨ [p, p, q].Sublist l := by
  induction l with
  | nil => simp at h3
  | cons a l ih =>
    rcases List.sublist_cons_iff.1 h with k | ⟨m, hm, k⟩
    · exact ⟨a, Or.inl (k.cons_cons a)⟩
    · injection hm with e1 e2
      subst e1 e2
      obtain ⟨s, t, rfl⟩ := List.append_of_mem (List.singleton_sublist.1 k)
      cases s with
      | cons b s =>
        refine ⟨b, Or.inr (Or.inl (List.Sublist.cons_cons p ?_))⟩
        have : [p].Sublist (s ++ p :: t) := List.singleton_sublist.2 (by simp)
        exact this.cons_cons b
      | nil =>
        cases t with
        | nil => simp at h3
        | cons c t =>
          refine ⟨c, Or.inr (Or.inr (List.Sublist.cons_cons p (List.Sublist.cons_cons p ?_)))⟩
          exact List.singleton_sublist.2 (by simp)

theorem Spec.StrictlyConvex.nodup {l : List (Vertex K)} (h : StrictlyConvex l) (h3 : 3 ≤ l.length) : l.Nodup := by
  rw [List.nodup_iff_sublist]
  intro p hp
  obtain ⟨q, k | k | k⟩ := double_third hp h3
  · have := h _ _ _ k
    have e : cross q p p = 0 := by simp only [cross]; ring
    linarith
  · have := h _ _ _ k
    have e : cross p q p = 0 := by simp only [cross]; ring
    linarith
  · have := h _ _ _ k
    have e : cross p p q = 0 := by simp only [cross]; ring
    linarith

theorem consecutivePairs_idx {V : Type*} [DecidableEq V] {l : List V} (hn : l.Nodup) {s : V × V}
    (hs : s ∈ consecutivePairs l) : l.idxOf s.2 = l.idxOf s.1 + 1 := by
  induction l with
  | nil => simp [consecutivePairs] at hs
  | cons a l ih =>
    cases l with
    | nil => simp [consecutivePairs] at hs
    | cons b l =>
      rw [consecutivePairs, List.mem_cons] at hs
      have hab : a ≠ b := by
        rintro rfl
        simp at hn
      rcases hs with rfl | hs
      · rw [List.idxOf_cons_ne _ hab]
        simp
      · have ha := List.nodup_cons.1 hn
        have := ih ha.2 hs
        obtain ⟨m1, m2⟩ := mem_consecutivePairs hs
        have n1 : a ≠ s.1 := fun e => ha.1 (by rw [e]; exact m1)
        have n2 : a ≠ s.2 := fun e => ha.1 (by rw [e]; exact m2)
        rw [List.idxOf_cons_ne _ n2, List.idxOf_cons_ne _ n1, this]

theorem pairs_idx {V : Type*} [DecidableEq V] {l : List V} (hn : l.Nodup) {s : V × V} (hs : s ∈ pairs l false) :
    l.idxOf s.2 = l.idxOf s.1 + 1 ∨ (l.idxOf s.1 + 1 = l.length ∧ l.idxOf s.2 = 0) := by
  rw [pairs, List.mem_append] at hs
  rcases hs with hs | hs
  · exact Or.inl (consecutivePairs_idx hn hs)
  · right
    cases l with
    | nil => simp at hs
    | cons a l =>
      simp only [List.getLast?_cons, List.head?_cons] at hs
      simp only [Bool.false_eq_true, if_false, List.mem_singleton] at hs
      subst hs
      refine ⟨?_, by simp⟩
      have e : (l.getLast?.getD a) = (a :: l).getLast (by simp) := by
        rw [← Option.some_inj, ← List.getLast?_eq_some_getLast, List.getLast?_cons]
      simp only [e]
      rw [List.getLast_eq_getElem, hn.idxOf_getElem]
      simp

/-- All other vertices are strictly on the left of a side. -/
theorem Spec.StrictlyConvex.side {l : List (Vertex K)} (h : StrictlyConvex l) (h3 : 3 ≤ l.length)
    {s : Vertex K × Vertex K} (hs : s ∈ pairs l false) {p : Vertex K} (hp : p ∈ l) (h1 : p ≠ s.1) (h2 : p ≠ s.2) :
    0 < cross s.1 s.2 p := by
  obtain ⟨m1, m2⟩ := mem_pairs hs
  have hn := h.nodup h3
  refine h.pos m1 m2 hp ?_
  have k1 : l.idxOf p ≠ l.idxOf s.1 := fun e => h1 ((List.idxOf_inj hp).1 e)
  have k2 : l.idxOf p ≠ l.idxOf s.2 := fun e => h2 ((List.idxOf_inj hp).1 e)
  have k3 := List.idxOf_lt_length_of_mem hp
  have k4 := List.idxOf_lt_length_of_mem m1
  rcases pairs_idx hn hs with k | ⟨k, k'⟩ <;> unfold Cyc <;> omega

theorem Spec.StrictlyConvex.third {l : List (Vertex K)} (h : StrictlyConvex l) (h3 : 3 ≤ l.length) (a b : Vertex K) :
    ∃ p ∈ l, p ≠ a ∧ p ≠ b := by
  by_contra hc
  push Not at hc
  have hn := h.nodup h3
  have : l.toFinset ⊆ {a, b} := by
    intro p hp
    rw [List.mem_toFinset] at hp
    simp only [Finset.mem_insert, Finset.mem_singleton]
    by_cases e : p = a
    · exact Or.inl e
    · exact Or.inr (hc p hp e)
  have := Finset.card_le_card this
  rw [List.toFinset_card_of_nodup hn] at this
  have := Finset.card_le_two (a := a) (b := b)
  omega

theorem Spec.StrictlyConvex.convex {l : List (Vertex K)} (h : StrictlyConvex l) (h3 : 3 ≤ l.length) :
    ConvexPolygon l := by
  intro s hs p hp
  by_cases e1 : p = s.1
  · subst e1; apply le_of_eq; simp only [cross]; ring
  by_cases e2 : p = s.2
  · subst e2; apply le_of_eq; simp only [cross]; ring
  exact (h.side h3 hs hp e1 e2).le

theorem Spec.StrictlyConvex.simple {l : List (Vertex K)} (h : StrictlyConvex l) (h3 : 3 ≤ l.length) :
    SimplePolygon l := by
  have hn := h.nodup h3
  have hfst : ((pairs l false).map Prod.fst).Nodup := by rw [pairs_fst]; exact hn
  have hsnd : ((pairs l false).map Prod.snd).Nodup := (pairs_snd l).nodup_iff.2 hn
  have hne : ∀ s ∈ pairs l false, s.1 ≠ s.2 := by
    intro s hs e
    rcases pairs_idx hn hs with k | ⟨k, k'⟩
    · rw [e] at k; omega
    · rw [e] at k; omega
  refine ⟨fun s hs => ?_, ?_⟩
  · rintro ⟨e1, e2⟩
    obtain ⟨p, hp, n1, n2⟩ := h.third h3 s.1 s.2
    have := h.side h3 hs hp n1 n2
    have e : cross s.1 s.2 p = 0 := by simp only [cross, e1, e2]; ring
    linarith
  · refine (List.Nodup.of_map _ hfst).pairwise_of_forall_ne fun s hs t ht hst q hq1 hq2 => ?_
    have n1 : s.1 ≠ t.1 := fun e => hst (List.inj_on_of_nodup_map hfst hs ht e)
    have n2 : s.2 ≠ t.2 := fun e => hst (List.inj_on_of_nodup_map hsnd hs ht e)
    obtain ⟨m1, m2⟩ := mem_pairs hs
    have hz : cross t.1 t.2 q = 0 := by
      obtain ⟨k, -, -, kx, ky⟩ := hq2
      simp only [cross, kx, ky]; ring
    obtain ⟨k, k0, k1, kx, ky⟩ := hq1
    have e : cross t.1 t.2 q = (1 - k) * cross t.1 t.2 s.1 + k * cross t.1 t.2 s.2 := by
      simp only [cross, kx, ky]; ring
    rw [hz] at e
    have g1 := h.convex h3 t ht s.1 m1
    have g2 := h.convex h3 t ht s.2 m2
    have z2 : k * cross t.1 t.2 s.2 = 0 := by nlinarith
    have z1 : (1 - k) * cross t.1 t.2 s.1 = 0 := by linarith
    by_cases ea : s.1 = t.2
    · right
      have hb : 0 < cross t.1 t.2 s.2 := by
        refine h.side h3 ht m2 ?_ n2
        intro eb
        -- two sides would be all there is
        obtain ⟨p, hp, p1, p2⟩ := h.third h3 t.1 t.2
        have := h.side h3 ht hp p1 p2
        have k := h.side h3 hs hp (ea ▸ p2) (eb ▸ p1)
        rw [ea, eb, cross_swap] at k
        linarith
      have : k = 0 := by
        rcases mul_eq_zero.1 z2 with r | r
        · exact r
        · exact absurd r hb.ne'
      subst this
      refine ⟨⟨by rw [kx]; ring, by rw [ky]; ring⟩, ⟨by rw [kx, ea]; ring, by rw [ky, ea]; ring⟩⟩
    · left
      have ha : 0 < cross t.1 t.2 s.1 := h.side h3 ht m1 n1 ea
      have hk : k = 1 := by
        rcases mul_eq_zero.1 z1 with r | r
        · linarith
        · exact absurd r ha.ne'
      subst hk
      rw [one_mul] at z2
      have eb : s.2 = t.1 := by
        by_contra hc
        exact (h.side h3 ht m2 hc n2).ne' z2
      refine ⟨⟨by rw [kx]; ring, by rw [ky]; ring⟩, ⟨by rw [kx, ← eb]; ring, by rw [ky, ← eb]; ring⟩⟩

theorem shoelaceFrom_fan (a b : Vertex K) (l : List (Vertex K)) :
    shoelaceFrom a (b :: l) = fan a (b :: l) - (a.x * b.y - b.x * a.y) / 2 := by
  induction l generalizing b with
  | nil => simp only [shoelaceFrom, fan]; ring
  | cons c l ih => rw [shoelaceFrom, fan, ih]; ring

theorem Spec.StrictlyConvex.area {l : List (Vertex K)} (h : StrictlyConvex l) (h3 : 3 ≤ l.length) : 0 < shoelace l := by
  match l, h3 with
  | a :: b :: c :: l, _ =>
    have hp : (b :: c :: l).Pairwise fun p q => 0 < cross a p q := by
      rw [List.pairwise_iff_forall_sublist]
      intro p q hpq
      exact h a p q (hpq.cons_cons a)
    have key : ∀ (m : List (Vertex K)), (m.Pairwise fun p q => 0 < cross a p q) → 0 ≤ fan a m := by
      intro m hm
      induction m with
      | nil => simp [fan]
      | cons p m ih =>
        cases m with
        | nil => simp [fan]
        | cons q m =>
          rw [fan]
          have h1 := ih (List.pairwise_cons.1 hm).2
          have h2 := (List.pairwise_cons.1 hm).1 q (by simp)
          simp only [cross] at h2
          have : 0 ≤ ((p.x - a.x) * (q.y - a.y) - (p.y - a.y) * (q.x - a.x)) / 2 := by
            apply div_nonneg _ (by norm_num)
            linarith
          linarith
    have h1 := key _ (List.pairwise_cons.1 hp).2
    have h2 := (List.pairwise_cons.1 hp).1 c (by simp)
    rw [shoelace, shoelaceFrom_fan, fan, fan]
    simp only [cross] at h2
    have : 0 < ((b.x - a.x) * (c.y - a.y) - (b.y - a.y) * (c.x - a.x)) / 2 := by
      apply div_pos _ (by norm_num)
      linarith
    linarith

/-- Points strictly on the left of a segment are outside of a large enough circle through its ends. -/
theorem freeChord_of_left {l : List (Vertex K)} {a b : Vertex K}
    (h : ∀ p ∈ l, p ≠ a → p ≠ b → 0 < cross a b p) : FreeChord l a b := by
  -- the centre is far on the right
  let o : K → Vertex K := fun s => ⟨(a.x + b.x) / 2 + s * (b.y - a.y), (a.y + b.y) / 2 - s * (b.x - a.x), false⟩
  have he : ∀ s, dist2 (o s) a = dist2 (o s) b := by
    intro s
    simp only [o, dist2]; ring
  have hd : ∀ s p, dist2 (o s) p - dist2 (o s) a = dist2 (o 0) p - dist2 (o 0) a + 2 * s * cross a b p := by
    intro s p
    simp only [o, dist2, cross]; ring
  suffices hs : ∃ s, ∀ p ∈ l, p ≠ a → p ≠ b → ∀ s', s ≤ s' → dist2 (o s') a < dist2 (o s') p by
    obtain ⟨s, hs⟩ := hs
    exact ⟨o s, he s, fun p hp h1 h2 => hs p hp h1 h2 s le_rfl⟩
  induction l with
  | nil => exact ⟨0, by simp⟩
  | cons q l ih =>
    obtain ⟨s, hs⟩ := ih fun p hp => h p (List.mem_cons_of_mem _ hp)
    by_cases hq : q = a ∨ q = b
    · refine ⟨s, fun p hp h1 h2 => ?_⟩
      rcases List.mem_cons.1 hp with rfl | hp
      · exact absurd hq (by tauto)
      · exact hs p hp h1 h2
    · push Not at hq
      have hc := h q List.mem_cons_self hq.1 hq.2
      refine ⟨max s ((1 - (dist2 (o 0) q - dist2 (o 0) a)) / (2 * cross a b q)), fun p hp h1 h2 s' hs' => ?_⟩
      rcases List.mem_cons.1 hp with rfl | hp
      · have := (le_max_right _ _).trans hs'
        rw [div_le_iff₀ (by linarith)] at this
        have := hd s' p
        linarith
      · exact hs p hp h1 h2 s' ((le_max_left _ _).trans hs')

theorem Spec.StrictlyConvex.free {l : List (Vertex K)} (h : StrictlyConvex l) (h3 : 3 ≤ l.length)
    {s : Vertex K × Vertex K} (hs : s ∈ pairs l false) : FreeChord l s.1 s.2 :=
  freeChord_of_left fun _ hp h1 h2 => h.side h3 hs hp h1 h2

/-- Points in convex position, inserted in the mesh of a segment between two of them, are all inserted. -/
theorem convex_inserted {f fuel : Nat} {σ : Sched} {g a b : Vertex K} {l vs : List (Vertex K)} (hg : g.isGhost = true)
    (hc : StrictlyConvex l) (hreal : ∀ v ∈ l, v.isGhost = false) (ha : a ∈ l) (hb : b ∈ l) (hab : a ≠ b)
    (hn : vs.Nodup) (hvs : ∀ v ∈ vs, v ∈ l) (hf : 4 * vs.length + 7 ≤ fuel) {r : SolveState (Vertex K)}
    (h : includeVertices (freePreds f) [] fuel σ (Mesh.fromInitialSegment g a b) vs = .ok r) :
    r.remaining = [] := by
  have hd := Props.C19_segment hg (hreal a ha) (hreal b hb) hab
  have hsim := hd.simple.edgeDisjoint
  have hlen : (Mesh.fromInitialSegment g a b).tris.length ≤ 2 := by
    simp [Mesh.fromInitialSegment, Mesh.add, Mesh.include, Mesh.empty, hab.symm]
  have hcomp : AdjComplete (Mesh.fromInitialSegment g a b) := by
    refine adjComplete_add (adjComplete_add adjComplete_empty ?_) hsim
    intro t ht s hs e h1 h2
    simp [Mesh.add, Mesh.include, Mesh.empty] at ht hs
    rw [ht, hs]
  have hall : ∀ t ∈ (Mesh.fromInitialSegment g a b).tris, t = ⟨b, a, g⟩ ∨ t = ⟨a, b, g⟩ := by
    intro t ht
    simpa [Mesh.fromInitialSegment, mem_add, Mesh.empty] using ht
  have hmem : ∀ t, t = ⟨a, b, g⟩ ∨ t = ⟨b, a, g⟩ → t ∈ (Mesh.fromInitialSegment g a b).tris := by
    rintro t (rfl | rfl)
    · exact mem_add.2 (Or.inr (mem_add.2 (Or.inl rfl)))
    · exact mem_add.2 (Or.inl rfl)
  have gab : GhostTri g (⟨a, b, g⟩ : Tri (Vertex K)) := ⟨hreal a ha, hreal b hb, hab, rfl⟩
  have gba : GhostTri g (⟨b, a, g⟩ : Tri (Vertex K)) := ⟨hreal b hb, hreal a ha, hab.symm, rfl⟩
  have ho : ∀ w ∈ vs, w.isGhost = false := fun w hw => hreal w (hvs w hw)
  obtain ⟨s0, h0, hrun⟩ : ∃ s0, startState (freePreds f) σ (Mesh.fromInitialSegment g a b) vs = .ok s0 ∧
      solveLoop (freePreds f) [] fuel fuel (σ.sub 1) s0 = .ok r := by
    unfold includeVertices at h
    rw [Res.bind_eq_ok] at h
    obtain ⟨q, hq, h⟩ := h
    refine ⟨⟨_, q.1, q.2, [], []⟩, ?_, h⟩
    unfold startState
    rw [hq]; rfl
  have hN := start_nice (fromInitialSegment_sound _ _ _) hcomp hd hn ho h0
  have hl := start_len h0
  obtain ⟨hm, -, -, -, k5, k6, k7⟩ := startState_spec h0
  have hwl : ∀ w ∈ s0.cmap.flat ++ s0.remaining, w ∈ l ∧ w ≠ a ∧ w ≠ b := by
    intro w hw
    have := k5.mem_iff.1 hw
    rw [List.mem_filter] at this
    simp only [Bool.not_eq_true', decide_eq_false_iff_not] at this
    have hw' := hreal w (hvs w this.1)
    refine ⟨hvs w this.1, ?_, ?_⟩
    · rintro rfl
      exact this.2 (mem_vertices.2 ⟨⟨_, hmem _ (Or.inl rfl), Or.inl rfl⟩, hw'⟩)
    · rintro rfl
      exact this.2 (mem_vertices.2 ⟨⟨_, hmem _ (Or.inr rfl), Or.inl rfl⟩, hw'⟩)
  have hH : Hoard g f l s0 := by
    refine ⟨hN, ?_, ?_, ?_, fun w hw => (hwl w (List.mem_append.2 (Or.inl hw))).1⟩
    · intro t k hk
      rcases hall t (k6 t k hk).1 with rfl | rfl
      · exact gba
      · exact gab
    · rw [List.eq_nil_iff_forall_not_mem]
      intro w hw
      obtain ⟨w1, w2, w3⟩ := hwl w (List.mem_append.2 (Or.inr hw))
      have hne := hc.ne_zero ha hb w1 hab w3.symm w2.symm
      rcases lt_or_gt_of_ne hne with k | k
      · refine k7 w hw _ (hmem _ (Or.inr rfl)) ⟨(free_inside_ghost f hg gba w).2 ?_, rfl⟩
        simp only
        rw [cross_swap]; linarith
      · exact k7 w hw _ (hmem _ (Or.inl rfl)) ⟨(free_inside_ghost f hg gab w).2 k, rfl⟩
    · rintro p ⟨⟨t, ht, hcor⟩, hp⟩
      rw [hm] at ht
      have hpg : p ≠ g := ghost_ne hp hg
      rcases hall t ht with rfl | rfl <;> rcases hcor with rfl | rfl | rfl <;> first | assumption | exact absurd rfl hpg
  obtain ⟨s', j1, -, j3⟩ := hH.loop (fuel := fuel) (n := fuel) hc (by rw [hm]; omega) (by omega) (σ.sub 1)
  rw [hrun] at j1
  simp only [Res.ok.injEq] at j1
  rw [j1]
  exact j3

end Verif
