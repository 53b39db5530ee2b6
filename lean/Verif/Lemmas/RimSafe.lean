import Verif.Lemmas.RimLoop

/-!
# Refining a triangulated polygon does not panic
-/

set_option linter.unusedSectionVars false

namespace Verif

open Spec Props

theorem Res.bind_safe {α β : Type*} {x : Res α} {k : α → Res β} (hx : x ≠ .panic) (hk : ∀ a, x = .ok a → k a ≠ .panic) :
    x.bind k ≠ .panic := by
  cases x with
  | ok a => exact hk a rfl
  | panic => exact absurd rfl hx
  | diverged => intro h; cases h

section generic

variable {V : Type*} [DecidableEq V]

theorem splitConflicts_safe {P : Preds V} (hm : ∀ t w, P.mayInsert t w ≠ .panic) (t : Tri V) (vs : List V) :
    splitConflicts P t vs ≠ .panic := by
  induction vs with
  | nil => intro h; cases h
  | cons v vs ih =>
    rw [splitConflicts]
    refine Res.bind_safe (hm t v) fun a _ => Res.bind_safe ih fun r _ => ?_
    split_ifs <;> (intro h; cases h)

theorem distribute_safe {P : Preds V} (hm : ∀ t w, P.mayInsert t w ≠ .panic) (t : Tri V) (c : CMap V) (vs : List V) :
    distribute P t c vs ≠ .panic :=
  Res.bind_safe (splitConflicts_safe hm t vs) fun _ _ h => by cases h

theorem distributeAll_safe {P : Preds V} (hm : ∀ t w, P.mayInsert t w ≠ .panic) (ts : List (Tri V)) (c : CMap V)
    (vs : List V) : distributeAll P ts c vs ≠ .panic := by
  induction ts generalizing c vs with
  | nil => intro h; cases h
  | cons t ts ih =>
    rw [distributeAll]
    split_ifs
    · intro h; cases h
    · exact Res.bind_safe (distribute_safe hm t c vs) fun r _ => ih r.1 r.2

theorem distributeOverLoop_safe {P : Preds V} (hm : ∀ t w, P.mayInsert t w ≠ .panic) (m : Mesh V) (n : Nat)
    (ts vis : List (Tri V)) (c : CMap V) (vs : List V) : distributeOverLoop P m n ts vis c vs ≠ .panic := by
  induction n generalizing ts vis c vs with
  | zero =>
    cases ts with
    | nil => intro h; cases h
    | cons t ts =>
      cases vs with
      | nil => intro h; cases h
      | cons v vs => intro h; cases h
  | succ n ih =>
    cases ts with
    | nil => intro h; cases h
    | cons t ts =>
      cases vs with
      | nil => intro h; cases h
      | cons v vs =>
        rw [distributeOverLoop]
        exact Res.bind_safe (distribute_safe hm t c _) fun q _ => ih _ _ _ _

/-- One iteration of the inner loop panics only if the triangle behind the edge is not found. -/
theorem cavityStep_safe {P : Preds V} (hm : ∀ t w, P.mayInsert t w ≠ .panic) {C : List (Edge V)} {v : V} {e : Edge V}
    {s : SolveState V} (ha : s.mesh.adj e.opposite ≠ none) : cavityStep P C v e s ≠ .panic := by
  unfold cavityStep
  cases hadj : s.mesh.adj e.opposite with
  | none => exact absurd hadj ha
  | some t =>
    simp only
    refine Res.bind_safe (hm t v) fun may _ => ?_
    split_ifs
    · intro h; cases h
    · exact Res.bind_safe (distribute_safe hm _ _ _) fun r _ h => by cases h

theorem findEncroachments_safe {P : RPreds V} {C : List (Edge V)} {c : V} {I : List (Tri V)}
    (h : ∀ t ∈ I, t.oppositeEdge P.veq c ≠ none) : findEncroachments P C c I ≠ .panic := by
  unfold findEncroachments
  refine Res.bind_safe ?_ fun _ _ h => by cases h
  induction I with
  | nil => intro h; cases h
  | cons t I ih =>
    rw [List.foldr_cons]
    cases ht : t.oppositeEdge P.veq c with
    | none => exact absurd ht (h t List.mem_cons_self)
    | some e =>
      refine Res.bind_safe (fun h => by cases h) fun x _ => ?_
      exact Res.bind_safe (ih fun t ht => h t (List.mem_cons_of_mem _ ht)) fun _ _ h => by cases h

end generic

section

variable {K : Type*} [Field K] [LinearOrder K] [IsStrictOrderedRing K]

theorem outsideHoles_safe (eps : K) (f : Nat) (p : Polyline (Vertex K)) (hs : List (Polyline (Vertex K))) (flag : Bool) :
    outsideHoles eps f p hs flag ≠ .panic := by
  induction hs generalizing flag with
  | nil => intro h; cases h
  | cons q hs ih =>
    rw [outsideHoles]
    refine Res.bind_safe (continence_ne_panic _ _ _ _) fun r _ => ?_
    cases r with
    | none => exact ih _
    | some c => exact ih _

/-- The test of a triangle never panics. -/
theorem mayInsert_safe (eps : K) (f : Nat) (D : Option (Polyline (Vertex K))) (hs : List (Polyline (Vertex K)))
    (t : Tri (Vertex K)) (w : Vertex K) : mayInsertTriangle eps f D hs t w ≠ .panic := by
  unfold mayInsertTriangle
  refine Res.bind_safe ?_ fun _ _ => Res.bind_safe (outsideHoles_safe _ _ _ _ _) fun _ _ h => by cases h
  cases D with
  | none => intro h; cases h
  | some b =>
    refine Res.bind_safe (continence_ne_panic _ _ _ _) fun r _ => ?_
    cases r with
    | none => intro h; cases h
    | some c => intro h; cases h

variable {g : Vertex K} {l : List (Vertex K)} {M : List (Tri (Vertex K))} {v : Vertex K} {w : Edge (Vertex K)}

/-- A triangle of the hole: it sees the point, or it is the ghost triangle over a side with the point on its line. -/
def Rimmed (g : Vertex K) (l : List (Vertex K)) (M : List (Tri (Vertex K))) (v : Vertex K) (w : Edge (Vertex K))
    (t : Tri (Vertex K)) : Prop :=
  Seer l M v t ∨ (Wall l w ∧ cross w.v1 w.v2 v = 0 ∧ t = overSide g (w.v1, w.v2))

theorem Rimmed.mem (hF : Fit g l M) {t : Tri (Vertex K)} (h : Rimmed g l M v w t) : t ∈ M := by
  rcases h with k | ⟨h1, -, rfl⟩
  · exact k.mem
  · exact hF.lot.border _ h1

/-- Two neighbours in the hole share a real edge. -/
theorem Rimmed.pair (hF : Fit g l M) {r t : Tri (Vertex K)} (hr : Rimmed g l M v w r) (ht : Rimmed g l M v w t)
    {e : Edge (Vertex K)} (he : IsSide r e) (ho : IsSide t e.opposite) :
    (Seer l M v r ∧ Seer l M v t) ∨ ((Wall l w ∧ cross w.v1 w.v2 v = 0) ∧ (e = w ∨ e = w.opposite)) := by
  have hgn : ∀ {z : Vertex K}, z.isGhost = false → z ≠ g := by
    rintro z hz rfl
    rw [hF.lot.ghost] at hz; simp at hz
  obtain ⟨e1, e2⟩ := e
  obtain ⟨w1, w2⟩ := w
  rcases hr with hr | ⟨a1, a2, rfl⟩ <;> rcases ht with ht | ⟨b1, b2, rfl⟩
  · exact Or.inl ⟨hr, ht⟩
  · right
    refine ⟨⟨b1, b2⟩, Or.inl ?_⟩
    obtain ⟨-, -, q1, q2, -⟩ := hr.solid.side he
    rcases ho with ⟨k1, k2⟩ | ⟨k1, k2⟩ | ⟨k1, k2⟩ <;> simp only [Edge.opposite] at k1 k2 q1 q2
    · rw [k1, k2]
    · exact absurd k2 (hgn q1)
    · exact absurd k1 (hgn q2)
  · right
    refine ⟨⟨a1, a2⟩, Or.inr ?_⟩
    obtain ⟨-, -, q1, q2, -⟩ := ht.solid.side ho
    rcases he with ⟨k1, k2⟩ | ⟨k1, k2⟩ | ⟨k1, k2⟩ <;> simp only [Edge.opposite] at k1 k2 q1 q2 ⊢
    · rw [k1, k2]
    · exact absurd k2 (hgn q1)
    · exact absurd k1 (hgn q2)
  · exfalso
    obtain ⟨m1, m2⟩ := mem_pairs (show (w1, w2) ∈ pairs l false from a1)
    have q1 := hgn (hF.lot.real _ m1)
    have q2 := hgn (hF.lot.real _ m2)
    have hne : w1 ≠ w2 := by
      rintro rfl
      exact hF.poly.proper _ a1 ⟨rfl, rfl⟩
    rcases he with ⟨k1, k2⟩ | ⟨k1, k2⟩ | ⟨k1, k2⟩ <;> rcases ho with ⟨j1, j2⟩ | ⟨j1, j2⟩ | ⟨j1, j2⟩ <;>
      simp only [Edge.opposite] at k1 k2 j1 j2 q1 q2 <;> simp_all

/-- The triangles of a hole are connected like a tree. -/
theorem Fit.no_ring (hF : Fit g l M) {R : List (Tri (Vertex K))} (hne : R ≠ [])
    (hR : ∀ r ∈ R, Rimmed g l M v w r) {I X : List (Edge (Vertex K))}
    (hp : (sides R).Perm (X ++ (I ++ I.map Edge.opposite))) (hlen : R.length ≤ I.length) : False := by
  classical
  have hJ : ∃ J, J = I ++ I.map Edge.opposite := ⟨_, rfl⟩
  obtain ⟨J, hJ⟩ := hJ
  rw [← hJ] at hp
  have hJopp : ∀ x, x ∈ J → x.opposite ∈ J := by
    intro x hx
    rw [hJ, List.mem_append] at hx ⊢
    rcases hx with hx | hx
    · exact Or.inr (List.mem_map_of_mem hx)
    · obtain ⟨y, hy, rfl⟩ := List.mem_map.1 hx
      left; simpa using hy
  have hJside : ∀ x, x ∈ J → ∃ r ∈ R, IsSide r x := fun x hx =>
    mem_sides.1 (hp.mem_iff.2 (List.mem_append.2 (Or.inr hx)))
  -- the only inner side of a ghost triangle is the one on the polygon
  have hghost : ∀ r ∈ R, ¬ Seer l M v r → ∀ x, IsSide r x → x ∈ J → x = ⟨r.v1, r.v2⟩ ∧ cross x.v1 x.v2 v = 0 := by
    intro r hr hns x hx hxJ
    obtain ⟨r', hr', hs'⟩ := hJside _ (hJopp x hxJ)
    rcases (hR r hr).pair hF (hR r' hr') hx hs' with k | ⟨⟨k1, k2⟩, k3⟩
    · exact absurd k.1 hns
    · rcases hR r hr with k | ⟨-, -, rfl⟩
      · exact absurd k hns
      · obtain ⟨w1, w2⟩ := w
        rcases k3 with rfl | rfl
        · exfalso
          obtain ⟨m1, m2⟩ := mem_pairs (show (w1, w2) ∈ pairs l false from k1)
          have q1 := hF.lot.real _ m1
          have q2 := hF.lot.real _ m2
          have hg := hF.lot.ghost
          rcases hx with ⟨j1, j2⟩ | ⟨j1, j2⟩ | ⟨j1, j2⟩ <;> simp only at j1 j2 q1 q2
          · exact hF.poly.proper _ k1 (by simp only; rw [j1]; exact ⟨rfl, rfl⟩)
          · rw [j2, hg] at q2; simp at q2
          · rw [j1, hg] at q1; simp at q1
        · refine ⟨rfl, ?_⟩
          simp only [Edge.opposite]
          rw [cross_swap]
          simp only at k2
          rw [k2, neg_zero]
  obtain ⟨σ, hσd⟩ : ∃ σ : Edge (Vertex K) → ℕ, σ = fun x => if cross x.v1 x.v2 v ≤ 0 ∧ x ∈ J then 1 else 0 := ⟨_, rfl⟩
  have hσ1 : ∀ x, σ x ≤ 1 := by intro x; rw [hσd]; simp only; split_ifs <;> omega
  have hσ : ∀ x, cross x.v1 x.v2 v ≤ 0 → x ∈ J → σ x = 1 := by
    intro x h1 h2; rw [hσd]; simp only; rw [if_pos ⟨h1, h2⟩]
  have hσ' : ∀ x, σ x = 1 → cross x.v1 x.v2 v ≤ 0 ∧ x ∈ J := by
    intro x h; rw [hσd] at h; simp only at h; by_contra hc; rw [if_neg hc] at h; omega
  have hI : ∀ z ∈ I, 1 ≤ σ z + σ z.opposite := by
    intro z hz
    have hzJ : z ∈ J := by rw [hJ]; exact List.mem_append.2 (Or.inl hz)
    rcases le_total (cross z.v1 z.v2 v) 0 with h | h
    · rw [hσ z h hzJ]; omega
    · rw [hσ z.opposite (by simp only [Edge.opposite]; rw [cross_swap]; linarith) (hJopp z hzJ)]; omega
  have hone : ∀ r ∈ R, (r.innerEdges.map σ).sum ≤ 1 := by
    intro r hr
    simp only [Tri.innerEdges, List.map_cons, List.map_nil, List.sum_cons, List.sum_nil]
    have a1 := hσ1 ⟨r.v1, r.v2⟩
    have a2 := hσ1 ⟨r.v2, r.v3⟩
    have a3 := hσ1 ⟨r.v3, r.v1⟩
    by_contra hc
    have hpair : (σ ⟨r.v1, r.v2⟩ = 1 ∧ σ ⟨r.v2, r.v3⟩ = 1) ∨ (σ ⟨r.v2, r.v3⟩ = 1 ∧ σ ⟨r.v3, r.v1⟩ = 1) ∨
        (σ ⟨r.v3, r.v1⟩ = 1 ∧ σ ⟨r.v1, r.v2⟩ = 1) := by omega
    by_cases hS : Seer l M v r
    · obtain ⟨k1, k2, k3⟩ := conf_one_special hS.solid ((conf_solid hS.solid).2 hS.conf)
      rcases hpair with ⟨b1, b2⟩ | ⟨b1, b2⟩ | ⟨b1, b2⟩
      · exact k1 ⟨(hσ' _ b1).1, (hσ' _ b2).1⟩
      · exact k2 ⟨(hσ' _ b1).1, (hσ' _ b2).1⟩
      · exact k3 ⟨(hσ' _ b1).1, (hσ' _ b2).1⟩
    · have hn : ∀ x, IsSide r x → σ x = 1 → x = ⟨r.v1, r.v2⟩ := fun x hx h1 => (hghost r hr hS x hx (hσ' _ h1).2).1
      have hd : (⟨r.v2, r.v3⟩ : Edge (Vertex K)) ≠ ⟨r.v1, r.v2⟩ ∧ (⟨r.v3, r.v1⟩ : Edge (Vertex K)) ≠ ⟨r.v1, r.v2⟩ := by
        rcases hR r hr with k | ⟨k1, -, rfl⟩
        · exact absurd k hS
        · obtain ⟨m1, m2⟩ := mem_pairs (show (w.v1, w.v2) ∈ pairs l false from k1)
          have q1 := hF.lot.real _ m1
          have q2 := hF.lot.real _ m2
          have hg := hF.lot.ghost
          constructor
          · intro h
            injection h with h1 h2
            simp only at h2 q1
            rw [← h2, hg] at q1; simp at q1
          · intro h
            injection h with h1 h2
            simp only at h1 q2
            rw [← h1, hg] at q2; simp at q2
      rcases hpair with ⟨b1, b2⟩ | ⟨b1, b2⟩ | ⟨b1, b2⟩
      · exact hd.1 (hn _ (Or.inr (Or.inl ⟨rfl, rfl⟩)) b2)
      · exact hd.1 (hn _ (Or.inr (Or.inl ⟨rfl, rfl⟩)) b1)
      · exact hd.2 (hn _ (Or.inr (Or.inr ⟨rfl, rfl⟩)) b1)
  have hsum : (R.map fun r => (r.innerEdges.map σ).sum).sum
      = (X.map σ).sum + (I.map fun z => σ z + σ z.opposite).sum := by
    have h1 : ((sides R).map σ).sum = (R.map fun r => (r.innerEdges.map σ).sum).sum := by
      clear hp hlen hone hI hR hne hJside hghost
      induction R with
      | nil => simp [sides]
      | cons t l ih => rw [sides_cons, List.map_append, List.sum_append, ih]; simp
    rw [← h1, (hp.map σ).sum_eq, List.map_append, List.sum_append, hJ, List.map_append,
      List.sum_append, List.map_map]
    congr 1
    clear * -
    induction I with
    | nil => simp
    | cons z I ih => simp only [List.map_cons, List.sum_cons, Function.comp] at ih ⊢; omega
  have hu := sum_le_length hone
  have hl := length_le_sum hI
  have hR1 := all_one_of_sum hone (by omega)
  have hI1 := all_one_of_sum' hI (by omega)
  have hspecial : ∀ r ∈ R, ∃ e, IsSide r e ∧ cross e.v1 e.v2 v ≤ 0 ∧ e ∈ J := by
    intro r hr
    have := hR1 r hr
    simp only [Tri.innerEdges, List.map_cons, List.map_nil, List.sum_cons, List.sum_nil] at this
    by_cases b1 : σ ⟨r.v1, r.v2⟩ = 1
    · exact ⟨_, Or.inl ⟨rfl, rfl⟩, hσ' _ b1⟩
    · by_cases b2 : σ ⟨r.v2, r.v3⟩ = 1
      · exact ⟨_, Or.inr (Or.inl ⟨rfl, rfl⟩), hσ' _ b2⟩
      · have a1 := hσ1 ⟨r.v1, r.v2⟩
        have a2 := hσ1 ⟨r.v2, r.v3⟩
        exact ⟨⟨r.v3, r.v1⟩, Or.inr (Or.inr ⟨rfl, rfl⟩), hσ' _ (by omega)⟩
  have hstrict : ∀ x ∈ J, cross x.v1 x.v2 v ≠ 0 := by
    intro x hx h0
    have h1 := hσ x h0.le hx
    have h2 := hσ x.opposite (by simp only [Edge.opposite]; rw [cross_swap, h0]; simp) (hJopp x hx)
    rw [hJ, List.mem_append] at hx
    rcases hx with hx | hx
    · have := hI1 x hx; omega
    · obtain ⟨y, hy, rfl⟩ := List.mem_map.1 hx
      rw [opposite_opposite] at h2
      have := hI1 y hy
      omega
  have key : ∀ r, Seer l M v r → r ∈ R → False := by
    intro r hS
    induction hS with
    | here h1 h2 h3 h4 =>
      intro hr
      obtain ⟨e, he, hle, hm⟩ := hspecial _ hr
      exact hstrict e hm (le_antisymm hle (within_iff_sides.1 h4 e he))
    | step h1 h2 h3 h4 h5 h6 h7 h8 ih =>
      intro hr
      obtain ⟨e, he, hle, hm⟩ := hspecial _ hr
      have := h2.one_special h3 he h4 hle h6.le
      subst this
      obtain ⟨r', hr', hs'⟩ := hJside _ (hJopp _ hm)
      have := hF.simple.edgeDisjoint _ ((hR r' hr').mem hF) _ h7.mem _ hs' h8
      exact ih (this ▸ hr')
  obtain ⟨r, hr⟩ := List.exists_mem_of_ne_nil _ hne
  by_cases hS : Seer l M v r
  · exact key r hS hr
  · obtain ⟨e, he, hle, hm⟩ := hspecial _ hr
    exact hstrict e hm (hghost r hr hS e he hm).2

variable {b : Polyline (Vertex K)} {T : List (Tri (Vertex K))} {f : Nat} {C : List (Edge (Vertex K))}

/-- The triangle behind a pending edge is always found. -/
theorem Fit.behind (hD : Subdivides l b.vertices) (hF : Fit g l M) (hC : ∀ e, Constrained C e → AlongSide b e)
    (hw : Wall l w → cross w.v1 w.v2 v = 0 → ¬ Constrained C w) {P : Preds (Vertex K)} {m : Mesh (Vertex K)}
    {e : Edge (Vertex K)} {B L Z : List (Edge (Vertex K))} {O R : List (Tri (Vertex K))}
    (h : CavInv P C v M m (e :: B) L O R Z) (hR : ∀ r ∈ R, Rimmed g l M v w r) : m.adj e.opposite ≠ none := by
  intro hnone
  obtain ⟨r, hr, hside⟩ := h.mem_side_old (e := e) (by simp)
  obtain ⟨t, ht, hts⟩ := hF.across (h.mem_R hr) hside
  have hRn : (sides R).Nodup := simple_iff.1 (simple_part hF.simple h.old)
  rcases List.mem_append.1 (h.old.mem_iff.1 ht) with k | k
  · have hm : e.opposite ∈ sides R := mem_sides.2 ⟨t, k, hts⟩
    have hnd := h.bdry.nodup_iff.1 hRn
    rw [List.nodup_append] at hnd
    have hpair := (hR r hr).pair hF (hR t k) hside hts
    have hback : ¬ (e.opposite = e) := by
      intro k'
      have h12 : e.v1 = e.v2 := congrArg Edge.v2 k'
      rcases hpair with ⟨hS, -⟩ | ⟨⟨k1, -⟩, k2⟩
      · exact hS.solid.side_ne hside (h12 ▸ ⟨rfl, rfl⟩)
      · refine hF.poly.proper _ k1 ?_
        rcases k2 with rfl | rfl
        · simp only; rw [h12]; exact ⟨rfl, rfl⟩
        · simp only [Edge.opposite] at h12 ⊢; rw [h12]; exact ⟨rfl, rfl⟩
    rcases List.mem_append.1 (h.bdry.mem_iff.1 hm) with k' | k'
    · have k2 : e.opposite ∈ B := by
        rcases List.mem_append.1 k' with k' | k'
        · rcases List.mem_cons.1 k' with k' | k'
          · exact absurd k' hback
          · exact k'
        · exfalso
          rcases h.links _ k' with hc | ⟨t', ht', hside', hne', -⟩
          · rcases hpair with ⟨hS, hSt⟩ | ⟨⟨j1, j2⟩, j3⟩
            · exact hF.wall_back (h.mem_R hr) hS.solid hside ((hC _ hc).wall hD hF hSt.mem hSt.solid hts)
            · refine hw j1 j2 ?_
              rcases j3 with rfl | rfl
              · unfold Constrained at hc ⊢
                rw [opposite_opposite] at hc
                tauto
              · rwa [opposite_opposite] at hc
          · rw [opposite_opposite] at hside'
            have := hF.simple.edgeDisjoint t' ht' r (h.mem_R hr) e hside' hside
            exact hne' (this ▸ h.exp r hr)
      obtain ⟨B1, B2, rfl⟩ := List.append_of_mem k2
      refine hF.no_ring (v := v) (w := w) (R := R) (I := e :: Z) (X := B1 ++ B2 ++ L) ?_ hR ?_ ?_
      · rintro rfl; simp at hr
      · refine h.bdry.trans ?_
        rw [List.perm_iff_count]
        intro x
        simp only [List.map_cons, List.count_append, List.count_cons]
        omega
      · rw [List.length_cons, h.tree]
    · exfalso
      have k2 : e ∈ Z ++ Z.map Edge.opposite := by
        rcases List.mem_append.1 k' with k' | k'
        · exact List.mem_append.2 (Or.inr (List.mem_map.2 ⟨_, k', opposite_opposite e⟩))
        · obtain ⟨z, hz, hze⟩ := List.mem_map.1 k'
          have : z = e := by rw [← opposite_opposite z, hze, opposite_opposite]
          exact List.mem_append.2 (Or.inl (this ▸ hz))
      exact hnd.2.2 e (by simp) e k2 rfl
  · rw [h.keep t k _ hts] at hnone
    simp at hnone

/-- Filling a hole does not panic. -/
theorem Fit.cavity_safe (hD : Subdivides l b.vertices) (hF : Fit g l M) (hC : ∀ e, Constrained C e → AlongSide b e)
    (hw : Wall l w → cross w.v1 w.v2 v = 0 → ¬ Constrained C w) {P : Preds (Vertex K)}
    (hm : ∀ t x, P.mayInsert t x ≠ .panic) (hfr : Fresh M v) {S : Vertex K → Prop} (hsep : SepOn P.veq S)
    (hS : ∀ t ∈ M, ∀ x, IsCorner t x → S x)
    (hQ : ∀ r ∈ M, Rimmed g l M v w r → ∀ e, IsSide r e → ¬ Constrained C e → ∀ t ∈ M, IsSide t e.opposite →
      Expandable P v t → Rimmed g l M v w t)
    {inc0 rem0 : List (Tri (Vertex K))} {W : List (Vertex K)} {n : Nat} {s : SolveState (Vertex K)}
    {B L Z : List (Edge (Vertex K))} {O R : List (Tri (Vertex K))} (h : CavInv P C v M s.mesh B L O R Z)
    (hb : Book P v inc0 rem0 W s L R) (hrem : rem0 = []) (hR : ∀ r ∈ R, Rimmed g l M v w r) :
    cavityLoop P C v n B s ≠ .panic := by
  induction n generalizing s B L O R Z with
  | zero =>
    cases B with
    | nil => simp [cavityLoop]
    | cons e B => simp [cavityLoop]
  | succ n ih =>
    cases B with
    | nil => simp [cavityLoop]
    | cons e B =>
      rw [cavityLoop]
      refine Res.bind_safe (cavityStep_safe hm (hF.behind hD hC hw h hR)) fun r hr => ?_
      have hnew : ∀ x ∈ r.2.removed, Rimmed g l M v w x := by
        have hold : ∀ x ∈ s.removed, Rimmed g l M v w x := by
          intro x hx
          rcases (hb.rem x).1 hx with k | k
          · rw [hrem] at k; simp at k
          · exact hR x k
        obtain ⟨t, hadj, ⟨h1, h2, h3⟩ | h3⟩ := cavityStep_found hr
        · intro x hx
          rw [h3, mem_setInsert] at hx
          rcases hx with rfl | hx
          · obtain ⟨k1, k2⟩ := h.found hF.simple hfr List.mem_cons_self hadj
            have hO := k2.resolve_right h2
            obtain ⟨r0, hr0, hre⟩ := h.mem_side_old (e := e) (by simp)
            exact hQ r0 (h.mem_R hr0) (hR r0 hr0) e hre h2 x (h.mem_O hO) k1 h1
          · exact hold x hx
        · rw [h3]; exact hold
      rcases cavityStep_inv h hb hF.simple hfr hsep hS hr with ⟨t, -, k1, k2, -⟩ | ⟨k0, k1, k2⟩
      · exact ih k1 k2 fun x hx => hnew x ((k2.rem x).2 (Or.inr hx))
      · rw [k0]
        exact ih k1 k2 hR

/-- Inserting one vertex does not panic. -/
theorem Fit.solve_safe (hD : Subdivides l b.vertices) (hC : ∀ e, Constrained C e → AlongSide b e)
    {P : Preds (Vertex K)} (hm : ∀ t x, P.mayInsert t x ≠ .panic) {S : Vertex K → Prop} (hsep : SepOn P.veq S)
    {s : SolveState (Vertex K)} (hF : Fit g l s.mesh.tris) (hl : Legit P S s) (hrem : s.removed = [])
    (hone : (s.cmap.flat ++ s.remaining).length ≤ 1)
    (hw : ∀ v ∈ s.cmap.flat, Wall l w → cross w.v1 w.v2 v = 0 → ¬ Constrained C w)
    (hQ : ∀ v ∈ s.cmap.flat, ∀ r ∈ s.mesh.tris, Rimmed g l s.mesh.tris v w r → ∀ e, IsSide r e → ¬ Constrained C e →
      ∀ t ∈ s.mesh.tris, IsSide t e.opposite → Expandable P v t → Rimmed g l s.mesh.tris v w t)
    (hk : ∀ t k, (t, k) ∈ s.cmap → ∀ v ∈ k, Rimmed g l s.mesh.tris v w t) {fuel n : Nat} {σ : Sched} :
    solveLoop P C fuel n σ s ≠ .panic := by
  cases n with
  | zero => rw [solveLoop]; split_ifs <;> (intro h; cases h)
  | succ n =>
    rw [solveLoop]
    split_ifs with hc
    · intro h; cases h
    · refine Res.bind_safe ?_ fun s' hs' => ?_
      · unfold solveStep
        cases hch : choose (σ.sub 0) s.cmap with
        | none => exact absurd (choose_eq_none.1 hch) hc
        | some q =>
          obtain ⟨t, k⟩ := q
          simp only
          have hmem := choose_mem hch
          cases hvl : k.getLast? with
          | none => exact absurd (List.getLast?_eq_none_iff.1 hvl) (hl.wf.2 (t, k) hmem)
          | some v =>
            simp only
            obtain ⟨hflat, hcav, W, hW, hbook⟩ := solveStep_open hl hF.simple hmem hvl C
            refine hF.cavity_safe hD hC (hw v hflat) hm (hl.pendF v (List.mem_append.2 (Or.inl hflat))) hsep hl.meshS
              (hQ v hflat) hcav hbook hrem ?_
            intro r hr
            rw [List.mem_singleton] at hr
            rw [hr]
            exact hk t k hmem v (List.mem_of_getLast? hvl)
      · obtain ⟨h1, v, L, O, R, Z, h2, h3⟩ := solveStep_inv hsep hl hF.simple hs'
        have := h3.pend.length_eq
        simp only [List.length_cons] at this
        have h0 : (s'.cmap.flat ++ s'.remaining).length = 0 := by omega
        rw [List.length_eq_zero_iff, List.append_eq_nil_iff] at h0
        have hnil := CMap.eq_nil_of_flat h1.wf h0.1
        cases n with
        | zero => rw [solveLoop, if_pos hnil]; intro h; cases h
        | succ n => rw [solveLoop, if_pos hnil]; intro h; cases h

end

end Verif
