import Verif.Lemmas.RimSafe

/-!
# Refining a triangulated polygon does not panic: the loops
-/

set_option linter.unusedSectionVars false

namespace Verif

open Spec Props

theorem requeue_solid {V : Type*} [DecidableEq V] {P : RPreds V} {I R : List (Tri V)} {s : SplitState V} {t : Tri V}
    (h : t ∈ (requeue P I R s).irregulars ∨ t ∈ (requeue P I R s).larges) :
    (t ∈ s.irregulars ∨ t ∈ s.larges) ∨ t.isGhost P.ghost = false := by
  have e : requeue P I R s = requeue P (I.filter fun t => !t.isGhost P.ghost) R s := by
    simp only [requeue, List.filter_filter, Bool.and_self]
  rw [e] at h
  rcases requeue_mem h with k | k
  · exact Or.inl k
  · right
    simpa using (List.mem_filter.1 k).2

/-- The queues of `split_irregular` hold no ghost triangle. -/
def NoGhosts {V : Type*} (P : RPreds V) (s : SplitState V) : Prop :=
  ∀ t, t ∈ s.irregulars ∨ t ∈ s.larges → t.isGhost P.ghost = false

theorem NoGhosts.requeue {V : Type*} [DecidableEq V] {P : RPreds V} {I R : List (Tri V)} {s : SplitState V}
    (h : NoGhosts P s) : NoGhosts P (requeue P I R s) := by
  intro t ht
  rcases requeue_solid ht with k | k
  · exact h t k
  · exact k

theorem NoGhosts.encroached {V : Type*} [DecidableEq V] {P : RPreds V} {fuel : Nat} {es : List (Edge V)} :
    ∀ {σ : Sched} {vs : List V} {s s' : SplitState V}, NoGhosts P s →
      splitEncroached P fuel σ es vs s = .ok s' → NoGhosts P s' := by
  induction es with
  | nil =>
    intro σ vs s s' h h1
    simp only [splitEncroached, Res.ok.injEq] at h1
    subst h1
    exact h
  | cons e es ih =>
    intro σ vs s s' h h1
    rw [splitEncroached, Res.bind_eq_ok] at h1
    obtain ⟨r, -, h1⟩ := h1
    exact ih (NoGhosts.requeue (s := ⟨r.mesh, _, s.irregulars, s.larges, _⟩) h) h1

theorem NoGhosts.step {V : Type*} [DecidableEq V] {P : RPreds V} {fuel : Nat} {σ : Sched} {t : Tri V}
    {s s' : SplitState V} (h : NoGhosts P s) (h1 : splitStep P fuel σ t s = .ok s') : NoGhosts P s' := by
  unfold splitStep at h1
  rw [Res.bind_eq_ok] at h1
  obtain ⟨r, -, h1⟩ := h1
  cases r with
  | inserted m' inc rem =>
    simp only [Res.ok.injEq] at h1
    subst h1
    exact NoGhosts.requeue (s := { s with mesh := m' }) h
  | rejected m' enc =>
    simp only at h1
    rw [Res.bind_eq_ok] at h1
    obtain ⟨c, -, h1⟩ := h1
    exact NoGhosts.encroached (s := { s with mesh := m' }) h h1

theorem NoGhosts.pop {V : Type*} [DecidableEq V] {P : RPreds V} {σ : Sched} {t : Tri V} {s s' : SplitState V}
    (h : NoGhosts P s) (h1 : popTriangle σ s = some (t, s')) : NoGhosts P s' ∧ t.isGhost P.ghost = false := by
  unfold popTriangle at h1
  cases k1 : choose σ s.irregulars with
  | some u =>
    rw [k1] at h1
    simp only [Option.some.injEq, Prod.mk.injEq] at h1
    obtain ⟨rfl, rfl⟩ := h1
    exact ⟨fun x hx => h x (hx.imp_left fun hh => (mem_setErase.1 hh).1), h _ (Or.inl (choose_mem k1))⟩
  | none =>
    rw [k1] at h1
    simp only at h1
    cases k2 : choose σ s.larges with
    | some u =>
      rw [k2] at h1
      simp only [Option.some.injEq, Prod.mk.injEq] at h1
      obtain ⟨rfl, rfl⟩ := h1
      exact ⟨fun x hx => h x (hx.imp_right fun hh => (mem_setErase.1 hh).1), h _ (Or.inr (choose_mem k2))⟩
    | none => rw [k2] at h1; simp at h1

section

variable {K : Type*} [Field K] [LinearOrder K] [IsStrictOrderedRing K]

variable {b : Polyline (Vertex K)} {g : Vertex K} {T : List (Tri (Vertex K))} {f : Nat} {l : List (Vertex K)}
  {m : Mesh (Vertex K)}

theorem SolidTri.circumcenter_some {t : Tri (Vertex K)} (h : SolidTri t) : t.circumcenter ≠ none := by
  unfold Tri.circumcenter
  rw [if_neg (by rw [solid_notGhost h]; simp), ne_eq, C03_none_iff]
  exact h.ccw.ne'

variable (hG : Ground g b T)

include hG

/-- Splitting a side does not panic. -/
theorem Plot.split_safe (hP : Plot g b l m) {dist : Vertex K → Vertex K → K} {p : RefineParams K} {fuel : Nat} {σ : Sched}
    {C : List (Edge (Vertex K))} (hC : ∀ c ∈ C, AlongSide b c) {e : Edge (Vertex K)} (he : Wall l e) :
    splitSegment (geoRPreds 0 f dist p (some b) []) fuel σ C m e ≠ .panic := by
  obtain ⟨hD, hF, hs, hc⟩ := hP
  have hm : ∀ t x, (geoRPreds 0 f dist p (some b) []).toPreds.mayInsert t x ≠ .panic :=
    fun t x => mayInsert_safe 0 f (some b) [] t x
  have hv : (e.midpoint : Vertex K).isGhost = false := rfl
  have hvw : StrictlyOn e.v1 e.v2 e.midpoint := midpoint_strictlyOn (hF.poly.proper _ he)
  have hsep : SepOn (geoRPreds 0 f dist p (some b) []).toPreds.veq (Usual g) := usual_sep hF.lot.ghost f
  have hshape : ∀ t ∈ m.tris, Expandable (geoPreds 0 f (some b) []) e.midpoint t → Rimmed g l m.tris e.midpoint e t := by
    intro t ht hexp
    rcases hF.lot.shape t ht with st | ⟨s, hs, rfl⟩
    · exact Or.inl (hG.solid_sees hD hF hv ht st hexp)
    · right
      have := hF.poly.only he hs hvw (hG.ghost_on hD hF hv hs hexp)
      rw [this]
      exact ⟨he, onSegment_cross hvw.1, rfl⟩
  unfold splitSegment includeVertices
  refine Res.bind_safe (distributeAll_safe hm _ _ _) fun q hq => ?_
  have h0 : startState (geoRPreds 0 f dist p (some b) []).toPreds σ m [e.midpoint] = .ok ⟨m, q.1, q.2, [], []⟩ := by
    unfold startState
    have hq' := hq
    simp only [geoRPreds] at hq' ⊢
    rw [hq']; rfl
  obtain ⟨k1, k2, k3, k4, k5, k6, k7⟩ := startState_spec h0
  have hl := start_legit (S := Usual g) hs hc (List.nodup_singleton _) (by
      intro w hw
      rw [List.mem_singleton] at hw
      rw [hw]; rfl) (by
      rintro x ⟨t, ht, hx⟩
      exact hF.usual ht hx) (by
      intro w hw
      rw [List.mem_singleton] at hw
      rw [hw]; exact Or.inl rfl) h0
  have hmem : ∀ w ∈ q.1.flat, w = e.midpoint := by
    intro w hw
    have := k5.subset (List.mem_append.2 (Or.inl hw))
    exact List.mem_singleton.1 (List.mem_of_mem_filter this)
  obtain ⟨m1, m2⟩ := mem_pairs he
  have r1 := hF.lot.real _ m1
  have r2 := hF.lot.real _ m2
  unfold solveConflicts
  refine Fit.solve_safe (g := g) (w := e) hD ?_ hm hsep (s := ⟨m, q.1, q.2, [], []⟩) hF hl rfl ?_ ?_ ?_ ?_
  · intro c hcc
    rcases hcc with k | k
    · have := (hC _ (List.mem_of_mem_filter k)).opposite
      rwa [opposite_opposite] at this
    · exact hC _ (List.mem_of_mem_filter k)
  · rw [k5.length_eq]
    exact List.length_filter_le _ _
  · intro v _ _ _
    have refl : ∀ {x : Vertex K}, x.isGhost = false → Vertex.eqv 0 x x = true :=
      fun hx => (eqv_zero hx hx).2 ⟨rfl, rfl⟩
    rintro (k | k)
    · have := (List.mem_filter.1 k).2
      simp [Edge.eqv, Edge.opposite, geoRPreds, geoPreds, refl r1, refl r2] at this
    · have := (List.mem_filter.1 k).2
      simp [Edge.eqv, Edge.opposite, geoRPreds, geoPreds, refl r1, refl r2] at this
  · intro v hvf r _ _ e' _ _ t ht _ hexp
    rw [hmem v hvf] at hexp ⊢
    exact hshape t ht hexp
  · intro t k htk v hvk
    have hvm := hmem v (List.mem_flatMap.2 ⟨(t, k), htk, hvk⟩)
    obtain ⟨b1, b2⟩ := hl.bucket t k htk v hvk
    rw [hvm] at b1 b2 ⊢
    exact hshape t (hl.keys t k htk) ⟨by unfold conflicting; rw [Bool.or_eq_true]; exact Or.inl b1, b2⟩

/-- Trying to insert the circumcentre of a solid triangle does not panic. -/
theorem Plot.try_safe (hP : Plot g b l m) {dist : Vertex K → Vertex K → K} {p : RefineParams K} {fuel : Nat} {σ : Sched}
    {C : List (Edge (Vertex K))} (hC : ∀ c ∈ C, AlongSide b c) (hW : ∀ e, Wall l e → e ∈ C) {t : Tri (Vertex K)}
    (ht : t ∈ m.tris) (st : SolidTri t) :
    tryCircumcenter (geoRPreds 0 f dist p (some b) []) fuel σ C m t ≠ .panic := by
  obtain ⟨hD, hF, hs, hc⟩ := id hP
  have hm : ∀ t x, (geoRPreds 0 f dist p (some b) []).toPreds.mayInsert t x ≠ .panic :=
    fun t x => mayInsert_safe 0 f (some b) [] t x
  unfold tryCircumcenter
  refine Res.bind_safe ?_ fun c hcc => ?_
  · cases hcc : (geoRPreds 0 f dist p (some b) []).circumcenter t with
    | none => exact absurd hcc st.circumcenter_some
    | some c => intro h; cases h
  refine Res.bind_safe (distributeOverLoop_safe hm _ _ _ _ _ _) fun d hd => ?_
  have hreal : c.isGhost = false := by
    have hcc' : t.circumcenter = some c := by
      cases ht' : t.circumcenter with
      | none => exact absurd ht' st.circumcenter_some
      | some c' =>
        have : (geoRPreds 0 f dist p (some b) []).circumcenter t = some c' := ht'
        rw [this] at hcc
        simp only [Res.unwrap, Res.ok.injEq] at hcc
        rw [hcc]
    unfold Tri.circumcenter circumcenter at hcc'
    simp only at hcc'
    split_ifs at hcc'
    injection hcc' with hcc'
    rw [← hcc']
    rfl
  obtain ⟨d1, d2, d3⟩ := distributeOverLoop_spec hs (by simpa using ht) (by simp [CMap.WF]) (by simp) hd
  have hCA : ∀ e, Constrained C e → AlongSide b e := by
    rintro e (k | k)
    · have := (hC _ k).opposite
      rwa [opposite_opposite] at this
    · exact hC _ k
  have hexp : ∀ x k, (x, k) ∈ d.1 → ∀ w ∈ k, Expandable (geoPreds 0 f (some b) []) w x := by
    intro x k hx w hw
    obtain ⟨j1, j2⟩ := (d3 x k hx).2 w hw
    refine ⟨?_, j2⟩
    unfold conflicting
    rw [Bool.or_eq_true]
    exact Or.inl j1
  have hmem : ∀ w ∈ d.1.flat, w = c := by
    intro w hw
    have := d2.subset (List.mem_append.2 (Or.inl hw))
    simpa [CMap.flat] using this
  have hsolid : ∀ x k, (x, k) ∈ d.1 → SolidTri x ∧ Expandable (geoPreds 0 f (some b) []) c x := by
    intro x k hx
    obtain ⟨w, hw⟩ := List.exists_mem_of_ne_nil _ (d1.2 _ hx)
    have hwc := hmem w (List.mem_flatMap.2 ⟨(x, k), hx, hw⟩)
    subst hwc
    have he := hexp x k hx w hw
    refine ⟨?_, he⟩
    rcases hF.lot.shape x (d3 x k hx).1 with st | ⟨q, hq, rfl⟩
    · exact st
    · exfalso
      have hon := hG.ghost_on hD hF hreal hq he
      obtain ⟨m1, m2⟩ := mem_pairs hq
      have hgh : GhostTri g (overSide g q) := by
        refine ⟨hF.lot.real _ m2, hF.lot.real _ m1, ?_, rfl⟩
        intro e
        simp only at e
        exact hF.poly.proper q hq (by rw [e]; exact ⟨rfl, rfl⟩)
      have := (free_inside_ghost f hF.lot.ghost hgh w).1 ((d3 _ k hx).2 w hw).1
      have h0 := onSegment_cross hon
      simp only at this
      rw [cross_swap] at this
      linarith
  have hsee : ∀ x k, (x, k) ∈ d.1 → Seer l m.tris c x := fun x k hx =>
    hG.solid_sees hD hF hreal (d3 x k hx).1 (hsolid x k hx).1 (hsolid x k hx).2
  have hlist : d.1.flat ++ ([] : List (Vertex K)) = d.1.flat := List.append_nil _
  have hlen : d.1.flat.length ≤ 1 := by
    have := d2.length_eq
    simp [CMap.flat] at this ⊢
    omega
  have hsub : ∀ w ∈ d.1.flat, ∃ x, Seer l m.tris c x ∧ w = c := by
    intro w hw
    obtain ⟨⟨x, k⟩, hx, -⟩ := List.mem_flatMap.1 hw
    exact ⟨x, hsee x k hx, hmem w hw⟩
  have hsep : SepOn (geoRPreds 0 f dist p (some b) []).toPreds.veq (Usual g) := usual_sep hF.lot.ghost f
  have hl : Legit (geoRPreds 0 f dist p (some b) []).toPreds (Usual g) ⟨m, d.1, [], [], []⟩ := by
    refine ⟨hs, fun _ => hc, d1, fun x k hx => (d3 x k hx).1, fun x k hx => (d3 x k hx).2, ?_, ?_, ?_,
      fun x hx y hy => hF.usual hx hy, List.nodup_nil, List.nodup_nil⟩
    · simp only [hlist]
      match d.1.flat, hlen with
      | [], _ => exact List.nodup_nil
      | [_], _ => exact List.nodup_singleton _
      | _ :: _ :: _, hh => simp at hh
    · intro w hw
      simp only [hlist] at hw
      obtain ⟨x, hx, rfl⟩ := hsub w hw
      exact hG.fresh hD hF hreal hx
    · intro w hw
      simp only [hlist] at hw
      obtain ⟨x, hx, rfl⟩ := hsub w hw
      exact Or.inl hreal
  have hreach : ∀ w ∈ d.1.flat, ∀ r ∈ m.tris, Seer l m.tris w r → ∀ e, IsSide r e → ¬ Constrained C e →
      ∀ t ∈ m.tris, IsSide t e.opposite → Expandable (geoPreds 0 f (some b) []) w t → Seer l m.tris w t := by
    intro w hw y hy hSy e hye hnc t' ht' hte' hexp'
    obtain ⟨-, -, rfl⟩ := hsub w hw
    rcases hF.lot.shape t' ht' with st' | ⟨q, hq, rfl⟩
    · exact hG.solid_sees hD hF hreal ht' st' hexp'
    · exfalso
      obtain ⟨-, -, q1, q2, -⟩ := hSy.solid.side hye
      have hgn : ∀ {z : Vertex K}, z.isGhost = false → z ≠ g := by
        rintro z hz rfl
        rw [hF.lot.ghost] at hz; simp at hz
      apply hnc
      right
      apply hW
      rcases hte' with ⟨k1, k2⟩ | ⟨k1, k2⟩ | ⟨k1, k2⟩ <;> simp only [Edge.opposite] at k1 k2
      · unfold Wall
        rw [k1, k2]
        exact hq
      · exact absurd k2 (hgn q1)
      · exact absurd k1 (hgn q2)
  have hnow : ¬ Wall l (⟨g, g⟩ : Edge (Vertex K)) := fun h => hF.poly.proper _ h ⟨rfl, rfl⟩
  refine Res.bind_safe ?_ fun s hsolve => ?_
  · unfold solveConflicts
    refine Fit.solve_safe (g := g) (w := ⟨g, g⟩) hD hCA hm hsep (s := ⟨m, d.1, [], [], []⟩) hF hl rfl
      (by simpa [hlist] using hlen) (fun v _ h => absurd h hnow) ?_ ?_
    · intro w hw r hr hR e hre hnc t' ht' hte' hexp'
      rcases hR with hR | ⟨h, -⟩
      · exact Or.inl (hreach w hw r hr hR e hre hnc t' ht' hte' hexp')
      · exact absurd h hnow
    · intro x k hx v hv
      have hvc := hmem v (List.mem_flatMap.2 ⟨(x, k), hx, hv⟩)
      rw [hvc]
      exact Or.inl (hsee x k hx)
  · obtain ⟨hrun, hend⟩ := solveLoop_run hsolve
    refine Res.bind_safe (findEncroachments_safe ?_) fun enc _ => ?_
    · rcases single_run hsep hl hF.simple (by simpa [hlist] using hlen) hrun with rfl |
        ⟨-, hl', ⟨v, L, O, R, Z, hvf, hI⟩, τ, hτ⟩
      · intro x hx
        simp at hx
      have hvc : v = c := hmem v hvf
      subst hvc
      have hRS : ∀ x ∈ R, Seer l m.tris v x := by
        intro x hx
        exact solveStep_reach hsep hl hF.simple rfl (Q := Seer l m.tris v) (fun w hw => by
          have := hreach w hw
          rw [hmem w hw] at this ⊢
          exact this) hsee hτ x ((hI.rem x).2 (Or.inr hx))
      have hcav := hI.cav
      have hfr : Fresh m.tris v := hI.fresh
      intro x hx
      rw [hI.inc] at hx
      rcases hx with hx | ⟨e, he, rfl⟩
      · simp at hx
      obtain ⟨x, hx, hxe⟩ := hcav.mem_side_old (by simpa using he : e ∈ [] ++ L)
      obtain ⟨-, -, q1, q2, -⟩ := (hRS x hx).solid.side hxe
      have hn : newTri (geoRPreds 0 f dist p (some b) []).ghost e v = ⟨e.v1, e.v2, v⟩ := newTri_real q1 q2
      have e3 : (geoRPreds 0 f dist p (some b) []).veq v v = true := (eqv_zero hreal hreal).2 ⟨rfl, rfl⟩
      rw [hn]
      unfold Tri.oppositeEdge
      simp only [e3]
      split_ifs <;> simp
    · split_ifs <;> (intro h; cases h)

theorem Plot.unencLoop_safe {dist : Vertex K → Vertex K → K} {p : RefineParams K} {fuel : Nat}
    {C : List (Edge (Vertex K))} (hC : ∀ c ∈ C, AlongSide b c) {r0 : List (Edge (Vertex K))} :
    ∀ {n : Nat} {σ : Sched} {B : List (Edge (Vertex K))} {s : UnencState (Vertex K)} {l : List (Vertex K)},
      Plot g b l s.mesh → (wallsOf l).Perm (r0 ++ B ++ s.newEdges) →
      Verif.unencLoop (geoRPreds 0 f dist p (some b) []) C fuel n σ B s ≠ .panic := by
  intro n
  induction n with
  | zero =>
    intro σ B s l hP hp
    cases B <;> (rw [Verif.unencLoop]; intro h; cases h)
  | succ n ih =>
    intro σ B s l hP hp
    cases B with
    | nil => rw [Verif.unencLoop]; intro h; cases h
    | cons e B =>
      rw [Verif.unencLoop]
      refine Res.bind_safe ?_ fun r hr => ?_
      · refine Res.bind_safe (hP.split_safe hG hC (mem_wallsOf.1 (hp.symm.subset (by simp)))) fun st _ => ?_
        intro h; cases h
      · have h0 : Plot g b l { s with included := [], removed := [] }.mesh := hP
        have hr' : ∃ r', Verif.unencStep (geoRPreds 0 f dist p (some b) []) fuel (σ.sub 0) C e
            { s with included := [], removed := [] } = .ok r' ∧ r'.1 = r.1 ∧ r'.2.mesh = r.2.mesh ∧
            r'.2.newEdges = r.2.newEdges := by
          unfold Verif.unencStep at hr ⊢
          rw [Res.bind_eq_ok] at hr
          obtain ⟨st, hst, hr⟩ := hr
          simp only [hst, Res.bind_ok]
          refine ⟨_, rfl, ?_⟩
          simp only [Res.ok.injEq] at hr
          rw [← hr]
          exact ⟨rfl, rfl, rfl⟩
        obtain ⟨r', h1, h2, h3, h4⟩ := hr'
        obtain ⟨l', k1, k2, -⟩ := Plot.unencStep hG hC (M0 := s.mesh.tris) h0 hp (Retains.refl _) h1
        rw [h3] at k1
        rw [h2, h4] at k2
        exact ih k1 k2

theorem Plot.unencroachSegment_safe (hP : Plot g b l m) {dist : Vertex K → Vertex K → K} {p : RefineParams K} {fuel : Nat}
    {σ : Sched} {C : List (Edge (Vertex K))} (hC : ∀ c ∈ C, AlongSide b c) {e : Edge (Vertex K)} (he : Wall l e)
    {vs : List (Vertex K)} : Verif.unencroachSegment (geoRPreds 0 f dist p (some b) []) fuel σ C m e vs ≠ .panic := by
  have hperm : (wallsOf l).Perm ((wallsOf l).erase e ++ [e] ++ []) := by
    rw [List.append_nil]
    exact (List.perm_cons_erase (mem_wallsOf.2 he)).trans (List.perm_append_singleton _ _).symm
  exact Plot.unencLoop_safe hG hC (r0 := (wallsOf l).erase e) (s := ⟨m, vs, [], [], []⟩) hP hperm

theorem Plot.unencroachLoop_safe {dist : Vertex K → Vertex K → K} {p : RefineParams K} {fuel : Nat}
    {C : List (Edge (Vertex K))} (hC : ∀ c ∈ C, AlongSide b c) :
    ∀ {n : Nat} {σ : Sched} {m : Mesh (Vertex K)} {cs : List (Edge (Vertex K) × List (Vertex K))}
      {split : List (Edge (Vertex K) × Edge (Vertex K))} {l : List (Vertex K)}, Plot g b l m → (∀ q ∈ cs, Wall l q.1) →
      Verif.unencroachLoop (geoRPreds 0 f dist p (some b) []) C fuel n σ m cs split ≠ .panic := by
  intro n
  induction n with
  | zero =>
    intro σ m cs split l hP hcs
    cases cs <;> (rw [Verif.unencroachLoop]; intro h; cases h)
  | succ n ih =>
    intro σ m cs split l hP hcs
    cases cs with
    | nil => rw [Verif.unencroachLoop]; intro h; cases h
    | cons c cs =>
      rw [Verif.unencroachLoop]
      cases hch : choose (σ.sub 0) (c :: cs) with
      | none => exact absurd (choose_eq_none.1 hch) (by simp)
      | some q =>
        obtain ⟨e, vs⟩ := q
        simp only
        have he := hcs _ (choose_mem hch)
        refine Res.bind_safe (hP.unencroachSegment_safe hG hC he) fun u hu => ?_
        obtain ⟨l', h1, h2, -⟩ := hP.unencroachSegment hG hC he hu
        refine ih (l := l') h1 fun q hq => ?_
        rw [List.mem_filter] at hq
        exact (h2 _).2 (Or.inl ⟨hcs q hq.1, by simpa using hq.2⟩)

theorem Estate.encroached_safe {dist : Vertex K → Vertex K → K} {p : RefineParams K} {fuel : Nat}
    {es : List (Edge (Vertex K))} :
    ∀ {σ : Sched} {vs : List (Vertex K)} {s : SplitState (Vertex K)} {l : List (Vertex K)}, Estate g b l s →
      es.Nodup → (∀ e ∈ es, Wall l e) →
      splitEncroached (geoRPreds 0 f dist p (some b) []) fuel σ es vs s ≠ .panic := by
  induction es with
  | nil =>
    intro σ vs s l hE _ _ h
    cases h
  | cons e es ih =>
    intro σ vs s l hE hn hw
    rw [splitEncroached]
    refine Res.bind_safe (hE.plot.unencroachSegment_safe hG hE.along (hw e List.mem_cons_self)) fun r hr => ?_
    obtain ⟨l', h1, h2, h3⟩ := hE.plot.unencroachSegment hG hE.along (hw e List.mem_cons_self) hr
    rw [List.nodup_cons] at hn
    refine ih (l := l') ?_ hn.2 ?_
    · refine requeue_estate (M := s.mesh.tris) h1 ?_ ?_ hE.queued h3
      · intro x hx
        simp only [mem_foldl_setInsert, mem_setErase]
        rcases (h2 x).1 hx with ⟨k1, k2⟩ | k
        · have := hE.walls x k1
          tauto
        · tauto
      · intro c hc
        simp only [mem_foldl_setInsert, mem_setErase] at hc
        by_cases k : c ∈ r.newEdges
        · exact Wall.along h1.sub ((h2 c).2 (Or.inr k))
        · exact hE.along c (by tauto)
    · intro x hx
      refine (h2 x).2 (Or.inl ⟨hw x (List.mem_cons_of_mem _ hx), ?_⟩)
      rintro rfl
      exact hn.1 hx

theorem Estate.step_safe {dist : Vertex K → Vertex K → K} {p : RefineParams K} {fuel : Nat} {σ : Sched}
    {t : Tri (Vertex K)} {s : SplitState (Vertex K)} (hE : Estate g b l s) (ht : t ∈ s.mesh.tris)
    (hg : t.isGhost Vertex.isGhost = false) : splitStep (geoRPreds 0 f dist p (some b) []) fuel σ t s ≠ .panic := by
  have st : SolidTri t := by
    rcases hE.plot.fit.lot.shape t ht with k | ⟨q, hq, rfl⟩
    · exact k
    · simp [Tri.isGhost, hE.plot.fit.lot.ghost] at hg
  unfold splitStep
  refine Res.bind_safe (hE.plot.try_safe hG hE.along hE.walls ht st) fun r hr => ?_
  have htry := hE.plot.try hG hE.along hE.walls ht hr
  cases htry with
  | inserted hP hk => intro h; cases h
  | rejected hP hp hn he =>
    simp only
    refine Res.bind_safe ?_ fun c _ => ?_
    · cases hcc : (geoRPreds 0 f dist p (some b) []).circumcenter t with
      | none => exact absurd hcc st.circumcenter_some
      | some c => intro h; cases h
    · refine Estate.encroached_safe hG (l := l) ?_ (nodup_shuffle.2 hn) fun e hm => he e (mem_shuffle.1 hm)
      exact ⟨hP, hE.walls, hE.along, fun x hx => hp.symm.subset (hE.queued x hx)⟩

theorem Estate.loop_safe {dist : Vertex K → Vertex K → K} {p : RefineParams K} {fuel : Nat} :
    ∀ {n : Nat} {σ : Sched} {s : SplitState (Vertex K)} {l : List (Vertex K)}, Estate g b l s →
      NoGhosts (geoRPreds 0 f dist p (some b) []) s →
      splitIrregularLoop (geoRPreds 0 f dist p (some b) []) fuel n σ s ≠ .panic := by
  intro n
  induction n with
  | zero =>
    intro σ s l hE hN
    rw [splitIrregularLoop]
    cases hp : popTriangle (σ.sub 0) s <;> (intro h; cases h)
  | succ n ih =>
    intro σ s l hE hN
    rw [splitIrregularLoop]
    cases hp : popTriangle (σ.sub 0) s with
    | none => intro h; cases h
    | some q =>
      obtain ⟨t, s1⟩ := q
      simp only
      obtain ⟨hE1, ht⟩ := hE.pop hp
      obtain ⟨hN1, hg⟩ := hN.pop hp
      refine Res.bind_safe (hE1.step_safe hG ht hg) fun s2 h2 => ?_
      obtain ⟨l', hE2⟩ := hE1.step hG ht h2
      exact ih hE2 (hN1.step h2)

/-- Refining a triangulated polygon does not panic. -/
theorem Plot.refine_safe {dist : Vertex K → Vertex K → K} {p : RefineParams K} {fuel : Nat} {σ τ : Sched}
    {C : List (Edge (Vertex K))} (hP : Plot g b b.vertices m) (hC : ∀ c, c ∈ C ↔ Wall b.vertices c) :
    ((Verif.unencroach (geoRPreds 0 f dist p (some b) []) fuel σ C m).bind fun r =>
      splitIrregular (geoRPreds 0 f dist p (some b) []) fuel τ (Triangulator.updateConstraints C r.2) r.1) ≠ .panic := by
  have hCA : ∀ c ∈ C, AlongSide b c := fun c hc => Wall.along (Subdivides.refl _) ((hC c).1 hc)
  refine Res.bind_safe ?_ fun r hr => ?_
  · refine Plot.unencroachLoop_safe hG hCA hP fun q hq => ?_
    unfold distributeEncroachments at hq
    obtain ⟨x, hx, rfl⟩ := List.mem_map.1 (List.mem_of_mem_filter hq)
    exact (hC x).1 hx
  · obtain ⟨l', k1, k2, k3⟩ := hP.unencroach hG hC hr
    refine Estate.loop_safe hG (l := l') ⟨k1, k2, k3, fun t ht => ?_⟩ fun t ht => ?_
    · simp only [splitInit] at ht
      rcases ht with ht | ht
      · exact List.mem_of_mem_filter (List.mem_of_mem_filter ht)
      · exact List.mem_of_mem_filter (List.mem_of_mem_filter ht)
    · simp only [splitInit] at ht
      rcases ht with ht | ht
      · simpa using (List.mem_filter.1 (List.mem_of_mem_filter ht)).2
      · simpa using (List.mem_filter.1 (List.mem_of_mem_filter ht)).2

end

end Verif
