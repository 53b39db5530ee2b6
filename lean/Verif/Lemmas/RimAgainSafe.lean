import Verif.Lemmas.RimAgain
import Verif.Lemmas.RimSafeLoop

/-!
# Refining a polygon that was refined before does not panic
-/

set_option linter.unusedSectionVars false

namespace Verif

open Spec Props

variable {K : Type*} [Field K] [LinearOrder K] [IsStrictOrderedRing K]

variable {b : Polyline (Vertex K)} {g : Vertex K} {T : List (Tri (Vertex K))} {f : Nat} {l : List (Vertex K)}
  {m : Mesh (Vertex K)}

theorem newTri_opposite {veq : Vertex K → Vertex K → Bool} {gh : Vertex K → Bool} {e : Edge (Vertex K)} {v : Vertex K}
    (h : veq v v = true) : (newTri gh e v).oppositeEdge veq v ≠ none := by
  unfold newTri Tri.oppositeEdge
  split_ifs <;> simp_all

variable (hG : Ground g b T)

include hG

/-- Splitting an edge between two vertices of a subdivided boundary does not panic. -/
theorem Plot.span_safe (hP : Plot g b l m) {dist : Vertex K → Vertex K → K} {p : RefineParams K} {fuel : Nat} {σ : Sched}
    {C : List (Edge (Vertex K))} (hC : ∀ c ∈ C, Wall b.vertices c) {e : Edge (Vertex K)} (he : Span b l e) :
    splitSegment (geoRPreds 0 f dist p (some b) []) fuel σ C m e ≠ .panic := by
  have hCA : ∀ c ∈ C, AlongSide b c := fun c hc => Wall.along (Subdivides.refl _) (hC c hc)
  obtain ⟨hD, hF, hs, hc⟩ := id hP
  have rl := hF.lot.real
  have hm : ∀ t x, (geoRPreds 0 f dist p (some b) []).toPreds.mayInsert t x ≠ .panic :=
    fun t x => mayInsert_safe 0 f (some b) [] t x
  have hne : ¬ SamePoint e.v1 e.v2 := real_ne (rl _ he.fst) (rl _ he.snd) he.ne
  have hv : (e.midpoint : Vertex K).isGhost = false := rfl
  have hve : StrictlyOn e.v1 e.v2 e.midpoint := midpoint_strictlyOn hne
  obtain ⟨S, hS, a1, a2⟩ := he.along
  have hvS : OnSegment S.1 S.2 e.midpoint := onSegment_trans a1 a2 hve.1
  obtain ⟨q, hq, hvq⟩ := (hD.outline _).2 ⟨S, hS, hvS⟩
  have hsep : SepOn (geoRPreds 0 f dist p (some b) []).toPreds.veq (Usual g) := usual_sep hF.lot.ghost f
  unfold splitSegment includeVertices
  refine Res.bind_safe (distributeAll_safe hm _ _ _) fun d hd => ?_
  have h0 : startState (geoRPreds 0 f dist p (some b) []).toPreds σ m [e.midpoint] = .ok ⟨m, d.1, d.2, [], []⟩ := by
    unfold startState
    have hd' := hd
    simp only [geoRPreds] at hd' ⊢
    rw [hd']; rfl
  obtain ⟨k1, k2, k3, k4, k5, k6, k7⟩ := startState_spec h0
  by_cases hml : e.midpoint ∈ l
  · -- the midpoint is a vertex already
    have hmv : e.midpoint ∈ m.vertices Vertex.isGhost := by
      obtain ⟨s, h1, h2⟩ := List.mem_map.1 ((pairs_snd l).mem_iff.2 hml)
      have := hF.lot.border s h1
      exact (mem_vertices (P := geoPreds 0 f (some b) [])).2 ⟨⟨_, this, Or.inl h2.symm⟩, hv⟩
    have hflat : d.1.flat ++ d.2 = [] := by
      rw [List.eq_nil_iff_forall_not_mem]
      intro x hx
      obtain ⟨hx1, hx2⟩ := List.mem_filter.1 (k5.subset hx)
      rw [List.mem_singleton] at hx1
      simp only [Bool.not_eq_true', decide_eq_false_iff_not] at hx2
      rw [hx1] at hx2
      exact hx2 hmv
    have hcm : d.1 = [] := CMap.eq_nil_of_flat k4 (List.append_eq_nil_iff.1 hflat).1
    unfold solveConflicts
    rw [hcm]
    cases fuel <;> (rw [solveLoop]; simp)
  · have hw : Wall l ⟨q.1, q.2⟩ := hq
    have hvw : StrictlyOn q.1 q.2 e.midpoint := by
      obtain ⟨m1, m2⟩ := mem_pairs hq
      refine ⟨hvq, real_ne (rl _ m1) hv ?_, real_ne (rl _ m2) hv ?_⟩
      · rintro k; rw [k] at m1; exact hml m1
      · rintro k; rw [k] at m2; exact hml m2
    have hshape : ∀ t ∈ m.tris, Expandable (geoPreds 0 f (some b) []) e.midpoint t →
        Rimmed g l m.tris e.midpoint ⟨q.1, q.2⟩ t := by
      intro t ht hexp
      rcases hF.lot.shape t ht with st | ⟨s, hs, rfl⟩
      · exact Or.inl (hG.solid_sees hD hF hv ht st hexp)
      · right
        have := hF.poly.only hq hs hvw (hG.ghost_on hD hF hv hs hexp)
        rw [this]
        exact ⟨hw, onSegment_cross hvw.1, rfl⟩
    have hl := start_legit (S := Usual g) hs hc (List.nodup_singleton _) (by
        intro w hw
        rw [List.mem_singleton] at hw
        rw [hw]; rfl) (by
        rintro x ⟨t, ht, hx⟩
        exact hF.usual ht hx) (by
        intro w hw
        rw [List.mem_singleton] at hw
        rw [hw]; exact Or.inl rfl) h0
    have hmem : ∀ w ∈ d.1.flat, w = e.midpoint := by
      intro w hw
      have := k5.subset (List.mem_append.2 (Or.inl hw))
      exact List.mem_singleton.1 (List.mem_of_mem_filter this)
    have r1 := rl _ he.fst
    have r2 := rl _ he.snd
    obtain ⟨m1, m2⟩ := mem_pairs hq
    unfold solveConflicts
    refine Fit.solve_safe (g := g) (w := ⟨q.1, q.2⟩) hD ?_ hm hsep (s := ⟨m, d.1, d.2, [], []⟩) hF hl rfl ?_ ?_ ?_ ?_
    · intro c hcc
      rcases hcc with k | k
      · have := (hCA _ (List.mem_of_mem_filter k)).opposite
        rwa [opposite_opposite] at this
      · exact hCA _ (List.mem_of_mem_filter k)
    · rw [k5.length_eq]
      exact List.length_filter_le _ _
    · intro v _ _ _
      have refl : ∀ {x : Vertex K}, x.isGhost = false → Vertex.eqv 0 x x = true :=
        fun hx => (eqv_zero hx hx).2 ⟨rfl, rfl⟩
      have key : ∀ c : Edge (Vertex K), c ∈ C → ((c.v1 = q.1 ∧ c.v2 = q.2) ∨ (c.v1 = q.2 ∧ c.v2 = q.1)) →
          (e.v1 = q.1 ∧ e.v2 = q.2) ∨ (e.v1 = q.2 ∧ e.v2 = q.1) := by
        intro c hcC hcq
        have hcw : Wall b.vertices c := hC c hcC
        have hvc : StrictlyOn c.v1 c.v2 e.midpoint := by
          rcases hcq with ⟨e1, e2⟩ | ⟨e1, e2⟩ <;> rw [e1, e2]
          · exact hvw
          · exact ⟨onSegment_symm hvw.1, hvw.2.2, hvw.2.1⟩
        have hSc : S = (c.v1, c.v2) := hG.poly.only hcw hS hvc hvS
        have hqs : ∀ {z : Vertex K}, OnSegment S.1 S.2 z → OnSegment q.1 q.2 z := by
          intro z hz
          rw [hSc] at hz
          simp only at hz
          rcases hcq with ⟨e1, e2⟩ | ⟨e1, e2⟩ <;> rw [e1, e2] at hz
          · exact hz
          · exact onSegment_symm hz
        have same : ∀ {a z : Vertex K}, a.isGhost = false → z.isGhost = false → SamePoint a z → z = a := by
          intro a z ha hz hh
          by_contra hn
          exact real_ne ha hz (fun hh' => hn hh'.symm) hh
        rcases strictlyOn_ends (hqs a1) (hqs a2) hve.1 (hP.not_strict hG hw he.fst) (hP.not_strict hG hw he.snd)
          hve.2.1 with ⟨j1, j2⟩ | ⟨j1, j2⟩
        · exact Or.inl ⟨same (rl _ m1) r1 j1, same (rl _ m2) r2 j2⟩
        · exact Or.inr ⟨same (rl _ m2) r1 j2, same (rl _ m1) r2 j1⟩
      rintro (k | k)
      · obtain ⟨kC, kf⟩ := List.mem_filter.1 k
        rcases key _ kC (Or.inr ⟨rfl, rfl⟩) with ⟨e1, e2⟩ | ⟨e1, e2⟩ <;>
          simp [Edge.eqv, Edge.opposite, geoRPreds, geoPreds, e1, e2, refl (rl _ m1), refl (rl _ m2)] at kf
      · obtain ⟨kC, kf⟩ := List.mem_filter.1 k
        rcases key _ kC (Or.inl ⟨rfl, rfl⟩) with ⟨e1, e2⟩ | ⟨e1, e2⟩ <;>
          simp [Edge.eqv, Edge.opposite, geoRPreds, geoPreds, e1, e2, refl (rl _ m1), refl (rl _ m2)] at kf
    · intro v hvf r _ _ e' _ _ t ht _ hexp
      rw [hmem v hvf] at hexp ⊢
      exact hshape t ht hexp
    · intro t k htk v hvk
      have hvm := hmem v (List.mem_flatMap.2 ⟨(t, k), htk, hvk⟩)
      obtain ⟨b1, b2⟩ := hl.bucket t k htk v hvk
      rw [hvm] at b1 b2 ⊢
      exact hshape t (hl.keys t k htk) ⟨by unfold conflicting; rw [Bool.or_eq_true]; exact Or.inl b1, b2⟩

/-- Trying to insert the circumcentre of a solid triangle does not panic, also when some sides are no constraints. -/
theorem Plot.try_safe_again (hP : Plot g b l m) {dist : Vertex K → Vertex K → K} {p : RefineParams K} {fuel : Nat} {σ : Sched}
    {C : List (Edge (Vertex K))} (hC : ∀ c ∈ C, AlongSide b c) {t : Tri (Vertex K)}
    (ht : t ∈ m.tris) (st : SolidTri t) :
    tryCircumcenter (geoRPreds 0 f dist p (some b) []) fuel σ C m t ≠ .panic := by
  obtain ⟨hD, hF, hs, hc⟩ := id hP
  have hm : ∀ t x, (geoRPreds 0 f dist p (some b) []).toPreds.mayInsert t x ≠ .panic :=
    fun t x => mayInsert_safe 0 f (some b) [] t x
  unfold tryCircumcenter
  refine Res.bind_safe ?_ fun c hcc => ?_
  · cases hcc : (geoRPreds 0 f dist p (some b) []).circumcenter t with
    | none => exact absurd hcc st.circumcenter_some
    | some c => intro h; cases h
  refine Res.bind_safe (distributeOverLoop_safe hm _ _ _ _ _ _) fun d hd => ?_
  have hreal : c.isGhost = false := by
    have hcc' : t.circumcenter = some c := by
      cases ht' : t.circumcenter with
      | none => exact absurd ht' st.circumcenter_some
      | some c' =>
        have : (geoRPreds 0 f dist p (some b) []).circumcenter t = some c' := ht'
        rw [this] at hcc
        simp only [Res.unwrap, Res.ok.injEq] at hcc
        rw [hcc]
    unfold Tri.circumcenter circumcenter at hcc'
    simp only at hcc'
    split_ifs at hcc'
    injection hcc' with hcc'
    rw [← hcc']
    rfl
  obtain ⟨d1, d2, d3⟩ := distributeOverLoop_spec hs (by simpa using ht) (by simp [CMap.WF]) (by simp) hd
  have hCA : ∀ e, Constrained C e → AlongSide b e := by
    rintro e (k | k)
    · have := (hC _ k).opposite
      rwa [opposite_opposite] at this
    · exact hC _ k
  have hexp : ∀ x k, (x, k) ∈ d.1 → ∀ w ∈ k, Expandable (geoPreds 0 f (some b) []) w x := by
    intro x k hx w hw
    obtain ⟨j1, j2⟩ := (d3 x k hx).2 w hw
    refine ⟨?_, j2⟩
    unfold conflicting
    rw [Bool.or_eq_true]
    exact Or.inl j1
  have hmem : ∀ w ∈ d.1.flat, w = c := by
    intro w hw
    have := d2.subset (List.mem_append.2 (Or.inl hw))
    simpa [CMap.flat] using this
  have hsolid : ∀ x k, (x, k) ∈ d.1 → SolidTri x ∧ Expandable (geoPreds 0 f (some b) []) c x := by
    intro x k hx
    obtain ⟨w, hw⟩ := List.exists_mem_of_ne_nil _ (d1.2 _ hx)
    have hwc := hmem w (List.mem_flatMap.2 ⟨(x, k), hx, hw⟩)
    subst hwc
    have he := hexp x k hx w hw
    refine ⟨?_, he⟩
    rcases hF.lot.shape x (d3 x k hx).1 with st | ⟨q, hq, rfl⟩
    · exact st
    · exfalso
      have hon := hG.ghost_on hD hF hreal hq he
      obtain ⟨m1, m2⟩ := mem_pairs hq
      have hgh : GhostTri g (overSide g q) := by
        refine ⟨hF.lot.real _ m2, hF.lot.real _ m1, ?_, rfl⟩
        intro e
        simp only at e
        exact hF.poly.proper q hq (by rw [e]; exact ⟨rfl, rfl⟩)
      have := (free_inside_ghost f hF.lot.ghost hgh w).1 ((d3 _ k hx).2 w hw).1
      have h0 := onSegment_cross hon
      simp only at this
      rw [cross_swap] at this
      linarith
  have hsee : ∀ x k, (x, k) ∈ d.1 → Seer l m.tris c x := fun x k hx =>
    hG.solid_sees hD hF hreal (d3 x k hx).1 (hsolid x k hx).1 (hsolid x k hx).2
  have hlist : d.1.flat ++ ([] : List (Vertex K)) = d.1.flat := List.append_nil _
  have hlen : d.1.flat.length ≤ 1 := by
    have := d2.length_eq
    simp [CMap.flat] at this ⊢
    omega
  have hsub : ∀ w ∈ d.1.flat, ∃ x, Seer l m.tris c x ∧ w = c := by
    intro w hw
    obtain ⟨⟨x, k⟩, hx, -⟩ := List.mem_flatMap.1 hw
    exact ⟨x, hsee x k hx, hmem w hw⟩
  have hsep : SepOn (geoRPreds 0 f dist p (some b) []).toPreds.veq (Usual g) := usual_sep hF.lot.ghost f
  have hl : Legit (geoRPreds 0 f dist p (some b) []).toPreds (Usual g) ⟨m, d.1, [], [], []⟩ := by
    refine ⟨hs, fun _ => hc, d1, fun x k hx => (d3 x k hx).1, fun x k hx => (d3 x k hx).2, ?_, ?_, ?_,
      fun x hx y hy => hF.usual hx hy, List.nodup_nil, List.nodup_nil⟩
    · simp only [hlist]
      match d.1.flat, hlen with
      | [], _ => exact List.nodup_nil
      | [_], _ => exact List.nodup_singleton _
      | _ :: _ :: _, hh => simp at hh
    · intro w hw
      simp only [hlist] at hw
      obtain ⟨x, hx, rfl⟩ := hsub w hw
      exact hG.fresh hD hF hreal hx
    · intro w hw
      simp only [hlist] at hw
      obtain ⟨x, hx, rfl⟩ := hsub w hw
      exact Or.inl hreal
  have hgn : ∀ {z : Vertex K}, z.isGhost = false → z ≠ g := by
    rintro z hz rfl
    rw [hF.lot.ghost] at hz; simp at hz
  have hnow : ¬ Wall l (⟨g, g⟩ : Edge (Vertex K)) := fun h => hF.poly.proper _ h ⟨rfl, rfl⟩
  have hstrict : Fresh m.tris c → ∀ q ∈ pairs l false, OnSegment q.1 q.2 c → StrictlyOn q.1 q.2 c := by
    intro hfr q hq hon
    obtain ⟨y, hy, sy, hyq⟩ := hF.lot.side (simplePolygon_back hF.poly) hq
    obtain ⟨m1, m2⟩ := mem_pairs hq
    obtain ⟨n1, n2⟩ := hfr.ends (mem_sides.2 ⟨y, hy, hyq⟩)
    exact ⟨hon, real_ne (hF.lot.real _ m1) hreal n1, real_ne (hF.lot.real _ m2) hreal n2⟩
  obtain ⟨w, hwfree, hwall⟩ : ∃ w : Edge (Vertex K), (Wall l w → OnSegment w.v1 w.v2 c ∧ ¬ Constrained C w) ∧
      ∀ q ∈ pairs l false, OnSegment q.1 q.2 c → ¬ Constrained C ⟨q.1, q.2⟩ → Wall l w := by
    by_cases hfree : ∃ q ∈ pairs l false, OnSegment q.1 q.2 c ∧ ¬ Constrained C ⟨q.1, q.2⟩
    · obtain ⟨q, hq, hon, hnc⟩ := hfree
      exact ⟨⟨q.1, q.2⟩, fun _ => ⟨hon, hnc⟩, fun _ _ _ _ => hq⟩
    · exact ⟨⟨g, g⟩, fun h => absurd h hnow, fun q hq hon hnc => absurd ⟨q, hq, hon, hnc⟩ hfree⟩
  refine Res.bind_safe ?_ fun s hsolve => ?_
  · unfold solveConflicts
    refine Fit.solve_safe (g := g) (w := w) hD hCA hm hsep (s := ⟨m, d.1, [], [], []⟩) hF hl rfl
      (by simpa [hlist] using hlen) (fun v _ h _ => (hwfree h).2) ?_ ?_
    · intro v hv r hr hR e hre hnc t' ht' hte' hexp'
      obtain ⟨y, hSy, rfl⟩ := hsub v hv
      have hfr : Fresh m.tris v := hG.fresh hD hF hreal hSy
      rcases hF.lot.shape t' ht' with st' | ⟨q, hq, rfl⟩
      · exact Or.inl (hG.solid_sees hD hF hreal ht' st' hexp')
      · have hon := hG.ghost_on hD hF hreal hq hexp'
        have hwl : Wall l w := by
          rcases hR with hR | ⟨h, -⟩
          · obtain ⟨-, -, q1, q2, -⟩ := hR.solid.side hre
            refine hwall q hq hon ?_
            rcases hte' with ⟨k1, k2⟩ | ⟨k1, k2⟩ | ⟨k1, k2⟩ <;> simp only [Edge.opposite] at k1 k2
            · have : e = ⟨q.1, q.2⟩ := by
                obtain ⟨e1, e2⟩ := e
                simp only at k1 k2
                rw [k1, k2]
              rwa [this] at hnc
            · exact absurd k2 (hgn q1)
            · exact absurd k1 (hgn q2)
          · exact h
        have := hF.poly.only hwl hq (hstrict hfr (w.v1, w.v2) hwl (hwfree hwl).1) hon
        rw [this]
        exact Or.inr ⟨hwl, onSegment_cross (hwfree hwl).1, rfl⟩
    · intro x k hx v hv
      have hvc := hmem v (List.mem_flatMap.2 ⟨(x, k), hx, hv⟩)
      rw [hvc]
      exact Or.inl (hsee x k hx)
  · obtain ⟨hrun, hend⟩ := solveLoop_run hsolve
    refine Res.bind_safe (findEncroachments_safe ?_) fun enc _ => ?_
    · rcases single_run hsep hl hF.simple (by simpa [hlist] using hlen) hrun with rfl |
        ⟨-, hl', ⟨v, L, O, R, Z, hvf, hI⟩, τ, hτ⟩
      · intro x hx
        simp at hx
      have hvc : v = c := hmem v hvf
      subst hvc
      intro x hx
      rw [hI.inc] at hx
      rcases hx with hx | ⟨e, he, rfl⟩
      · simp at hx
      exact newTri_opposite ((eqv_zero hreal hreal).2 ⟨rfl, rfl⟩)
    · split_ifs <;> (intro h; cases h)

theorem Plot.spanLoop_safe {dist : Vertex K → Vertex K → K} {p : RefineParams K} {fuel : Nat}
    {C : List (Edge (Vertex K))} (hC : ∀ c ∈ C, Wall b.vertices c) :
    ∀ {n : Nat} {σ : Sched} {B : List (Edge (Vertex K))} {s : UnencState (Vertex K)} {l : List (Vertex K)},
      Plot g b l s.mesh → (∀ e ∈ B, Span b l e) →
      Verif.unencLoop (geoRPreds 0 f dist p (some b) []) C fuel n σ B s ≠ .panic := by
  intro n
  induction n with
  | zero =>
    intro σ B s l hP hB
    cases B <;> (rw [Verif.unencLoop]; intro h; cases h)
  | succ n ih =>
    intro σ B s l hP hB
    cases B with
    | nil => rw [Verif.unencLoop]; intro h; cases h
    | cons e B =>
      rw [Verif.unencLoop]
      have he := hB e List.mem_cons_self
      refine Res.bind_safe ?_ fun r hstep => ?_
      · refine Res.bind_safe (hP.span_safe hG hC he) fun st _ => ?_
        intro h; cases h
      · unfold Verif.unencStep at hstep
        rw [Res.bind_eq_ok] at hstep
        obtain ⟨st, hsp, hstep⟩ := hstep
        simp only [Res.ok.injEq] at hstep
        obtain ⟨l', h1, h2, h3⟩ := hP.split_span hG hC he hsp
        obtain ⟨p1, p2⟩ := he.halves hG hP.fit.lot.real h2 h3
        subst hstep
        refine ih (l := l') h1 ?_
        intro x hx
        rcases List.mem_append.1 hx with hx | hx
        · rcases List.mem_append.1 hx with hx | hx <;> split_ifs at hx <;> simp only [List.mem_cons, List.not_mem_nil, or_false] at hx
          · exact hx ▸ p2
          · exact hx ▸ p1
        · exact (hB x (List.mem_cons_of_mem _ hx)).mono h2

theorem Plot.spansLoop_safe {dist : Vertex K → Vertex K → K} {p : RefineParams K} {fuel : Nat}
    {C : List (Edge (Vertex K))} (hC : ∀ c ∈ C, Wall b.vertices c) :
    ∀ {n : Nat} {σ : Sched} {m : Mesh (Vertex K)} {cs : List (Edge (Vertex K) × List (Vertex K))}
      {split : List (Edge (Vertex K) × Edge (Vertex K))} {l : List (Vertex K)}, Plot g b l m → (∀ q ∈ cs, Span b l q.1) →
      Verif.unencroachLoop (geoRPreds 0 f dist p (some b) []) C fuel n σ m cs split ≠ .panic := by
  intro n
  induction n with
  | zero =>
    intro σ m cs split l hP hcs
    cases cs <;> (rw [Verif.unencroachLoop]; intro h; cases h)
  | succ n ih =>
    intro σ m cs split l hP hcs
    cases cs with
    | nil => rw [Verif.unencroachLoop]; intro h; cases h
    | cons c cs =>
      rw [Verif.unencroachLoop]
      cases hch : choose (σ.sub 0) (c :: cs) with
      | none => exact absurd (choose_eq_none.1 hch) (by simp)
      | some q =>
        obtain ⟨e, vs⟩ := q
        simp only
        have hB : ∀ x ∈ [e], Span b l x := by
          intro x hx
          rw [List.mem_singleton] at hx
          rw [hx]
          exact hcs _ (choose_mem hch)
        refine Res.bind_safe (Plot.spanLoop_safe hG hC (s := ⟨m, vs, [], [], []⟩) hP hB) fun u hu => ?_
        unfold Verif.unencroachSegment at hu
        obtain ⟨l', h1, h2, -⟩ := Plot.spanLoop hG hC (s := ⟨m, vs, [], [], []⟩) hP hB (by simp) hu
        exact ih (l := l') h1 fun q hqm => (hcs q (List.mem_of_mem_filter hqm)).mono h2

theorem Again.encroached_safe {dist : Vertex K → Vertex K → K} {p : RefineParams K} {fuel : Nat}
    {es : List (Edge (Vertex K))} :
    ∀ {σ : Sched} {vs : List (Vertex K)} {s : SplitState (Vertex K)} {l : List (Vertex K)}, Again g b l s →
      es.Nodup → (∀ e ∈ es, Wall l e) →
      splitEncroached (geoRPreds 0 f dist p (some b) []) fuel σ es vs s ≠ .panic := by
  induction es with
  | nil =>
    intro σ vs s l hE _ _ h
    cases h
  | cons e es ih =>
    intro σ vs s l hE hn hw
    rw [splitEncroached]
    have hal : ∀ c ∈ s.segments, AlongSide b c := fun c hc => (hE.along c hc).1
    refine Res.bind_safe (hE.plot.unencroachSegment_safe hG hal (hw e List.mem_cons_self)) fun r hr => ?_
    obtain ⟨l', h1, h2, h3⟩ := hE.plot.unencroachSegment hG hal (hw e List.mem_cons_self) hr
    rw [List.nodup_cons] at hn
    refine ih (l := l') ?_ hn.2 ?_
    · refine ⟨h1, ?_, Enqueued.requeue hE.queued h3⟩
      intro c hc
      simp only [requeue, mem_foldl_setInsert, mem_setErase] at hc
      by_cases k : c ∈ r.newEdges
      · have hw' := (h2 c).2 (Or.inr k)
        obtain ⟨m1, m2⟩ := mem_pairs hw'
        exact ⟨Wall.along h1.sub hw', h1.fit.lot.real _ m1, h1.fit.lot.real _ m2⟩
      · exact hE.along c (by tauto)
    · intro x hx
      refine (h2 x).2 (Or.inl ⟨hw x (List.mem_cons_of_mem _ hx), ?_⟩)
      rintro rfl
      exact hn.1 hx

theorem Again.step_safe {dist : Vertex K → Vertex K → K} {p : RefineParams K} {fuel : Nat} {σ : Sched}
    {t : Tri (Vertex K)} {s : SplitState (Vertex K)} (hE : Again g b l s) (ht : t ∈ s.mesh.tris)
    (hg : t.isGhost Vertex.isGhost = false) : splitStep (geoRPreds 0 f dist p (some b) []) fuel σ t s ≠ .panic := by
  have st : SolidTri t := by
    rcases hE.plot.fit.lot.shape t ht with k | ⟨q, hq, rfl⟩
    · exact k
    · simp [Tri.isGhost, hE.plot.fit.lot.ghost] at hg
  unfold splitStep
  refine Res.bind_safe (hE.plot.try_safe_again hG (fun c hc => (hE.along c hc).1) ht st) fun r hr => ?_
  have htry := hE.plot.try_again hG hE.along ht hr
  cases htry with
  | inserted hP hk => intro h; cases h
  | rejected hP hp hn he =>
    simp only
    refine Res.bind_safe ?_ fun c _ => ?_
    · cases hcc : (geoRPreds 0 f dist p (some b) []).circumcenter t with
      | none => exact absurd hcc st.circumcenter_some
      | some c => intro h; cases h
    · refine Again.encroached_safe hG (l := l) ?_ (nodup_shuffle.2 hn) fun e hm => he e (mem_shuffle.1 hm)
      exact ⟨hP, hE.along, fun x hx => hp.symm.subset (hE.queued x hx)⟩

theorem Again.loop_safe {dist : Vertex K → Vertex K → K} {p : RefineParams K} {fuel : Nat} :
    ∀ {n : Nat} {σ : Sched} {s : SplitState (Vertex K)} {l : List (Vertex K)}, Again g b l s →
      NoGhosts (geoRPreds 0 f dist p (some b) []) s →
      splitIrregularLoop (geoRPreds 0 f dist p (some b) []) fuel n σ s ≠ .panic := by
  intro n
  induction n with
  | zero =>
    intro σ s l hE hN
    rw [splitIrregularLoop]
    cases hp : popTriangle (σ.sub 0) s <;> (intro h; cases h)
  | succ n ih =>
    intro σ s l hE hN
    rw [splitIrregularLoop]
    cases hp : popTriangle (σ.sub 0) s with
    | none => intro h; cases h
    | some q =>
      obtain ⟨t, s1⟩ := q
      simp only
      obtain ⟨hE1, ht⟩ := hE.pop hp
      obtain ⟨hN1, hg⟩ := hN.pop hp
      refine Res.bind_safe (hE1.step_safe hG ht hg) fun s2 h2 => ?_
      obtain ⟨l', hE2⟩ := hE1.step hG ht h2
      exact ih hE2 (hN1.step h2)

/-- Refining a triangulation of a subdivided polygon does not panic. -/
theorem Plot.refine_safe_again {dist : Vertex K → Vertex K → K} {p : RefineParams K} {fuel : Nat} {σ τ : Sched}
    {C : List (Edge (Vertex K))} (hP : Plot g b l m) (hC : ∀ c ∈ C, Wall b.vertices c) :
    ((Verif.unencroach (geoRPreds 0 f dist p (some b) []) fuel σ C m).bind fun r =>
      splitIrregular (geoRPreds 0 f dist p (some b) []) fuel τ (Triangulator.updateConstraints C r.2) r.1) ≠ .panic := by
  have hspan : ∀ c ∈ C, Span b l c := by
    intro c hc
    have hw := hC c hc
    obtain ⟨m1, m2⟩ := mem_pairs hw
    refine ⟨Wall.along (Subdivides.refl _) hw, hP.sub.keeps _ m1, hP.sub.keeps _ m2, fun k => ?_⟩
    exact hG.poly.proper _ hw (by simp only; rw [k]; exact ⟨rfl, rfl⟩)
  refine Res.bind_safe ?_ fun r hr => ?_
  · refine Plot.spansLoop_safe hG hC hP fun q hq => ?_
    unfold distributeEncroachments at hq
    obtain ⟨x, hx, rfl⟩ := List.mem_map.1 (List.mem_of_mem_filter hq)
    exact hspan x hx
  · obtain ⟨l', k1, k2⟩ := hP.unencroach_again hG hC hr
    refine Again.loop_safe hG (l := l') ⟨k1, k2, fun t ht => ?_⟩ fun t ht => ?_
    · simp only [splitInit] at ht
      rcases ht with ht | ht
      · exact List.mem_of_mem_filter (List.mem_of_mem_filter ht)
      · exact List.mem_of_mem_filter (List.mem_of_mem_filter ht)
    · simp only [splitInit] at ht
      rcases ht with ht | ht
      · simpa using (List.mem_filter.1 (List.mem_of_mem_filter ht)).2
      · simpa using (List.mem_filter.1 (List.mem_of_mem_filter ht)).2

end Verif
