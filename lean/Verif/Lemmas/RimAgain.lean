import Verif.Lemmas.RimLoop

/-!
# Refining a polygon that was refined before
-/

set_option linter.unusedSectionVars false

namespace Verif

open Spec Props

variable {K : Type*} [Field K] [LinearOrder K] [IsStrictOrderedRing K]

variable {b : Polyline (Vertex K)} {g : Vertex K} {T : List (Tri (Vertex K))} {f : Nat} {l : List (Vertex K)}
  {m : Mesh (Vertex K)}

/-- An edge along the polygon between two vertices of the subdivision. -/
structure Span (b : Polyline (Vertex K)) (l : List (Vertex K)) (e : Edge (Vertex K)) : Prop where
  along : AlongSide b e
  fst : e.v1 ∈ l
  snd : e.v2 ∈ l
  ne : e.v1 ≠ e.v2

theorem Span.mono {l' : List (Vertex K)} {e : Edge (Vertex K)} (h : Span b l e) (hl : ∀ x ∈ l, x ∈ l') : Span b l' e :=
  ⟨h.along, hl _ h.fst, hl _ h.snd, h.ne⟩

/-- Two points of a segment that are not strictly inside it, with another point between them, are its ends. -/
theorem strictlyOn_ends {p q x y z : Vertex K} (hx : OnSegment p q x) (hy : OnSegment p q y) (hz : OnSegment x y z)
    (hxn : ¬ StrictlyOn p q x) (hyn : ¬ StrictlyOn p q y) (hxz : ¬ SamePoint x z) : (SamePoint p x ∧ SamePoint q y) ∨ (SamePoint p y ∧ SamePoint q x) := by
  have h1 : SamePoint p x ∨ SamePoint q x := by
    by_contra hn
    push Not at hn
    exact hxn ⟨hx, hn.1, hn.2⟩
  have h2 : SamePoint p y ∨ SamePoint q y := by
    by_contra hn
    push Not at hn
    exact hyn ⟨hy, hn.1, hn.2⟩
  have deg : ∀ {a : Vertex K}, SamePoint a x → SamePoint a y → False := by
    intro a ha1 ha2
    obtain ⟨t, -, -, ex, ey⟩ := hz
    apply hxz
    have e1 : x.x = y.x := ha1.1.symm.trans ha2.1
    have e2 : x.y = y.y := ha1.2.symm.trans ha2.2
    refine ⟨?_, ?_⟩
    · rw [ex, e1]; ring
    · rw [ey, e2]; ring
  rcases h1 with k1 | k1 <;> rcases h2 with k2 | k2
  · exact (deg k1 k2).elim
  · exact Or.inl ⟨k1, k2⟩
  · exact Or.inr ⟨k2, k1⟩
  · exact (deg k1 k2).elim

variable (hG : Ground g b T)

include hG

/-- A vertex of the subdivision is not strictly inside one of its sides. -/
theorem Plot.not_strict (hP : Plot g b l m) {w : Edge (Vertex K)} (hw : Wall l w) {x : Vertex K} (hx : x ∈ l) :
    ¬ StrictlyOn w.v1 w.v2 x := by
  intro hs
  obtain ⟨s, h1, h2⟩ := List.mem_map.1 ((pairs_snd l).mem_iff.2 hx)
  have := hP.fit.poly.only hw h1 hs (by rw [← h2]; exact onSegment_right _ _)
  subst this
  exact hs.2.2 (by simp only at h2; rw [h2]; exact ⟨rfl, rfl⟩)

/-- Splitting an edge between two vertices of a subdivided boundary. -/
theorem Plot.split_span (hP : Plot g b l m) {dist : Vertex K → Vertex K → K} {p : RefineParams K} {fuel : Nat} {σ : Sched}
    {C : List (Edge (Vertex K))} (hC : ∀ c ∈ C, Wall b.vertices c) {e : Edge (Vertex K)} (he : Span b l e)
    {st : SolveState (Vertex K)} (h : splitSegment (geoRPreds 0 f dist p (some b) []) fuel σ C m e = .ok st) :
    ∃ l', Plot g b l' st.mesh ∧ (∀ x ∈ l, x ∈ l') ∧ e.midpoint ∈ l' := by
  have hCA : ∀ c ∈ C, AlongSide b c := fun c hc => Wall.along (Subdivides.refl _) (hC c hc)
  obtain ⟨hD, hF, hs, hc⟩ := id hP
  have rl := hF.lot.real
  have hne : ¬ SamePoint e.v1 e.v2 := real_ne (rl _ he.fst) (rl _ he.snd) he.ne
  unfold splitSegment at h
  obtain ⟨s0, h0, hrun, hend⟩ := include_run h
  have hv : (e.midpoint : Vertex K).isGhost = false := rfl
  have hve : StrictlyOn e.v1 e.v2 e.midpoint := midpoint_strictlyOn hne
  obtain ⟨S, hS, a1, a2⟩ := he.along
  have hvS : OnSegment S.1 S.2 e.midpoint := onSegment_trans a1 a2 hve.1
  obtain ⟨q, hq, hvq⟩ := (hD.outline _).2 ⟨S, hS, hvS⟩
  obtain ⟨k1, k2, k3, k4, k5, k6, k7⟩ := startState_spec h0
  by_cases hml : e.midpoint ∈ l
  · -- the midpoint is a vertex already
    refine ⟨l, ?_, fun x hx => hx, hml⟩
    have hmv : e.midpoint ∈ m.vertices Vertex.isGhost := by
      obtain ⟨s, h1, h2⟩ := List.mem_map.1 ((pairs_snd l).mem_iff.2 hml)
      have := hF.lot.border s h1
      exact (mem_vertices (P := geoPreds 0 f (some b) [])).2 ⟨⟨_, this, Or.inl h2.symm⟩, hv⟩
    have hflat : s0.cmap.flat ++ s0.remaining = [] := by
      rw [List.eq_nil_iff_forall_not_mem]
      intro x hx
      obtain ⟨hx1, hx2⟩ := List.mem_filter.1 (k5.subset hx)
      rw [List.mem_singleton] at hx1
      simp only [Bool.not_eq_true', decide_eq_false_iff_not] at hx2
      rw [hx1] at hx2
      exact hx2 hmv
    have hcm : s0.cmap = [] := CMap.eq_nil_of_flat k4 (List.append_eq_nil_iff.1 hflat).1
    have hst : st.mesh = m := by
      have key : ∀ {r : SolveState (Vertex K)}, Run (geoRPreds 0 f dist p (some b) []).toPreds
          (C.filter fun e' => !Edge.eqv (geoRPreds 0 f dist p (some b) []).veq e' e &&
            !Edge.eqv (geoRPreds 0 f dist p (some b) []).veq e' e.opposite) fuel s0 r → r = s0 := by
        intro r hr
        induction hr with
        | refl => rfl
        | @step s1 s2 τ _ hne hs ih =>
          subst ih
          exact absurd hcm hne
      rw [key hrun, k1]
    rw [hst]
    exact hP
  · have hw : Wall l ⟨q.1, q.2⟩ := hq
    have hvw : StrictlyOn q.1 q.2 e.midpoint := by
      obtain ⟨m1, m2⟩ := mem_pairs hq
      refine ⟨hvq, real_ne (rl _ m1) hv ?_, real_ne (rl _ m2) hv ?_⟩
      · rintro k; rw [k] at m1; exact hml m1
      · rintro k; rw [k] at m2; exact hml m2
    obtain ⟨rw0, hrw, sw, hrside⟩ := hF.lot.side (simplePolygon_back hF.poly) hq
    have hSw : Seer l m.tris e.midpoint rw0 :=
      .here hrw sw (sw.circle_side hrside hvw) (within_side sw hrside hvw.1)
    have hfr := hG.fresh hD hF hv hSw
    have hin : ¬ Beyond b.vertices e.midpoint := by
      rw [← hD.beyond]
      exact fun h => h.1 _ hq hvw.1
    have hl := start_legit (S := Usual g) hs hc (List.nodup_singleton _) (by
        intro w hw
        rw [List.mem_singleton] at hw
        rw [hw]; rfl) (by
        rintro x ⟨t, ht, hx⟩
        exact hF.usual ht hx) (by
        intro w hw
        rw [List.mem_singleton] at hw
        rw [hw]; exact Or.inl rfl) h0
    have hsep : SepOn (geoRPreds 0 f dist p (some b) []).toPreds.veq (Usual g) := usual_sep hF.lot.ghost f
    have hlen : (s0.cmap.flat ++ s0.remaining).length ≤ 1 := by
      rw [k5.length_eq]
      exact List.length_filter_le _ _
    rcases single_run hsep hl (by rw [k1]; exact hF.simple) hlen hrun with rfl | ⟨-, hl', ⟨v, L, O, R, Z, hvf, hI⟩, -⟩
    · exfalso
      have hmem : e.midpoint ∈ st.cmap.flat ++ st.remaining := by
        rw [k5.mem_iff, List.mem_filter]
        refine ⟨List.mem_singleton.2 rfl, ?_⟩
        simp only [Bool.not_eq_true', decide_eq_false_iff_not]
        intro hm
        obtain ⟨⟨t, ht, hx⟩, -⟩ := mem_vertices.1 hm
        exact hfr t ht hx
      rw [hend] at hmem
      have hr : e.midpoint ∈ st.remaining := by simpa [CMap.flat] using hmem
      have hasked : ∃ r, (geoPreds 0 f (some b) []).mayInsert rw0 e.midpoint = .ok r := by
        unfold startState at h0
        rw [Res.bind_eq_ok] at h0
        obtain ⟨q, hq, h0⟩ := h0
        simp only [Res.ok.injEq] at h0
        rw [← h0] at hr
        exact (distributeAll_asked hq _ hr).2 rw0 (mem_shuffle.2 hrw)
      obtain ⟨r, hmay⟩ := hasked
      have := hG.sees_may hD hF hv hin hSw hmay
      subst this
      exact k7 _ hr rw0 hrw ⟨(free_inside_solid f sw _).2 hSw.conf, hmay⟩
    · have hveq : v = e.midpoint := by
        have := k5.subset (List.mem_append.2 (Or.inl hvf))
        exact List.mem_singleton.1 (List.mem_of_mem_filter this)
      subst hveq
      have hcav := hI.cav
      rw [k1] at hcav
      have r1 := rl _ he.fst
      have r2 := rl _ he.snd
      obtain ⟨m1, m2⟩ := mem_pairs hq
      obtain ⟨l', r, hcut, hfit⟩ := hG.hole_rim hD hF hv hw hvw hI.nonempty (by
        intro c hcc
        rcases hcc with k | k
        · have := (hCA _ (List.mem_of_mem_filter k)).opposite
          rwa [opposite_opposite] at this
        · exact hCA _ (List.mem_of_mem_filter k)) (by
        have refl : ∀ {x : Vertex K}, x.isGhost = false → Vertex.eqv 0 x x = true :=
          fun hx => (eqv_zero hx hx).2 ⟨rfl, rfl⟩
        have key : ∀ c : Edge (Vertex K), c ∈ C → ((c.v1 = q.1 ∧ c.v2 = q.2) ∨ (c.v1 = q.2 ∧ c.v2 = q.1)) →
            (e.v1 = q.1 ∧ e.v2 = q.2) ∨ (e.v1 = q.2 ∧ e.v2 = q.1) := by
          intro c hcC hcq
          have hcw : Wall b.vertices c := hC c hcC
          have hvc : StrictlyOn c.v1 c.v2 e.midpoint := by
            rcases hcq with ⟨e1, e2⟩ | ⟨e1, e2⟩ <;> rw [e1, e2]
            · exact hvw
            · exact ⟨onSegment_symm hvw.1, hvw.2.2, hvw.2.1⟩
          have hSc : S = (c.v1, c.v2) := hG.poly.only hcw hS hvc hvS
          have hqs : ∀ {z : Vertex K}, OnSegment S.1 S.2 z → OnSegment q.1 q.2 z := by
            intro z hz
            rw [hSc] at hz
            simp only at hz
            rcases hcq with ⟨e1, e2⟩ | ⟨e1, e2⟩ <;> rw [e1, e2] at hz
            · exact hz
            · exact onSegment_symm hz
          have same : ∀ {a z : Vertex K}, a.isGhost = false → z.isGhost = false → SamePoint a z → z = a := by
            intro a z ha hz hh
            by_contra hn
            exact real_ne ha hz (fun hh' => hn hh'.symm) hh
          rcases strictlyOn_ends (hqs a1) (hqs a2) hve.1 (hP.not_strict hG hw he.fst) (hP.not_strict hG hw he.snd)
            hve.2.1 with ⟨j1, j2⟩ | ⟨j1, j2⟩
          · exact Or.inl ⟨same (rl _ m1) r1 j1, same (rl _ m2) r2 j2⟩
          · exact Or.inr ⟨same (rl _ m2) r1 j2, same (rl _ m1) r2 j1⟩
        rintro (k | k)
        · obtain ⟨kC, kf⟩ := List.mem_filter.1 k
          rcases key _ kC (Or.inr ⟨rfl, rfl⟩) with ⟨e1, e2⟩ | ⟨e1, e2⟩ <;>
            simp [Edge.eqv, Edge.opposite, geoRPreds, geoPreds, e1, e2, refl (rl _ m1), refl (rl _ m2)] at kf
        · obtain ⟨kC, kf⟩ := List.mem_filter.1 k
          rcases key _ kC (Or.inl ⟨rfl, rfl⟩) with ⟨e1, e2⟩ | ⟨e1, e2⟩ <;>
            simp [Edge.eqv, Edge.opposite, geoRPreds, geoPreds, e1, e2, refl (rl _ m1), refl (rl _ m2)] at kf) hcav hfr
      refine ⟨l', ⟨hD.cut hcut hvw.1, hfit, hl'.sound, hl'.complete hfit.simple⟩, fun x hx => ?_, ?_⟩
      · exact hcut.verts.mem_iff.2 (List.mem_cons_of_mem _ hx)
      · exact hcut.verts.mem_iff.2 List.mem_cons_self

theorem Span.halves {e : Edge (Vertex K)} (he : Span b l e) (hreal : ∀ x ∈ l, x.isGhost = false) {l' : List (Vertex K)}
    (hl : ∀ x ∈ l, x ∈ l') (hm : e.midpoint ∈ l') :
    Span b l' ⟨e.v1, e.midpoint⟩ ∧ Span b l' ⟨e.midpoint, e.v2⟩ := by
  have hve : StrictlyOn e.v1 e.v2 e.midpoint :=
    midpoint_strictlyOn (real_ne (hreal _ he.fst) (hreal _ he.snd) he.ne)
  obtain ⟨S, hS, a1, a2⟩ := he.along
  have hvS := onSegment_trans a1 a2 hve.1
  refine ⟨⟨⟨S, hS, a1, hvS⟩, hl _ he.fst, hm, fun k => hve.2.1 ?_⟩, ⟨⟨S, hS, hvS, a2⟩, hm, hl _ he.snd, fun k => hve.2.2 ?_⟩⟩
  · simp only at k; rw [← k]; exact ⟨rfl, rfl⟩
  · simp only at k; rw [k]; exact ⟨rfl, rfl⟩

/-- The loop of `unencroach_segment`. -/
theorem Plot.spanLoop {dist : Vertex K → Vertex K → K} {p : RefineParams K} {fuel : Nat}
    {C : List (Edge (Vertex K))} (hC : ∀ c ∈ C, Wall b.vertices c) :
    ∀ {n : Nat} {σ : Sched} {B : List (Edge (Vertex K))} {s s' : UnencState (Vertex K)} {l : List (Vertex K)},
      Plot g b l s.mesh → (∀ e ∈ B, Span b l e) → (∀ e ∈ s.newEdges, Span b l e) →
      Verif.unencLoop (geoRPreds 0 f dist p (some b) []) C fuel n σ B s = .ok s' →
      ∃ l', Plot g b l' s'.mesh ∧ (∀ x ∈ l, x ∈ l') ∧ ∀ e ∈ s'.newEdges, Span b l' e := by
  intro n
  induction n with
  | zero =>
    intro σ B s s' l hP hB hN h
    cases B with
    | nil =>
      simp only [Verif.unencLoop, Res.ok.injEq] at h
      subst h
      exact ⟨l, hP, fun _ h => h, hN⟩
    | cons e B => simp [Verif.unencLoop] at h
  | succ n ih =>
    intro σ B s s' l hP hB hN h
    cases B with
    | nil =>
      simp only [Verif.unencLoop, Res.ok.injEq] at h
      subst h
      exact ⟨l, hP, fun _ h => h, hN⟩
    | cons e B =>
      rw [Verif.unencLoop, Res.bind_eq_ok] at h
      obtain ⟨r, hstep, h⟩ := h
      unfold Verif.unencStep at hstep
      rw [Res.bind_eq_ok] at hstep
      obtain ⟨st, hsp, hstep⟩ := hstep
      simp only [Res.ok.injEq] at hstep
      have he := hB e List.mem_cons_self
      obtain ⟨l', h1, h2, h3⟩ := hP.split_span hG hC he hsp
      obtain ⟨p1, p2⟩ := he.halves hG hP.fit.lot.real h2 h3
      subst hstep
      obtain ⟨l'', q1, q2, q3⟩ := ih (l := l') h1 (by
        intro x hx
        rcases List.mem_append.1 hx with hx | hx
        · rcases List.mem_append.1 hx with hx | hx <;> split_ifs at hx <;> simp only [List.mem_cons, List.not_mem_nil, or_false] at hx
          · exact hx ▸ p2
          · exact hx ▸ p1
        · exact (hB x (List.mem_cons_of_mem _ hx)).mono h2) (by
        intro x hx
        have hx' : x ∈ s.newEdges ∨ x = ⟨e.v1, e.midpoint⟩ ∨ x = ⟨e.midpoint, e.v2⟩ := by
          simp only at hx
          split_ifs at hx <;> (try simp only [mem_setInsert] at hx)
          · exact Or.inl hx
          · exact hx.elim (fun k => Or.inr (Or.inl k)) Or.inl
          · exact hx.elim (fun k => Or.inr (Or.inr k)) Or.inl
          · exact hx.elim (fun k => Or.inr (Or.inr k)) fun hx => hx.elim (fun k => Or.inr (Or.inl k)) Or.inl
        rcases hx' with k | rfl | rfl
        · exact (hN x k).mono h2
        · exact p1
        · exact p2) h
      exact ⟨l'', q1, fun x hx => q2 x (h2 x hx), q3⟩

/-- The loop of `unencroach`. -/
theorem Plot.spansLoop {dist : Vertex K → Vertex K → K} {p : RefineParams K} {fuel : Nat}
    {C : List (Edge (Vertex K))} (hC : ∀ c ∈ C, Wall b.vertices c) :
    ∀ {n : Nat} {σ : Sched} {m : Mesh (Vertex K)} {cs : List (Edge (Vertex K) × List (Vertex K))}
      {split : List (Edge (Vertex K) × Edge (Vertex K))} {r : Mesh (Vertex K) × List (Edge (Vertex K) × Edge (Vertex K))}
      {l : List (Vertex K)}, Plot g b l m → (∀ q ∈ cs, Span b l q.1) → (∀ q ∈ split, Span b l q.1) →
      Verif.unencroachLoop (geoRPreds 0 f dist p (some b) []) C fuel n σ m cs split = .ok r →
      ∃ l', Plot g b l' r.1 ∧ (∀ x ∈ l, x ∈ l') ∧ ∀ q ∈ r.2, Span b l' q.1 := by
  intro n
  induction n with
  | zero =>
    intro σ m cs split r l hP hcs hq h
    cases cs with
    | nil =>
      simp only [Verif.unencroachLoop, Res.ok.injEq] at h
      subst h
      exact ⟨l, hP, fun _ h => h, hq⟩
    | cons c cs => simp [Verif.unencroachLoop] at h
  | succ n ih =>
    intro σ m cs split r l hP hcs hq h
    cases cs with
    | nil =>
      simp only [Verif.unencroachLoop, Res.ok.injEq] at h
      subst h
      exact ⟨l, hP, fun _ h => h, hq⟩
    | cons c cs =>
      rw [Verif.unencroachLoop] at h
      cases hch : choose (σ.sub 0) (c :: cs) with
      | none => rw [hch] at h; cases h
      | some q =>
        obtain ⟨e, vs⟩ := q
        rw [hch] at h
        simp only at h
        rw [Res.bind_eq_ok] at h
        obtain ⟨u, hu, h⟩ := h
        unfold Verif.unencroachSegment at hu
        obtain ⟨l', h1, h2, h3⟩ := Plot.spanLoop hG hC (s := ⟨m, vs, [], [], []⟩) hP (by
          intro x hx
          rw [List.mem_singleton] at hx
          rw [hx]
          exact hcs _ (choose_mem hch)) (by simp) hu
        obtain ⟨l'', q1, q2, q3⟩ := ih (l := l') h1 (by
          intro q hqm
          exact (hcs q (List.mem_of_mem_filter hqm)).mono h2) (by
          intro q hqm
          rcases of_mem_foldl_mapInsert hqm with i | i
          · exact h3 _ i.1
          · exact (hq q i).mono h2) h
        exact ⟨l'', q1, fun x hx => q2 x (h2 x hx), q3⟩

/-- An edge along the polygon with real ends. -/
def Lining (b : Polyline (Vertex K)) (e : Edge (Vertex K)) : Prop :=
  AlongSide b e ∧ e.v1.isGhost = false ∧ e.v2.isGhost = false

/-- `unencroach` and the update of the constraints. -/
theorem Plot.unencroach_again (hP : Plot g b l m) {dist : Vertex K → Vertex K → K} {p : RefineParams K} {fuel : Nat}
    {σ : Sched} {C : List (Edge (Vertex K))} (hC : ∀ c ∈ C, Wall b.vertices c)
    {r : Mesh (Vertex K) × List (Edge (Vertex K) × Edge (Vertex K))}
    (h : Verif.unencroach (geoRPreds 0 f dist p (some b) []) fuel σ C m = .ok r) :
    ∃ l', Plot g b l' r.1 ∧ ∀ c ∈ Triangulator.updateConstraints C r.2, Lining b c := by
  have hspan : ∀ c ∈ C, Span b l c := by
    intro c hc
    have hw := hC c hc
    obtain ⟨m1, m2⟩ := mem_pairs hw
    refine ⟨Wall.along (Subdivides.refl _) hw, hP.sub.keeps _ m1, hP.sub.keeps _ m2, fun k => ?_⟩
    exact hG.poly.proper _ hw (by simp only; rw [k]; exact ⟨rfl, rfl⟩)
  obtain ⟨l', h1, h2, h3⟩ := Plot.spansLoop hG hC hP (cs := distributeEncroachments _ C _) (split := []) (by
      intro q hq
      unfold distributeEncroachments at hq
      obtain ⟨x, hx, rfl⟩ := List.mem_map.1 (List.mem_of_mem_filter hq)
      exact hspan x hx) (by simp) h
  refine ⟨l', h1, fun c hc => ?_⟩
  have hs : Span b l' c := by
    unfold Triangulator.updateConstraints at hc
    rw [mem_toSet, List.mem_append] at hc
    rcases hc with k | k
    · exact (hspan c (List.mem_of_mem_filter k)).mono h2
    · obtain ⟨q, hqm, rfl⟩ := List.mem_map.1 k
      exact h3 q hqm
  exact ⟨hs.along, h1.fit.lot.real _ hs.fst, h1.fit.lot.real _ hs.snd⟩

/-- What remains of the attempt to insert a circumcentre. -/
inductive Plot.Tested (g : Vertex K) (b : Polyline (Vertex K)) (l : List (Vertex K)) (m : Mesh (Vertex K)) :
    TryRes (Vertex K) → Prop
  | inserted {m' : Mesh (Vertex K)} {inc rem : List (Tri (Vertex K))} (h : ∃ l', Plot g b l' m')
      (hk : Retains m.tris m'.tris inc rem) : Plot.Tested g b l m (.inserted m' inc rem)
  | rejected {m' : Mesh (Vertex K)} {enc : List (Edge (Vertex K))} (h : Plot g b l m') (hp : m'.tris.Perm m.tris)
      (hn : enc.Nodup) (he : ∀ e ∈ enc, Wall l e) : Plot.Tested g b l m (.rejected m' enc)

/-- Trying to insert a circumcentre when some sides of the polygon are no constraints. -/
theorem Plot.try_again (hP : Plot g b l m) {dist : Vertex K → Vertex K → K} {p : RefineParams K} {fuel : Nat} {σ : Sched}
    {C : List (Edge (Vertex K))} (hC : ∀ c ∈ C, Lining b c) {t : Tri (Vertex K)}
    (ht : t ∈ m.tris) {r : TryRes (Vertex K)}
    (h : tryCircumcenter (geoRPreds 0 f dist p (some b) []) fuel σ C m t = .ok r) : Plot.Tested g b l m r := by
  obtain ⟨hD, hF, hs, hc⟩ := id hP
  unfold tryCircumcenter at h
  rw [Res.bind_eq_ok] at h
  obtain ⟨c, hcc, h⟩ := h
  rw [Res.bind_eq_ok] at h
  obtain ⟨d, hd, h⟩ := h
  rw [Res.bind_eq_ok] at h
  obtain ⟨s, hsolve, h⟩ := h
  rw [Res.bind_eq_ok] at h
  obtain ⟨enc, henc, h⟩ := h
  have hreal : c.isGhost = false := by
    have hcc' : t.circumcenter = some c := by
      cases ht' : t.circumcenter with
      | none =>
        have : (geoRPreds 0 f dist p (some b) []).circumcenter t = none := ht'
        rw [this] at hcc
        cases hcc
      | some c' =>
        have : (geoRPreds 0 f dist p (some b) []).circumcenter t = some c' := ht'
        rw [this] at hcc
        simp only [Res.unwrap, Res.ok.injEq] at hcc
        rw [hcc]
    unfold Tri.circumcenter circumcenter at hcc'
    simp only at hcc'
    split_ifs at hcc'
    injection hcc' with hcc'
    rw [← hcc']
    rfl
  obtain ⟨d1, d2, d3⟩ := distributeOverLoop_spec hs (by simpa using ht) (by simp [CMap.WF]) (by simp) hd
  have hCL : ∀ e, Constrained C e → Lining b e := by
    rintro e (k | k)
    · have := (hC _ k)
      exact ⟨by simpa [opposite_opposite] using this.1.opposite, this.2.2, this.2.1⟩
    · exact hC _ k
  have hCA : ∀ e, Constrained C e → AlongSide b e := fun e he => (hCL e he).1
  have hexp : ∀ x k, (x, k) ∈ d.1 → ∀ w ∈ k, Expandable (geoPreds 0 f (some b) []) w x := by
    intro x k hx w hw
    obtain ⟨j1, j2⟩ := (d3 x k hx).2 w hw
    refine ⟨?_, j2⟩
    unfold conflicting
    rw [Bool.or_eq_true]
    exact Or.inl j1
  have hmem : ∀ w ∈ d.1.flat, w = c := by
    intro w hw
    have := d2.subset (List.mem_append.2 (Or.inl hw))
    simpa [CMap.flat] using this
  -- a triangle the vertex is handed to is solid
  have hsolid : ∀ x k, (x, k) ∈ d.1 → SolidTri x ∧ Expandable (geoPreds 0 f (some b) []) c x := by
    intro x k hx
    obtain ⟨w, hw⟩ := List.exists_mem_of_ne_nil _ (d1.2 _ hx)
    have hwc := hmem w (List.mem_flatMap.2 ⟨(x, k), hx, hw⟩)
    subst hwc
    have he := hexp x k hx w hw
    refine ⟨?_, he⟩
    rcases hF.lot.shape x (d3 x k hx).1 with st | ⟨q, hq, rfl⟩
    · exact st
    · exfalso
      have hon := hG.ghost_on hD hF hreal hq he
      obtain ⟨m1, m2⟩ := mem_pairs hq
      have hgh : GhostTri g (overSide g q) := by
        refine ⟨hF.lot.real _ m2, hF.lot.real _ m1, ?_, rfl⟩
        intro e
        simp only at e
        exact hF.poly.proper q hq (by rw [e]; exact ⟨rfl, rfl⟩)
      have := (free_inside_ghost f hF.lot.ghost hgh w).1 ((d3 _ k hx).2 w hw).1
      have h0 := onSegment_cross hon
      simp only at this
      rw [cross_swap] at this
      linarith
  have hsee : ∀ x k, (x, k) ∈ d.1 → Seer l m.tris c x := fun x k hx =>
    hG.solid_sees hD hF hreal (d3 x k hx).1 (hsolid x k hx).1 (hsolid x k hx).2
  obtain ⟨hrun, hend⟩ := solveLoop_run hsolve
  have hlist : d.1.flat ++ ([] : List (Vertex K)) = d.1.flat := List.append_nil _
  have hlen : d.1.flat.length ≤ 1 := by
    have := d2.length_eq
    simp [CMap.flat] at this ⊢
    omega
  have hsub : ∀ w ∈ d.1.flat, ∃ x, Seer l m.tris c x ∧ w = c := by
    intro w hw
    obtain ⟨⟨x, k⟩, hx, -⟩ := List.mem_flatMap.1 hw
    exact ⟨x, hsee x k hx, hmem w hw⟩
  have hsep : SepOn (geoRPreds 0 f dist p (some b) []).toPreds.veq (Usual g) := usual_sep hF.lot.ghost f
  have hl : Legit (geoRPreds 0 f dist p (some b) []).toPreds (Usual g) ⟨m, d.1, [], [], []⟩ := by
    refine ⟨hs, fun _ => hc, d1, fun x k hx => (d3 x k hx).1, fun x k hx => (d3 x k hx).2, ?_, ?_, ?_,
      fun x hx y hy => hF.usual hx hy, List.nodup_nil, List.nodup_nil⟩
    · simp only [hlist]
      match d.1.flat, hlen with
      | [], _ => exact List.nodup_nil
      | [_], _ => exact List.nodup_singleton _
      | _ :: _ :: _, hh => simp at hh
    · intro w hw
      simp only [hlist] at hw
      obtain ⟨x, hx, rfl⟩ := hsub w hw
      exact hG.fresh hD hF hreal hx
    · intro w hw
      simp only [hlist] at hw
      obtain ⟨x, hx, rfl⟩ := hsub w hw
      exact Or.inl hreal
  rcases single_run hsep hl hF.simple (by simpa [hlist] using hlen) hrun with rfl |
    ⟨-, hl', ⟨v, L, O, R, Z, hvf, hI⟩, τ, hτ⟩
  · have he0 : enc = [] := by
      rw [List.eq_nil_iff_forall_not_mem]
      intro e he
      obtain ⟨⟨x, hx, -⟩, -⟩ := (mem_findEncroachments henc e).1 he
      simp at hx
    rw [if_pos he0] at h
    simp only [Res.ok.injEq] at h
    rw [← h]
    exact .inserted ⟨l, hP⟩ (Retains.refl _)
  have hvc : v = c := hmem v hvf
  subst hvc
  have hcav := hI.cav
  have hfr : Fresh m.tris v := hI.fresh
  have hgg := hF.lot.ghost
  have hgn : ∀ {z : Vertex K}, z.isGhost = false → z ≠ g := by
    rintro z hz rfl
    rw [hgg] at hz; simp at hz
  have hgeo : ∀ {x : Vertex K}, (geoRPreds 0 f dist p (some b) []).veq v x = true → Usual g x → x = v := by
    intro x hx hu
    by_contra hn
    exact hn ((hsep v x (Or.inl hreal) hu).1 hx).symm
  have e3 : (geoRPreds 0 f dist p (some b) []).veq v v = true := (eqv_zero hreal hreal).2 ⟨rfl, rfl⟩
  have hopp : ∀ e ∈ L, (newTri (geoRPreds 0 f dist p (some b) []).ghost e v).oppositeEdge
      (geoRPreds 0 f dist p (some b) []).veq v = some e := by
    intro e he
    obtain ⟨x, hx, hxe⟩ := hcav.mem_side_old (by simpa using he : e ∈ [] ++ L)
    obtain ⟨n1, n2⟩ := hfr.ends (mem_sides.2 ⟨x, hcav.mem_R hx, hxe⟩)
    obtain ⟨c1, c2⟩ := isCorner_of_isSide hxe
    have e1 : (geoRPreds 0 f dist p (some b) []).veq v e.v1 ≠ true := fun hh =>
      n1 (hgeo hh (hF.usual (hcav.mem_R hx) c1))
    have e2 : (geoRPreds 0 f dist p (some b) []).veq v e.v2 ≠ true := fun hh =>
      n2 (hgeo hh (hF.usual (hcav.mem_R hx) c2))
    unfold newTri
    split_ifs <;> simp [Tri.oppositeEdge, e1, e2, e3]
  -- a side under the vertex
  have hstrict : ∀ q ∈ pairs l false, OnSegment q.1 q.2 v → StrictlyOn q.1 q.2 v := by
    intro q hq hon
    obtain ⟨y, hy, sy, hyq⟩ := hF.lot.side (simplePolygon_back hF.poly) hq
    obtain ⟨m1, m2⟩ := mem_pairs hq
    obtain ⟨n1, n2⟩ := hfr.ends (mem_sides.2 ⟨y, hy, hyq⟩)
    exact ⟨hon, real_ne (hF.lot.real _ m1) hreal n1, real_ne (hF.lot.real _ m2) hreal n2⟩
  have hshape : ∀ x ∈ R, Seer l m.tris v x ∨
      ∃ q ∈ pairs l false, OnSegment q.1 q.2 v ∧ ¬ Constrained C ⟨q.1, q.2⟩ ∧ x = overSide g q := by
    intro x hx
    refine solveStep_reach hsep hl hF.simple rfl (Q := fun x => Seer l m.tris v x ∨
      ∃ q ∈ pairs l false, OnSegment q.1 q.2 v ∧ ¬ Constrained C ⟨q.1, q.2⟩ ∧ x = overSide g q) ?_
      (fun x k hx => Or.inl (hsee x k hx)) hτ x ((hI.rem x).2 (Or.inr hx))
    intro w hw y hy hQy e hye hnc t' ht' hte' hexp'
    obtain ⟨-, -, rfl⟩ := hsub w hw
    rcases hF.lot.shape t' ht' with st' | ⟨q, hq, rfl⟩
    · exact Or.inl (hG.solid_sees hD hF hreal ht' st' hexp')
    · have hon := hG.ghost_on hD hF hreal hq hexp'
      refine Or.inr ⟨q, hq, hon, ?_, rfl⟩
      rcases hQy with hSy | ⟨q', hq', hon', hnc', -⟩
      · obtain ⟨-, -, q1, q2, -⟩ := hSy.solid.side hye
        rcases hte' with ⟨k1, k2⟩ | ⟨k1, k2⟩ | ⟨k1, k2⟩ <;> simp only [Edge.opposite] at k1 k2
        · have : e = ⟨q.1, q.2⟩ := by
            obtain ⟨e1, e2⟩ := e
            simp only at k1 k2
            rw [k1, k2]
          rwa [this] at hnc
        · exact absurd k2 (hgn q1)
        · exact absurd k1 (hgn q2)
      · have := hF.poly.only hq hq' (hstrict q hq hon) hon'
        rw [← this]
        exact hnc'
  have hinc : ∀ x, x ∈ s.included ↔ ∃ e ∈ L, x = newTri (geoRPreds 0 f dist p (some b) []).ghost e v := by
    intro x
    rw [hI.inc]
    simp
  have hremv : ∀ x, x ∈ s.removed ↔ x ∈ R := by
    intro x
    rw [hI.rem]
    simp
  have hencL : ∀ e ∈ enc, e ∈ L ∧ Constrained C e := by
    intro e he
    obtain ⟨⟨x, hx, hxe⟩, hce, -⟩ := (mem_findEncroachments henc e).1 he
    obtain ⟨e', he', rfl⟩ := (hinc x).1 hx
    rw [hopp e' he'] at hxe
    injection hxe with hxe
    subst hxe
    exact ⟨he', hce.symm⟩
  have hwalls : ∀ e ∈ enc, Wall l e := by
    intro e he
    obtain ⟨k1, k2⟩ := hencL e he
    obtain ⟨x, hx, hxe⟩ := hcav.mem_side_old (by simpa using k1 : e ∈ [] ++ L)
    rcases hshape x hx with hS | ⟨q, hq, hon, hnc, rfl⟩
    · exact (hCA e k2).wall hD hF (hcav.mem_R hx) hS.solid hxe
    · exfalso
      have hr := hCL e k2
      rcases hxe with ⟨j1, j2⟩ | ⟨j1, j2⟩ | ⟨j1, j2⟩ <;> simp only at j1 j2
      · apply hnc
        obtain ⟨e1, e2⟩ := e
        simp only at j1 j2
        subst j1 j2
        exact k2.symm
      · exact hgn hr.2.2 j2
      · exact hgn hr.2.1 j1
  have hreject : enc ≠ [] → Plot.Tested g b l m (.rejected (rollback s.mesh (shuffle (σ.sub 2) s.included)
      (shuffle (σ.sub 3) s.removed)) enc) := by
    intro hne
    obtain ⟨hp, ha⟩ := rollback_spec hF.simple hs hc hfr hcav (inc := shuffle (σ.sub 2) s.included)
      (rem := shuffle (σ.sub 3) s.removed) (fun x => by rw [mem_shuffle]; exact hinc x)
      (fun x => by rw [mem_shuffle]; exact hremv x)
    refine .rejected (hP.undo hp ha) hp ?_ hwalls
    unfold findEncroachments at henc
    rw [Res.bind_eq_ok] at henc
    obtain ⟨l0, -, henc⟩ := henc
    simp only [Res.ok.injEq] at henc
    rw [← henc]
    exact nodup_toSet _
  by_cases hne : enc = []
  · rw [if_pos hne] at h
    simp only [Res.ok.injEq] at h
    rw [← h]
    refine .inserted ?_ (hI.retains rfl)
    by_cases hfree : ∃ q ∈ pairs l false, OnSegment q.1 q.2 v ∧ ¬ Constrained C ⟨q.1, q.2⟩
    · obtain ⟨q, hq, hon, hnc⟩ := hfree
      have hst := hstrict q hq hon
      obtain ⟨l', r', hcut, hfit⟩ := hG.hole_rim hD hF hreal (w := ⟨q.1, q.2⟩) hq hst hI.nonempty hCA hnc hcav hfr
      exact ⟨l', hD.cut hcut hst.1, hfit, hl'.sound, hl'.complete hfit.simple⟩
    · push Not at hfree
      obtain ⟨x0, hx0, hS0⟩ : ∃ x ∈ R, Seer l m.tris v x := by
        obtain ⟨x, hx⟩ := List.exists_mem_of_ne_nil _ hI.nonempty
        rcases hshape x hx with hS | ⟨q, hq, hon, hnc, -⟩
        · exact ⟨x, hx, hS⟩
        · exact absurd (hfree q hq hon) hnc
      have hin : ¬ Beyond b.vertices v := hG.solid_in hD hF hreal hS0.solid (hcav.exp x0 hx0)
      have hins : InsidePolygon b.vertices v := by
        rw [← hD.inside]
        rw [← hD.beyond] at hin
        have hoff : ∀ q ∈ pairs l false, ¬ OnSegment q.1 q.2 v := by
          intro q hq hon
          have hst := hstrict q hq hon
          obtain ⟨x, hx, -, hxw⟩ := hG.hole_wall hD hF hreal (w := ⟨q.1, q.2⟩) hq hst hCA hcav hS0 hx0
          have hCw := hfree q hq hon
          have hwL : (⟨q.1, q.2⟩ : Edge (Vertex K)) ∈ L := by
            by_contra hn
            exact (hcav.crossed hF.simple hx hxw (by simpa using hn) (hF.lot.border _ hq) (Or.inl ⟨rfl, rfl⟩)).2.2
              hCw
          have : (⟨q.1, q.2⟩ : Edge (Vertex K)) ∈ enc := by
            rw [mem_findEncroachments henc]
            refine ⟨⟨_, (hinc _).2 ⟨_, hwL, rfl⟩, hopp _ hwL⟩, hCw.symm, ?_⟩
            rw [geo_encroaches_iff, (C04_exact _ _ _).1]
            exact strictlyOn_encroaches hst
          rw [hne] at this
          simp at this
        exact ⟨hoff, fun h0 => hin ⟨hoff, h0⟩⟩
      have hfit := hF.fill rfl hcav hfr (hG.pit hD hF hreal hins hCA hcav)
      exact ⟨l, hD, hfit, hl'.sound, hl'.complete hfit.simple⟩
  · rw [if_neg hne] at h
    simp only [Res.ok.injEq] at h
    rw [← h]
    exact hreject hne

/-- What is true between two iterations of `split_irregular` on a polygon that was refined before. -/
structure Again (g : Vertex K) (b : Polyline (Vertex K)) (l : List (Vertex K)) (s : SplitState (Vertex K)) : Prop where
  plot : Plot g b l s.mesh
  along : ∀ c ∈ s.segments, Lining b c
  queued : Enqueued s

theorem Again.encroached {dist : Vertex K → Vertex K → K} {p : RefineParams K} {fuel : Nat} {es : List (Edge (Vertex K))} :
    ∀ {σ : Sched} {vs : List (Vertex K)} {s s' : SplitState (Vertex K)} {l : List (Vertex K)}, Again g b l s →
      es.Nodup → (∀ e ∈ es, Wall l e) →
      splitEncroached (geoRPreds 0 f dist p (some b) []) fuel σ es vs s = .ok s' → ∃ l', Again g b l' s' := by
  induction es with
  | nil =>
    intro σ vs s s' l hE _ _ h
    simp only [splitEncroached, Res.ok.injEq] at h
    subst h
    exact ⟨l, hE⟩
  | cons e es ih =>
    intro σ vs s s' l hE hn hw h
    rw [splitEncroached, Res.bind_eq_ok] at h
    obtain ⟨r, hr, h⟩ := h
    obtain ⟨l', h1, h2, h3⟩ := hE.plot.unencroachSegment hG (fun c hc => (hE.along c hc).1) (hw e List.mem_cons_self) hr
    rw [List.nodup_cons] at hn
    refine ih (l := l') ?_ hn.2 ?_ h
    · refine ⟨h1, ?_, Enqueued.requeue hE.queued h3⟩
      intro c hc
      simp only [requeue, mem_foldl_setInsert, mem_setErase] at hc
      by_cases k : c ∈ r.newEdges
      · have hw' := (h2 c).2 (Or.inr k)
        obtain ⟨m1, m2⟩ := mem_pairs hw'
        exact ⟨Wall.along h1.sub hw', h1.fit.lot.real _ m1, h1.fit.lot.real _ m2⟩
      · exact hE.along c (by tauto)
    · intro x hx
      refine (h2 x).2 (Or.inl ⟨hw x (List.mem_cons_of_mem _ hx), ?_⟩)
      rintro rfl
      exact hn.1 hx

theorem Again.step {dist : Vertex K → Vertex K → K} {p : RefineParams K} {fuel : Nat} {σ : Sched} {t : Tri (Vertex K)}
    {s s' : SplitState (Vertex K)} (hE : Again g b l s) (ht : t ∈ s.mesh.tris)
    (h : splitStep (geoRPreds 0 f dist p (some b) []) fuel σ t s = .ok s') : ∃ l', Again g b l' s' := by
  unfold splitStep at h
  rw [Res.bind_eq_ok] at h
  obtain ⟨r, hr, h⟩ := h
  have htry := hE.plot.try_again hG hE.along ht hr
  cases htry with
  | inserted hP hk =>
    obtain ⟨l', hP⟩ := hP
    simp only [Res.ok.injEq] at h
    subst h
    exact ⟨l', hP, hE.along, Enqueued.requeue hE.queued hk⟩
  | rejected hP hp hn he =>
    simp only at h
    rw [Res.bind_eq_ok] at h
    obtain ⟨c, -, h⟩ := h
    refine Again.encroached hG (l := l) ?_ (nodup_shuffle.2 hn) (fun e hm => he e (mem_shuffle.1 hm)) h
    exact ⟨hP, hE.along, fun x hx => hp.symm.subset (hE.queued x hx)⟩

omit hG in
theorem Again.pop {σ : Sched} {s s' : SplitState (Vertex K)} {t : Tri (Vertex K)} (hE : Again g b l s)
    (h : popTriangle σ s = some (t, s')) : Again g b l s' ∧ t ∈ s'.mesh.tris := by
  unfold popTriangle at h
  cases h1 : choose σ s.irregulars with
  | some u =>
    rw [h1] at h
    simp only [Option.some.injEq, Prod.mk.injEq] at h
    obtain ⟨rfl, rfl⟩ := h
    refine ⟨⟨hE.plot, hE.along, fun x hx => hE.queued x ?_⟩, hE.queued _ (Or.inl (choose_mem h1))⟩
    exact hx.imp_left fun hh => (mem_setErase.1 hh).1
  | none =>
    rw [h1] at h
    simp only at h
    cases h2 : choose σ s.larges with
    | some u =>
      rw [h2] at h
      simp only [Option.some.injEq, Prod.mk.injEq] at h
      obtain ⟨rfl, rfl⟩ := h
      refine ⟨⟨hE.plot, hE.along, fun x hx => hE.queued x ?_⟩, hE.queued _ (Or.inr (choose_mem h2))⟩
      exact hx.imp_right fun hh => (mem_setErase.1 hh).1
    | none =>
      rw [h2] at h
      simp at h

theorem Again.loop {dist : Vertex K → Vertex K → K} {p : RefineParams K} {fuel : Nat} :
    ∀ {n : Nat} {σ : Sched} {s s' : SplitState (Vertex K)} {l : List (Vertex K)}, Again g b l s →
      splitIrregularLoop (geoRPreds 0 f dist p (some b) []) fuel n σ s = .ok s' → ∃ l', Again g b l' s' := by
  intro n
  induction n with
  | zero =>
    intro σ s s' l hE h
    rw [splitIrregularLoop] at h
    cases hp : popTriangle (σ.sub 0) s with
    | none =>
      rw [hp] at h
      simp only [Res.ok.injEq] at h
      subst h
      exact ⟨l, hE⟩
    | some q => rw [hp] at h; cases h
  | succ n ih =>
    intro σ s s' l hE h
    rw [splitIrregularLoop] at h
    cases hp : popTriangle (σ.sub 0) s with
    | none =>
      rw [hp] at h
      simp only [Res.ok.injEq] at h
      subst h
      exact ⟨l, hE⟩
    | some q =>
      obtain ⟨t, s1⟩ := q
      rw [hp] at h
      simp only at h
      rw [Res.bind_eq_ok] at h
      obtain ⟨s2, h2, h⟩ := h
      obtain ⟨hE1, ht⟩ := hE.pop hp
      obtain ⟨l', hE2⟩ := hE1.step hG ht h2
      exact ih hE2 h

/-- Refining a triangulation of a subdivided polygon gives a triangulation of the same polygon. -/
theorem Plot.refine_again {dist : Vertex K → Vertex K → K} {p : RefineParams K} {fuel : Nat} {σ : Sched}
    {C : List (Edge (Vertex K))} (hP : Plot g b l m) (hC : ∀ c ∈ C, Wall b.vertices c)
    {r : Mesh (Vertex K) × List (Edge (Vertex K) × Edge (Vertex K))} {s : SplitState (Vertex K)} {τ : Sched}
    (h1 : Verif.unencroach (geoRPreds 0 f dist p (some b) []) fuel σ C m = .ok r)
    (h2 : splitIrregular (geoRPreds 0 f dist p (some b) []) fuel τ (Triangulator.updateConstraints C r.2) r.1 = .ok s) :
    ∃ l', Plot g b l' s.mesh := by
  obtain ⟨l', k1, k2⟩ := hP.unencroach_again hG hC h1
  obtain ⟨l'', h⟩ := Again.loop hG (l := l') ⟨k1, k2, fun t ht => by
    simp only [splitInit] at ht
    rcases ht with ht | ht
    · exact List.mem_of_mem_filter (List.mem_of_mem_filter ht)
    · exact List.mem_of_mem_filter (List.mem_of_mem_filter ht)⟩ h2
  exact ⟨l'', h.plot⟩

end Verif
