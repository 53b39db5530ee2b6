import Verif.Lemmas.RimCavity
import Verif.Lemmas.Rollback
import Verif.Lemmas.SeerTotal
import Verif.Lemmas.Refine
import Verif.Props.Encroachment

/-!
# Single insertions during the refinement of a triangulated polygon
-/

set_option linter.unusedSectionVars false

namespace Verif

open Spec Props

section generic

variable {V : Type*} [DecidableEq V]

theorem cavityStep_found {P : Preds V} {C : List (Edge V)} {v : V} {e : Edge V} {s : SolveState V}
    {r : List (Edge V) × SolveState V} (h : cavityStep P C v e s = .ok r) :
    ∃ t, s.mesh.adj e.opposite = some t ∧ ((Expandable P v t ∧ ¬ Constrained C e ∧ r.2.removed = setInsert t s.removed) ∨
      r.2.removed = s.removed) := by
  unfold cavityStep at h
  cases hadj : s.mesh.adj e.opposite with
  | none => rw [hadj] at h; cases h
  | some t =>
    rw [hadj] at h
    simp only at h
    rw [Res.bind_eq_ok] at h
    obtain ⟨may, hmay, h⟩ := h
    refine ⟨t, rfl, ?_⟩
    by_cases hcond : (conflicting P t v && !(decide (e.opposite ∈ C) || decide (e ∈ C)) && may) = true
    · rw [if_pos hcond] at h
      simp only [Bool.and_eq_true, Bool.not_eq_true', Bool.or_eq_false_iff,
        decide_eq_false_iff_not] at hcond
      obtain ⟨⟨c1, c2⟩, c3⟩ := hcond
      subst c3
      simp only [Res.ok.injEq] at h
      subst h
      exact Or.inl ⟨⟨c1, hmay⟩, fun hc => hc.elim c2.1 c2.2, rfl⟩
    · rw [if_neg hcond] at h
      rw [Res.bind_eq_ok] at h
      obtain ⟨q, hq, h⟩ := h
      simp only [Res.ok.injEq] at h
      subst h
      exact Or.inr rfl

/-- The triangles of the hole are reached from the first one over free edges. -/
theorem cavityLoop_reach {P : Preds V} {C : List (Edge V)} {v : V} {T0 : List (Tri V)}
    {inc0 rem0 : List (Tri V)} {W : List V} (hs : Simple T0) (hv : Fresh T0 v)
    {S : V → Prop} (hsep : SepOn P.veq S) (hS : ∀ t ∈ T0, ∀ x, IsCorner t x → S x) {Q : Tri V → Prop}
    (hQ : ∀ r ∈ T0, Q r → ∀ e, IsSide r e → ¬ Constrained C e → ∀ t ∈ T0, IsSide t e.opposite → Expandable P v t → Q t)
    {n : Nat} {s s' : SolveState V} {B L : List (Edge V)} {O R : List (Tri V)} {Z : List (Edge V)}
    (h : CavInv P C v T0 s.mesh B L O R Z) (hb : Book P v inc0 rem0 W s L R) (hq : ∀ x ∈ s.removed, Q x)
    (hr : cavityLoop P C v n B s = .ok s') : ∀ x ∈ s'.removed, Q x := by
  induction n generalizing s B L O R Z with
  | zero =>
    cases B with
    | nil =>
      simp only [cavityLoop, Res.ok.injEq] at hr
      subst hr
      exact hq
    | cons e B => simp [cavityLoop] at hr
  | succ n ih =>
    cases B with
    | nil =>
      simp only [cavityLoop, Res.ok.injEq] at hr
      subst hr
      exact hq
    | cons e B =>
      rw [cavityLoop, Res.bind_eq_ok] at hr
      obtain ⟨r, hstep, hr⟩ := hr
      have hq' : ∀ x ∈ r.2.removed, Q x := by
        obtain ⟨t, hadj, ⟨h1, h2, h3⟩ | h3⟩ := cavityStep_found hstep
        · intro x hx
          rw [h3, mem_setInsert] at hx
          rcases hx with rfl | hx
          · obtain ⟨k1, k2⟩ := h.found hs hv List.mem_cons_self hadj
            have hO := k2.resolve_right h2
            obtain ⟨r0, hr0, hre⟩ := h.mem_side_old (e := e) (by simp)
            exact hQ r0 (h.mem_R hr0) (hq r0 ((hb.rem r0).2 (Or.inr hr0))) e hre h2 x (h.mem_O hO) k1 h1
          · exact hq x hx
        · rw [h3]; exact hq
      rcases cavityStep_inv h hb hs hv hsep hS hstep with ⟨t, -, k1, k2, -⟩ | ⟨k0, k1, k2⟩
      · exact ih k1 k2 hq' hr
      · rw [k0] at hr
        exact ih k1 k2 hq' hr

theorem solveStep_reach {P : Preds V} {C : List (Edge V)} {S : V → Prop} (hsep : SepOn P.veq S)
    {fuel : Nat} {σ : Sched} {s s' : SolveState V} (hl : Legit P S s) (hsim : Simple s.mesh.tris)
    (hrem : s.removed = []) {Q : Tri V → Prop}
    (hQ : ∀ v ∈ s.cmap.flat, ∀ r ∈ s.mesh.tris, Q r → ∀ e, IsSide r e → ¬ Constrained C e →
      ∀ t ∈ s.mesh.tris, IsSide t e.opposite → Expandable P v t → Q t)
    (hk : ∀ t l, (t, l) ∈ s.cmap → Q t)
    (hr : solveStep P C fuel σ s = .ok s') : ∀ x ∈ s'.removed, Q x := by
  unfold solveStep at hr
  cases hc : choose σ s.cmap with
  | none => rw [hc] at hr; cases hr
  | some p =>
    obtain ⟨t, l⟩ := p
    rw [hc] at hr
    simp only at hr
    cases hvl : l.getLast? with
    | none => rw [hvl] at hr; cases hr
    | some v =>
      rw [hvl] at hr
      simp only at hr
      obtain ⟨hflat, hcav, W, hW, hbook⟩ := solveStep_open hl hsim (choose_mem hc) hvl C
      have hv : Fresh s.mesh.tris v := hl.pendF v (List.mem_append.2 (Or.inl hflat))
      refine cavityLoop_reach hsim hv hsep hl.meshS (hQ v hflat) hcav hbook ?_ hr
      intro x hx
      simp only [openCavity, hrem, mem_setInsert, List.not_mem_nil, or_false] at hx
      rw [hx]
      exact hk t l (choose_mem hc)

theorem CMap.eq_nil_of_flat {c : CMap V} (hw : c.WF) (h : c.flat = []) : c = [] := by
  cases c with
  | nil => rfl
  | cons p c =>
    exfalso
    have h1 := hw.2 p List.mem_cons_self
    have h2 : p.2 ++ CMap.flat c = [] := h
    rw [List.append_eq_nil_iff] at h2
    exact h1 h2.1

/-- With at most one vertex to insert, at most one is inserted. -/
theorem single_run {P : Preds V} {C : List (Edge V)} {S : V → Prop} (hsep : SepOn P.veq S) {fuel : Nat}
    {s0 r : SolveState V} (hl : Legit P S s0) (hsim : Simple s0.mesh.tris)
    (hone : (s0.cmap.flat ++ s0.remaining).length ≤ 1) (hr : Run P C fuel s0 r) :
    r = s0 ∨ (r.cmap = [] ∧ Legit P S r ∧ (∃ v L O R Z, v ∈ s0.cmap.flat ∧ Inserts P C s0 v r L O R Z) ∧
      ∃ σ, solveStep P C fuel σ s0 = .ok r) := by
  induction hr with
  | refl => exact Or.inl rfl
  | @step s1 s2 τ _ hne hs ih =>
    right
    rcases ih with rfl | ⟨h, -⟩
    · obtain ⟨h1, v, L, O, R, Z, h2, h3⟩ := solveStep_inv hsep hl hsim hs
      refine ⟨?_, h1, ⟨v, L, O, R, Z, h2, h3⟩, τ, hs⟩
      have := h3.pend.length_eq
      simp only [List.length_cons] at this
      have h0 : (s2.cmap.flat ++ s2.remaining).length = 0 := by omega
      rw [List.length_eq_zero_iff, List.append_eq_nil_iff] at h0
      exact CMap.eq_nil_of_flat h1.wf h0.1
    · exact absurd h hne

/-- What the sets handed back by an insertion say about the mesh. -/
structure Retains (M M' : List (Tri V)) (inc rem : List (Tri V)) : Prop where
  inc : ∀ t ∈ inc, t ∈ M'
  rem : ∀ t ∈ M, t ∈ M' ∨ t ∈ rem

theorem Retains.refl (M : List (Tri V)) : Retains M M [] [] := ⟨by simp, fun _ h => Or.inl h⟩

theorem Retains.step {M M' M'' : List (Tri V)} {i r i' r' : List (Tri V)} (h : Retains M M' i r) (h' : Retains M' M'' i' r') :
    Retains M M'' (toSet ((i ++ i').filter fun t => !decide (t ∈ r'))) (setUnion r r') := by
  constructor
  · intro t ht
    rw [mem_toSet, List.mem_filter, List.mem_append] at ht
    obtain ⟨k | k, k'⟩ := ht
    · rcases h'.rem t (h.inc t k) with q | q
      · exact q
      · simp [q] at k'
    · exact h'.inc t k
  · intro t ht
    rw [mem_setUnion]
    rcases h.rem t ht with k | k
    · rcases h'.rem t k with q | q
      · exact Or.inl q
      · exact Or.inr (Or.inr q)
    · exact Or.inr (Or.inl k)

theorem Inserts.retains {P : Preds V} {C : List (Edge V)} {s s' : SolveState V} {v : V} {L Z : List (Edge V)}
    {O R : List (Tri V)} (h : Inserts P C s v s' L O R Z) (hi : s.included = []) :
    Retains s.mesh.tris s'.mesh.tris s'.included s'.removed := by
  constructor
  · intro t ht
    rw [h.inc, hi] at ht
    rcases ht with ht | ⟨l, hl, rfl⟩
    · simp at ht
    · rw [h.cav.now.mem_iff, List.mem_append, List.mem_map]
      exact Or.inl ⟨l, hl, rfl⟩
  · intro t ht
    rcases List.mem_append.1 (h.cav.old.mem_iff.1 ht) with k | k
    · exact Or.inr ((h.rem t).2 (Or.inr k))
    · exact Or.inl (h.cav.now.mem_iff.2 (List.mem_append.2 (Or.inr k)))

end generic

section

variable {K : Type*} [Field K] [LinearOrder K] [IsStrictOrderedRing K]

variable {b : Polyline (Vertex K)} {g : Vertex K} {T : List (Tri (Vertex K))} {f : Nat} {l : List (Vertex K)}
  {m : Mesh (Vertex K)}

theorem strictlyOn_encroaches {x y v : Vertex K} (h : StrictlyOn x y v) : 4 * dist2 (centre x y) v < dist2 x y := by
  obtain ⟨⟨t, h0, h1, hx, hy⟩, n1, n2⟩ := h
  have t0 : 0 < t := by
    refine lt_of_le_of_ne h0 fun e => n1 ?_
    rw [← e] at hx hy
    exact ⟨by linarith, by linarith⟩
  have t1 : t < 1 := by
    refine lt_of_le_of_ne h1 fun e => n2 ?_
    rw [e] at hx hy
    exact ⟨by linarith, by linarith⟩
  have hpos : 0 < (x.x - y.x) ^ 2 + (x.y - y.y) ^ 2 := by
    rcases (add_nonneg (sq_nonneg (x.x - y.x)) (sq_nonneg (x.y - y.y))).lt_or_eq with k | k
    · exact k
    · exfalso
      have q1 : x.x - y.x = 0 := by nlinarith [sq_nonneg (x.x - y.x), sq_nonneg (x.y - y.y)]
      have q2 : x.y - y.y = 0 := by nlinarith [sq_nonneg (x.x - y.x), sq_nonneg (x.y - y.y)]
      apply n1
      refine ⟨?_, ?_⟩
      · rw [hx]; linear_combination t * q1
      · rw [hy]; linear_combination t * q2
  have e : 4 * dist2 (centre x y) v = (1 - 4 * (t * (1 - t))) * ((x.x - y.x) ^ 2 + (x.y - y.y) ^ 2) := by
    unfold dist2 centre
    simp only [hx, hy]
    ring
  rw [e]
  unfold dist2
  nlinarith [mul_pos (mul_pos t0 (sub_pos.2 t1)) hpos]

theorem Fit.perm {M M' : List (Tri (Vertex K))} (h : Fit g l M) (hp : M'.Perm M) : Fit g l M' := by
  have hm : ∀ t ∈ M', t ∈ M := fun t ht => hp.subset ht
  refine ⟨h.poly, h.winds, ⟨h.lot.ghost, h.lot.real, fun x y => ?_, fun t ht => h.lot.shape t (hm t ht),
    fun s hs => hp.symm.subset (h.lot.border s hs), fun w => ?_⟩, h.apart.sub hm, fun e => ?_,
    fun t ht t' ht' => h.locally t (hm t ht) t' (hm t' ht')⟩
  · have := h.lot.closed x y
    rw [sideCount_sides, sideCount_sides] at this ⊢
    rw [(sides_perm hp).count_eq, (sides_perm hp).count_eq]
    exact this
  · rw [← h.lot.outline w]
    unfold windingNumber outline
    exact ((((hp.filter _).flatMap_right _)).map _).sum_eq
  · have := h.simple e
    rw [sideCount_sides] at this ⊢
    rw [(sides_perm hp).count_eq]
    exact this

theorem Fit.usual {M : List (Tri (Vertex K))} (hF : Fit g l M) {t : Tri (Vertex K)} (ht : t ∈ M) {x : Vertex K}
    (hx : IsCorner t x) : Usual g x := by
  rcases hF.lot.shape t ht with k | ⟨s, hs, rfl⟩
  · rcases hx with rfl | rfl | rfl
    · exact Or.inl k.r1
    · exact Or.inl k.r2
    · exact Or.inl k.r3
  · obtain ⟨m1, m2⟩ := mem_pairs hs
    rcases hx with rfl | rfl | rfl
    · exact Or.inl (hF.lot.real _ m2)
    · exact Or.inl (hF.lot.real _ m1)
    · exact Or.inr rfl

/-- The mesh triangulates the polygon `l`, which is the boundary with some vertices put on its sides. -/
structure Plot (g : Vertex K) (b : Polyline (Vertex K)) (l : List (Vertex K)) (m : Mesh (Vertex K)) : Prop where
  sub : Subdivides l b.vertices
  fit : Fit g l m.tris
  sound : AdjSound m
  complete : AdjComplete m

theorem Plot.undo {m' : Mesh (Vertex K)} (h : Plot g b l m) (hp : m'.tris.Perm m.tris) (ha : m'.adj = m.adj) :
    Plot g b l m' := by
  refine ⟨h.sub, h.fit.perm hp, fun e t he => ?_, fun t ht e he => ?_⟩
  · rw [ha] at he
    exact ⟨hp.symm.subset (h.sound e t he).1, (h.sound e t he).2⟩
  · rw [ha]
    exact h.complete t (hp.subset ht) e he

variable (hG : Ground g b T)

include hG

/-- Splitting a side of the subdivided boundary. -/
theorem Plot.split (hP : Plot g b l m) {dist : Vertex K → Vertex K → K} {p : RefineParams K} {fuel : Nat} {σ : Sched}
    {C : List (Edge (Vertex K))} (hC : ∀ c ∈ C, AlongSide b c) {e : Edge (Vertex K)} (he : Wall l e)
    {st : SolveState (Vertex K)} (h : splitSegment (geoRPreds 0 f dist p (some b) []) fuel σ C m e = .ok st) :
    (∃ l' r, Cut l (e.v1, e.v2) e.midpoint l' r ∧ Plot g b l' st.mesh) ∧
      Retains m.tris st.mesh.tris st.included st.removed := by
  obtain ⟨hD, hF, hs, hc⟩ := hP
  unfold splitSegment at h
  obtain ⟨s0, h0, hrun, hend⟩ := include_run h
  have hv : (e.midpoint : Vertex K).isGhost = false := rfl
  have hvw : StrictlyOn e.v1 e.v2 e.midpoint := midpoint_strictlyOn (hF.poly.proper _ he)
  obtain ⟨rw0, hrw, sw, hrside⟩ := hF.lot.side (simplePolygon_back hF.poly) he
  have hSw : Seer l m.tris e.midpoint rw0 :=
    .here hrw sw (sw.circle_side hrside hvw) (within_side sw hrside hvw.1)
  have hfr := hG.fresh hD hF hv hSw
  have hin : ¬ Beyond b.vertices e.midpoint := by
    rw [← hD.beyond]
    exact fun h => h.1 _ he hvw.1
  obtain ⟨k1, k2, k3, k4, k5, k6, k7⟩ := startState_spec h0
  have hl := start_legit (S := Usual g) hs hc (List.nodup_singleton _) (by
      intro w hw
      rw [List.mem_singleton] at hw
      rw [hw]; rfl) (by
      rintro x ⟨t, ht, hx⟩
      exact hF.usual ht hx) (by
      intro w hw
      rw [List.mem_singleton] at hw
      rw [hw]; exact Or.inl rfl) h0
  have hsep : SepOn (geoRPreds 0 f dist p (some b) []).toPreds.veq (Usual g) := usual_sep hF.lot.ghost f
  have hlen : (s0.cmap.flat ++ s0.remaining).length ≤ 1 := by
    rw [k5.length_eq]
    exact List.length_filter_le _ _
  rcases single_run hsep hl (by rw [k1]; exact hF.simple) hlen hrun with rfl | ⟨-, hl', ⟨v, L, O, R, Z, hvf, hI⟩, -⟩
  · exfalso
    have hmem : e.midpoint ∈ st.cmap.flat ++ st.remaining := by
      rw [k5.mem_iff, List.mem_filter]
      refine ⟨List.mem_singleton.2 rfl, ?_⟩
      simp only [Bool.not_eq_true', decide_eq_false_iff_not]
      intro hm
      obtain ⟨⟨t, ht, hx⟩, -⟩ := mem_vertices.1 hm
      exact hfr t ht hx
    rw [hend] at hmem
    have hr : e.midpoint ∈ st.remaining := by simpa [CMap.flat] using hmem
    have hasked : ∃ r, (geoPreds 0 f (some b) []).mayInsert rw0 e.midpoint = .ok r := by
      unfold startState at h0
      rw [Res.bind_eq_ok] at h0
      obtain ⟨q, hq, h0⟩ := h0
      simp only [Res.ok.injEq] at h0
      rw [← h0] at hr
      exact (distributeAll_asked hq _ hr).2 rw0 (mem_shuffle.2 hrw)
    obtain ⟨r, hmay⟩ := hasked
    have := hG.sees_may hD hF hv hin hSw hmay
    subst this
    exact k7 _ hr rw0 hrw ⟨(free_inside_solid f sw _).2 hSw.conf, hmay⟩
  · have hveq : v = e.midpoint := by
      have := k5.subset (List.mem_append.2 (Or.inl hvf))
      exact List.mem_singleton.1 (List.mem_of_mem_filter this)
    subst hveq
    have hcav := hI.cav
    rw [k1] at hcav
    have hkeep := hI.retains k2
    rw [k1] at hkeep
    refine ⟨?_, hkeep⟩
    obtain ⟨m1, m2⟩ := mem_pairs he
    have r1 := hF.lot.real _ m1
    have r2 := hF.lot.real _ m2
    obtain ⟨l', r, hcut, hfit⟩ := hG.hole_rim hD hF hv he hvw hI.nonempty (by
      intro c hcc
      rcases hcc with k | k
      · have := (hC _ (List.mem_of_mem_filter k)).opposite
        rwa [opposite_opposite] at this
      · exact hC _ (List.mem_of_mem_filter k)) (by
      have refl : ∀ {x : Vertex K}, x.isGhost = false → Vertex.eqv 0 x x = true :=
        fun hx => (eqv_zero hx hx).2 ⟨rfl, rfl⟩
      rintro (k | k)
      · have := (List.mem_filter.1 k).2
        simp [Edge.eqv, Edge.opposite, geoRPreds, geoPreds, refl r1, refl r2] at this
      · have := (List.mem_filter.1 k).2
        simp [Edge.eqv, Edge.opposite, geoRPreds, geoPreds, refl r1, refl r2] at this) hcav hfr
    exact ⟨l', r, hcut, hD.cut hcut hvw.1, hfit, hl'.sound, hl'.complete hfit.simple⟩

/-- What remains of the attempt to insert a circumcentre. -/
inductive Plot.Tried (g : Vertex K) (b : Polyline (Vertex K)) (l : List (Vertex K)) (m : Mesh (Vertex K)) :
    TryRes (Vertex K) → Prop
  | inserted {m' : Mesh (Vertex K)} {inc rem : List (Tri (Vertex K))} (h : Plot g b l m')
      (hk : Retains m.tris m'.tris inc rem) : Plot.Tried g b l m (.inserted m' inc rem)
  | rejected {m' : Mesh (Vertex K)} {enc : List (Edge (Vertex K))} (h : Plot g b l m') (hp : m'.tris.Perm m.tris)
      (hn : enc.Nodup) (he : ∀ e ∈ enc, Wall l e) : Plot.Tried g b l m (.rejected m' enc)

/-- Trying to insert a circumcentre. -/
theorem Plot.try (hP : Plot g b l m) {dist : Vertex K → Vertex K → K} {p : RefineParams K} {fuel : Nat} {σ : Sched}
    {C : List (Edge (Vertex K))} (hC : ∀ c ∈ C, AlongSide b c) (hW : ∀ e, Wall l e → e ∈ C) {t : Tri (Vertex K)}
    (ht : t ∈ m.tris) {r : TryRes (Vertex K)}
    (h : tryCircumcenter (geoRPreds 0 f dist p (some b) []) fuel σ C m t = .ok r) : Plot.Tried g b l m r := by
  obtain ⟨hD, hF, hs, hc⟩ := id hP
  unfold tryCircumcenter at h
  rw [Res.bind_eq_ok] at h
  obtain ⟨c, hcc, h⟩ := h
  rw [Res.bind_eq_ok] at h
  obtain ⟨d, hd, h⟩ := h
  rw [Res.bind_eq_ok] at h
  obtain ⟨s, hsolve, h⟩ := h
  rw [Res.bind_eq_ok] at h
  obtain ⟨enc, henc, h⟩ := h
  have hreal : c.isGhost = false := by
    have hcc' : t.circumcenter = some c := by
      cases ht' : t.circumcenter with
      | none =>
        have : (geoRPreds 0 f dist p (some b) []).circumcenter t = none := ht'
        rw [this] at hcc
        cases hcc
      | some c' =>
        have : (geoRPreds 0 f dist p (some b) []).circumcenter t = some c' := ht'
        rw [this] at hcc
        simp only [Res.unwrap, Res.ok.injEq] at hcc
        rw [hcc]
    unfold Tri.circumcenter circumcenter at hcc'
    simp only at hcc'
    split_ifs at hcc'
    injection hcc' with hcc'
    rw [← hcc']
    rfl
  obtain ⟨d1, d2, d3⟩ := distributeOverLoop_spec hs (by simpa using ht) (by simp [CMap.WF]) (by simp) hd
  have hCA : ∀ e, Constrained C e → AlongSide b e := by
    rintro e (k | k)
    · have := (hC _ k).opposite
      rwa [opposite_opposite] at this
    · exact hC _ k
  have hexp : ∀ x k, (x, k) ∈ d.1 → ∀ w ∈ k, Expandable (geoPreds 0 f (some b) []) w x := by
    intro x k hx w hw
    obtain ⟨j1, j2⟩ := (d3 x k hx).2 w hw
    refine ⟨?_, j2⟩
    unfold conflicting
    rw [Bool.or_eq_true]
    exact Or.inl j1
  have hmem : ∀ w ∈ d.1.flat, w = c := by
    intro w hw
    have := d2.subset (List.mem_append.2 (Or.inl hw))
    simpa [CMap.flat] using this
  -- a triangle the vertex is handed to is solid
  have hsolid : ∀ x k, (x, k) ∈ d.1 → SolidTri x ∧ Expandable (geoPreds 0 f (some b) []) c x := by
    intro x k hx
    obtain ⟨w, hw⟩ := List.exists_mem_of_ne_nil _ (d1.2 _ hx)
    have hwc := hmem w (List.mem_flatMap.2 ⟨(x, k), hx, hw⟩)
    subst hwc
    have he := hexp x k hx w hw
    refine ⟨?_, he⟩
    rcases hF.lot.shape x (d3 x k hx).1 with st | ⟨q, hq, rfl⟩
    · exact st
    · exfalso
      have hon := hG.ghost_on hD hF hreal hq he
      obtain ⟨m1, m2⟩ := mem_pairs hq
      have hgh : GhostTri g (overSide g q) := by
        refine ⟨hF.lot.real _ m2, hF.lot.real _ m1, ?_, rfl⟩
        intro e
        simp only at e
        exact hF.poly.proper q hq (by rw [e]; exact ⟨rfl, rfl⟩)
      have := (free_inside_ghost f hF.lot.ghost hgh w).1 ((d3 _ k hx).2 w hw).1
      have h0 := onSegment_cross hon
      simp only at this
      rw [cross_swap] at this
      linarith
  have hsee : ∀ x k, (x, k) ∈ d.1 → Seer l m.tris c x := fun x k hx =>
    hG.solid_sees hD hF hreal (d3 x k hx).1 (hsolid x k hx).1 (hsolid x k hx).2
  obtain ⟨hrun, hend⟩ := solveLoop_run hsolve
  have hlist : d.1.flat ++ ([] : List (Vertex K)) = d.1.flat := List.append_nil _
  have hlen : d.1.flat.length ≤ 1 := by
    have := d2.length_eq
    simp [CMap.flat] at this ⊢
    omega
  have hsub : ∀ w ∈ d.1.flat, ∃ x, Seer l m.tris c x ∧ w = c := by
    intro w hw
    obtain ⟨⟨x, k⟩, hx, -⟩ := List.mem_flatMap.1 hw
    exact ⟨x, hsee x k hx, hmem w hw⟩
  have hsep : SepOn (geoRPreds 0 f dist p (some b) []).toPreds.veq (Usual g) := usual_sep hF.lot.ghost f
  have hl : Legit (geoRPreds 0 f dist p (some b) []).toPreds (Usual g) ⟨m, d.1, [], [], []⟩ := by
    refine ⟨hs, fun _ => hc, d1, fun x k hx => (d3 x k hx).1, fun x k hx => (d3 x k hx).2, ?_, ?_, ?_,
      fun x hx y hy => hF.usual hx hy, List.nodup_nil, List.nodup_nil⟩
    · simp only [hlist]
      match d.1.flat, hlen with
      | [], _ => exact List.nodup_nil
      | [_], _ => exact List.nodup_singleton _
      | _ :: _ :: _, hh => simp at hh
    · intro w hw
      simp only [hlist] at hw
      obtain ⟨x, hx, rfl⟩ := hsub w hw
      exact hG.fresh hD hF hreal hx
    · intro w hw
      simp only [hlist] at hw
      obtain ⟨x, hx, rfl⟩ := hsub w hw
      exact Or.inl hreal
  rcases single_run hsep hl hF.simple (by simpa [hlist] using hlen) hrun with rfl |
    ⟨-, hl', ⟨v, L, O, R, Z, hvf, hI⟩, τ, hτ⟩
  · have he0 : enc = [] := by
      rw [List.eq_nil_iff_forall_not_mem]
      intro e he
      obtain ⟨⟨x, hx, -⟩, -⟩ := (mem_findEncroachments henc e).1 he
      simp at hx
    rw [if_pos he0] at h
    simp only [Res.ok.injEq] at h
    rw [← h]
    exact .inserted hP (Retains.refl _)
  have hvc : v = c := hmem v hvf
  subst hvc
  have hRS : ∀ x ∈ R, Seer l m.tris v x := by
    intro x hx
    refine solveStep_reach hsep hl hF.simple rfl (Q := Seer l m.tris v) ?_ hsee hτ x ((hI.rem x).2 (Or.inr hx))
    intro w hw y hy hSy e hye hnc t' ht' hte' hexp'
    obtain ⟨-, -, rfl⟩ := hsub w hw
    rcases hF.lot.shape t' ht' with st' | ⟨q, hq, rfl⟩
    · exact hG.solid_sees hD hF hreal ht' st' hexp'
    · exfalso
      obtain ⟨-, -, q1, q2, -⟩ := hSy.solid.side hye
      have hgn : ∀ {z : Vertex K}, z.isGhost = false → z ≠ g := by
        rintro z hz rfl
        rw [hF.lot.ghost] at hz; simp at hz
      apply hnc
      right
      apply hW
      rcases hte' with ⟨k1, k2⟩ | ⟨k1, k2⟩ | ⟨k1, k2⟩ <;> simp only [Edge.opposite] at k1 k2
      · unfold Wall
        rw [k1, k2]
        exact hq
      · exact absurd k2 (hgn q1)
      · exact absurd k1 (hgn q2)
  have hcav := hI.cav
  have hfr : Fresh m.tris v := hI.fresh
  have hLedge : ∀ e ∈ L, ∃ x ∈ R, IsSide x e ∧ e.v1.isGhost = false ∧ e.v2.isGhost = false := by
    intro e he
    obtain ⟨x, hx, hxe⟩ := hcav.mem_side_old (by simpa using he : e ∈ [] ++ L)
    obtain ⟨-, -, q1, q2, -⟩ := (hRS x hx).solid.side hxe
    exact ⟨x, hx, hxe, q1, q2⟩
  have hopp : ∀ e ∈ L, (newTri (geoRPreds 0 f dist p (some b) []).ghost e v).oppositeEdge
      (geoRPreds 0 f dist p (some b) []).veq v = some e := by
    intro e he
    obtain ⟨x, hx, hxe, q1, q2⟩ := hLedge e he
    have hn : newTri (geoRPreds 0 f dist p (some b) []).ghost e v = ⟨e.v1, e.v2, v⟩ := newTri_real q1 q2
    obtain ⟨n1, n2⟩ := hfr.ends (mem_sides.2 ⟨x, hcav.mem_R hx, hxe⟩)
    have e1 : (geoRPreds 0 f dist p (some b) []).veq v e.v1 ≠ true := fun hh =>
      real_ne hreal q1 n1.symm ((eqv_zero hreal q1).1 hh)
    have e2 : (geoRPreds 0 f dist p (some b) []).veq v e.v2 ≠ true := fun hh =>
      real_ne hreal q2 n2.symm ((eqv_zero hreal q2).1 hh)
    have e3 : (geoRPreds 0 f dist p (some b) []).veq v v = true := (eqv_zero hreal hreal).2 ⟨rfl, rfl⟩
    rw [hn]
    simp [Tri.oppositeEdge, e1, e2, e3]
  have hinc : ∀ x, x ∈ s.included ↔ ∃ e ∈ L, x = newTri (geoRPreds 0 f dist p (some b) []).ghost e v := by
    intro x
    rw [hI.inc]
    simp
  have hremv : ∀ x, x ∈ s.removed ↔ x ∈ R := by
    intro x
    rw [hI.rem]
    simp
  have hencL : ∀ e ∈ enc, e ∈ L ∧ Constrained C e := by
    intro e he
    obtain ⟨⟨x, hx, hxe⟩, hce, -⟩ := (mem_findEncroachments henc e).1 he
    obtain ⟨e', he', rfl⟩ := (hinc x).1 hx
    rw [hopp e' he'] at hxe
    injection hxe with hxe
    subst hxe
    exact ⟨he', hce.symm⟩
  by_cases hne : enc = []
  · rw [if_pos hne] at h
    simp only [Res.ok.injEq] at h
    rw [← h]
    refine .inserted ?_ (hI.retains rfl)
    obtain ⟨x0, hx0⟩ := List.exists_mem_of_ne_nil _ hI.nonempty
    have hin : ¬ Beyond b.vertices v := hG.solid_in hD hF hreal (hRS x0 hx0).solid (hcav.exp x0 hx0)
    have hins : InsidePolygon b.vertices v := by
      rw [← hD.inside]
      rw [← hD.beyond] at hin
      have hoff : ∀ q ∈ pairs l false, ¬ OnSegment q.1 q.2 v := by
        intro q hq hon
        obtain ⟨y, hy, sy, hyq⟩ := hF.lot.side (simplePolygon_back hF.poly) hq
        obtain ⟨m1, m2⟩ := mem_pairs hq
        obtain ⟨n1, n2⟩ := hfr.ends (mem_sides.2 ⟨y, hy, hyq⟩)
        have hst : StrictlyOn q.1 q.2 v :=
          ⟨hon, real_ne (hF.lot.real _ m1) hreal n1, real_ne (hF.lot.real _ m2) hreal n2⟩
        obtain ⟨x, hx, -, hxw⟩ := hG.hole_wall hD hF hreal (w := ⟨q.1, q.2⟩) hq hst hCA hcav (hRS x0 hx0) hx0
        have hCw : (⟨q.1, q.2⟩ : Edge (Vertex K)) ∈ C := hW _ hq
        have hwL : (⟨q.1, q.2⟩ : Edge (Vertex K)) ∈ L := by
          by_contra hn
          exact (hcav.crossed hF.simple hx hxw (by simpa using hn) (hF.lot.border _ hq) (Or.inl ⟨rfl, rfl⟩)).2.2
            (Or.inr hCw)
        have : (⟨q.1, q.2⟩ : Edge (Vertex K)) ∈ enc := by
          rw [mem_findEncroachments henc]
          refine ⟨⟨_, (hinc _).2 ⟨_, hwL, rfl⟩, hopp _ hwL⟩, Or.inl hCw, ?_⟩
          rw [geo_encroaches_iff, (C04_exact _ _ _).1]
          exact strictlyOn_encroaches hst
        rw [hne] at this
        simp at this
      exact ⟨hoff, fun h0 => hin ⟨hoff, h0⟩⟩
    have hfit := hF.fill rfl hcav hfr (hG.pit hD hF hreal hins hCA hcav)
    exact ⟨hD, hfit, hl'.sound, hl'.complete hfit.simple⟩
  · rw [if_neg hne] at h
    simp only [Res.ok.injEq] at h
    rw [← h]
    obtain ⟨hp, ha⟩ := rollback_spec hF.simple hs hc hfr hcav (inc := shuffle (σ.sub 2) s.included)
      (rem := shuffle (σ.sub 3) s.removed) (fun x => by rw [mem_shuffle]; exact hinc x)
      (fun x => by rw [mem_shuffle]; exact hremv x)
    refine .rejected (hP.undo hp ha) hp ?_ ?_
    · unfold findEncroachments at henc
      rw [Res.bind_eq_ok] at henc
      obtain ⟨l0, -, henc⟩ := henc
      simp only [Res.ok.injEq] at henc
      rw [← henc]
      exact nodup_toSet _
    · intro e he
      obtain ⟨k1, k2⟩ := hencL e he
      obtain ⟨x, hx, hxe, -⟩ := hLedge e k1
      exact (hCA e k2).wall hD hF (hcav.mem_R hx) (hRS x hx).solid hxe

end

end Verif
