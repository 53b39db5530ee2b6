import Verif.Lemmas.ConvexPolygon

/-!
# Two vertices beside the first segment are always inserted, and the sides of quadrilaterals
-/

set_option linter.unusedSectionVars false

namespace Verif

open Spec Props

variable {K : Type*} [Field K] [LinearOrder K] [IsStrictOrderedRing K]

section

variable {g : Vertex K} {T : List (Tri (Vertex K))}

/-- If no further triangle joins the cavity, the points that are left are outside all new triangles. -/
theorem Good.cavity_plain (hT : Good g T) {f : Nat} {v : Vertex K} (hv : v.isGhost = false) (hfr : Fresh T v)
    {S : Vertex K → Prop} (hsep : SepOn (freePreds (K := K) f).veq S)
    (hS : ∀ t ∈ T, ∀ x, IsCorner t x → S x) {n : Nat} {inc0 rem0 : List (Tri (Vertex K))} {W : List (Vertex K)}
    {s s' : SolveState (Vertex K)} {B L Z : List (Edge (Vertex K))} {O R : List (Tri (Vertex K))}
    (h : CavInv (freePreds f) [] v T s.mesh B L O R Z) (hb : Book (freePreds f) v inc0 rem0 W s L R)
    (hO : ∀ t ∈ O, ¬ Conf v t) (hr : cavityLoop (freePreds f) [] v n B s = .ok s') :
    ∃ L', CavInv (freePreds f) [] v T s'.mesh [] L' O R Z ∧ (∀ l, l ∈ L' ↔ l ∈ B ∨ l ∈ L) ∧
      (∀ w ∈ s'.remaining, w ∈ s.remaining) ∧
      ∀ w ∈ s'.remaining, ∀ e ∈ B, (freePreds f).inside (newTri Vertex.isGhost e v) w ≠ true := by
  induction n generalizing s B L with
  | zero =>
    cases B with
    | nil =>
      simp only [cavityLoop, Res.ok.injEq] at hr
      subst hr
      exact ⟨L, h, by simp, fun w hw => hw, by simp⟩
    | cons e B => simp [cavityLoop] at hr
  | succ n ih =>
    cases B with
    | nil =>
      simp only [cavityLoop, Res.ok.injEq] at hr
      subst hr
      exact ⟨L, h, by simp, fun w hw => hw, by simp⟩
    | cons e B =>
      rw [cavityLoop, Res.bind_eq_ok] at hr
      obtain ⟨r, hstep, hr⟩ := hr
      have key : r.1 = [] ∧ distribute (freePreds f) (newTri Vertex.isGhost e v) s.cmap s.remaining =
          .ok (r.2.cmap, r.2.remaining) := by
        have hstep' := hstep
        unfold cavityStep at hstep'
        cases hadj : s.mesh.adj e.opposite with
        | none => rw [hadj] at hstep'; cases hstep'
        | some t =>
          rw [hadj] at hstep'
          simp only [free_may, Res.bind_ok] at hstep'
          obtain ⟨-, hfound⟩ := h.found hT.simple hfr List.mem_cons_self hadj
          have htO : t ∈ O := hfound.resolve_right (by simp [Constrained])
          split_ifs at hstep' with hcond
          · exfalso
            have hexp : Expandable (freePreds f) v t := by
              simp only [Bool.and_eq_true] at hcond
              exact ⟨hcond.1.1, rfl⟩
            exact hO t htO ((hT.expandable_iff f (h.mem_O htO) hv (vx_of_fresh hfr)).1 hexp)
          · rw [Res.bind_eq_ok] at hstep'
            obtain ⟨q, hq, hstep'⟩ := hstep'
            simp only [Res.ok.injEq] at hstep'
            subst hstep'
            exact ⟨rfl, hq⟩
      obtain ⟨-, -, d3, d4, -⟩ := distribute_spec hb.wf key.2
      simp only at d3 d4
      rcases cavityStep_inv h hb hT.simple hfr hsep hS hstep with ⟨t, ht, -, -, k3⟩ | ⟨k0, k1, k2⟩
      · rw [key.1] at k3
        simp at k3
      · rw [k0] at hr
        obtain ⟨L', j1, j2, j3, j4⟩ := ih k1 k2 hr
        refine ⟨L', j1, fun l => ?_, fun w hw => d3.subset (j3 w hw), fun w hw e' he' => ?_⟩
        · rw [j2 l]
          simp only [List.mem_cons]
          tauto
        · rcases List.mem_cons.1 he' with rfl | he'
          · exact fun k => d4 w (j3 w hw) ⟨k, rfl⟩
          · exact j4 w hw e' he'

/-- The first vertex, inserted beside a segment: no other vertex is lost. -/
theorem Nice.first {f fuel : Nat} {s : SolveState (Vertex K)} (h : Nice g f s) (hne : s.cmap ≠ []) {a b : Vertex K}
    (hT0 : ∀ t ∈ s.mesh.tris, t = ⟨a, b, g⟩ ∨ t = ⟨b, a, g⟩)
    (hrem : ∀ w ∈ s.remaining, ∀ t ∈ s.mesh.tris, (freePreds f).inside t w ≠ true) {σ : Sched} {s' : SolveState (Vertex K)}
    (hN' : Nice g f s') (hsol : ∃ t ∈ s'.mesh.tris, SolidTri t)
    (hs' : solveStep (freePreds f) [] fuel σ s = .ok s') : s'.remaining = [] := by
  have hT := h.good
  have hsep := usual_sep hT.ghost f
  have hleg := h.legit
  unfold solveStep at hs'
  cases hch : choose σ s.cmap with
  | none => exact absurd (choose_eq_none.1 hch) hne
  | some p =>
    obtain ⟨t0, k0⟩ := p
    rw [hch] at hs'
    simp only at hs'
    have hmem := choose_mem hch
    cases hvl : k0.getLast? with
    | none => rw [hvl] at hs'; cases hs'
    | some v =>
      rw [hvl] at hs'
      simp only at hs'
      obtain ⟨hflat, hcav, W, hW, hbook⟩ := solveStep_open hleg hT.simple hmem hvl []
      have hfr := hleg.pendF v (List.mem_append.2 (Or.inl hflat))
      have hv := h.real v (List.mem_append.2 (Or.inl hflat))
      have ht0 := hleg.keys t0 k0 hmem
      have ghost : ∀ t ∈ s.mesh.tris, GhostTri g t := by
        intro t ht
        rcases hT.shape t ht with k | k
        · rcases hT0 t ht with rfl | rfl <;> exact absurd k.r3 (by simp [hT.ghost])
        · exact k
      have hin0 : ∀ w ∈ k0, 0 < cross t0.v1 t0.v2 w := fun w hw =>
        (free_inside_ghost f hT.ghost (ghost _ ht0) w).1 (hleg.bucket t0 k0 hmem w hw).1
      have other : ∀ t ∈ s.mesh.tris.erase t0, t.v1 = t0.v2 ∧ t.v2 = t0.v1 := by
        intro t ht
        have hne := (hT.simple.nodup.mem_erase_iff.1 ht).1
        rcases hT0 t (List.mem_of_mem_erase ht) with e | e <;> rcases hT0 t0 ht0 with e0 | e0
        · exact absurd (e.trans e0.symm) hne
        · rw [e, e0]; exact ⟨rfl, rfl⟩
        · rw [e, e0]; exact ⟨rfl, rfl⟩
        · exact absurd (e.trans e0.symm) hne
      have swap : ∀ t ∈ s.mesh.tris.erase t0, ∀ w, cross t.v1 t.v2 w = -cross t0.v1 t0.v2 w := by
        intro t ht w
        obtain ⟨e1, e2⟩ := other t ht
        rw [e1, e2, cross_swap]
      have hO : ∀ t ∈ s.mesh.tris.erase t0, ¬ Conf v t := by
        intro t ht ct
        have hp := hin0 v (List.mem_of_getLast? hvl)
        have e := swap t ht v
        rcases (conf_ghost hT.ghost (ghost t (List.mem_of_mem_erase ht))).1 ct with k | k
        · linarith
        · have := k.1
          linarith
      obtain ⟨L', j1, j2, j3, j4⟩ := hT.cavity_plain hv hfr hsep hleg.meshS hcav hbook hO hs'
      rw [List.eq_nil_iff_forall_not_mem]
      intro w hw
      have hfw := hN'.legit.pendF w (List.mem_append.2 (Or.inr hw))
      obtain ⟨t1, ht1, hsol1⟩ := hsol
      obtain ⟨t, ht, hin⟩ := hN'.good.exists_inside ht1 hsol1 f (hN'.real w (List.mem_append.2 (Or.inr hw))) (vx_of_fresh hfw)
      rcases List.mem_append.1 (j1.now.mem_iff.1 ht) with k | k
      · obtain ⟨l, hl, rfl⟩ := List.mem_map.1 k
        rcases (j2 l).1 hl with k | k
        · exact j4 w hw l k hin
        · simp at k
      · have hw0 := j3 w hw
        simp only [openCavity] at hw0
        rcases List.mem_append.1 hw0 with q | q
        · exact hrem w q t (List.mem_of_mem_erase k) hin
        · have h1 := hin0 w (List.mem_of_mem_dropLast q)
          have h2 := (free_inside_ghost f hT.ghost (ghost t (List.mem_of_mem_erase k)) w).1 hin
          rw [swap t k] at h2
          linarith

end

/-- Two vertices, one of them beside the first segment, are inserted. -/
theorem two_inserted {f fuel : Nat} {σ : Sched} {g a b : Vertex K} {vs : List (Vertex K)} (hg : g.isGhost = true)
    (ha : a.isGhost = false) (hb : b.isGhost = false) (hab : a ≠ b) (hn : vs.Nodup) (hreal : ∀ v ∈ vs, v.isGhost = false)
    (htwo : (vs.filter fun v => decide (v ≠ a ∧ v ≠ b)).length ≤ 2) (hoff : ∃ v ∈ vs, cross a b v ≠ 0)
    (hf : 4 * vs.length + 7 ≤ fuel) {r : SolveState (Vertex K)}
    (h : includeVertices (freePreds f) [] fuel σ (Mesh.fromInitialSegment g a b) vs = .ok r) :
    r.remaining = [] := by
  have hd := Props.C19_segment hg ha hb hab
  have hsim := hd.simple.edgeDisjoint
  have hlen : (Mesh.fromInitialSegment g a b).tris.length ≤ 2 := by
    simp [Mesh.fromInitialSegment, Mesh.add, Mesh.include, Mesh.empty, hab.symm]
  have hcomp : AdjComplete (Mesh.fromInitialSegment g a b) := by
    refine adjComplete_add (adjComplete_add adjComplete_empty ?_) hsim
    intro t ht s hs e h1 h2
    simp [Mesh.add, Mesh.include, Mesh.empty] at ht hs
    rw [ht, hs]
  have hall : ∀ t ∈ (Mesh.fromInitialSegment g a b).tris, t = ⟨a, b, g⟩ ∨ t = ⟨b, a, g⟩ := by
    intro t ht
    have : t = ⟨b, a, g⟩ ∨ t = ⟨a, b, g⟩ := by simpa [Mesh.fromInitialSegment, mem_add, Mesh.empty] using ht
    exact this.symm
  have hmem : ∀ t, t = ⟨a, b, g⟩ ∨ t = ⟨b, a, g⟩ → t ∈ (Mesh.fromInitialSegment g a b).tris := by
    rintro t (rfl | rfl)
    · exact mem_add.2 (Or.inr (mem_add.2 (Or.inl rfl)))
    · exact mem_add.2 (Or.inl rfl)
  have gab : GhostTri g (⟨a, b, g⟩ : Tri (Vertex K)) := ⟨ha, hb, hab, rfl⟩
  have gba : GhostTri g (⟨b, a, g⟩ : Tri (Vertex K)) := ⟨hb, ha, hab.symm, rfl⟩
  obtain ⟨s0, h0, hrun⟩ : ∃ s0, startState (freePreds f) σ (Mesh.fromInitialSegment g a b) vs = .ok s0 ∧
      solveLoop (freePreds f) [] fuel fuel (σ.sub 1) s0 = .ok r := by
    unfold includeVertices at h
    rw [Res.bind_eq_ok] at h
    obtain ⟨q, hq, h⟩ := h
    refine ⟨⟨_, q.1, q.2, [], []⟩, ?_, h⟩
    unfold startState
    rw [hq]; rfl
  have hN := start_nice (fromInitialSegment_sound _ _ _) hcomp hd hn hreal h0
  obtain ⟨hm, -, -, -, k5, k6, k7⟩ := startState_spec h0
  have hcount : (s0.cmap.flat ++ s0.remaining).length ≤ 2 := by
    rw [k5.length_eq]
    refine le_trans (List.Sublist.length_le ?_) htwo
    refine List.monotone_filter_right vs fun v hv => ?_
    simp only [Bool.not_eq_true', decide_eq_false_iff_not] at hv
    simp only [decide_eq_true_eq]
    constructor
    · rintro rfl
      exact hv (mem_vertices.2 ⟨⟨_, hmem _ (Or.inl rfl), Or.inl rfl⟩, ha⟩)
    · rintro rfl
      exact hv (mem_vertices.2 ⟨⟨_, hmem _ (Or.inr rfl), Or.inl rfl⟩, hb⟩)
  have hne : s0.cmap ≠ [] := by
    intro hc
    obtain ⟨v, hv, hcr⟩ := hoff
    have hva : v ≠ a := by rintro rfl; exact hcr (by simp only [cross]; ring)
    have hvb : v ≠ b := by rintro rfl; exact hcr (by simp only [cross]; ring)
    have hvr : v ∈ s0.remaining := by
      have := k5.mem_iff.2 (List.mem_filter.2 ⟨hv, by
        simp only [Bool.not_eq_true', decide_eq_false_iff_not]
        intro hx
        obtain ⟨⟨t, ht, hcor⟩, hvg⟩ := mem_vertices.1 hx
        have hvg' : v ≠ g := ghost_ne (hreal v hv) hg
        rcases hall t ht with rfl | rfl <;> rcases hcor with e | e | e <;> simp_all⟩)
      rw [hc] at this
      simpa [CMap.flat] using this
    rcases lt_or_gt_of_ne hcr with k | k
    · refine k7 v hvr _ (hmem _ (Or.inr rfl)) ⟨(free_inside_ghost f hg gba v).2 ?_, rfl⟩
      simp only
      rw [cross_swap]; linarith
    · exact k7 v hvr _ (hmem _ (Or.inl rfl)) ⟨(free_inside_ghost f hg gab v).2 k, rfl⟩
  obtain ⟨n, rfl⟩ : ∃ n, fuel = n + 1 + 1 := ⟨fuel - 2, by omega⟩
  rw [solveLoop, if_neg hne] at hrun
  obtain ⟨s1, h1, n1, sol1, v, L, O, R, Z, -, hi⟩ := hN.step hne (fuel := n + 1 + 1) (by rw [hm]; omega) ((σ.sub 1).sub 0)
  rw [h1, Res.bind_ok, solveLoop] at hrun
  have r1 : s1.remaining = [] := hN.first hne (by rw [hm]; exact hall)
    (fun w hw t ht hin => k7 w hw t (by rw [hm] at ht; exact ht) ⟨hin, rfl⟩) n1 sol1 h1
  have p1 := hi.pend.length_eq
  simp only [List.length_cons] at p1
  split_ifs at hrun with hc1
  · simp only [Res.ok.injEq] at hrun
    rw [← hrun]
    exact r1
  · have hlen1 := hi.length
    have hpos : 0 < vs.length := List.length_pos_of_mem hoff.choose_spec.1
    obtain ⟨s2, h2, n2, -, v', L', O', R', Z', -, hi'⟩ := n1.step hc1 (fuel := n + 1 + 1) (by rw [hm] at hlen1; omega)
      (((σ.sub 1).sub 1).sub 0)
    rw [h2, Res.bind_ok] at hrun
    have p2 := hi'.pend.length_eq
    simp only [List.length_cons] at p2
    have p3 : s2.cmap.flat ++ s2.remaining = [] := List.length_eq_zero_iff.1 (by omega)
    obtain ⟨q1, q2⟩ := List.append_eq_nil_iff.1 p3
    have hc2 : s2.cmap = [] := by
      by_contra hne
      obtain ⟨p, hp⟩ := List.exists_mem_of_ne_nil _ hne
      obtain ⟨w, hw⟩ := List.exists_mem_of_ne_nil _ (n2.legit.wf.2 p hp)
      have : w ∈ s2.cmap.flat := List.mem_flatMap.2 ⟨p, hp, hw⟩
      rw [q1] at this
      simp at this
    have : solveLoop (freePreds f) [] (n + 1 + 1) n ((σ.sub 1).sub 1 |>.sub 1) s2 = .ok s2 := by
      cases n with
      | zero => simp [solveLoop, hc2]
      | succ n => rw [solveLoop, if_pos hc2]
    rw [this] at hrun
    simp only [Res.ok.injEq] at hrun
    rw [← hrun]
    exact q2

/-- A chord with one point on each side: there is a free circle if the four points are ordered suitably. -/
theorem freeChord_of_two {l : List (Vertex K)} {c d p q : Vertex K} (hp : 0 < cross c d p) (hq : cross c d q < 0)
    (hdet : 0 < ((p.x - c.x) * (p.x - d.x) + (p.y - c.y) * (p.y - d.y)) * -cross c d q +
      ((q.x - c.x) * (q.x - d.x) + (q.y - c.y) * (q.y - d.y)) * cross c d p)
    (hl : ∀ r ∈ l, r = c ∨ r = d ∨ r = p ∨ r = q) : FreeChord l c d := by
  -- the centres on the bisector
  let o : K → Vertex K := fun s => ⟨(c.x + d.x) / 2 + s * (d.y - c.y), (c.y + d.y) / 2 - s * (d.x - c.x), false⟩
  have hd : ∀ s r, dist2 (o s) r - dist2 (o s) c =
      (r.x - c.x) * (r.x - d.x) + (r.y - c.y) * (r.y - d.y) + 2 * s * cross c d r := by
    intro s r
    simp only [o, dist2, cross]; ring
  generalize hP : (p.x - c.x) * (p.x - d.x) + (p.y - c.y) * (p.y - d.y) = P at hdet
  generalize hQ : (q.x - c.x) * (q.x - d.x) + (q.y - c.y) * (q.y - d.y) = Q at hdet
  generalize hα : cross c d p = α at hp hdet
  generalize hβ : cross c d q = β at hq hdet
  -- between the two bounds
  refine ⟨o ((-P / (2 * α) + Q / (2 * -β)) / 2), by simp only [o, dist2]; ring, fun r hr h1 h2 => ?_⟩
  have lt : -P / (2 * α) < Q / (2 * -β) := by
    rw [div_lt_div_iff₀ (by linarith) (by linarith)]
    nlinarith
  rcases hl r hr with rfl | rfl | rfl | rfl
  · exact absurd rfl h1
  · exact absurd rfl h2
  · have e := hd ((-P / (2 * α) + Q / (2 * -β)) / 2) r
    rw [hP, hα] at e
    have : -P / (2 * α) < (-P / (2 * α) + Q / (2 * -β)) / 2 := by linarith
    have := mul_lt_mul_of_pos_right this (show 0 < 2 * α by linarith)
    rw [div_mul_cancel₀ _ (by linarith)] at this
    linarith
  · have e := hd ((-P / (2 * α) + Q / (2 * -β)) / 2) r
    rw [hQ, hβ] at e
    have : (-P / (2 * α) + Q / (2 * -β)) / 2 < Q / (2 * -β) := by linarith
    have := mul_lt_mul_of_pos_right this (show 0 < 2 * -β by linarith)
    rw [div_mul_cancel₀ _ (by linarith)] at this
    linarith

/-- A chord with two points on the left, one of which may be on the line, outside the chord. -/
theorem freeChord_of_line {l : List (Vertex K)} {c d p q : Vertex K} (hp : 0 < cross c d p) (hq : cross c d q = 0)
    (hout : 0 < (q.x - c.x) * (q.x - d.x) + (q.y - c.y) * (q.y - d.y))
    (hl : ∀ r ∈ l, r = c ∨ r = d ∨ r = p ∨ r = q) : FreeChord l c d := by
  let o : K → Vertex K := fun s => ⟨(c.x + d.x) / 2 + s * (d.y - c.y), (c.y + d.y) / 2 - s * (d.x - c.x), false⟩
  have hd : ∀ s r, dist2 (o s) r - dist2 (o s) c =
      (r.x - c.x) * (r.x - d.x) + (r.y - c.y) * (r.y - d.y) + 2 * s * cross c d r := by
    intro s r
    simp only [o, dist2, cross]; ring
  generalize hP : (p.x - c.x) * (p.x - d.x) + (p.y - c.y) * (p.y - d.y) = P
  generalize hα : cross c d p = α at hp
  refine ⟨o ((1 - P) / (2 * α)), by simp only [o, dist2]; ring, fun r hr h1 h2 => ?_⟩
  rcases hl r hr with rfl | rfl | rfl | rfl
  · exact absurd rfl h1
  · exact absurd rfl h2
  · have e := hd ((1 - P) / (2 * α)) r
    rw [hP, hα] at e
    have : (1 - P) / (2 * α) * (2 * α) = 1 - P := div_mul_cancel₀ _ (by linarith)
    linarith
  · have e := hd ((1 - P) / (2 * α)) r
    rw [hq] at e
    linarith

/-- Two sides that straddle each other have a common point. -/
theorem straddle {b c d a : Vertex K} (h1 : 0 < cross b c a) (h2 : cross b c d ≤ 0) (h3 : 0 < cross d a b)
    (h4 : cross d a c ≤ 0) : ∃ q, OnSegment b c q ∧ OnSegment d a q := by
  have hk : 0 < cross b c a - cross b c d := by linarith
  have hj : 0 < cross d a b - cross d a c := by linarith
  refine ⟨⟨b.x + cross d a b / (cross d a b - cross d a c) * (c.x - b.x),
    b.y + cross d a b / (cross d a b - cross d a c) * (c.y - b.y), false⟩, ?_, ?_⟩
  · exact ⟨cross d a b / (cross d a b - cross d a c), div_nonneg h3.le hj.le, (div_le_one hj).2 (by linarith), rfl, rfl⟩
  · refine ⟨-cross b c d / (cross b c a - cross b c d), div_nonneg (by linarith) hk.le, (div_le_one hk).2 (by linarith), ?_, ?_⟩
    · field_simp
      simp only [cross]; ring
    · field_simp
      simp only [cross]; ring

/-- The sides of a quadrilateral with a corner that is not convex. -/
theorem quad_free {a b c d : Vertex K} (hab : 0 < cross a b c) (hbc : 0 < cross b c d) (hda : 0 < cross d a b)
    (hcd : cross c d a ≤ 0) {l : List (Vertex K)} (hl : ∀ r ∈ l, r = a ∨ r = b ∨ r = c ∨ r = d) :
    FreeChord l a b ∧ FreeChord l b c ∧ FreeChord l c d ∧ FreeChord l d a := by
  have e1 : cross a b d = cross d a b := by simp only [cross]; ring
  have e2 : cross b c a = cross a b c := by simp only [cross]; ring
  have hcb : 0 < cross c d b := by
    have : cross c d b = cross b c d := by simp only [cross]; ring
    linarith
  have hdc : cross d a c = cross c d a := by simp only [cross]; ring
  have same : ∀ {u v w : Vertex K}, SamePoint u v → cross u v w = 0 := fun h => by
    simp only [cross, h.1, h.2]; ring
  have key : 0 < circleDet a b c d := by
    refine circleDet_inside hab (by linarith) hbc.le ?_ (fun h => ?_) (fun h => ?_) (fun h => ?_)
    · have : cross c a d = -cross c d a := by simp only [cross]; ring
      linarith
    · have := same (w := b) h
      linarith
    · have := same (w := c) h
      have e : cross d b c = cross b c d := by simp only [cross]; ring
      linarith
    · have := same (w := b) h
      have e : cross d c b = -cross b c d := by simp only [cross]; ring
      linarith
  have hac : 0 < (a.x - c.x) ^ 2 + (a.y - c.y) ^ 2 := by
    have n1 := sq_nonneg (a.x - c.x)
    have n2 := sq_nonneg (a.y - c.y)
    rcases (add_nonneg n1 n2).lt_or_eq with k | k
    · exact k
    · have z1 : a.x - c.x = 0 := by
        have : (a.x - c.x) ^ 2 = 0 := by linarith
        exact pow_eq_zero_iff (two_ne_zero) |>.1 this
      have z2 : a.y - c.y = 0 := by
        have : (a.y - c.y) ^ 2 = 0 := by linarith
        exact pow_eq_zero_iff (two_ne_zero) |>.1 this
      have := same (u := c) (v := a) (w := b) ⟨by linarith, by linarith⟩
      have e : cross c a b = cross a b c := by simp only [cross]; ring
      linarith
  refine ⟨freeChord_of_left fun r hr h1 h2 => ?_, freeChord_of_left fun r hr h1 h2 => ?_, ?_, ?_⟩
  · rcases hl r hr with rfl | rfl | rfl | rfl
    exacts [absurd rfl h1, absurd rfl h2, hab, by linarith]
  · rcases hl r hr with rfl | rfl | rfl | rfl
    exacts [by linarith, absurd rfl h1, absurd rfl h2, hbc]
  · rcases hcd.lt_or_eq with k | k
    · refine freeChord_of_two hcb k ?_ fun r hr => by have := hl r hr; tauto
      have : circleDet a b c d = ((b.x - c.x) * (b.x - d.x) + (b.y - c.y) * (b.y - d.y)) * -cross c d a +
        ((a.x - c.x) * (a.x - d.x) + (a.y - c.y) * (a.y - d.y)) * cross c d b := by
        simp only [circleDet, det4, det3, cross]; ring
      linarith
    · refine freeChord_of_line hcb k ?_ fun r hr => by have := hl r hr; tauto
      have : cross a b c * ((a.x - c.x) * (a.x - d.x) + (a.y - c.y) * (a.y - d.y)) =
          cross d a b * ((a.x - c.x) ^ 2 + (a.y - c.y) ^ 2) - cross c d a * ((a.x - c.x) * (a.x - b.x) + (a.y - c.y) * (a.y - b.y)) := by
        simp only [cross]; ring
      rw [k, zero_mul, sub_zero] at this
      exact pos_of_mul_pos_right (by rw [this]; exact mul_pos hda hac) hab.le
  · rcases hcd.lt_or_eq with k | k
    · refine freeChord_of_two hda (by linarith : cross d a c < 0) ?_ fun r hr => by have := hl r hr; tauto
      have : circleDet a b c d = ((b.x - d.x) * (b.x - a.x) + (b.y - d.y) * (b.y - a.y)) * -cross d a c +
        ((c.x - d.x) * (c.x - a.x) + (c.y - d.y) * (c.y - a.y)) * cross d a b := by
        simp only [circleDet, det4, det3, cross]; ring
      linarith
    · refine freeChord_of_line hda (hdc.trans k) ?_ fun r hr => by have := hl r hr; tauto
      have : cross a b c * ((c.x - d.x) * (c.x - a.x) + (c.y - d.y) * (c.y - a.y)) =
          cross b c d * ((a.x - c.x) ^ 2 + (a.y - c.y) ^ 2) - cross c d a * ((c.x - a.x) * (c.x - b.x) + (c.y - a.y) * (c.y - b.y)) := by
        simp only [cross]; ring
      rw [k, zero_mul, sub_zero] at this
      exact pos_of_mul_pos_right (by rw [this]; exact mul_pos hbc hac) hab.le

/-- A corner of a simple quadrilateral that is not convex is between two convex ones. -/
theorem quad_corner {a b c d : Vertex K} (n1 : ∀ q, OnSegment a b q → ¬ OnSegment c d q)
    (n2 : ∀ q, OnSegment b c q → ¬ OnSegment d a q) (h1 : 0 < cross a b c + cross c d a) (hcd : cross c d a ≤ 0) :
    0 < cross a b c ∧ 0 < cross b c d ∧ 0 < cross d a b := by
  have h2 : cross a b c + cross c d a = cross b c d + cross d a b := by simp only [cross]; ring
  have e1 : cross b c a = cross a b c := by simp only [cross]; ring
  have e2 : cross d a c = cross c d a := by simp only [cross]; ring
  have e3 : cross c d b = cross b c d := by simp only [cross]; ring
  have e4 : cross a b d = cross d a b := by simp only [cross]; ring
  refine ⟨by linarith, ?_, ?_⟩
  · by_contra hn
    push Not at hn
    obtain ⟨q, q1, q2⟩ := straddle (b := b) (c := c) (d := d) (a := a) (by linarith) hn (by linarith) (by linarith)
    exact n2 q q1 q2
  · by_contra hn
    push Not at hn
    obtain ⟨q, q1, q2⟩ := straddle (b := c) (c := d) (d := a) (a := b) (by linarith) hcd (by linarith) (by linarith)
    exact n1 q q2 q1

/-- The sides of a simple quadrilateral are free. -/
theorem quad_sides {a b c d : Vertex K} (hs : SimplePolygon [a, b, c, d]) (ha : 0 < shoelace [a, b, c, d])
    {s : Vertex K × Vertex K} (hm : s ∈ pairs [a, b, c, d] false) : FreeChord [a, b, c, d] s.1 s.2 := by
  have hap := hs.apart
  have hpr := hs.proper
  simp only [pairs, consecutivePairs, List.getLast?, List.getLast, List.head?, List.cons_append, List.nil_append,
    Bool.false_eq_true, if_false, List.pairwise_cons, List.mem_cons, List.not_mem_nil, or_false, forall_eq_or_imp,
    forall_eq] at hap hpr hm
  obtain ⟨⟨-, k1, -⟩, ⟨-, k2⟩, -⟩ := hap
  obtain ⟨p1, p2, p3, p4⟩ := hpr
  have n1 : ∀ q, OnSegment a b q → ¬ OnSegment c d q := by
    intro q q1 q2
    rcases k1 q q1 q2 with ⟨⟨x1, y1⟩, x2, y2⟩ | ⟨⟨x1, y1⟩, x2, y2⟩
    · exact p2 ⟨x1.symm.trans x2, y1.symm.trans y2⟩
    · exact p4 ⟨x2.symm.trans x1, y2.symm.trans y1⟩
  have n2 : ∀ q, OnSegment b c q → ¬ OnSegment d a q := by
    intro q q1 q2
    rcases k2 q q1 q2 with ⟨⟨x1, y1⟩, x2, y2⟩ | ⟨⟨x1, y1⟩, x2, y2⟩
    · exact p3 ⟨x1.symm.trans x2, y1.symm.trans y2⟩
    · exact p1 ⟨x2.symm.trans x1, y2.symm.trans y1⟩
  have area : 2 * shoelace [a, b, c, d] = cross a b c + cross c d a := by
    simp only [shoelace, shoelaceFrom, cross]; ring
  have rot : cross a b c + cross c d a = cross b c d + cross d a b := by simp only [cross]; ring
  have n1' : ∀ q, OnSegment c d q → ¬ OnSegment a b q := fun q h k => n1 q k h
  have n2' : ∀ q, OnSegment d a q → ¬ OnSegment b c q := fun q h k => n2 q k h
  by_cases g1 : cross c d a ≤ 0
  · obtain ⟨c1, c2, c3⟩ := quad_corner n1 n2 (by linarith) g1
    obtain ⟨f1, f2, f3, f4⟩ := quad_free c1 c2 c3 g1 (l := [a, b, c, d]) (by simp)
    rcases hm with rfl | rfl | rfl | rfl
    exacts [f1, f2, f3, f4]
  by_cases g2 : cross d a b ≤ 0
  · obtain ⟨c1, c2, c3⟩ := quad_corner (a := b) (b := c) (c := d) (d := a) n2 n1' (by linarith) g2
    obtain ⟨f1, f2, f3, f4⟩ := quad_free c1 c2 c3 g2 (l := [a, b, c, d]) (by simp)
    rcases hm with rfl | rfl | rfl | rfl
    exacts [f4, f1, f2, f3]
  by_cases g3 : cross a b c ≤ 0
  · obtain ⟨c1, c2, c3⟩ := quad_corner (a := c) (b := d) (c := a) (d := b) n1' n2' (by linarith) g3
    obtain ⟨f1, f2, f3, f4⟩ := quad_free c1 c2 c3 g3 (l := [a, b, c, d]) (by simp)
    rcases hm with rfl | rfl | rfl | rfl
    exacts [f3, f4, f1, f2]
  by_cases g4 : cross b c d ≤ 0
  · obtain ⟨c1, c2, c3⟩ := quad_corner (a := d) (b := a) (c := b) (d := c) n2' n1 (by linarith) g4
    obtain ⟨f1, f2, f3, f4⟩ := quad_free c1 c2 c3 g4 (l := [a, b, c, d]) (by simp)
    rcases hm with rfl | rfl | rfl | rfl
    exacts [f2, f3, f4, f1]
  push Not at g1 g2 g3 g4
  have e1 : cross b c a = cross a b c := by simp only [cross]; ring
  have e2 : cross d a c = cross c d a := by simp only [cross]; ring
  have e3 : cross c d b = cross b c d := by simp only [cross]; ring
  have e4 : cross a b d = cross d a b := by simp only [cross]; ring
  rcases hm with rfl | rfl | rfl | rfl <;> refine freeChord_of_left fun r hr h1 h2 => ?_ <;>
    simp only [List.mem_cons, List.not_mem_nil, or_false] at hr <;> rcases hr with rfl | rfl | rfl | rfl <;>
    first
      | exact absurd rfl h1
      | exact absurd rfl h2
      | linarith

end Verif
