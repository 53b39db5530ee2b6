import Verif.Lemmas.ConvexFit

/-!
# Carving a hole out of a triangulated convex polygon
-/

set_option linter.unusedSectionVars false

namespace Verif

open Spec Props

variable {K : Type*} [Field K] [LinearOrder K] [IsStrictOrderedRing K]

section

variable {g : Vertex K} {T : List (Tri (Vertex K))} {l : List (Vertex K)} {S : List (Edge (Vertex K))}

/-- What is reached from the left of a polygon is inside. -/
theorem Edged.reach_inside (hT : Good g T) {s0 : Tri (Vertex K)} (hs0 : s0 ∈ T) (hsol0 : SolidTri s0)
    (hreal : ∀ v ∈ l, v.isGhost = false) (hE : Edged T l) (hs : SimplePolygon l) (hw : WindsOnce l)
    (hS : ∀ e, e ∈ S ↔ (e.v1, e.v2) ∈ pairs l false) {t : Tri (Vertex K)} (h : Reach T S t) :
    t ∈ T ∧ SolidTri t ∧ windingNumber (pairs l false) (middle t) = 1 := by
  induction h with
  | @start t e h1 h2 h3 =>
    have hm := (hS e).1 h2
    obtain ⟨v1, v2⟩ := mem_pairs hm
    rcases hT.side_real h1 h3 ⟨hreal _ v1, hreal _ v2⟩ with ⟨k, -⟩ | ⟨k, k1, k2⟩
    · exact ⟨h1, k, (Edged.at_side hT hs0 hsol0 hreal hE hs hw hm h1 k).1 h3⟩
    · exfalso
      refine side_not_hull hs hw hm fun v hv => ?_
      simp only
      rw [k1, k2]
      exact (hT.hull t h1 k v (Edged.vertex hT hs0 hsol0 hreal hE hv)).1
  | @step r t e h1 h2 h3 h4 h5 ih =>
    obtain ⟨i1, i2, i3⟩ := ih
    have n1 : (e.v1, e.v2) ∉ pairs l false := fun h => h3 ((hS e).2 h)
    have n2 : (e.v2, e.v1) ∉ pairs l false := by
      intro h
      have := (Edged.at_side hT hs0 hsol0 hreal hE hs hw h i1 i2).2 h2
      omega
    obtain ⟨p, -, r1, r2, -⟩ := i2.side h2
    rcases hT.side_real h4 h5 ⟨r2, r1⟩ with ⟨k, -⟩ | ⟨k, k1, k2⟩
    · refine ⟨h4, k, ?_⟩
      rw [← Edged.same_side hT hs0 hsol0 hreal hE i1 h4 i2 k h2 h5 n1 n2]
      exact i3
    · exfalso
      simp only [Edge.opposite] at k1 k2
      have := Edged.hull_outside hT hs0 hsol0 hreal hE i1 i2 h4 k (by rw [← k1, ← k2]; exact h2)
        (by rw [← k1, ← k2]; exact n2) (by rw [← k1, ← k2]; exact n1)
      omega

theorem Edged.seals (hT : Good g T) {s0 : Tri (Vertex K)} (hs0 : s0 ∈ T) (hsol0 : SolidTri s0)
    (hreal : ∀ v ∈ l, v.isGhost = false) (hE : Edged T l) (hs : SimplePolygon l) (hw : WindsOnce l)
    (hS : ∀ e, e ∈ S ↔ (e.v1, e.v2) ∈ pairs l false) : Sealed g T S := by
  intro t ht
  obtain ⟨h1, h2, h3⟩ := Edged.reach_inside hT hs0 hsol0 hreal hE hs hw hS ht
  refine ⟨?_, fun e he ho => ?_⟩
  · have hg := hT.ghost
    rintro (k | k | k)
    · have := h2.r1; rw [← k, hg] at this; simp at this
    · have := h2.r2; rw [← k, hg] at this; simp at this
    · have := h2.r3; rw [← k, hg] at this; simp at this
  · have := (Edged.at_side hT hs0 hsol0 hreal hE hs hw ((hS _).1 ho) h1 h2).2 he
    omega

theorem winding_swap (L : List (Vertex K × Vertex K)) (w : Vertex K) :
    windingNumber (L.map fun s => (s.2, s.1)) w = -windingNumber L w := by
  unfold windingNumber
  rw [List.map_map]
  induction L with
  | nil => simp
  | cons s L ih =>
    simp only [List.map_cons, List.sum_cons, Function.comp] at ih ⊢
    rw [ih, crossingAbove_swap w s.1 s.2]
    ring

theorem outline_solid {Q : List (Tri (Vertex K))} (hQ : ∀ t ∈ Q, SolidTri t) : outline Q = [] := by
  unfold outline
  have : (Q.filter fun t => decide (HasGhost t)) = [] := by
    rw [List.filter_eq_nil_iff]
    intro t ht
    simpa using (hQ t ht).noGhost
  rw [this, List.flatMap_nil]

theorem outline_append (P Q : List (Tri (Vertex K))) : outline (P ++ Q) = outline P ++ outline Q := by
  unfold outline
  rw [List.filter_append, List.flatMap_append]

theorem outline_perm {P Q : List (Tri (Vertex K))} (h : P.Perm Q) : (outline P).Perm (outline Q) :=
  (h.filter _).flatMap_right _

theorem outline_ghosts (hg : g.isGhost = true) {L : List (Vertex K × Vertex K)}
    (hL : ∀ s ∈ L, s.1.isGhost = false ∧ s.2.isGhost = false) :
    outline ((L.map fun s => (⟨s.1, s.2⟩ : Edge (Vertex K))).map (ghostOn g)) = L.map fun s => (s.2, s.1) := by
  induction L with
  | nil => rfl
  | cons s L ih =>
    obtain ⟨h1, h2⟩ := hL s (by simp)
    have hh : HasGhost (ghostOn g (⟨s.1, s.2⟩ : Edge (Vertex K))) := hasGhost_last hg
    have ih' := ih fun t ht => hL t (by simp [ht])
    unfold outline at ih' ⊢
    rw [List.map_cons, List.map_cons, List.filter_cons_of_pos (by simpa using hh), List.flatMap_cons, ih']
    simp [ghostOn, h1, h2, hg]

/-- The triangulated polygon without the polygon `l`. -/
theorem Fit.hole_tiles {b : List (Vertex K)} {M M' : List (Tri (Vertex K))} (hF : Fit g b M) (hc : ConvexPolygon b)
    {sb : Vertex K × Vertex K} (hsb : sb ∈ pairs b false)
    (hreal : ∀ v ∈ l, v.isGhost = false) (hE : Edged M l) (hs : SimplePolygon l) (hw : WindsOnce l)
    (hS : S.Perm ((pairs l false).map fun s => (⟨s.1, s.2⟩ : Edge (Vertex K))))
    (hM : M'.Perm (kept M S ++ S.map (ghostOn g))) (hcl : Watertight M') : TilesDomain b [l] M' := by
  classical
  have hT := hF.good hc
  have hSm : ∀ e, e ∈ S ↔ (e.v1, e.v2) ∈ pairs l false := by
    intro e
    rw [hS.mem_iff, List.mem_map]
    constructor
    · rintro ⟨s, h, rfl⟩; exact h
    · intro h; exact ⟨_, h, rfl⟩
  obtain ⟨s0, hs0, hsol0, -⟩ := hF.lot.side (simplePolygon_back hF.poly) hsb
  have hreach : ∀ {t}, Reach M S t → t ∈ M ∧ SolidTri t ∧ windingNumber (pairs l false) (middle t) = 1 :=
    fun h => Edged.reach_inside hT hs0 hsol0 hreal hE hs hw hSm h
  have hg := hF.lot.ghost
  have old : ∀ t ∈ M', SolidTri t → t ∈ M := by
    intro t ht st
    rcases List.mem_append.1 (hM.mem_iff.1 ht) with k | k
    · exact (mem_kept.1 k).1
    · obtain ⟨e, -, rfl⟩ := List.mem_map.1 k
      exact absurd (hasGhost_last hg) st.noGhost
  have shape : ∀ t ∈ M', SolidTri t ∨ (∃ s ∈ pairs b false, t = ⟨s.2, s.1, g⟩) ∨ ∃ s ∈ pairs l false, t = ⟨s.1, s.2, g⟩ := by
    intro t ht
    rcases List.mem_append.1 (hM.mem_iff.1 ht) with k | k
    · rcases hF.lot.shape t (mem_kept.1 k).1 with k | k
      · exact Or.inl k
      · exact Or.inr (Or.inl k)
    · obtain ⟨e, he, rfl⟩ := List.mem_map.1 k
      exact Or.inr (Or.inr ⟨_, (hSm e).1 he, rfl⟩)
  have solid : ∀ t ∈ M', ¬ HasGhost t → SolidTri t := by
    intro t ht hng
    rcases shape t ht with k | ⟨s, -, rfl⟩ | ⟨s, -, rfl⟩
    · exact k
    · exact absurd (hasGhost_last hg) hng
    · exact absurd (hasGhost_last hg) hng
  -- the outline
  have hout : ∀ w, windingNumber (outline M') w = windingNumber (pairs b false) w - windingNumber (pairs l false) w := by
    intro w
    have p1 := outline_perm hM
    rw [outline_append] at p1
    have p2 : (outline (S.map (ghostOn g))).Perm ((pairs l false).map fun s => (s.2, s.1)) := by
      have := outline_perm (hS.map (ghostOn g))
      rw [outline_ghosts hg (fun s hs => ⟨hreal _ (mem_pairs hs).1, hreal _ (mem_pairs hs).2⟩)] at this
      exact this
    have p3 : (outline M).Perm (outline (kept M S)) := by
      have := outline_perm (List.filter_append_perm (fun t => decide (¬ Reach M S t)) M).symm
      rw [outline_append, outline_solid (Q := M.filter fun t => !decide (¬ Reach M S t)) (fun t ht => ?_), List.append_nil] at this
      · exact this
      · rw [List.mem_filter] at ht
        refine (hreach (t := t) ?_).2.1
        by_contra hn
        simp [hn] at ht
    rw [windingNumber_perm p1, windingNumber_append, ← windingNumber_perm p3, hF.lot.outline, windingNumber_perm p2,
      winding_swap]
    ring
  have hcov : ∀ {w}, (∀ t ∈ M', SolidTri t → ∀ e, IsSide t e → ¬ OnSegment e.v1 e.v2 w) →
      (coverings M' w : ℤ) = windingNumber (pairs b false) w - windingNumber (pairs l false) w := by
    intro w hoff
    rw [← hout, covering_eq hcl]
    · intro t ht
      by_cases hgt : HasGhost t
      · exact Or.inl hgt
      · exact Or.inr (Verif.solid_iff.2 (solid t ht hgt))
    · intro t ht hgt
      exact hoff t ht (solid t ht hgt)
  refine ⟨fun t ht hng => Verif.solid_iff.2 (solid t ht hng), fun s hs' t ht h1 h2 w => ?_, fun t ht hng w hwi => ?_,
    fun w hwd => ?_, fun t ht hgt => ?_⟩
  · exact hF.apart s (old s hs' (solid s hs' h1)) t (old t ht (solid t ht h2)) (solid s hs' h1) (solid t ht h2) w
  · have st := solid t ht hng
    have tM := old t ht st
    have hin := hF.tiles.inside t tM hng w hwi
    refine ⟨hin, fun h hh => ?_⟩
    rw [List.mem_singleton] at hh
    subst hh
    have hoffl := Edged.off hT hs0 hsol0 hreal hE tM st hwi
    refine ⟨hoffl, ?_⟩
    have h1 := hcov (w := w) fun r hr sr e he => hF.apart.inner_off tM (old r hr sr) st sr he hwi
    have h2 : 0 < coverings M' w := by
      rw [coverings, List.countP_pos_iff]
      exact ⟨t, ht, by simpa using ⟨hng, hwi⟩⟩
    rcases hF.winds w hin.1 with k | k
    · exact absurd k hin.2
    · rcases hw w hoffl with k' | k'
      · exact k'
      · omega
  · obtain ⟨hin, hoh⟩ := hwd
    obtain ⟨o1, o2⟩ := hoh l (by simp)
    by_cases hoff : ∀ t ∈ M', SolidTri t → ∀ e, IsSide t e → ¬ OnSegment e.v1 e.v2 w
    · have h1 := hcov hoff
      have h2 : 0 < coverings M' w := by
        have := hin.2
        omega
      rw [coverings, List.countP_pos_iff] at h2
      obtain ⟨t, ht, k⟩ := h2
      rw [decide_eq_true_iff] at k
      exact ⟨t, ht, k.1, Or.inl k.2⟩
    · push Not at hoff
      obtain ⟨t, ht, st, e, he, ho⟩ := hoff
      exact ⟨t, ht, st.noGhost, Or.inr ⟨e, he, ho⟩⟩
  · rcases shape t ht with k | ⟨s, hs', rfl⟩ | ⟨s, hs', rfl⟩
    · exact absurd hgt k.noGhost
    · exact ⟨hg, Or.inl hs'⟩
    · exact ⟨hg, Or.inr ⟨l, by simp, hs'⟩⟩

end

section

theorem flood_ok {V : Type*} [DecidableEq V] (S : List (Edge V)) (n : Nat) : ∀ (P : List (Edge V)) (m : Mesh V),
    flood S n P m ≠ .panic := by
  induction n with
  | zero =>
    intro P m
    cases P with
    | nil => simp [flood]
    | cons e P => simp [flood]
  | succ n ih =>
    intro P m
    cases P with
    | nil => simp [flood]
    | cons e P =>
      rw [flood]
      cases m.adj e with
      | none => exact ih _ _
      | some t => exact ih _ _

theorem mem_meshEdges {V : Type*} [DecidableEq V] {m : Mesh V} {e : Edge V} :
    e ∈ m.edges ↔ ∃ t ∈ m.tris, IsSide t e := by
  unfold Mesh.edges
  rw [mem_toSet]
  exact mem_sides

variable {g : Vertex K} {b h : Polyline (Vertex K)}

/-- The order in which the hole edges are visited. -/
theorem hole_order (hb : h.opened = false) (hn : h.vertices.Nodup) (σ : Sched) :
    (shuffle σ (toSet h.intoEdges)).Perm ((pairs h.vertices false).map fun s => (⟨s.1, s.2⟩ : Edge (Vertex K))) := by
  have hnd : ((pairs h.vertices false).map fun s => (⟨s.1, s.2⟩ : Edge (Vertex K))).Nodup := by
    refine List.Nodup.of_map Edge.v1 ?_
    rw [List.map_map]
    have := pairs_fst h.vertices
    unfold Function.comp
    rw [this]
    exact hn
  refine (shuffle_perm _ _).trans ?_
  rw [List.perm_ext_iff_of_nodup (nodup_toSet _) hnd]
  intro e
  rw [mem_toSet, Polyline.intoEdges, hb]

/-- The hole step, once the sides of the hole are in the mesh. -/
theorem hole_step {eps : K} {fuel : Nat} {σ : Sched} {C : List (Edge (Vertex K))} {m : Mesh (Vertex K)}
    {st : SolveState (Vertex K)} (hF : Fit Vertex.ghost b.vertices st.mesh.tris) (hs : AdjSound st.mesh)
    (hcm : AdjComplete st.mesh) (hc : ConvexPolygon b.vertices)
    {sb : Vertex K × Vertex K} (hsb : sb ∈ pairs b.vertices false) (hh : h.opened = false)
    (hhs : SimplePolygon h.vertices) (hha : 0 < shoelace h.vertices) (hhr : ∀ v ∈ h.vertices, v.isGhost = false)
    (hf : 3 * st.mesh.tris.length + 3 * h.vertices.length ≤ fuel)
    (hst : includeVertices (geoPreds eps fuel none []) C fuel (σ.sub 1) m h.vertices = .ok st)
    (hE : Edged st.mesh.tris h.vertices) :
    ∃ m', includeHole eps fuel σ C m h = .ok m' ∧ TilesDomain b.vertices [h.vertices] m'.tris ∧ Watertight m'.tris := by
  have hn := simplePolygon_nodup hhs
  have hw := windsOnce hh hhs hha
  have hS := hole_order hh hn (σ.sub 0)
  have hSm : ∀ e, e ∈ shuffle (σ.sub 0) (toSet h.intoEdges) ↔ (e.v1, e.v2) ∈ pairs h.vertices false := by
    intro e
    rw [hS.mem_iff, List.mem_map]
    constructor
    · rintro ⟨s, h, rfl⟩; exact h
    · intro h; exact ⟨_, h, rfl⟩
  have hT := hF.good hc
  obtain ⟨s0, hs0, hsol0, -⟩ := hF.lot.side (simplePolygon_back hF.poly) hsb
  have hseal := Edged.seals hT hs0 hsol0 hhr hE hhs hw hSm
  have hloop : holeSegmentsLoop eps (setUnion C (shuffle (σ.sub 0) (toSet h.intoEdges))) (shuffle (σ.sub 0) (toSet h.intoEdges))
      fuel fuel (σ.sub 2) st.mesh = .ok st.mesh := by
    have hnone : (shuffle (σ.sub 0) (toSet h.intoEdges)).find? (fun e => !decide (e ∈ st.mesh.edges)) = none := by
      rw [List.find?_eq_none]
      intro e he
      obtain ⟨t, ht, hte⟩ := hE _ ((hSm e).1 he)
      simp only [Bool.not_eq_true', decide_eq_false_iff_not, not_not]
      exact mem_meshEdges.2 ⟨t, ht, hte⟩
    rw [holeSegmentsLoop.eq_def]
    simp only [hnone]
  have hlen : (shuffle (σ.sub 0) (toSet h.intoEdges)).length = h.vertices.length := by
    rw [hS.length_eq, List.length_map, ← (pairs_snd h.vertices).length_eq, List.length_map]
  have hok : ∃ m', carveHole Vertex.ghost fuel (shuffle (σ.sub 0) (toSet h.intoEdges)) st.mesh = .ok m' := by
    have h1 := C27_terminates Vertex.ghost (shuffle (σ.sub 0) (toSet h.intoEdges)) hs (fuel := fuel) (by rw [hlen]; exact hf)
    cases hr : carveHole Vertex.ghost fuel (shuffle (σ.sub 0) (toSet h.intoEdges)) st.mesh with
    | ok m' => exact ⟨m', rfl⟩
    | panic => exact absurd hr (flood_ok _ _ _ _)
    | diverged => exact absurd hr h1
  obtain ⟨m', hm'⟩ := hok
  have hSn : (shuffle (σ.sub 0) (toSet h.intoEdges)).Nodup := (shuffle_perm _ _).nodup_iff.2 (nodup_toSet _)
  have hSg : ∀ e ∈ shuffle (σ.sub 0) (toSet h.intoEdges), e.v1 ≠ Vertex.ghost ∧ e.v2 ≠ Vertex.ghost := by
    intro e he
    obtain ⟨v1, v2⟩ := mem_pairs ((hSm e).1 he)
    exact ⟨ghost_ne (hhr _ v1) rfl, ghost_ne (hhr _ v2) rfl⟩
  have hcl : ClosedWall (shuffle (σ.sub 0) (toSet h.intoEdges)) := by
    intro x
    rw [(hS.map _).count_eq, (hS.map _).count_eq, List.map_map, List.map_map]
    have e1 := pairs_fst h.vertices
    have e2 := pairs_snd h.vertices
    unfold Function.comp
    rw [e1, e2.count_eq]
  obtain ⟨k1, k2⟩ := carveHole_mem hs hcm hF.simple.nodup hSg hSn (fun t ht => (hseal t ht).1)
    (fun t ht => (hseal t ht).2) hm'
  have hM := carved_perm hF.simple.nodup hSn k1 k2
  have hwt : Watertight m'.tris := by
    refine C27_closed hs hcm hF.simple hF.lot.closed hSn hcl hSg hseal (fun e he => ?_) hm'
    obtain ⟨t, ht, hte⟩ := hE _ ((hSm e).1 he)
    have : 0 < sideCount st.mesh.tris ⟨e.v1, e.v2⟩ := by
      rw [sideCount_sides, List.count_pos_iff, mem_sides]
      exact ⟨t, ht, hte⟩
    rw [hF.lot.closed, sideCount_sides, List.count_pos_iff, mem_sides] at this
    exact this
  refine ⟨m', ?_, hF.hole_tiles hc hsb hhr hE hhs hw hS hM hwt, hwt⟩
  unfold includeHole
  simp only [hst, Res.bind_ok, hloop]
  exact hm'

end

end Verif
