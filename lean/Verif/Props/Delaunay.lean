import Verif.Lemmas.Tiling
import Verif.Lemmas.Sound
import Verif.Props.Insertion
import Mathlib.Algebra.Order.Ring.Rat
import Mathlib.Algebra.Field.Rat
import Mathlib.Tactic.NormNum

/-!
# Delaunay triangulations (C19, C20, C21)

`geoPreds 0 f none []` are the geometric tests of the code, in exact arithmetic, without boundary and holes; the
third argument of `includeVertices`, `[]`, says that there are no segments either.
-/

set_option linter.unusedSectionVars false

namespace Verif.Props

open Spec

variable {K : Type*} [Field K] [LinearOrder K] [IsStrictOrderedRing K]

private theorem start_ok (f : Nat) (σ : Sched) (m : Mesh (Vertex K)) (vs : List (Vertex K)) :
    ∃ s0, startState (freePreds f) σ m vs = .ok s0 := by
  unfold startState
  obtain ⟨q, hq⟩ := distributeAll_ok (free_may (K := K) f) (shuffle (σ.sub 0) m.tris) []
    (vs.filter fun v => !decide (v ∈ m.vertices (freePreds (K := K) f).ghost))
  rw [hq]
  exact ⟨_, rfl⟩

theorem start_nice {f : Nat} {σ : Sched} {g : Vertex K} {m : Mesh (Vertex K)} {vs : List (Vertex K)}
    {s0 : SolveState (Vertex K)} (hs : AdjSound m) (hc : AdjComplete m) (hd : Delaunay g m.tris) (hn : vs.Nodup)
    (ho : ∀ w ∈ vs, w.isGhost = false) (h : startState (freePreds f) σ m vs = .ok s0) : Nice g f s0 := by
  have hg := hd.good
  obtain ⟨k1, -, -, -, k5, -⟩ := startState_spec h
  refine ⟨start_legit hs hc hn ho ?_ (fun w hw => Or.inl (ho w hw)) h, k1 ▸ hg, ?_, ?_⟩
  · rintro x ⟨t, ht, hx⟩
    rcases hg.shape t ht with k | k
    · rcases hx with rfl | rfl | rfl
      · exact Or.inl k.r1
      · exact Or.inl k.r2
      · exact Or.inl k.r3
    · rcases hx with rfl | rfl | rfl
      · exact Or.inl k.r1
      · exact Or.inl k.r2
      · exact Or.inr k.g3
  · rw [k1]
    exact hd.start.imp (fun ⟨t, h1, h2⟩ => ⟨t, h1, solid_iff.1 h2⟩) id
  · intro w hw
    exact ho w (List.mem_filter.1 (k5.mem_iff.1 hw)).1

theorem start_len {f : Nat} {σ : Sched} {m : Mesh (Vertex K)} {vs : List (Vertex K)}
    {s0 : SolveState (Vertex K)} (h : startState (freePreds f) σ m vs = .ok s0) :
    (s0.cmap.flat ++ s0.remaining).length ≤ vs.length := by
  rw [(startState_spec h).2.2.2.2.1.length_eq]
  exact List.length_filter_le _ _

private theorem run_of_start {f fuel : Nat} {σ : Sched} {m : Mesh (Vertex K)} {vs : List (Vertex K)}
    {s0 s' : SolveState (Vertex K)} (h0 : startState (freePreds f) σ m vs = .ok s0)
    (h1 : solveLoop (freePreds f) [] fuel fuel (σ.sub 1) s0 = .ok s') :
    includeVertices (freePreds f) [] fuel σ m vs = .ok s' := by
  unfold startState at h0
  rw [Res.bind_eq_ok] at h0
  obtain ⟨q, hq, h0⟩ := h0
  simp only [Res.ok.injEq] at h0
  subst h0
  show (distributeAll (freePreds f) _ _ _).bind _ = _
  rw [hq, Res.bind_ok]
  exact h1

/-- C19: in exact arithmetic and without constraints, inserting any list of vertices in a Delaunay mesh neither
panics nor loops, whatever the order in which hash tables are traversed, and the outcome is a Delaunay mesh. -/
theorem C19_delaunay {f fuel : Nat} {σ : Sched} {g : Vertex K} {m : Mesh (Vertex K)} {vs : List (Vertex K)}
    (hs : AdjSound m) (hc : AdjComplete m) (hd : Delaunay g m.tris) (hn : vs.Nodup)
    (ho : ∀ w ∈ vs, w.isGhost = false) (hf : 2 * (m.tris.length + 2 * vs.length) + 3 ≤ fuel) :
    ∃ r, includeVertices (geoPreds 0 f none []) [] fuel σ m vs = .ok r ∧
      Delaunay g r.mesh.tris ∧ AdjSound r.mesh ∧ AdjComplete r.mesh ∧
      ((∃ t ∈ m.tris, Face t) → ∃ t ∈ r.mesh.tris, Face t) := by
  obtain ⟨s0, h0⟩ := start_ok f σ m vs
  have hN := start_nice hs hc hd hn ho h0
  have hlen := start_len h0
  have hm : s0.mesh = m := (startState_spec h0).1
  obtain ⟨s', h1, n1, -, hsol⟩ := hN.loop (fuel := fuel) (n := fuel) (by rw [hm]; omega) (by omega) (σ.sub 1)
  refine ⟨s', ?_, n1.good.delaunay n1.start, n1.legit.sound, n1.legit.complete n1.good.simple, ?_⟩
  swap
  · rintro ⟨t, ht, hft⟩
    obtain ⟨t', ht', k⟩ := hsol (Or.inr ⟨t, by rw [hm]; exact ht, solid_iff.1 hft⟩)
    exact ⟨t', ht', solid_iff.2 k⟩
  exact run_of_start h0 h1

/-- The two ghost triangles over one segment are a Delaunay mesh. -/
theorem C19_segment {g a b : Vertex K} (hg : g.isGhost = true) (ha : a.isGhost = false) (hb : b.isGhost = false)
    (hab : a ≠ b) : Delaunay g (Mesh.fromInitialSegment g a b).tris := by
  have hp : (Mesh.fromInitialSegment g a b).tris.Perm [⟨a, b, g⟩, ⟨b, a, g⟩] := by
    have hne : (⟨b, a, g⟩ : Tri (Vertex K)) ≠ ⟨a, b, g⟩ := by
      intro h; exact hab (congrArg Tri.v1 h).symm
    have : (Mesh.fromInitialSegment g a b).tris = [⟨b, a, g⟩, ⟨a, b, g⟩] := by
      simp [Mesh.fromInitialSegment, Mesh.add, Mesh.include, Mesh.empty, hab.symm]
    rw [this]
    exact List.Perm.swap _ _ _
  have hga : g ≠ a := fun h => by rw [h, ha] at hg; simp at hg
  have hgb : g ≠ b := fun h => by rw [h, hb] at hg; simp at hg
  have hm : ∀ t, t ∈ (Mesh.fromInitialSegment g a b).tris ↔ t = ⟨a, b, g⟩ ∨ t = ⟨b, a, g⟩ := by
    intro t; rw [hp.mem_iff]; simp
  have hvx : ∀ p, VertexOf (Mesh.fromInitialSegment g a b).tris p → p = a ∨ p = b := by
    rintro p ⟨⟨t, ht, hc⟩, hpg⟩
    have : p ≠ g := fun h => by rw [h, hg] at hpg; simp at hpg
    rcases (hm t).1 ht with rfl | rfl <;> rcases hc with rfl | rfl | rfl <;> simp_all
  have hcount : ∀ e, sideCount (Mesh.fromInitialSegment g a b).tris e =
      (sides [(⟨a, b, g⟩ : Tri (Vertex K)), ⟨b, a, g⟩]).count e := by
    intro e
    rw [sideCount_sides]
    exact (sides_perm hp).count_eq e
  have hl : sides [(⟨a, b, g⟩ : Tri (Vertex K)), ⟨b, a, g⟩] =
      [⟨a, b⟩, ⟨b, g⟩, ⟨g, a⟩, ⟨b, a⟩, ⟨a, g⟩, ⟨g, b⟩] := rfl
  refine ⟨hg, ?_, ?_, ?_, ?_, ?_, ?_, Or.inr ⟨a, b, hp⟩⟩
  · intro e
    rw [hcount, hl]
    refine List.nodup_iff_count_le_one.1 ?_ e
    simp [hab, hab.symm, hga, hga.symm, hgb, hgb.symm]
  · intro x y
    rw [hcount, hcount, show (⟨y, x⟩ : Edge (Vertex K)) = Edge.opposite ⟨x, y⟩ from rfl, ← count_opposite, hl]
    apply List.Perm.count_eq
    rw [List.perm_iff_count]
    intro e
    simp only [List.map_cons, List.map_nil, Edge.opposite, List.count_cons, List.count_nil]
    omega
  · intro t ht
    right
    rcases (hm t).1 ht with rfl | rfl
    · exact ⟨ha, hb, hab, rfl⟩
    · exact ⟨hb, ha, hab.symm, rfl⟩
  · intro t ht hf
    rcases (hm t).1 ht with rfl | rfl
    · exact absurd (hg.symm.trans hf.2.2.1) (by simp)
    · exact absurd (hg.symm.trans hf.2.2.1) (by simp)
  · intro t ht _ p hp
    apply le_of_eq
    rcases (hm t).1 ht with rfl | rfl <;> rcases hvx p hp with rfl | rfl <;> simp only [cross] <;> ring
  · intro t ht _ p hp hs
    rcases (hm t).1 ht with rfl | rfl <;> rcases hvx p hp with rfl | rfl
    · exact hs.2.1 ⟨rfl, rfl⟩
    · exact hs.2.2 ⟨rfl, rfl⟩
    · exact hs.2.2 ⟨rfl, rfl⟩
    · exact hs.2.1 ⟨rfl, rfl⟩

/-- C19: in particular, whatever is inserted in the mesh of a first segment. -/
theorem C19_from_segment {f fuel : Nat} {σ : Sched} {g a b : Vertex K} {vs : List (Vertex K)} (hg : g.isGhost = true)
    (ha : a.isGhost = false) (hb : b.isGhost = false) (hab : a ≠ b) (hn : vs.Nodup)
    (ho : ∀ w ∈ vs, w.isGhost = false) (hf : 4 * vs.length + 7 ≤ fuel) :
    ∃ r, includeVertices (geoPreds 0 f none []) [] fuel σ (Mesh.fromInitialSegment g a b) vs = .ok r ∧
      Delaunay g r.mesh.tris ∧ AdjSound r.mesh ∧ AdjComplete r.mesh ∧
      ((∃ w ∈ vs, cross a b w ≠ 0) → ∃ t ∈ r.mesh.tris, Face t) := by
  have hd := C19_segment hg ha hb hab
  have hsim := hd.simple.edgeDisjoint
  have hlen : (Mesh.fromInitialSegment g a b).tris.length ≤ 2 := by
    simp [Mesh.fromInitialSegment, Mesh.add, Mesh.include, Mesh.empty, hab.symm]
  have hcomp : AdjComplete (Mesh.fromInitialSegment g a b) := by
    refine adjComplete_add (adjComplete_add adjComplete_empty ?_) hsim
    intro t ht s hs e h1 h2
    simp [Mesh.add, Mesh.include, Mesh.empty] at ht hs
    rw [ht, hs]
  obtain ⟨s0, h0⟩ := start_ok f σ (Mesh.fromInitialSegment g a b) vs
  have hN := start_nice (fromInitialSegment_sound _ _ _) hcomp hd hn ho h0
  have hl := start_len h0
  obtain ⟨hm, -, -, -, k5, -, k7⟩ := startState_spec h0
  obtain ⟨s', h1, n1, -, hsol⟩ := hN.loop (fuel := fuel) (n := fuel) (by rw [hm]; omega) (by omega) (σ.sub 1)
  refine ⟨s', run_of_start h0 h1, n1.good.delaunay n1.start, n1.legit.sound, n1.legit.complete n1.good.simple, ?_⟩
  rintro ⟨w, hw, hcr⟩
  suffices hcm : s0.cmap ≠ [] by
    obtain ⟨t', ht', k⟩ := hsol (Or.inl hcm)
    exact ⟨t', ht', solid_iff.2 k⟩
  intro hc
  have hmem : ∀ t, t = ⟨a, b, g⟩ ∨ t = ⟨b, a, g⟩ → t ∈ (Mesh.fromInitialSegment g a b).tris := by
    rintro t (rfl | rfl)
    · exact mem_add.2 (Or.inr (mem_add.2 (Or.inl rfl)))
    · exact mem_add.2 (Or.inl rfl)
  have hnv : ¬ InMesh (Mesh.fromInitialSegment g a b) w := by
    rintro ⟨t, ht, hx⟩
    have hx' : w = a ∨ w = b ∨ w = g := by
      rcases (by simpa [Mesh.fromInitialSegment, mem_add, Mesh.empty] using ht :
        t = ⟨b, a, g⟩ ∨ t = ⟨a, b, g⟩) with rfl | rfl <;> rcases hx with h | h | h <;> simp_all
    rcases hx' with rfl | rfl | rfl
    · apply hcr; simp only [cross]; ring
    · apply hcr; simp only [cross]; ring
    · have := ho _ hw; rw [hg] at this; simp at this
  have hrem : w ∈ s0.remaining := by
    have : w ∈ s0.cmap.flat ++ s0.remaining := by
      rw [k5.mem_iff, List.mem_filter]
      refine ⟨hw, ?_⟩
      simp only [Bool.not_eq_true', decide_eq_false_iff_not]
      exact fun hv => hnv (mem_vertices.1 hv).1
    simpa [hc, CMap.flat] using this
  have hin : ∃ t ∈ (Mesh.fromInitialSegment g a b).tris, (freePreds (K := K) f).inside t w = true := by
    rcases lt_or_gt_of_ne hcr with hlt | hgt
    · refine ⟨⟨b, a, g⟩, hmem _ (Or.inr rfl), (free_inside_ghost f hg ⟨hb, ha, hab.symm, rfl⟩ w).2 ?_⟩
      simp only; rw [cross_swap]; linarith
    · exact ⟨⟨a, b, g⟩, hmem _ (Or.inl rfl), (free_inside_ghost f hg ⟨ha, hb, hab, rfl⟩ w).2 hgt⟩
  obtain ⟨t, ht, hi⟩ := hin
  exact k7 w hrem t ht ⟨hi, free_may _ _ _⟩

/-- C19: the assumption about the intermediate meshes that the theorems on arbitrary predicates make (C14, C17, C18,
C44) is met in exact arithmetic without constraints. -/
theorem C19_noPinch {f fuel : Nat} {σ : Sched} {g : Vertex K} {m : Mesh (Vertex K)} {vs : List (Vertex K)}
    (hs : AdjSound m) (hc : AdjComplete m) (hd : Delaunay g m.tris) (hn : vs.Nodup)
    (ho : ∀ w ∈ vs, w.isGhost = false) (hf : 2 * (m.tris.length + 2 * vs.length) + 3 ≤ fuel) :
    NoPinch (geoPreds 0 f none []) [] fuel σ m vs := by
  intro s0 s' h0 hr hcm
  clear hcm
  have hN := start_nice hs hc hd hn ho h0
  have hlen := start_len h0
  have hm : s0.mesh = m := (startState_spec h0).1
  have key : Nice g f s' ∧ s'.mesh.tris.length + 2 * (s'.cmap.flat ++ s'.remaining).length ≤
      m.tris.length + 2 * vs.length := by
    induction hr with
    | refl => exact ⟨hN, by rw [hm]; omega⟩
    | step τ hr hne h ih =>
      obtain ⟨n1, l1⟩ := ih
      obtain ⟨s2, k1, k2, -, v, L, O, R, Z, -, hi⟩ := n1.step hne (fuel := fuel) (by omega) τ
      have e := h.symm.trans k1
      simp only [Res.ok.injEq] at e
      subst e
      refine ⟨k2, ?_⟩
      have := hi.length
      have hp := hi.pend.length_eq
      simp only [List.length_cons] at hp
      omega
  exact key.1.good.simple

/-- C21: in a closed mesh whose triangles without ghosts are counterclockwise, a point that is on no edge is inside as
many triangles as the outline of the mesh winds around it. -/
theorem C21_covering {T : List (Tri (Vertex K))} (hw : Watertight T) (hs : ∀ t ∈ T, HasGhost t ∨ Face t)
    {w : Vertex K} (hoff : ∀ t ∈ T, ¬ HasGhost t → ∀ e, IsSide t e → ¬ OnSegment e.v1 e.v2 w) :
    (coverings T w : ℤ) = windingNumber (outline T) w := covering_eq hw hs hoff

/-- C21: in a Delaunay mesh (with at least one triangle) a point that is on no edge is inside exactly one triangle if
it is on the inner side of all hull edges and inside none otherwise. -/
theorem C21_delaunay {g : Vertex K} {T : List (Tri (Vertex K))} (hd : Delaunay g T) (hne : ∃ t ∈ T, Face t)
    {w : Vertex K} (hoff : ∀ t ∈ T, ¬ HasGhost t → ∀ e, IsSide t e → ¬ OnSegment e.v1 e.v2 w) :
    ((∀ t ∈ T, Outer g t → cross t.v1 t.v2 w ≤ 0) → coverings T w = 1) ∧
      (¬ (∀ t ∈ T, Outer g t → cross t.v1 t.v2 w ≤ 0) → coverings T w = 0) := by
  obtain ⟨s, hs, hsol⟩ := hne
  have := hd.good.tiling hs (solid_iff.1 hsol) hoff
  simpa only [outer_iff] using this

/-- C21: triangles of a Delaunay mesh do not overlap: no point is strictly inside two of them. -/
theorem C21_disjoint {g : Vertex K} {T : List (Tri (Vertex K))} (hd : Delaunay g T) (w : Vertex K) :
    coverings T w ≤ 1 := hd.good.coverings_le w

/-- C20, one call: as long as some requested vertex is missing, a call of `include` on a Delaunay mesh with at least
one triangle inserts at least one of them. The full statement, that all of them are inserted, is false (`C20_false`):
missing is the treatment of the vertices that lose their triangle while the cavity of another vertex is refilled. -/
theorem C20_progress_partial {f fuel : Nat} {σ : Sched} {g : Vertex K} {m : Mesh (Vertex K)} {vs : List (Vertex K)}
    {r : SolveState (Vertex K)} (hs : AdjSound m) (hd : Delaunay g m.tris)
    (hne : ∃ t ∈ m.tris, Face t) (ho : ∀ w ∈ vs, w.isGhost = false)
    (h : includeVertices (geoPreds 0 f none []) [] fuel σ m vs = .ok r) (hmiss : ∃ w ∈ vs, ¬ InMesh m w) :
    ∃ w ∈ vs, ¬ InMesh m w ∧ InMesh r.mesh w := by
  obtain ⟨s0, h0, hr, hend⟩ := include_run h
  obtain ⟨k1, -, -, k4, k5, k6, k7⟩ := startState_spec h0
  obtain ⟨s, hsm, hsol⟩ := hne
  have hrem : s0.remaining = [] := by
    by_contra hc
    obtain ⟨w, hw⟩ := List.exists_mem_of_ne_nil _ hc
    have hw' := k5.mem_iff.1 (List.mem_append.2 (Or.inr hw))
    rw [List.mem_filter] at hw'
    have hg := ho w hw'.1
    have hnv : ¬ Vx m.tris w := by
      intro hv
      have : w ∈ m.vertices (freePreds (K := K) f).ghost := mem_vertices.2 hv
      have h2 := hw'.2
      simp only [Bool.not_eq_true', decide_eq_false_iff_not] at h2
      exact h2 this
    obtain ⟨t, ht, hin⟩ := hd.good.exists_inside hsm (solid_iff.1 hsol) f hg hnv
    exact k7 w hw t ht ⟨hin, free_may _ _ _⟩
  obtain ⟨w, hw, hwm⟩ := hmiss
  have hfl : w ∈ s0.cmap.flat := by
    have : w ∈ s0.cmap.flat ++ s0.remaining := by
      rw [k5.mem_iff, List.mem_filter]
      refine ⟨hw, ?_⟩
      simp only [Bool.not_eq_true', decide_eq_false_iff_not]
      exact fun hv => hwm (mem_vertices.1 hv).1
    rw [hrem, List.append_nil] at this
    exact this
  obtain ⟨ins, i1, i2⟩ := C15_vertices hs h
  have hins : ins ≠ [] := by
    intro hi
    subst hi
    have key : ∀ s', Run (freePreds f) [] fuel s0 s' → AdjSound s'.mesh ∧ s'.cmap.WF ∧
        (∀ t l, (t, l) ∈ s'.cmap → ∀ x, IsCorner t x → InMesh s'.mesh x) ∧
        (s' = s0 ∨ (s'.cmap.flat ++ s'.remaining).length < (s0.cmap.flat ++ s0.remaining).length) := by
      intro s' hr
      induction hr with
      | refl => exact ⟨k1 ▸ hs, k4, fun t l ht x hx => ⟨t, k1 ▸ (k6 t l ht).1, hx⟩, Or.inl rfl⟩
      | step τ _ _ hst ih =>
        obtain ⟨j1, j2, j3, j4⟩ := ih
        obtain ⟨v, l1, l2, l3, -, l5⟩ := solveStep_loose j1 j2 j3 hst
        refine ⟨l1, l2, l5, Or.inr ?_⟩
        have := l3.length_eq
        simp only [List.length_cons] at this
        rcases j4 with rfl | j4
        · omega
        · omega
    rcases (key r hr).2.2.2 with e | e
    · rw [e] at hend
      simp [hend, CMap.flat] at hfl
    · rw [k5.length_eq, ← i1.length_eq] at e
      simp [hend, CMap.flat] at e
  obtain ⟨u, hu⟩ := List.exists_mem_of_ne_nil _ hins
  have hu' := i1.mem_iff.1 (List.mem_append.2 (Or.inl hu))
  rw [List.mem_filter] at hu'
  refine ⟨u, hu'.1, fun hm => ?_, (i2 u).2 (Or.inr hu)⟩
  have h2 := hu'.2
  simp only [Bool.not_eq_true', decide_eq_false_iff_not] at h2
  exact h2 (mem_vertices.2 ⟨hm, ho u hu'.1⟩)

/-- C20: a single vertex requested of a Delaunay mesh with at least one triangle ends up in it. -/
theorem C20_one_partial {f fuel : Nat} {σ : Sched} {g : Vertex K} {m : Mesh (Vertex K)} {v : Vertex K}
    {r : SolveState (Vertex K)} (hs : AdjSound m) (hd : Delaunay g m.tris)
    (hne : ∃ t ∈ m.tris, Face t) (ho : v.isGhost = false)
    (h : includeVertices (geoPreds 0 f none []) [] fuel σ m [v] = .ok r) : InMesh r.mesh v := by
  by_cases hm : InMesh m v
  · obtain ⟨ins, -, i2⟩ := C15_vertices hs h
    exact (i2 v).2 (Or.inl hm)
  · obtain ⟨w, hw, -, hr⟩ := C20_progress_partial hs hd hne (by simpa using ho) h ⟨v, by simp, hm⟩
    rw [List.mem_singleton] at hw
    exact hw ▸ hr

/-- The vertices are inserted by one call of `include` each. -/
inductive OneByOne (f fuel : Nat) : Mesh (Vertex K) → List (Vertex K) → Mesh (Vertex K) → Prop
  | done (m) : OneByOne f fuel m [] m
  | insert {m : Mesh (Vertex K)} {v : Vertex K} {vs : List (Vertex K)} {r : SolveState (Vertex K)} {m' : Mesh (Vertex K)}
      (σ : Sched) : includeVertices (geoPreds 0 f none []) [] fuel σ m [v] = .ok r →
      OneByOne f fuel r.mesh vs m' → OneByOne f fuel m (v :: vs) m'

/-- C20: if each vertex is requested by its own call of `include`, all of them end up in the mesh. -/
theorem C20_one_by_one_partial {f fuel : Nat} {g : Vertex K} {m m' : Mesh (Vertex K)} {vs : List (Vertex K)}
    (hs : AdjSound m) (hc : AdjComplete m) (hd : Delaunay g m.tris) (hne : ∃ t ∈ m.tris, Face t)
    (ho : ∀ w ∈ vs, w.isGhost = false) (hf : 2 * (m.tris.length + 2 * vs.length) + 3 ≤ fuel)
    (h : OneByOne f fuel m vs m') : (∀ w ∈ vs, InMesh m' w) ∧ (∀ w, InMesh m w → InMesh m' w) ∧ Delaunay g m'.tris := by
  induction h with
  | done m => exact ⟨by simp, fun _ h => h, hd⟩
  | @insert m v vs r m' σ h1 _ ih =>
    have hov : ∀ w ∈ [v], w.isGhost = false := by
      intro w hw
      rw [List.mem_singleton] at hw
      exact hw ▸ ho v List.mem_cons_self
    simp only [List.length_cons] at hf
    have hf1 : 2 * (m.tris.length + 2 * [v].length) + 3 ≤ fuel := by simp only [List.length_cons, List.length_nil]; omega
    obtain ⟨r', k0, k1, k2, k3, k4⟩ := C19_delaunay (f := f) (σ := σ) hs hc hd (List.nodup_singleton v) hov hf1
    have e := h1.symm.trans k0
    simp only [Res.ok.injEq] at e
    subst e
    have hin := C20_one_partial hs hd hne (hov v (by simp)) h1
    have hlen : r.mesh.tris.length ≤ m.tris.length + 2 := by
      have hq : GoodRequest (freePreds f) m [v] := by
        refine ⟨hs, hc, hd.simple, List.nodup_singleton v, hov, ?_⟩
        have hu : ∀ a, (InMesh m a ∨ a ∈ [v]) → Usual g a := by
          rintro a (⟨t, ht, hx⟩ | ha)
          · rcases hd.shape t ht with k | k
            · rcases hx with rfl | rfl | rfl
              · exact Or.inl k.1
              · exact Or.inl k.2.1
              · exact Or.inl k.2.2.1
            · rcases hx with rfl | rfl | rfl
              · exact Or.inl k.1
              · exact Or.inl k.2.1
              · exact Or.inr k.2.2.2
          · exact Or.inl (hov a ha)
        intro a b ha hb
        exact usual_sep hd.ghost f a b (hu a ha) (hu b hb)
      have := C44_two_each hq (C19_noPinch hs hc hd (List.nodup_singleton v) hov hf1) h1
      have h2 : (List.filter (fun x => !decide (x ∈ m.vertices (freePreds (K := K) f).ghost)) [v]).length ≤ 1 :=
        (List.length_filter_le _ _).trans (by simp)
      omega
    obtain ⟨j1, j2, j3⟩ := ih k2 k3 k1 (k4 hne) (fun w hw => ho w (List.mem_cons_of_mem _ hw)) (by omega)
    obtain ⟨ins, -, i2⟩ := C15_vertices hs h1
    refine ⟨?_, fun w hw => j2 w ((i2 w).2 (Or.inl hw)), j3⟩
    intro w hw
    rcases List.mem_cons.1 hw with rfl | hw
    · exact j2 w hin
    · exact j1 w hw

/-! ## Examples -/

namespace DelaunayExample

def pt (x y : ℚ) : Vertex ℚ := ⟨x, y, false⟩

def ghost : Vertex ℚ := ⟨0, 0, true⟩

/-- Six points; no three of them are on one line. -/
def a : Vertex ℚ := pt 8 23
def b : Vertex ℚ := pt 0 11
def lost : Vertex ℚ := pt 2 13
def others : List (Vertex ℚ) := [pt 23 13, lost, pt 3 17, pt 24 26]

/-- Some order of the hash tables. -/
def order : Sched := fun p => (p.length + 1) * p.length + p.sum

example : a ≠ b ∧ others.Nodup ∧ (∀ w ∈ others, w.isGhost = false ∧ cross a b w ≠ 0) := by decide +kernel

/-- C19 applies to these points. -/
example (σ : Sched) : ∃ r, includeVertices (geoPreds 0 0 none []) [] 40 σ (Mesh.fromInitialSegment ghost a b) others
    = .ok r ∧ Delaunay ghost r.mesh.tris ∧ AdjSound r.mesh ∧ AdjComplete r.mesh ∧
      ((∃ w ∈ others, cross a b w ≠ 0) → ∃ t ∈ r.mesh.tris, Face t) :=
  C19_from_segment rfl rfl rfl (by decide +kernel) (by decide +kernel) (by decide +kernel) (by decide +kernel)

/-- The outcome of the insertion. -/
def outcome : SolveState (Vertex ℚ) :=
  match includeVertices (geoPreds 0 0 none []) [] 40 order (Mesh.fromInitialSegment ghost a b) others with
  | .ok r => r
  | _ => ⟨Mesh.empty, [], [], [], []⟩

theorem outcome_eq : includeVertices (geoPreds 0 0 none []) [] 40 order (Mesh.fromInitialSegment ghost a b) others
    = .ok outcome := by
  obtain ⟨r, hr, -⟩ := C19_from_segment (f := 0) (fuel := 40) (σ := order) (g := ghost) (a := a) (b := b) (vs := others)
    rfl rfl rfl (by decide +kernel) (by decide +kernel) (by decide +kernel) (by decide +kernel)
  rw [hr, outcome, hr]

theorem outcome_vertices : (outcome.mesh.tris.all fun t => t.v1 ≠ lost ∧ t.v2 ≠ lost ∧ t.v3 ≠ lost) = true := by
  decide +kernel

end DelaunayExample

open DelaunayExample in
/-- C20 is false: six points of which no three are on one line, and an order of the hash tables, such that `include`
finishes normally although one of the requested vertices is not in the mesh. -/
theorem C20_false : ∃ (a b : Vertex ℚ) (vs : List (Vertex ℚ)) (σ : Sched) (r : SolveState (Vertex ℚ)),
    a ≠ b ∧ vs.Nodup ∧ (∀ w ∈ vs, w.isGhost = false ∧ cross a b w ≠ 0) ∧
    includeVertices (geoPreds 0 0 none []) [] 40 σ (Mesh.fromInitialSegment ghost a b) vs = .ok r ∧
    ∃ w ∈ vs, ¬ InMesh r.mesh w := by
  refine ⟨a, b, others, order, outcome, by decide +kernel, by decide +kernel, by decide +kernel, outcome_eq,
    lost, by decide +kernel, ?_⟩
  rintro ⟨t, ht, hc⟩
  have := List.all_eq_true.1 outcome_vertices t ht
  rw [decide_eq_true_iff] at this
  rcases hc with h | h | h
  · exact this.1 h.symm
  · exact this.2.1 h.symm
  · exact this.2.2 h.symm

namespace DelaunayExample

theorem outcome_delaunay : Delaunay ghost outcome.mesh.tris ∧ AdjSound outcome.mesh ∧ AdjComplete outcome.mesh ∧
    ∃ t ∈ outcome.mesh.tris, Face t := by
  obtain ⟨r, hr, h1, h2, h3, h4⟩ := C19_from_segment (f := 0) (fuel := 40) (σ := order) (g := ghost) (a := a) (b := b)
    (vs := others) rfl rfl rfl (by decide +kernel) (by decide +kernel) (by decide +kernel) (by decide +kernel)
  have e := outcome_eq.symm.trans hr
  simp only [Res.ok.injEq] at e
  rw [e]
  exact ⟨h1, h2, h3, h4 ⟨pt 23 13, by decide +kernel, by decide +kernel⟩⟩

/-- The outcome has triangles and ghost triangles, and satisfies what C19, C20 and C21 ask of a mesh. -/
example : 4 < outcome.mesh.tris.length := by decide +kernel

/-- The lost vertex is inserted by a second call. -/
example (σ : Sched) : ∃ r, includeVertices (geoPreds 0 0 none []) [] 90 σ outcome.mesh [lost] = .ok r ∧
    InMesh r.mesh lost := by
  obtain ⟨h1, h2, h3, h4⟩ := outcome_delaunay
  obtain ⟨r, hr, -⟩ := C19_delaunay (f := 0) (fuel := 90) (σ := σ) (vs := [lost]) h2 h3 h1 (List.nodup_singleton _)
    (by decide +kernel) (by decide +kernel)
  exact ⟨r, hr, C20_one_partial h2 h1 h4 rfl hr⟩

theorem off_edges : ∀ t ∈ outcome.mesh.tris, ¬ HasGhost t → ∀ e, IsSide t e → ¬ OnSegment e.v1 e.v2 (pt 10 18) := by
  have h : (outcome.mesh.tris.all fun t => decide (HasGhost t) ||
      t.innerEdges.all fun e => !e.contains 0 (pt 10 18)) = true := by decide +kernel
  intro t ht hg e he hs
  have := List.all_eq_true.1 h t ht
  simp only [hg, decide_false, Bool.false_or] at this
  have := List.all_eq_true.1 this e (mem_innerEdges.2 he)
  rw [(C07_exact e (pt 10 18)).2 hs] at this
  exact absurd this (by simp)

/-- C21 applies to a point of the outcome. -/
example : coverings outcome.mesh.tris (pt 10 18) = 1 :=
  (C21_delaunay outcome_delaunay.1 outcome_delaunay.2.2.2 off_edges).1 (by
    have h : (outcome.mesh.tris.all fun t => t.v3 ≠ ghost ∨ cross t.v1 t.v2 (pt 10 18) ≤ 0) = true := by
      decide +kernel
    intro t ht ho
    have := List.all_eq_true.1 h t ht
    rw [decide_eq_true_iff] at this
    exact this.resolve_left fun k => k ho.2.2.2)

example : (coverings outcome.mesh.tris (pt 10 18) : ℤ) = windingNumber (outline outcome.mesh.tris) (pt 10 18) :=
  C21_covering outcome_delaunay.1.closed
    (fun t ht => (outcome_delaunay.1.shape t ht).symm.imp
      (fun h => Or.inr (Or.inr (by rw [h.2.2.2]; exact outcome_delaunay.1.ghost))) id) off_edges

/-- A point inside the hull and a point outside of it. -/
example : coverings outcome.mesh.tris (pt 10 18) = 1 ∧ coverings outcome.mesh.tris (pt 0 20) = 0 ∧
    windingNumber (outline outcome.mesh.tris) (pt 10 18) = 1 := by decide +kernel

end DelaunayExample

end Verif.Props
