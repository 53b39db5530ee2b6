import Verif.Lemmas.Triangulator
import Verif.Props.Continence
import Verif.Props.Splitting
import Verif.Props.Boxes
import Mathlib.Algebra.Order.Ring.Rat
import Mathlib.Algebra.Field.Rat

/-!
# Inserting vertices, segments and holes in a triangulator (C22, C23, C24)
-/

set_option linter.unusedSectionVars false

namespace Verif.Props

open Spec Triangulator

section any

variable {K : Type*} [Field K] [LinearOrder K]

/-! ### C22 -/

/-- C22: an error lists exactly the given vertices that are not strictly inside the boundary or not
strictly outside some hole, and the triangulator after the call is the one before it. -/
theorem C22_err {eps : K} {σ : Sched} {T t : Triangulator K} {vs bad : List (Vertex K)}
    (h : insertVertices eps σ T vs = .err t bad) :
    t = T ∧ bad ≠ [] ∧ ∀ v, v ∈ bad ↔ v ∈ vs ∧
      (T.boundary.contains eps v ≠ some .inside ∨ ∃ p ∈ T.holes, p.contains eps v ≠ some .outside) := by
  unfold insertVertices at h
  simp only [] at h
  split_ifs at h with hb
  injection h with h1 h2
  refine ⟨h1.symm, h2 ▸ hb, fun v => ?_⟩
  rw [← h2, List.mem_filter]
  simp [vertexRejected]

/-- C22: it is accepted exactly when every given vertex is strictly inside the boundary and strictly
outside every hole. -/
theorem C22_ok_iff (eps : K) (σ : Sched) (T : Triangulator K) (vs : List (Vertex K)) :
    (∃ T', insertVertices eps σ T vs = .ok T') ↔ ∀ v ∈ vs, T.boundary.contains eps v = some .inside ∧
      ∀ p ∈ T.holes, p.contains eps v = some .outside := by
  have key : vs.filter (vertexRejected eps T) = [] ↔ ∀ v ∈ vs,
      T.boundary.contains eps v = some .inside ∧ ∀ p ∈ T.holes, p.contains eps v = some .outside := by
    rw [List.filter_eq_nil_iff]
    simp [vertexRejected]
  rw [← key]
  unfold insertVertices
  simp only []
  constructor
  · rintro ⟨T', h⟩
    split_ifs at h with hb
    push Not at hb
    exact hb
  · intro h
    rw [if_neg (by simpa using h)]
    exact ⟨_, rfl⟩

/-- C22: on success the boundary, the holes and the mesh are unchanged; every given vertex is stored or is,
up to the tolerance of `==`, an end of a stored segment; stored vertices stay; nothing else is stored; the
ends of stored segments are the old ones and given vertices. -/
theorem C22_ok [IsStrictOrderedRing K] {eps : K} (he : 0 ≤ eps) {σ : Sched} {T T' : Triangulator K} {vs : List (Vertex K)}
    (hg : ∀ v ∈ vs, v.isGhost = false)
    (h : insertVertices eps σ T vs = .ok T') :
    T'.boundary = T.boundary ∧ T'.holes = T.holes ∧ T'.mesh = T.mesh ∧
      (∀ v ∈ vs, v ∈ T'.vertices ∨ ∃ s ∈ T'.segments,
        Vertex.eqv eps s.v1 v = true ∨ Vertex.eqv eps s.v2 v = true) ∧
      (∀ v ∈ T.vertices, v ∈ T'.vertices) ∧ (∀ v ∈ T'.vertices, v ∈ T.vertices ∨ v ∈ vs) ∧
      ∀ s ∈ T'.segments, s ∈ T.segments ∨ s.v1 ∈ vs ∨ s.v2 ∈ vs := by
  unfold insertVertices at h
  simp only [] at h
  split_ifs at h with hb
  injection h with h
  have hself : ∀ v ∈ vs, Vertex.eqv eps v v = true := by
    intro v hv
    simp [Vertex.eqv, hg v hv, approxEq, he]
  have hinv := insertVerticesLoop_induct (eps := eps)
    (fun X => X.boundary = T.boundary ∧ X.holes = T.holes ∧ X.mesh = T.mesh ∧
      (∀ v ∈ T.vertices, v ∈ X.vertices) ∧ (∀ v ∈ X.vertices, v ∈ T.vertices ∨ v ∈ vs) ∧
      ∀ s ∈ X.segments, s ∈ T.segments ∨ s.v1 ∈ vs ∨ s.v2 ∈ vs) (vs := vs)
    (fun v hv X hX _ => ⟨hX.1, hX.2.1, hX.2.2.1, fun w hw => mem_setInsert.2 (Or.inr (hX.2.2.2.1 w hw)),
      fun w hw => by
        rcases mem_setInsert.1 hw with rfl | hw
        · exact Or.inr hv
        · exact hX.2.2.2.2.1 w hw, hX.2.2.2.2.2⟩)
    (fun v hv X s hs hX _ _ _ => ⟨hX.1, hX.2.1, hX.2.2.1, hX.2.2.2.1, hX.2.2.2.2.1, fun t ht => by
      simp only [mem_setInsert, mem_setErase] at ht
      rcases ht with rfl | rfl | ht
      · exact Or.inr (Or.inl hv)
      · exact Or.inr (Or.inr hv)
      · exact hX.2.2.2.2.2 t ht.1⟩)
    (σ := σ.sub 1) (l := shuffle (σ.sub 0) vs) (fun v hv => mem_shuffle.1 hv) (T := T)
    ⟨rfl, rfl, rfl, fun _ h => h, fun _ h => Or.inl h, fun _ h => Or.inl h⟩
  rw [h] at hinv
  obtain ⟨h1, h2, h3, h4, h5, h6⟩ := hinv
  refine ⟨h1, h2, h3, fun v hv => ?_, h4, h5, h6⟩
  have := insertVerticesLoop_present (eps := eps) (σ := σ.sub 1) (l := shuffle (σ.sub 0) vs) (T := T) v
    (Or.inl (mem_shuffle.2 hv))
  rw [h] at this
  rcases this with h | ⟨s, hs, h | h | h | h⟩
  · exact Or.inl h
  · exact Or.inr ⟨s, hs, Or.inl h⟩
  · exact Or.inr ⟨s, hs, Or.inr h⟩
  · exact Or.inr ⟨s, hs, Or.inl (h ▸ hself v hv)⟩
  · exact Or.inr ⟨s, hs, Or.inr (h ▸ hself v hv)⟩

/-! ### C23 -/

/-- C23: an error lists exactly the given segments that are not reported strictly inside the boundary or
not reported strictly outside some hole, and nothing changes. -/
theorem C23_err {eps : K} {fuel : Nat} {σ : Sched} {T t : Triangulator K}
    {segs bad : List (Edge (Vertex K))} (h : insertSegments eps fuel σ T segs = .ok (.err t bad)) :
    t = T ∧ bad ≠ [] ∧ ∀ s, s ∈ bad ↔ s ∈ segs ∧
      (Polyline.continence eps fuel T.boundary ⟨[s.v1, s.v2], true, by simp⟩ ≠
          .ok (some (.inside, .opened)) ∨
        ∃ p ∈ T.holes, Polyline.continence eps fuel p ⟨[s.v1, s.v2], true, by simp⟩ ≠
          .ok (some (.outside, .opened))) := by
  unfold insertSegments at h
  split_ifs at h with h0
  · simp at h
  rw [Res.bind_eq_ok] at h
  obtain ⟨b, hb, h⟩ := h
  by_cases hne : b ≠ []
  · rw [if_pos hne] at h
    injection h with h
    injection h with h1 h2
    subst h2
    refine ⟨h1.symm, hne, fun s => ?_⟩
    obtain ⟨i1, i2⟩ := filterRes_ok hb
    rw [i2]
    constructor
    · rintro ⟨hs, hr⟩
      exact ⟨hs, (segmentRejected_iff hr).1 rfl⟩
    · rintro ⟨hs, hr⟩
      obtain ⟨c, hc⟩ := i1 s hs
      rw [(segmentRejected_iff hc).2 hr] at hc
      exact ⟨hs, hc⟩
  · rw [if_neg hne] at h
    simp only [Res.bind_eq_ok] at h
    obtain ⟨_, -, _, -, h⟩ := h
    simp at h

/-- Decomposition of a successful call. -/
theorem insertSegments_ok {eps : K} {fuel : Nat} {σ : Sched} {T T' : Triangulator K}
    {segs : List (Edge (Vertex K))} (hne : segs ≠ [])
    (h : insertSegments eps fuel σ T segs = .ok (.ok T')) :
    filterRes (segmentRejected eps fuel T) segs = .ok [] ∧
    ∃ r sp, absorbLoop eps fuel (σ.sub 0) (shuffle (σ.sub 1) segs) T.vertices [] = .ok r ∧
      splitIntersections eps fuel (Edge.intoVertexPairs (shuffle (σ.sub 2) r.2)
        ++ Edge.intoVertexPairs (shuffle (σ.sub 3) T.segments)) = .ok sp ∧
      T' = { T with vertices := r.1, segments := toSet (Edge.fromVertexPairs sp) } := by
  unfold insertSegments at h
  rw [if_neg hne, Res.bind_eq_ok] at h
  obtain ⟨b, hb, h⟩ := h
  by_cases hbn : b ≠ []
  · rw [if_pos hbn] at h; simp at h
  · rw [if_neg hbn] at h
    push Not at hbn
    subst hbn
    simp only [Res.bind_eq_ok] at h
    obtain ⟨r, hr, sp, hsp, h⟩ := h
    injection h with h
    injection h with h
    exact ⟨hb, r, sp, hr, hsp, h.symm⟩

/-- C23: on success every given segment is reported strictly inside the boundary and strictly outside
every hole; boundary, holes and mesh are unchanged, and no free vertex is invented. -/
theorem C23_ok {eps : K} {fuel : Nat} {σ : Sched} {T T' : Triangulator K}
    {segs : List (Edge (Vertex K))} (h : insertSegments eps fuel σ T segs = .ok (.ok T')) :
    T'.boundary = T.boundary ∧ T'.holes = T.holes ∧ T'.mesh = T.mesh ∧
      (∀ v ∈ T'.vertices, v ∈ T.vertices) ∧
      ∀ s ∈ segs, Polyline.continence eps fuel T.boundary ⟨[s.v1, s.v2], true, by simp⟩ =
          .ok (some (.inside, .opened)) ∧
        ∀ p ∈ T.holes, Polyline.continence eps fuel p ⟨[s.v1, s.v2], true, by simp⟩ =
          .ok (some (.outside, .opened)) := by
  by_cases hne : segs = []
  · unfold insertSegments at h
    rw [if_pos hne] at h
    injection h with h
    injection h with h
    subst h
    subst hne
    simp
  · obtain ⟨hb, r, sp, hr, -, rfl⟩ := insertSegments_ok hne h
    refine ⟨rfl, rfl, rfl, ?_, ?_⟩
    · exact absorbLoop_induct (eps := eps) (fun _ stored _ => ∀ v ∈ stored, v ∈ T.vertices)
        (fun _ _ _ _ _ _ hI hs _ _ _ _ v hv => hI v (hs.subset hv))
        (fun _ _ _ _ _ hI hs _ _ v hv => hI v (hs.subset hv)) (fun _ h => h) hr
    · intro s hs
      obtain ⟨i1, i2⟩ := filterRes_ok hb
      obtain ⟨c, hc⟩ := i1 s hs
      have hcf : c ≠ true := by
        rintro rfl
        have := (i2 s).2 ⟨hs, hc⟩
        simp at this
      have := mt (segmentRejected_iff hc).2 hcf
      push Not at this
      exact this

/-! ### C24 -/

/-- C24: an error is only returned if the hole is not reported strictly inside the boundary, or not
reported strictly outside some hole, or some stored segment is not reported strictly outside the new hole;
and nothing changes. -/
theorem C24_err {eps : K} {fuel : Nat} {T t : Triangulator K} {hole : Polyline (Vertex K)}
    {bad : List (Vertex K)} (h : insertHole eps fuel T hole = .ok (.err t bad)) :
    t = T ∧ bad ≠ [] ∧
      (Polyline.continence eps fuel T.boundary hole ≠ .ok (some (.inside, .opened)) ∨
        (∃ p ∈ T.holes, Polyline.continence eps fuel p hole ≠ .ok (some (.outside, .opened))) ∨
        ∃ s ∈ T.segments, Polyline.continence eps fuel hole ⟨[s.v1, s.v2], true, by simp⟩ ≠
          .ok (some (.outside, .opened))) := by
  unfold insertHole at h
  rw [Res.bind_eq_ok] at h
  obtain ⟨b, hb, h⟩ := h
  unfold holeConflicts at hb
  simp only [Res.bind_eq_ok] at hb
  obtain ⟨c, hc, l, hl, hb⟩ := hb
  injection hb with hb
  by_cases hbn : b ≠ []
  · rw [if_pos hbn] at h
    injection h with h
    injection h with h1 h2
    refine ⟨h1.symm, h2 ▸ hbn, ?_⟩
    by_cases hci : c = some (.inside, .opened)
    · right; left
      obtain ⟨v, hv⟩ := List.exists_mem_of_ne_nil _ hbn
      rw [← hb, mem_toSet, if_pos hci, List.nil_append] at hv
      obtain ⟨p, hp, -⟩ := List.mem_flatMap.1 hv
      obtain ⟨i1, i2⟩ := filterRes_ok hl
      obtain ⟨hp1, hp2⟩ := (i2 p).1 hp
      refine ⟨p, hp1, fun he => ?_⟩
      rw [he, Res.bind_ok] at hp2
      simp at hp2
    · left
      rw [hc]
      intro he
      injection he with he
      exact hci he
  · rw [if_neg hbn, Res.bind_eq_ok] at h
    obtain ⟨m, hm, h⟩ := h
    simp only [] at h
    split_ifs at h with hbm
    · injection h with h
      injection h with h1 h2
      refine ⟨h1.symm, h2 ▸ hbm, Or.inr (Or.inr ?_)⟩
      obtain ⟨v, hv⟩ := List.exists_mem_of_ne_nil _ hbm
      rw [mem_toSet] at hv
      obtain ⟨s, hs, -⟩ := List.mem_flatMap.1 hv
      obtain ⟨i1, i2⟩ := filterRes_ok hm
      obtain ⟨hs1, hs2⟩ := (i2 s).1 hs
      refine ⟨s, hs1, fun he => ?_⟩
      rw [he, Res.bind_ok] at hs2
      simp at hs2
    · simp at h

/-- C24: on success the hole is stored and nothing else changes; the hole is reported strictly inside the
boundary and strictly outside the other holes, and every stored segment strictly outside it. -/
theorem C24_ok {eps : K} {fuel : Nat} {T T' : Triangulator K} {hole : Polyline (Vertex K)}
    (h : insertHole eps fuel T hole = .ok (.ok T')) :
    T'.boundary = T.boundary ∧ T'.mesh = T.mesh ∧ T'.vertices = T.vertices ∧ T'.segments = T.segments ∧
      (∀ p, p ∈ T'.holes ↔ p = hole ∨ p ∈ T.holes) ∧
      Polyline.continence eps fuel T.boundary hole = .ok (some (.inside, .opened)) ∧
      (∀ p ∈ T.holes, Polyline.continence eps fuel p hole = .ok (some (.outside, .opened))) ∧
      ∀ s ∈ T.segments, Polyline.continence eps fuel hole ⟨[s.v1, s.v2], true, by simp⟩ =
        .ok (some (.outside, .opened)) := by
  unfold insertHole at h
  rw [Res.bind_eq_ok] at h
  obtain ⟨b, hb, h⟩ := h
  unfold holeConflicts at hb
  simp only [Res.bind_eq_ok] at hb
  obtain ⟨c, hc, l, hl, hb⟩ := hb
  injection hb with hb
  by_cases hbn : b ≠ []
  · rw [if_pos hbn] at h; simp at h
  · rw [if_neg hbn, Res.bind_eq_ok] at h
    push Not at hbn
    subst hbn
    obtain ⟨m, hm, h⟩ := h
    simp only [] at h
    split_ifs at h with hbm
    · simp at h
    · injection h with h
      injection h with h
      subst h
      push Not at hbm
      have hnil : ∀ v, v ∉ (if c = some (.inside, .opened) then ([] : List (Vertex K))
          else T.boundary.vertices) ++ l.flatMap Polyline.vertices := by
        intro v hv
        have := mem_toSet.2 hv
        rw [hb] at this
        simp at this
      refine ⟨rfl, rfl, rfl, rfl, fun p => mem_setInsert, ?_, ?_, ?_⟩
      · rw [hc]
        by_contra hne
        have hci : c ≠ some (.inside, .opened) := fun he => hne (by rw [he])
        rw [if_neg hci] at hnil
        have h2 := T.boundary.two_le
        obtain ⟨v, hv⟩ := List.exists_mem_of_ne_nil T.boundary.vertices (by
          intro he; rw [he] at h2; simp at h2)
        exact hnil v (List.mem_append_left _ hv)
      · intro p hp
        obtain ⟨i1, i2⟩ := filterRes_ok hl
        obtain ⟨d, hd⟩ := i1 p hp
        rw [Res.bind_eq_ok] at hd
        obtain ⟨c', hc', hd⟩ := hd
        rw [hc']
        by_contra hne
        have hci : c' ≠ some (.outside, .opened) := fun he => hne (by rw [he])
        have hpl : p ∈ l := (i2 p).2 ⟨hp, by rw [hc', Res.bind_ok]; simp [hci]⟩
        have h2 := p.two_le
        obtain ⟨v, hv⟩ := List.exists_mem_of_ne_nil p.vertices (by
          intro he; rw [he] at h2; simp at h2)
        exact hnil v (List.mem_append_right _ (List.mem_flatMap.2 ⟨p, hpl, hv⟩))
      · intro s hs
        obtain ⟨i1, i2⟩ := filterRes_ok hm
        obtain ⟨d, hd⟩ := i1 s hs
        rw [Res.bind_eq_ok] at hd
        obtain ⟨c', hc', hd⟩ := hd
        rw [hc']
        by_contra hne
        have hci : c' ≠ some (.outside, .opened) := fun he => hne (by rw [he])
        have hpl : s ∈ m := (i2 s).2 ⟨hs, by rw [hc', Res.bind_ok]; simp [hci]⟩
        have : s.v1 ∈ toSet (m.flatMap fun s => [s.v1, s.v2]) :=
          mem_toSet.2 (List.mem_flatMap.2 ⟨s, hpl, by simp⟩)
        rw [hbm] at this
        simp at this

end any

section exact

variable {K : Type*} [Field K] [LinearOrder K] [IsStrictOrderedRing K]

/-- C22: in exact arithmetic, inserting vertices does not change the points covered by the segments, and
creates no segment of length zero. -/
theorem C22_segments {σ : Sched} {T T' : Triangulator K} {vs : List (Vertex K)}
    (hg : ∀ v ∈ vs, v.isGhost = false)
    (hs : ∀ s ∈ T.segments, s.v1.isGhost = false ∧ s.v2.isGhost = false ∧ ¬ SamePoint s.v1 s.v2)
    (h : insertVertices 0 σ T vs = .ok T') :
    (∀ q, (∃ s ∈ T'.segments, OnSegment s.v1 s.v2 q) ↔ ∃ s ∈ T.segments, OnSegment s.v1 s.v2 q) ∧
      ∀ s ∈ T'.segments, s.v1.isGhost = false ∧ s.v2.isGhost = false ∧ ¬ SamePoint s.v1 s.v2 := by
  unfold insertVertices at h
  simp only [] at h
  split_ifs at h with hb
  injection h with h
  have := insertVerticesLoop_induct (eps := (0 : K))
    (fun X => (∀ q, (∃ s ∈ X.segments, OnSegment s.v1 s.v2 q) ↔
        ∃ s ∈ T.segments, OnSegment s.v1 s.v2 q) ∧
      ∀ s ∈ X.segments, s.v1.isGhost = false ∧ s.v2.isGhost = false ∧ ¬ SamePoint s.v1 s.v2) (vs := vs)
    (fun v hv X hX _ => hX)
    (fun v hv X s hsX hX hc h1 h2 => by
      obtain ⟨i1, i2⟩ := hX
      obtain ⟨g1, g2, -⟩ := i2 s hsX
      have hv' := hg v hv
      have hon := (C07_exact s v).1 hc
      have e1 : ¬ SamePoint s.v1 v := fun hsp => by
        rw [(eqv_zero g1 hv').2 hsp] at h1; simp at h1
      have e2 : ¬ SamePoint s.v2 v := fun hsp => by
        rw [(eqv_zero g2 hv').2 hsp] at h2; simp at h2
      refine ⟨fun q => ?_, fun t ht => ?_⟩
      · rw [← i1 q]
        constructor
        · rintro ⟨t, ht, hq⟩
          simp only [mem_setInsert, mem_setErase] at ht
          rcases ht with rfl | rfl | ht
          · exact ⟨s, hsX, (onSegment_cut hon).2 (Or.inr hq)⟩
          · exact ⟨s, hsX, (onSegment_cut hon).2 (Or.inl hq)⟩
          · exact ⟨t, ht.1, hq⟩
        · rintro ⟨t, ht, hq⟩
          by_cases hts : t = s
          · subst hts
            rcases (onSegment_cut hon).1 hq with hq | hq
            · exact ⟨⟨t.v1, v⟩, by simp, hq⟩
            · exact ⟨⟨v, t.v2⟩, by simp, hq⟩
          · exact ⟨t, by simp [ht, hts], hq⟩
      · simp only [mem_setInsert, mem_setErase] at ht
        rcases ht with rfl | rfl | ht
        · exact ⟨hv', g2, fun h => e2 h.symm⟩
        · exact ⟨g1, hv', e1⟩
        · exact i2 t ht.1)
    (σ := σ.sub 1) (l := shuffle (σ.sub 0) vs) (fun v hv => mem_shuffle.1 hv) (T := T)
    ⟨fun _ => Iff.rfl, hs⟩
  rw [h] at this
  exact this

/-- C23 (part): if no stored free vertex is equal, up to the tolerance, to an end of a given segment or to
another stored free vertex, and no given or stored segment has equal ends, then no segment has equal ends
afterwards. Missing: see `C23_degenerate_false`. -/
theorem C23_nondegenerate_partial {eps : K} {fuel : Nat} {σ : Sched} {T T' : Triangulator K}
    {segs : List (Edge (Vertex K))} (h : insertSegments eps fuel σ T segs = .ok (.ok T'))
    (hst : ∀ s ∈ T.segments, Vertex.eqv eps s.v1 s.v2 = false)
    (hsg : ∀ s ∈ segs, Vertex.eqv eps s.v1 s.v2 = false)
    (hend : ∀ s ∈ segs, ∀ v ∈ T.vertices, Vertex.eqv eps s.v1 v = false ∧ Vertex.eqv eps s.v2 v = false)
    (hapart : ∀ v ∈ T.vertices, ∀ w ∈ T.vertices, v ≠ w → Vertex.eqv eps v w = false) :
    ∀ s ∈ T'.segments, Vertex.eqv eps s.v1 s.v2 = false := by
  have hsymm : ∀ a b : Vertex K, Vertex.eqv eps a b = Vertex.eqv eps b a := by
    intro a b
    simp only [Vertex.eqv, approxEq, abs_sub_comm a.x b.x, abs_sub_comm a.y b.y]
    cases a.isGhost <;> cases b.isGhost <;> rfl
  by_cases hne : segs = []
  · unfold insertSegments at h
    rw [if_pos hne] at h
    injection h with h
    injection h with h
    subst h
    exact hst
  · obtain ⟨-, r, sp, hr, hsp, rfl⟩ := insertSegments_ok hne h
    have hI := absorbLoop_induct (eps := eps)
      (fun aux stored acc => (∀ v ∈ stored, v ∈ T.vertices) ∧
        (∀ s ∈ aux, Vertex.eqv eps s.v1 s.v2 = false ∧
          ∀ v ∈ stored, Vertex.eqv eps s.v1 v = false ∧ Vertex.eqv eps s.v2 v = false) ∧
        ∀ s ∈ acc, Vertex.eqv eps s.v1 s.v2 = false)
      (fun s aux stored stored' acc v hI hsub _ hv hv' _ => by
        obtain ⟨i1, i2, i3⟩ := hI
        obtain ⟨j1, j2⟩ := i2 s (by simp)
        obtain ⟨k1, k2⟩ := j2 v hv
        have hvw : ∀ w ∈ stored', Vertex.eqv eps v w = false := fun w hw =>
          hapart v (i1 v hv) w (i1 w (hsub.subset hw)) (fun he => hv' (he ▸ hw))
        refine ⟨fun w hw => i1 w (hsub.subset hw), fun t ht => ?_, i3⟩
        simp only [List.mem_cons] at ht
        rcases ht with rfl | rfl | ht
        · exact ⟨by rw [hsymm]; exact k2, fun w hw => ⟨hvw w hw, (j2 w (hsub.subset hw)).2⟩⟩
        · exact ⟨k1, fun w hw => ⟨(j2 w (hsub.subset hw)).1, hvw w hw⟩⟩
        · obtain ⟨l1, l2⟩ := i2 t (by simp [ht])
          exact ⟨l1, fun w hw => l2 w (hsub.subset hw)⟩)
      (fun s aux stored stored' acc hI hsub _ _ => by
        obtain ⟨i1, i2, i3⟩ := hI
        refine ⟨fun w hw => i1 w (hsub.subset hw), fun t ht => ?_, fun t ht => ?_⟩
        · obtain ⟨l1, l2⟩ := i2 t (by simp [ht])
          exact ⟨l1, fun w hw => l2 w (hsub.subset hw)⟩
        · rcases mem_setInsert.1 ht with rfl | ht
          · exact (i2 t (by simp)).1
          · exact i3 t ht)
      (aux := shuffle (σ.sub 1) segs) (stored := T.vertices) (acc := [])
      ⟨fun _ h => h, fun s hs => ⟨hsg s (mem_shuffle.1 hs), hend s (mem_shuffle.1 hs)⟩, by simp⟩ hr
    have hfin := split_nondegenerate (eps := eps) (by
      intro s hs
      simp only [Edge.intoVertexPairs, List.mem_append, List.mem_map, mem_shuffle] at hs
      rcases hs with ⟨e, he, rfl⟩ | ⟨e, he, rfl⟩
      · exact hI.2.2 e he
      · exact hst e he) hsp
    intro s hs
    rw [mem_toSet] at hs
    obtain ⟨t, ht, rfl⟩ := List.mem_map.1 hs
    exact hfin t ht

/-- Invariant used for the two geometric theorems on `insert_segments`. -/
theorem insertSegments_geo {fuel : Nat} {σ : Sched} {T T' : Triangulator K}
    {segs : List (Edge (Vertex K))} (h : insertSegments 0 fuel σ T segs = .ok (.ok T')) (hne : segs ≠ [])
    (hv : ∀ v ∈ T.vertices, v.isGhost = false)
    (hst : ∀ s ∈ T.segments, s.v1.isGhost = false ∧ s.v2.isGhost = false)
    (hsg : ∀ s ∈ segs, s.v1.isGhost = false ∧ s.v2.isGhost = false) :
    ∃ l sp r, absorbLoop 0 fuel (σ.sub 0) (shuffle (σ.sub 1) segs) T.vertices [] = .ok r ∧ T'.vertices = r.1 ∧
      l = Edge.intoVertexPairs (shuffle (σ.sub 2) r.2) ++ Edge.intoVertexPairs (shuffle (σ.sub 3) T.segments) ∧
      (∀ s ∈ l, Solid s) ∧ splitIntersections 0 fuel l = .ok sp ∧
      T'.segments = toSet (Edge.fromVertexPairs sp) ∧
      (∀ q, OnSome l q ↔ (∃ s ∈ T.segments, OnSegment s.v1 s.v2 q) ∨
        ∃ s ∈ segs, OnSegment s.v1 s.v2 q) ∧
      ∀ v ∈ T.vertices, v ∈ T'.vertices ∨ ∃ t ∈ l, SamePoint t.1 v ∨ SamePoint t.2 v := by
  obtain ⟨-, r, sp, hr, hsp, rfl⟩ := insertSegments_ok hne h
  have hI := absorbLoop_induct (eps := (0 : K))
    (fun aux stored acc => (∀ v ∈ stored, v ∈ T.vertices) ∧
      (∀ s, s ∈ aux ∨ s ∈ acc → s.v1.isGhost = false ∧ s.v2.isGhost = false) ∧
      (∀ q, (∃ s, (s ∈ aux ∨ s ∈ acc) ∧ OnSegment s.v1 s.v2 q) ↔ ∃ s ∈ segs, OnSegment s.v1 s.v2 q) ∧
      ∀ v ∈ T.vertices, v ∈ stored ∨ ∃ s, (s ∈ aux ∨ s ∈ acc) ∧ (SamePoint s.v1 v ∨ SamePoint s.v2 v))
    (fun s aux stored stored' acc v hI hsub hgone hvs hv' hc => by
      obtain ⟨i1, i2, i3, i4⟩ := hI
      obtain ⟨g1, g2⟩ := i2 s (by simp)
      have hvg := hv v (i1 v hvs)
      have hon := (C07_exact s v).1 hc
      have hends : ∀ w, (SamePoint s.v1 w ∨ SamePoint s.v2 w) →
          ∃ t, (t ∈ (⟨v, s.v2⟩ :: ⟨s.v1, v⟩ :: aux : List (Edge (Vertex K))) ∨ t ∈ acc) ∧
            (SamePoint t.v1 w ∨ SamePoint t.v2 w) := by
        rintro w (hw | hw)
        · exact ⟨⟨s.v1, v⟩, by simp, Or.inl hw⟩
        · exact ⟨⟨v, s.v2⟩, by simp, Or.inr hw⟩
      refine ⟨fun w hw => i1 w (hsub.subset hw), fun t ht => ?_, fun q => ?_, fun w hw => ?_⟩
      · simp only [List.mem_cons] at ht
        rcases ht with (rfl | rfl | ht) | ht
        · exact ⟨hvg, g2⟩
        · exact ⟨g1, hvg⟩
        · exact i2 t (by simp [ht])
        · exact i2 t (by simp [ht])
      · rw [← i3 q]
        constructor
        · rintro ⟨t, ht, hq⟩
          simp only [List.mem_cons] at ht
          rcases ht with (rfl | rfl | ht) | ht
          · exact ⟨s, by simp, (onSegment_cut hon).2 (Or.inr hq)⟩
          · exact ⟨s, by simp, (onSegment_cut hon).2 (Or.inl hq)⟩
          · exact ⟨t, by simp [ht], hq⟩
          · exact ⟨t, by simp [ht], hq⟩
        · rintro ⟨t, ht, hq⟩
          simp only [List.mem_cons] at ht
          rcases ht with (rfl | ht) | ht
          · rcases (onSegment_cut hon).1 hq with hq | hq
            · exact ⟨⟨t.v1, v⟩, by simp, hq⟩
            · exact ⟨⟨v, t.v2⟩, by simp, hq⟩
          · exact ⟨t, by simp [ht], hq⟩
          · exact ⟨t, by simp [ht], hq⟩
      · rcases i4 w hw with hws | ⟨t, ht, htw⟩
        · by_cases hws' : w ∈ stored'
          · exact Or.inl hws'
          · right
            rcases hgone w hws hws' with (he | he) | he
            · exact hends w (Or.inl ((eqv_zero g1 (hv w hw)).1 he))
            · exact hends w (Or.inr ((eqv_zero g2 (hv w hw)).1 he))
            · exact ⟨⟨s.v1, v⟩, by simp, Or.inr (he ▸ ⟨rfl, rfl⟩)⟩
        · right
          simp only [List.mem_cons] at ht
          rcases ht with (rfl | ht) | ht
          · exact hends w htw
          · exact ⟨t, by simp [ht], htw⟩
          · exact ⟨t, by simp [ht], htw⟩)
    (fun s aux stored stored' acc hI hsub hgone _ => by
      obtain ⟨i1, i2, i3, i4⟩ := hI
      obtain ⟨g1, g2⟩ := i2 s (by simp)
      have hmem : ∀ t, (t ∈ aux ∨ t ∈ setInsert s acc) ↔ (t ∈ s :: aux ∨ t ∈ acc) := by
        intro t; simp only [mem_setInsert, List.mem_cons]; tauto
      refine ⟨fun w hw => i1 w (hsub.subset hw), fun t ht => i2 t ((hmem t).1 ht), fun q => ?_,
        fun w hw => ?_⟩
      · rw [← i3 q]
        simp only [hmem]
      · rcases i4 w hw with hws | ⟨t, ht, htw⟩
        · by_cases hws' : w ∈ stored'
          · exact Or.inl hws'
          · right
            rcases hgone w hws hws' with he | he
            · exact ⟨s, by simp, Or.inl ((eqv_zero g1 (hv w hw)).1 he)⟩
            · exact ⟨s, by simp, Or.inr ((eqv_zero g2 (hv w hw)).1 he)⟩
        · exact Or.inr ⟨t, (hmem t).2 ht, htw⟩)
    (aux := shuffle (σ.sub 1) segs) (stored := T.vertices) (acc := [])
    ⟨fun _ h => h, fun s hs => hsg s (by simpa using hs), fun q => by simp, fun v hv => Or.inl hv⟩ hr
  obtain ⟨-, i2, i3, i4⟩ := hI
  refine ⟨_, sp, r, hr, rfl, rfl, ?_, hsp, rfl, fun q => ?_, fun v hv => ?_⟩
  · intro s hs
    simp only [Edge.intoVertexPairs, List.mem_append, List.mem_map, mem_shuffle] at hs
    rcases hs with ⟨e, he, rfl⟩ | ⟨e, he, rfl⟩
    · exact i2 e (Or.inr he)
    · exact hst e he
  · rw [← i3 q]
    unfold OnSome
    simp only [Edge.intoVertexPairs, List.mem_append, List.mem_map, mem_shuffle]
    constructor
    · rintro ⟨s, ⟨e, he, rfl⟩ | ⟨e, he, rfl⟩, hq⟩
      · exact Or.inr ⟨e, Or.inr he, hq⟩
      · exact Or.inl ⟨e, he, hq⟩
    · rintro (⟨e, he, hq⟩ | ⟨e, he, hq⟩)
      · exact ⟨_, Or.inr ⟨e, he, rfl⟩, hq⟩
      · exact ⟨_, Or.inl ⟨e, he.resolve_left (by simp), rfl⟩, hq⟩
  · rcases i4 v hv with h | ⟨s, hs, h⟩
    · exact Or.inl h
    · refine Or.inr ⟨(s.v1, s.v2), ?_, h⟩
      simp only [Edge.intoVertexPairs, List.mem_append, List.mem_map, mem_shuffle]
      exact Or.inl ⟨s, hs.resolve_left (by simp), rfl⟩

/-- C23: in exact arithmetic the stored segments cover afterwards exactly the points covered before and the
points of the given segments, two of them that are not parallel share at most a common end, and every
free vertex that is no longer stored is an end of a stored segment. -/
theorem C23_geometry {fuel : Nat} {σ : Sched} {T T' : Triangulator K}
    {segs : List (Edge (Vertex K))} (h : insertSegments 0 fuel σ T segs = .ok (.ok T')) (hne : segs ≠ [])
    (hv : ∀ v ∈ T.vertices, v.isGhost = false)
    (hst : ∀ s ∈ T.segments, s.v1.isGhost = false ∧ s.v2.isGhost = false)
    (hsg : ∀ s ∈ segs, s.v1.isGhost = false ∧ s.v2.isGhost = false) :
    (∀ q, (∃ s ∈ T'.segments, OnSegment s.v1 s.v2 q) ↔
      (∃ s ∈ T.segments, OnSegment s.v1 s.v2 q) ∨ ∃ s ∈ segs, OnSegment s.v1 s.v2 q) ∧
    (∀ s ∈ T'.segments, ∀ t ∈ T'.segments, ¬ Parallel s.v1 s.v2 t.v1 t.v2 →
      ∀ q, OnSegment s.v1 s.v2 q → OnSegment t.v1 t.v2 q →
        (SamePoint s.v1 q ∨ SamePoint s.v2 q) ∧ (SamePoint t.v1 q ∨ SamePoint t.v2 q)) ∧
    ∀ v ∈ T.vertices, v ∈ T'.vertices ∨ ∃ s ∈ T'.segments, SamePoint s.v1 v ∨ SamePoint s.v2 v := by
  obtain ⟨l, sp, -, -, -, -, hl, hsp, hT, hcov, hends⟩ := insertSegments_geo h hne hv hst hsg
  have hmem : ∀ s : Edge (Vertex K), s ∈ T'.segments ↔ (s.v1, s.v2) ∈ sp := by
    intro s
    rw [hT, mem_toSet]
    exact (fromVertexPairs_mem (s := (s.v1, s.v2))).symm
  refine ⟨fun q => ?_, fun s hs t ht => ?_, fun v hv => ?_⟩
  · rw [← hcov q, OnSome, ← (C12_cover hl hsp).1 q]
    constructor
    · rintro ⟨s, hs, hq⟩; exact ⟨(s.v1, s.v2), (hmem s).1 hs, hq⟩
    · rintro ⟨s, hs, hq⟩; exact ⟨⟨s.1, s.2⟩, (hmem ⟨s.1, s.2⟩).2 hs, hq⟩
  · exact C12_no_crossings hl hsp _ ((hmem s).1 hs) _ ((hmem t).1 ht)
  · rcases hends v hv with h | h
    · exact Or.inl h
    · obtain ⟨s, hs, h⟩ := split_keeps_ends hl hsp v h
      exact Or.inr ⟨⟨s.1, s.2⟩, (hmem ⟨s.1, s.2⟩).2 hs, h⟩

/-- C23: in exact arithmetic, with a boundary and holes that are not folded back on themselves, every point
of an accepted segment is inside or on the boundary and outside or on every hole. -/
theorem C23_inside {fuel : Nat} {σ : Sched} {T T' : Triangulator K}
    {segs : List (Edge (Vertex K))} (h : insertSegments 0 fuel σ T segs = .ok (.ok T'))
    (hsg : ∀ s ∈ segs, s.v1.isGhost = false ∧ s.v2.isGhost = false)
    (hb : NoFold T.boundary.vertices ∧ ∀ v ∈ T.boundary.vertices, v.isGhost = false)
    (hh : ∀ p ∈ T.holes, NoFold p.vertices ∧ ∀ v ∈ p.vertices, v.isGhost = false) :
    ∀ s ∈ segs, ∀ q, OnSegment s.v1 s.v2 q →
      (T.boundary.contains 0 q = some .boundary ∨ T.boundary.contains 0 q = some .inside) ∧
      ∀ p ∈ T.holes, p.contains 0 q = some .boundary ∨ p.contains 0 q = some .outside := by
  obtain ⟨-, -, -, -, hc⟩ := C23_ok h
  intro s hs q hq
  obtain ⟨c1, c2⟩ := hc s hs
  have hg : ∀ v ∈ [s.v1, s.v2], v.isGhost = false := by
    intro v hv
    simp only [List.mem_cons, List.not_mem_nil, or_false] at hv
    rcases hv with rfl | rfl
    · exact (hsg s hs).1
    · exact (hsg s hs).2
  refine ⟨C42_everywhere_partial hb.2 hg hb.1 c1 (s.v1, s.v2) (by simp [pairs, consecutivePairs]) q hq,
    fun p hp => ?_⟩
  exact C42_everywhere_partial (hh p hp).2 hg (hh p hp).1 (c2 p hp) (s.v1, s.v2)
    (by simp [pairs, consecutivePairs]) q hq

theorem continence_total_list {l : List (Polyline (Vertex K) × Polyline (Vertex K))}
    (h : ∀ s ∈ l, (∀ v ∈ s.1.vertices, v.isGhost = false) ∧ ∀ v ∈ s.2.vertices, v.isGhost = false) :
    ∃ n, ∀ fuel, n ≤ fuel → ∀ s ∈ l, ∃ r, Polyline.continence 0 fuel s.1 s.2 = .ok r := by
  induction l with
  | nil => exact ⟨0, by simp⟩
  | cons s l ih =>
    obtain ⟨n, hn⟩ := ih (fun t ht => h t (List.mem_cons_of_mem _ ht))
    obtain ⟨m, hm⟩ := continence_total (h s (by simp)).1 (h s (by simp)).2
    refine ⟨max n m, fun fuel hf t ht => ?_⟩
    rcases List.mem_cons.1 ht with rfl | ht
    · exact hm fuel (le_trans (le_max_right _ _) hf)
    · exact hn fuel (le_trans (le_max_left _ _) hf) t ht

/-- C24: `insert_hole` terminates and does not panic in exact arithmetic. -/
theorem C24_terminates (T : Triangulator K) (hole : Polyline (Vertex K))
    (hb : ∀ v ∈ T.boundary.vertices, v.isGhost = false)
    (hh : ∀ p ∈ T.holes, ∀ v ∈ p.vertices, v.isGhost = false)
    (hs : ∀ s ∈ T.segments, s.v1.isGhost = false ∧ s.v2.isGhost = false)
    (hp : ∀ v ∈ hole.vertices, v.isGhost = false) :
    ∃ n, ∀ fuel, n ≤ fuel → ∃ r, insertHole 0 fuel T hole = .ok r := by
  obtain ⟨n1, h1⟩ := continence_total hb hp
  obtain ⟨n2, h2⟩ := continence_total_list (l := T.holes.map fun p => (p, hole)) (by
    intro s hs
    obtain ⟨p, hp', rfl⟩ := List.mem_map.1 hs
    exact ⟨hh p hp', hp⟩)
  obtain ⟨n3, h3⟩ := continence_total_list
    (l := T.segments.map fun s => (hole, (⟨[s.v1, s.v2], true, by simp⟩ : Polyline (Vertex K)))) (by
    intro s hs'
    obtain ⟨e, he, rfl⟩ := List.mem_map.1 hs'
    refine ⟨hp, fun v hv => ?_⟩
    simp only [List.mem_cons, List.not_mem_nil, or_false] at hv
    rcases hv with rfl | rfl
    · exact (hs e he).1
    · exact (hs e he).2)
  refine ⟨max n1 (max n2 n3), fun fuel hf => ?_⟩
  have hf1 : n1 ≤ fuel := le_trans (le_max_left _ _) hf
  have hf2 : n2 ≤ fuel := le_trans (le_trans (le_max_left _ _) (le_max_right _ _)) hf
  have hf3 : n3 ≤ fuel := le_trans (le_trans (le_max_right _ _) (le_max_right _ _)) hf
  obtain ⟨c, hc⟩ := h1 fuel hf1
  obtain ⟨l, hl⟩ := filterRes_total (l := T.holes)
    (p := fun e => (Polyline.continence 0 fuel e hole).bind fun c =>
      Res.ok (decide (c ≠ some (Continence.outside, BoundaryInclusion.opened)))) (by
    intro p hp'
    obtain ⟨r, hr⟩ := h2 fuel hf2 (p, hole) (List.mem_map.2 ⟨p, hp', rfl⟩)
    exact ⟨_, by rw [hr, Res.bind_ok]⟩)
  obtain ⟨m, hm⟩ := filterRes_total (l := T.segments)
    (p := fun s => (Polyline.continence 0 fuel hole ⟨[s.v1, s.v2], true, by simp⟩).bind fun c =>
      Res.ok (decide (c ≠ some (Continence.outside, BoundaryInclusion.opened)))) (by
    intro s hs'
    obtain ⟨r, hr⟩ := h3 fuel hf3 _ (List.mem_map.2 ⟨s, hs', rfl⟩)
    exact ⟨_, by rw [hr, Res.bind_ok]⟩)
  unfold insertHole holeConflicts
  rw [hc, Res.bind_ok, hl, Res.bind_ok, Res.bind_ok]
  simp only [hm, Res.bind_ok]
  split_ifs <;> exact ⟨_, rfl⟩

/-- C23: `insert_segments` terminates and does not panic in exact arithmetic. -/
theorem C23_terminates (T : Triangulator K) (segs : List (Edge (Vertex K)))
    (hb : ∀ v ∈ T.boundary.vertices, v.isGhost = false)
    (hh : ∀ p ∈ T.holes, ∀ v ∈ p.vertices, v.isGhost = false)
    (hv : ∀ v ∈ T.vertices, v.isGhost = false)
    (hst : ∀ s ∈ T.segments, s.v1.isGhost = false ∧ s.v2.isGhost = false)
    (hsg : ∀ s ∈ segs, s.v1.isGhost = false ∧ s.v2.isGhost = false) (σ : Sched) :
    ∃ n, ∀ fuel, n ≤ fuel → ∃ r, insertSegments 0 fuel σ T segs = .ok r := by
  have hseg : ∀ s ∈ segs, ∀ v ∈ [s.v1, s.v2], v.isGhost = false := by
    intro s hs v hv
    simp only [List.mem_cons, List.not_mem_nil, or_false] at hv
    rcases hv with rfl | rfl
    · exact (hsg s hs).1
    · exact (hsg s hs).2
  obtain ⟨n1, h1⟩ := continence_total_list
    (l := segs.flatMap fun s => (T.boundary :: T.holes).map fun p =>
      (p, (⟨[s.v1, s.v2], true, by simp⟩ : Polyline (Vertex K)))) (by
    intro x hx
    obtain ⟨s, hs, hx⟩ := List.mem_flatMap.1 hx
    obtain ⟨p, hp, rfl⟩ := List.mem_map.1 hx
    refine ⟨?_, hseg s hs⟩
    rcases List.mem_cons.1 hp with rfl | hp
    · exact hb
    · exact hh p hp)
  have hcont : ∀ fuel, n1 ≤ fuel → ∀ s ∈ segs, ∀ p ∈ T.boundary :: T.holes,
      ∃ r, Polyline.continence 0 fuel p ⟨[s.v1, s.v2], true, by simp⟩ = .ok r := by
    intro fuel hf s hs p hp
    exact h1 fuel hf _ (List.mem_flatMap.2 ⟨s, hs, List.mem_map.2 ⟨p, hp, rfl⟩⟩)
  -- the result of the absorbing loop does not depend on the fuel once there is enough of it
  have mono : ∀ {n σ aux stored acc r}, absorbLoop (0 : K) n σ aux stored acc = .ok r →
      ∀ {m}, n ≤ m → absorbLoop (0 : K) m σ aux stored acc = .ok r := by
    intro n
    induction n with
    | zero =>
      intro σ aux stored acc r h m _
      cases aux with
      | nil => rw [absorbLoop] at h ⊢; exact h
      | cons s aux => simp [absorbLoop] at h
    | succ n ih =>
      intro σ aux stored acc r h m hm
      cases aux with
      | nil => rw [absorbLoop] at h ⊢; exact h
      | cons s aux =>
        obtain ⟨m, rfl⟩ : ∃ k, m = k + 1 := ⟨m - 1, by omega⟩
        rw [absorbLoop] at h ⊢
        cases hv : (scanVertices 0 s (shuffle (σ.sub 0) stored) stored).2 with
        | some v => simp only [hv] at h ⊢; exact ih h (by omega)
        | none => simp only [hv] at h ⊢; exact ih h (by omega)
  obtain ⟨r, hr⟩ := absorbLoop_total (eps := (0 : K)) _ (σ.sub 0) (shuffle (σ.sub 1) segs) T.vertices []
    le_rfl
  have hsolid : ∀ s ∈ Edge.intoVertexPairs (shuffle (σ.sub 2) r.2)
      ++ Edge.intoVertexPairs (shuffle (σ.sub 3) T.segments), Solid s := by
    have hI := absorbLoop_induct (eps := (0 : K))
      (fun aux stored acc => (∀ v ∈ stored, v.isGhost = false) ∧
        ∀ s, s ∈ aux ∨ s ∈ acc → s.v1.isGhost = false ∧ s.v2.isGhost = false)
      (fun s aux stored stored' acc v hI hsub _ hvs _ _ => by
        obtain ⟨i1, i2⟩ := hI
        obtain ⟨g1, g2⟩ := i2 s (by simp)
        refine ⟨fun w hw => i1 w (hsub.subset hw), fun t ht => ?_⟩
        simp only [List.mem_cons] at ht
        rcases ht with (rfl | rfl | ht) | ht
        · exact ⟨i1 v hvs, g2⟩
        · exact ⟨g1, i1 v hvs⟩
        · exact i2 t (by simp [ht])
        · exact i2 t (by simp [ht]))
      (fun s aux stored stored' acc hI hsub _ _ => by
        obtain ⟨i1, i2⟩ := hI
        refine ⟨fun w hw => i1 w (hsub.subset hw), fun t ht => i2 t ?_⟩
        simp only [mem_setInsert, List.mem_cons] at ht ⊢
        tauto)
      (aux := shuffle (σ.sub 1) segs) (stored := T.vertices) (acc := [])
      ⟨hv, fun s hs => hsg s (by simpa using hs)⟩ hr
    intro s hs
    simp only [Edge.intoVertexPairs, List.mem_append, List.mem_map, mem_shuffle] at hs
    rcases hs with ⟨e, he, rfl⟩ | ⟨e, he, rfl⟩
    · exact hI.2 e (Or.inr he)
    · exact hst e he
  obtain ⟨n2, h2⟩ := splitIntersections_total hsolid
  refine ⟨max n1 (max n2 (2 * T.vertices.length + (shuffle (σ.sub 1) segs).length)), fun fuel hf => ?_⟩
  have hf1 : n1 ≤ fuel := le_trans (le_max_left _ _) hf
  have hf2 : n2 ≤ fuel := le_trans (le_trans (le_max_left _ _) (le_max_right _ _)) hf
  have hf3 : 2 * T.vertices.length + (shuffle (σ.sub 1) segs).length ≤ fuel :=
    le_trans (le_trans (le_max_right _ _) (le_max_right _ _)) hf
  obtain ⟨bad, hbad⟩ := filterRes_total (l := segs) (p := segmentRejected 0 fuel T) (by
    intro s hs
    unfold segmentRejected
    obtain ⟨c, hc⟩ := hcont fuel hf1 s hs T.boundary (by simp)
    simp only []
    rw [hc, Res.bind_ok]
    obtain ⟨l, hl⟩ := filterRes_total (l := T.holes)
      (p := fun h => (Polyline.continence 0 fuel h ⟨[s.v1, s.v2], true, by simp⟩).bind fun c =>
        Res.ok (decide (c ≠ some (Continence.outside, BoundaryInclusion.opened)))) (by
      intro p hp
      obtain ⟨c', hc'⟩ := hcont fuel hf1 s hs p (List.mem_cons_of_mem _ hp)
      exact ⟨_, by rw [hc', Res.bind_ok]⟩)
    simp only [hl, Res.bind_ok]
    split_ifs <;> exact ⟨_, rfl⟩)
  obtain ⟨sp, hsp⟩ := h2 fuel hf2
  unfold insertSegments
  split_ifs
  · exact ⟨_, rfl⟩
  · simp only [hbad, mono hr hf3, hsp, Res.bind_ok]
    split_ifs <;> exact ⟨_, rfl⟩

end exact

/-! ### Concrete cases -/

section concrete

/-- The triangulator of a successful insertion. -/
def inserted {K α : Type*} : Res (InsertRes K α) → Option (Triangulator K)
  | .ok (.ok t) => some t
  | _ => none

theorem inserted_some {K α : Type*} {r : Res (InsertRes K α)} {t : Triangulator K}
    (h : inserted r = some t) : r = .ok (.ok t) := by
  unfold inserted at h
  split at h
  · injection h with h; rw [h]
  · simp at h

theorem inserted_map {K α β : Type*} {r : Res (InsertRes K α)} {f : Triangulator K → β} {b : β}
    (h : (inserted r).map f = some b) : ∃ t, r = .ok (.ok t) ∧ f t = b := by
  obtain ⟨t, ht, hf⟩ := Option.map_eq_some_iff.1 h
  exact ⟨t, inserted_some ht, hf⟩

/-- A triangulator with the free vertices (1,1) and (2,2). -/
def T0 : Triangulator ℚ := { Triangulator.new bigSquare with vertices := [⟨1, 1, false⟩, ⟨2, 2, false⟩] }

/-- `T0` is what inserting the two vertices gives. -/
example : insertVertices 0 Sched.first (Triangulator.new bigSquare) [⟨2, 2, false⟩, ⟨1, 1, false⟩] =
    .ok T0 := by
  have h : (Triangulator.new bigSquare : Triangulator ℚ).boundary = bigSquare := rfl
  unfold insertVertices
  rw [if_neg (by decide +kernel)]
  rfl

/-- Rejected vertices: on the boundary, and outside. -/
example : ([⟨2, 2, false⟩, ⟨4, 2, false⟩, ⟨5, 5, false⟩] : List (Vertex ℚ)).filter
    (vertexRejected 0 T0) = [⟨4, 2, false⟩, ⟨5, 5, false⟩] := by
  decide +kernel

/-- C23 fails in full: in a triangulator with a free vertex (reached by one `insert_vertices`), inserting a
proper segment that starts at that vertex stores a segment from the vertex to itself. -/
theorem C23_degenerate_false :
    ∃ (T T' : Triangulator ℚ) (v w : Vertex ℚ) (σ : Sched) (fuel : Nat), ¬ SamePoint v w ∧
      insertVertices 0 σ (Triangulator.new bigSquare) [v] = .ok T ∧
      insertSegments 0 fuel σ T [⟨v, w⟩] = .ok (.ok T') ∧ ⟨v, v⟩ ∈ T'.segments := by
  refine ⟨{ Triangulator.new bigSquare with vertices := [⟨1, 1, false⟩] }, ?_⟩
  have h : (inserted (insertSegments (0 : ℚ) 60 Sched.first
      { Triangulator.new bigSquare with vertices := [⟨1, 1, false⟩] }
      [⟨⟨1, 1, false⟩, ⟨3, 2, false⟩⟩])).map (fun T => T.segments) =
      some [⟨⟨1, 1, false⟩, ⟨1, 1, false⟩⟩, ⟨⟨1, 1, false⟩, ⟨3, 2, false⟩⟩] := by decide +kernel
  obtain ⟨T', h1, h2⟩ := inserted_map h
  refine ⟨T', ⟨1, 1, false⟩, ⟨3, 2, false⟩, Sched.first, 60, by unfold SamePoint; norm_num, ?_, h1, ?_⟩
  · unfold insertVertices
    rw [if_neg (by decide +kernel)]
    rfl
  · rw [h2]; simp

/-- The hypotheses of `C23_nondegenerate_partial` and `C23_geometry` are met when two crossing segments, one
of them through the free vertex (2,2), are inserted; five segments are stored and one free vertex is
left. -/
example : (inserted (insertSegments (0 : ℚ) 80 Sched.first T0
      [⟨⟨1, 2, false⟩, ⟨3, 2, false⟩⟩, ⟨⟨1, 3 / 2, false⟩, ⟨3, 3, false⟩⟩])).map
        (fun T => (T.segments.length, T.vertices)) = some (5, [⟨1, 1, false⟩]) := by
  decide +kernel

/-- A square hole in the middle. -/
def midHole : Polyline (Vertex ℚ) :=
  ⟨[⟨1, 1, false⟩, ⟨3, 1, false⟩, ⟨3, 3, false⟩, ⟨1, 3, false⟩], false, by simp⟩

/-- A smaller hole inside the previous one. -/
def smallHole : Polyline (Vertex ℚ) :=
  ⟨[⟨3 / 2, 3 / 2, false⟩, ⟨5 / 2, 3 / 2, false⟩, ⟨2, 5 / 2, false⟩], false, by simp⟩

/-- C24 fails in full: a stored vertex that lies strictly inside the new hole is not removed, contrary to
the documentation of `insert_hole`. -/
theorem C24_vertex_inside_false :
    ∃ (T T' : Triangulator ℚ) (hole : Polyline (Vertex ℚ)) (v : Vertex ℚ) (fuel : Nat),
      insertVertices 0 Sched.first (Triangulator.new bigSquare) [v] = .ok T ∧
      insertHole 0 fuel T hole = .ok (.ok T') ∧ hole ∈ T'.holes ∧ v ∈ T'.vertices ∧
      hole.contains 0 v = some .inside := by
  refine ⟨{ Triangulator.new bigSquare with vertices := [⟨2, 2, false⟩] }, ?_⟩
  have h : (inserted (insertHole (0 : ℚ) 60
      { Triangulator.new bigSquare with vertices := [⟨2, 2, false⟩] } midHole)).map
        (fun T => (T.holes, T.vertices)) = some ([midHole], [⟨2, 2, false⟩]) := by decide +kernel
  obtain ⟨T', h1, h2⟩ := inserted_map h
  injection h2 with h2 h3
  refine ⟨T', midHole, ⟨2, 2, false⟩, 60, ?_, h1, by rw [h2]; simp, by rw [h3]; simp, by decide +kernel⟩
  unfold insertVertices
  rw [if_neg (by decide +kernel)]
  rfl

/-- C24: a new hole that swallows an existing hole is accepted as well. -/
theorem C24_nested_holes :
    ∃ (T T' : Triangulator ℚ) (fuel : Nat),
      insertHole 0 fuel (Triangulator.new bigSquare) smallHole = .ok (.ok T) ∧
      insertHole 0 fuel T midHole = .ok (.ok T') ∧ smallHole ∈ T'.holes ∧ midHole ∈ T'.holes ∧
      ∀ v ∈ smallHole.vertices, midHole.contains 0 v = some .inside := by
  have h0 : (inserted (insertHole (0 : ℚ) 60 (Triangulator.new bigSquare) smallHole)).map
      (fun T => T.holes) = some [smallHole] := by decide +kernel
  obtain ⟨T, hT, hh⟩ := inserted_map h0
  obtain ⟨e1, e2, e3, e4, -⟩ := C24_ok hT
  have hTe : T = { Triangulator.new bigSquare with holes := [smallHole] } := by
    cases T
    simp only [] at e1 e2 e3 e4 hh
    subst e1; subst e2; subst e3; subst e4; subst hh
    rfl
  have h : (inserted (insertHole (0 : ℚ) 60
      { Triangulator.new bigSquare with holes := [smallHole] } midHole)).map
        (fun T => T.holes) = some [midHole, smallHole] := by decide +kernel
  obtain ⟨T', h1, h2⟩ := inserted_map h
  refine ⟨T, T', 60, hT, hTe ▸ h1, ?_, ?_, by decide +kernel⟩ <;> · rw [h2]; simp

end concrete

end Verif.Props
