import Verif.Model.Histories
import Verif.Props.Triangulator

/-!
# Lemmas about sequences of calls
-/

namespace Verif

open Verif.Spec Verif.Props Triangulator

set_option linter.unusedSectionVars false

variable {K : Type*} [Field K] [LinearOrder K] [IsStrictOrderedRing K]

/-- `w` is an end of one of the segments. -/
def EndOf (S : List (Edge (Vertex K))) (w : Vertex K) : Prop :=
  ∃ s ∈ S, SamePoint s.v1 w ∨ SamePoint s.v2 w

/-- The segments and vertices stored are kept apart: a vertex is on no segment, and segments with different directions
meet in common ends only. -/
structure Orderly (S : List (Edge (Vertex K))) (V : List (Vertex K)) : Prop where
  solid : ∀ s ∈ S, s.v1.isGhost = false ∧ s.v2.isGhost = false
  real : ∀ v ∈ V, v.isGhost = false
  off : ∀ v ∈ V, ∀ s ∈ S, ¬ OnSegment s.v1 s.v2 v
  meet : ∀ s ∈ S, ∀ t ∈ S, ¬ Parallel s.v1 s.v2 t.v1 t.v2 → ∀ q, OnSegment s.v1 s.v2 q → OnSegment t.v1 t.v2 q →
    (SamePoint s.v1 q ∨ SamePoint s.v2 q) ∧ (SamePoint t.v1 q ∨ SamePoint t.v2 q)

theorem onSegment_same {a b p q : Vertex K} (h : SamePoint p q) (hp : OnSegment a b p) : OnSegment a b q := by
  obtain ⟨t, h0, h1, hx, hy⟩ := hp
  exact ⟨t, h0, h1, by rw [← h.1]; exact hx, by rw [← h.2]; exact hy⟩

/-- A piece of a segment cut at an inner point: the common point with something that meets the segment only at its ends
is an end of the piece. -/
theorem piece_end {a b v q : Vertex K} (hv : StrictlyOn a b v) :
    (OnSegment a v q → (SamePoint a q ∨ SamePoint b q) → SamePoint a q ∨ SamePoint v q) ∧
    (OnSegment v b q → (SamePoint a q ∨ SamePoint b q) → SamePoint v q ∨ SamePoint b q) := by
  obtain ⟨⟨t, t0, t1, hx, hy⟩, ha, hb⟩ := hv
  have hab : b.x - a.x ≠ 0 ∨ b.y - a.y ≠ 0 := by
    by_contra hc
    push Not at hc
    refine ha ⟨?_, ?_⟩
    · rw [hx, hc.1]; ring
    · rw [hy, hc.2]; ring
  have t0' : 0 < t := by
    rcases eq_or_lt_of_le t0 with h | h
    · exact absurd ⟨by rw [hx, ← h]; ring, by rw [hy, ← h]; ring⟩ ha
    · exact h
  have t1' : t < 1 := by
    rcases eq_or_lt_of_le t1 with h | h
    · exact absurd ⟨by rw [hx, h]; ring, by rw [hy, h]; ring⟩ hb
    · exact h
  refine ⟨?_, ?_⟩
  · rintro ⟨s, s0, s1, qx, qy⟩ (h | h)
    · exact Or.inl h
    · exfalso
      rw [hx] at qx; rw [hy] at qy
      have e1 : (1 - s * t) * (b.x - a.x) = 0 := by rw [← h.1] at qx; linear_combination qx
      have e2 : (1 - s * t) * (b.y - a.y) = 0 := by rw [← h.2] at qy; linear_combination qy
      have hst : 1 - s * t ≠ 0 := by
        have : s * t < 1 := lt_of_le_of_lt (mul_le_of_le_one_left t0 s1) t1'
        linarith
      rcases hab with hd | hd
      · exact (mul_ne_zero hst hd) e1
      · exact (mul_ne_zero hst hd) e2
  · rintro ⟨s, s0, s1, qx, qy⟩ (h | h)
    · exfalso
      rw [hx] at qx; rw [hy] at qy
      have e1 : (t + s * (1 - t)) * (b.x - a.x) = 0 := by rw [← h.1] at qx; linear_combination -qx
      have e2 : (t + s * (1 - t)) * (b.y - a.y) = 0 := by rw [← h.2] at qy; linear_combination -qy
      have hst : t + s * (1 - t) ≠ 0 := by
        have : 0 ≤ s * (1 - t) := mul_nonneg s0 (by linarith)
        linarith
      rcases hab with hd | hd
      · exact (mul_ne_zero hst hd) e1
      · exact (mul_ne_zero hst hd) e2
    · exact Or.inr h

theorem piece_parallel {a b v c d : Vertex K} (hv : OnSegment a b v) (h : Parallel a b c d) :
    Parallel a v c d ∧ Parallel v b c d := by
  obtain ⟨t, -, -, hx, hy⟩ := hv
  unfold Parallel at *
  rw [hx, hy]
  exact ⟨by linear_combination t * h, by linear_combination (1 - t) * h⟩

theorem parallel_symm {a b c d : Vertex K} (h : Parallel a b c d) : Parallel c d a b := by
  unfold Parallel at *; linear_combination -h

theorem parallel_refl (a b : Vertex K) : Parallel a b a b := by
  unfold Parallel; ring

/-- Cutting a stored segment at an inner point that is no stored vertex keeps things tidy. -/
theorem Orderly.cut {S : List (Edge (Vertex K))} {V : List (Vertex K)} (h : Orderly S V) {s : Edge (Vertex K)} (hs : s ∈ S)
    {v : Vertex K} (hv : StrictlyOn s.v1 s.v2 v) (hg : v.isGhost = false) :
    Orderly (setInsert ⟨v, s.v2⟩ (setInsert ⟨s.v1, v⟩ (setErase s S))) V := by
  have sub : ∀ t ∈ setInsert ⟨v, s.v2⟩ (setInsert ⟨s.v1, v⟩ (setErase s S)),
      ∃ u ∈ S, (t = u ∨ u = s ∧ (t = ⟨v, s.v2⟩ ∨ t = ⟨s.v1, v⟩)) ∧
        (∀ q, OnSegment t.v1 t.v2 q → OnSegment u.v1 u.v2 q) ∧
        (∀ q, OnSegment t.v1 t.v2 q → SamePoint u.v1 q ∨ SamePoint u.v2 q → SamePoint t.v1 q ∨ SamePoint t.v2 q) ∧
        ∀ c d, Parallel u.v1 u.v2 c d → Parallel t.v1 t.v2 c d := by
    intro t ht
    simp only [mem_setInsert, mem_setErase] at ht
    rcases ht with rfl | rfl | ht
    · exact ⟨s, hs, Or.inr ⟨rfl, Or.inl rfl⟩, fun q hq => (onSegment_cut hv.1).2 (Or.inr hq), fun q => (piece_end hv).2,
        fun c d hc => (piece_parallel hv.1 hc).2⟩
    · exact ⟨s, hs, Or.inr ⟨rfl, Or.inr rfl⟩, fun q hq => (onSegment_cut hv.1).2 (Or.inl hq), fun q => (piece_end hv).1,
        fun c d hc => (piece_parallel hv.1 hc).1⟩
    · exact ⟨t, ht.1, Or.inl rfl, fun _ h => h, fun _ _ h => h, fun _ _ h => h⟩
  refine ⟨fun t ht => ?_, h.real, fun w hw t ht hon => ?_, fun t ht t' ht' hp q hq hq' => ?_⟩
  · obtain ⟨u, hu, rfl | ⟨rfl, rfl | rfl⟩, -⟩ := sub t ht
    · exact h.solid _ hu
    · exact ⟨hg, (h.solid _ hu).2⟩
    · exact ⟨(h.solid _ hu).1, hg⟩
  · obtain ⟨u, hu, -, k, -⟩ := sub t ht
    exact h.off w hw u hu (k w hon)
  · obtain ⟨u, hu, -, k1, k2, k3⟩ := sub t ht
    obtain ⟨u', hu', -, k1', k2', k3'⟩ := sub t' ht'
    obtain ⟨m1, m2⟩ := h.meet u hu u' hu' (fun hc => hp (k3 _ _ (parallel_symm (k3' _ _ (parallel_symm hc))))) q (k1 q hq)
      (k1' q hq')
    exact ⟨k2 q hq m1, k2' q hq' m2⟩

/-- What `insert_vertices` does to tidy segments and vertices. -/
theorem insertVertices_tidy {σ : Sched} {T T' : Triangulator K} {vs : List (Vertex K)}
    (hg : ∀ v ∈ vs, v.isGhost = false) (ht : Orderly T.segments T.vertices) (h : insertVertices 0 σ T vs = .ok T') :
    Orderly T'.segments T'.vertices ∧
      (∀ q, (∃ s ∈ T'.segments, OnSegment s.v1 s.v2 q) ↔ ∃ s ∈ T.segments, OnSegment s.v1 s.v2 q) ∧
      ∀ w, EndOf T.segments w → EndOf T'.segments w := by
  unfold insertVertices at h
  simp only [] at h
  split_ifs at h with hb
  injection h with h
  have := insertVerticesLoop_induct (eps := (0 : K))
    (fun X => Orderly X.segments X.vertices ∧ (∀ q, (∃ s ∈ X.segments, OnSegment s.v1 s.v2 q) ↔
        ∃ s ∈ T.segments, OnSegment s.v1 s.v2 q) ∧ ∀ w, EndOf T.segments w → EndOf X.segments w) (vs := vs)
    (fun v hv X hX hoff => by
      refine ⟨⟨hX.1.solid, fun w hw => ?_, fun w hw s hs hon => ?_, hX.1.meet⟩, hX.2⟩
      · rcases mem_setInsert.1 hw with rfl | hw
        · exact hg _ hv
        · exact hX.1.real w hw
      · rcases mem_setInsert.1 hw with rfl | hw
        · have := (C07_exact s _).2 hon
          rw [hoff s hs] at this
          simp at this
        · exact hX.1.off w hw s hs hon)
    (fun v hv X s hsX hX hc h1 h2 => by
      obtain ⟨i0, i1, i2⟩ := hX
      obtain ⟨g1, g2⟩ := i0.solid s hsX
      have hv' := hg v hv
      have hon := (C07_exact s v).1 hc
      have e1 : ¬ SamePoint s.v1 v := fun hsp => by
        rw [(eqv_zero g1 hv').2 hsp] at h1; simp at h1
      have e2 : ¬ SamePoint s.v2 v := fun hsp => by
        rw [(eqv_zero g2 hv').2 hsp] at h2; simp at h2
      refine ⟨i0.cut hsX ⟨hon, e1, e2⟩ hv', fun q => ?_, fun w hw => ?_⟩
      · rw [← i1 q]
        constructor
        · rintro ⟨t, ht, hq⟩
          simp only [mem_setInsert, mem_setErase] at ht
          rcases ht with rfl | rfl | ht
          · exact ⟨s, hsX, (onSegment_cut hon).2 (Or.inr hq)⟩
          · exact ⟨s, hsX, (onSegment_cut hon).2 (Or.inl hq)⟩
          · exact ⟨t, ht.1, hq⟩
        · rintro ⟨t, ht, hq⟩
          by_cases hts : t = s
          · subst hts
            rcases (onSegment_cut hon).1 hq with hq | hq
            · exact ⟨⟨t.v1, v⟩, by simp, hq⟩
            · exact ⟨⟨v, t.v2⟩, by simp, hq⟩
          · exact ⟨t, by simp [ht, hts], hq⟩
      · obtain ⟨t, ht, hq⟩ := i2 w hw
        by_cases hts : t = s
        · subst hts
          rcases hq with hq | hq
          · exact ⟨⟨t.v1, v⟩, by simp, Or.inl hq⟩
          · exact ⟨⟨v, t.v2⟩, by simp, Or.inr hq⟩
        · exact ⟨t, by simp [ht, hts], hq⟩)
    (σ := σ.sub 1) (l := shuffle (σ.sub 0) vs) (fun v hv => mem_shuffle.1 hv) (T := T)
    ⟨ht, fun _ => Iff.rfl, fun _ h => h⟩
  rw [h] at this
  exact this

/-- What `insert_segments` does to tidy segments and vertices. -/
theorem insertSegments_tidy {fuel : Nat} {σ : Sched} {T T' : Triangulator K} {segs : List (Edge (Vertex K))}
    (hsg : ∀ s ∈ segs, s.v1.isGhost = false ∧ s.v2.isGhost = false) (ht : Orderly T.segments T.vertices)
    (h : insertSegments 0 fuel σ T segs = .ok (.ok T')) :
    Orderly T'.segments T'.vertices ∧
      (∀ q, (∃ s ∈ T'.segments, OnSegment s.v1 s.v2 q) ↔
        (∃ s ∈ T.segments, OnSegment s.v1 s.v2 q) ∨ ∃ s ∈ segs, OnSegment s.v1 s.v2 q) ∧
      (∀ w, EndOf T.segments w ∨ EndOf segs w → EndOf T'.segments w) ∧
      (∀ v ∈ T.vertices, v ∈ T'.vertices ∨ EndOf T'.segments v) ∧ ∀ v ∈ T'.vertices, v ∈ T.vertices := by
  by_cases hne : segs = []
  · subst hne
    unfold insertSegments at h
    simp only [if_pos] at h
    injection h with h
    injection h with h
    subst h
    exact ⟨ht, by simp, by simp [EndOf], fun v hv => Or.inl hv, fun _ h => h⟩
  · have hvert := (C23_ok h).2.2.2.1
    obtain ⟨hc1, hc2, hc3⟩ := C23_geometry h hne ht.real ht.solid hsg
    obtain ⟨l, sp, r, hr, hV, hl, hsolid, hsp, hT, hcov, -⟩ := insertSegments_geo h hne ht.real ht.solid hsg
    have hmem : ∀ s : Edge (Vertex K), s ∈ T'.segments ↔ (s.v1, s.v2) ∈ sp := by
      intro s
      rw [hT, mem_toSet]
      exact (fromVertexPairs_mem (s := (s.v1, s.v2))).symm
    have hI := absorbLoop_induct (eps := (0 : K))
      (fun aux stored acc => (∀ v ∈ stored, v ∈ T.vertices) ∧
        (∀ s, s ∈ aux ∨ s ∈ acc → s.v1.isGhost = false ∧ s.v2.isGhost = false) ∧
        (∀ s ∈ acc, ∀ v ∈ stored, ¬ OnSegment s.v1 s.v2 v) ∧ ∀ w, EndOf segs w → EndOf (aux ++ acc) w)
      (fun s aux stored stored' acc v hI hsub hgone hvs hv' hc => by
        obtain ⟨i1, i2, i3, i4⟩ := hI
        obtain ⟨g1, g2⟩ := i2 s (by simp)
        have hvg := ht.real v (i1 v hvs)
        refine ⟨fun w hw => i1 w (hsub.subset hw), fun t ht => ?_, fun t ht w hw => i3 t ht w (hsub.subset hw), fun w hw => ?_⟩
        · simp only [List.mem_cons] at ht
          rcases ht with (rfl | rfl | ht) | ht
          · exact ⟨hvg, g2⟩
          · exact ⟨g1, hvg⟩
          · exact i2 t (by simp [ht])
          · exact i2 t (by simp [ht])
        · obtain ⟨t, ht, hq⟩ := i4 w hw
          simp only [List.cons_append, List.mem_cons] at ht
          rcases ht with rfl | ht
          · rcases hq with hq | hq
            · exact ⟨⟨t.v1, v⟩, by simp, Or.inl hq⟩
            · exact ⟨⟨v, t.v2⟩, by simp, Or.inr hq⟩
          · exact ⟨t, by simp only [List.cons_append, List.mem_cons]; exact Or.inr (Or.inr ht), hq⟩)
      (fun s aux stored stored' acc hI hsub hgone hno => by
        obtain ⟨i1, i2, i3, i4⟩ := hI
        refine ⟨fun w hw => i1 w (hsub.subset hw), fun t ht => i2 t ?_, fun t ht w hw hon => ?_, fun w hw => ?_⟩
        · simp only [mem_setInsert] at ht
          simp only [List.mem_cons]
          tauto
        · rcases mem_setInsert.1 ht with rfl | ht
          · have := (C07_exact t w).2 hon
            rw [hno w (hsub.subset hw)] at this
            simp at this
          · exact i3 t ht w (hsub.subset hw) hon
        · obtain ⟨t, ht, hq⟩ := i4 w hw
          refine ⟨t, ?_, hq⟩
          simp only [List.cons_append, List.mem_cons, List.mem_append, mem_setInsert] at ht ⊢
          tauto)
      (aux := shuffle (σ.sub 1) segs) (stored := T.vertices) (acc := [])
      ⟨fun _ h => h, fun s hs => hsg s (by simpa using hs), by simp, fun w hw => by
        obtain ⟨t, ht, hq⟩ := hw
        exact ⟨t, by simpa using ht, hq⟩⟩ hr
    obtain ⟨-, i2, i3, i4⟩ := hI
    have hmeml : ∀ t, t ∈ l ↔ (⟨t.1, t.2⟩ : Edge (Vertex K)) ∈ r.2 ∨ (⟨t.1, t.2⟩ : Edge (Vertex K)) ∈ T.segments := by
      intro t
      rw [hl]
      simp only [Edge.intoVertexPairs, List.mem_append, List.mem_map, mem_shuffle]
      constructor
      · rintro (⟨e, he, rfl⟩ | ⟨e, he, rfl⟩)
        · exact Or.inl he
        · exact Or.inr he
      · rintro (he | he)
        · exact Or.inl ⟨_, he, rfl⟩
        · exact Or.inr ⟨_, he, rfl⟩
    have hends : ∀ w, (∃ t ∈ l, SamePoint t.1 w ∨ SamePoint t.2 w) → EndOf T'.segments w := by
      intro w hw
      obtain ⟨s, hs, hq⟩ := split_keeps_ends hsolid hsp w hw
      exact ⟨⟨s.1, s.2⟩, (hmem ⟨s.1, s.2⟩).2 hs, hq⟩
    refine ⟨⟨fun s hs => ?_, fun v hv => ht.real v (hvert v hv), fun v hv s hs hon => ?_, hc2⟩, hc1, fun w hw => ?_, hc3, hvert⟩
    · have := (splitIntersections_inv hsolid hsp).solid _ ((hmem s).1 hs)
      exact this
    · obtain ⟨t, htl, hon'⟩ := (C12_cover hsolid hsp).1 v |>.1 ⟨(s.v1, s.v2), (hmem s).1 hs, hon⟩
      rcases (hmeml t).1 htl with hr2 | hst
      · exact i3 _ hr2 v (hV ▸ hv) hon'
      · exact ht.off v (hvert v hv) _ hst hon'
    · refine hends w ?_
      rcases hw with ⟨t, ht', hq⟩ | hw
      · exact ⟨(t.v1, t.v2), (hmeml _).2 (Or.inr ht'), hq⟩
      · obtain ⟨t, ht', hq⟩ := i4 w hw
        exact ⟨(t.v1, t.v2), (hmeml _).2 (Or.inl (by simpa using ht')), hq⟩

end Verif
