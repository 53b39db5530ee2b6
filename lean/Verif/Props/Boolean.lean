import Verif.Lemmas.Boolean
import Mathlib.Tactic.NormNum
import Mathlib.Algebra.Order.Ring.Rat
import Mathlib.Algebra.Field.Rat

/-!
# Union, intersection and subtraction of polygons (C47, C48, C49)

Unless a tolerance is named: exact arithmetic (tolerance zero), polygons between ordinary vertices, every order of
iteration of the hash sets.
-/

set_option linter.unusedSectionVars false

namespace Verif.Props

open Spec

variable {K : Type*} [Field K] [LinearOrder K] [IsStrictOrderedRing K]

/-- C12, in more detail: the result of splitting is, for each of the given segments, its pieces between some of its inner
points, all directed like the segment; nothing else and nothing twice. -/
theorem C12_pieces {l r : List (Vertex K × Vertex K)}
    (hl : ∀ s ∈ l, s.1.isGhost = false ∧ s.2.isGhost = false) {fuel : Nat}
    (hr : splitIntersections 0 fuel l = .ok r) : Cuts l r :=
  splitIntersections_cuts hl hr

/-- C12: splitting changes no winding number and no area. -/
theorem C12_conserves {l r : List (Vertex K × Vertex K)}
    (hl : ∀ s ∈ l, s.1.isGhost = false ∧ s.2.isGhost = false) {fuel : Nat}
    (hr : splitIntersections 0 fuel l = .ok r) :
    (∀ v, windingNumber r v = windingNumber l v) ∧ areaSegments r = areaSegments l :=
  ⟨(splitIntersections_cuts hl hr).winding, (splitIntersections_cuts hl hr).area⟩

/-- C47: opened polylines have no union, and neither have polygons that a horizontal or vertical line separates. Every
tolerance. -/
theorem C47_apart {eps : K} {fuel : Nat} {σ : Sched} {p1 p2 : Polyline (Vertex K)}
    (h : p1.opened = true ∨ p2.opened = true ∨
      (∀ u ∈ p1.vertices, ∀ v ∈ p2.vertices, u.x < v.x) ∨ (∀ u ∈ p1.vertices, ∀ v ∈ p2.vertices, v.x < u.x) ∨
      (∀ u ∈ p1.vertices, ∀ v ∈ p2.vertices, u.y < v.y) ∨ (∀ u ∈ p1.vertices, ∀ v ∈ p2.vertices, v.y < u.y)) :
    Polyline.union eps fuel σ p1 p2 = .ok none := by
  apply Polyline.union_early
  rcases h with h | h | h
  · exact Or.inl h
  · exact Or.inr (Or.inl h)
  · refine Or.inr (Or.inr ?_)
    have key : ∀ p : Polyline (Vertex K), ∃ b, p.boundingBox = some b := fun p => by
      cases hb : p.boundingBox with
      | some b => exact ⟨b, rfl⟩
      | none =>
        have := (C05_none_iff p.vertices).1 hb
        have h2 := p.two_le
        rw [this] at h2; simp at h2
    obtain ⟨b1, h1⟩ := key p1
    obtain ⟨b2, h2⟩ := key p2
    unfold Polyline.boxesDisjoint
    rw [h1, h2]
    simp only [Res.ok.injEq, Option.isNone_iff_eq_none]
    rw [C05_intersection_none]
    rintro ⟨q, hq1, hq2⟩
    rw [C05_contains_iff] at hq1 hq2
    have at1 := fromVertices_attained h1
    have at2 := fromVertices_attained h2
    obtain ⟨⟨a1, ha1, e1⟩, ⟨a2, ha2, e2⟩, ⟨a3, ha3, e3⟩, ⟨a4, ha4, e4⟩⟩ := at1
    obtain ⟨⟨c1, hc1, f1⟩, ⟨c2, hc2, f2⟩, ⟨c3, hc3, f3⟩, ⟨c4, hc4, f4⟩⟩ := at2
    obtain ⟨q1, q2, q3, q4⟩ := hq1
    obtain ⟨r1, r2, r3, r4⟩ := hq2
    rcases h with h | h | h | h
    · have := h a2 ha2 c1 hc1; linarith
    · have := h a1 ha1 c2 hc2; linarith
    · have := h a4 ha4 c3 hc3; linarith
    · have := h a3 ha3 c4 hc4; linarith

/-- C47: the union is a counterclockwise polygon whose sides are pieces of the sides of the two polygons, in their
direction and none twice; the segments returned with it are exactly the other pieces. -/
theorem C47_result {fuel : Nat} {σ : Sched} {p1 p2 p : Polyline (Vertex K)} {unused : List (Vertex K × Vertex K)}
    (g1 : ∀ v ∈ p1.vertices, v.isGhost = false) (g2 : ∀ v ∈ p2.vertices, v.isGhost = false)
    (h : Polyline.union 0 fuel σ p1 p2 = .ok (some (p, unused))) :
    p.opened = false ∧ 0 < shoelace p.vertices ∧ (pairs p.vertices false).Nodup ∧ unused.Nodup ∧
      ∃ pieces, Cuts (pairs p1.vertices false ++ pairs p2.vertices false) pieces ∧
        (∀ s ∈ pairs p.vertices false, s ∈ pieces) ∧
        ∀ s, s ∈ unused ↔ s ∈ pieces ∧ s ∉ pairs p.vertices false := by
  obtain ⟨h1, h2, segments, hs, ho⟩ := Polyline.union_some g1 g2 h
  obtain ⟨gone, rest, hp, -, hu, -⟩ := ho.split
  have hk := (Polyline.sieve_mem (keep := Polyline.keepUnion 0 p1 p2) (l := segments) (u := []))
  have hn := hp.nodup_iff.2 (Polyline.sieve_nodup (keep := Polyline.keepUnion 0 p1 p2) (l := segments)
    List.nodup_nil).1
  refine ⟨ho.closed, ho.ccw, hn.of_append_left.of_append_left, ho.nodup, segments,
    splitIntersections_cuts (Polyline.two_solid g1 g2) hs, fun s hs' => ?_, fun s => ?_⟩
  · exact ((hk.1 s).1 (hp.mem_iff.1 (by simp [hs']))).1
  · rw [hu, hk.2]
    have hm : s ∈ (Polyline.sieve (Polyline.keepUnion 0 p1 p2) segments []).1 ↔
        s ∈ pairs p.vertices false ∨ s ∈ gone.flatten ∨ s ∈ rest := by
      rw [← hp.mem_iff, List.mem_append, List.mem_append, or_assoc]
    rw [hk.1] at hm
    have hd : s ∈ pairs p.vertices false → ¬ (s ∈ gone.flatten ∨ s ∈ rest) := by
      intro h3 h4
      rw [List.append_assoc] at hn
      exact List.disjoint_of_nodup_append hn h3 (List.mem_append.2 h4)
    constructor
    · rintro ((⟨h3, h4⟩ | h3) | h3)
      · refine ⟨h3, fun h5 => ?_⟩
        have := (hm.2 (Or.inl h5)).2
        rw [h4] at this; simp at this
      · simp at h3
      · exact ⟨(hm.2 (Or.inr h3)).1, fun h5 => hd h5 h3⟩
    · rintro ⟨h3, h4⟩
      cases hb : Polyline.keepUnion 0 p1 p2 s with
      | false => exact Or.inl (Or.inl ⟨h3, rfl⟩)
      | true => exact Or.inr ((hm.1 ⟨h3, hb⟩).resolve_left h4)

/-- C47: the inner points of each side of the union are on one of the polygons and outside the other. -/
theorem C47_outline {fuel : Nat} {σ : Sched} {p1 p2 p : Polyline (Vertex K)} {unused : List (Vertex K × Vertex K)}
    (g1 : ∀ v ∈ p1.vertices, v.isGhost = false) (g2 : ∀ v ∈ p2.vertices, v.isGhost = false)
    (n1 : NoFold p1.vertices) (n2 : NoFold p2.vertices)
    (h : Polyline.union 0 fuel σ p1 p2 = .ok (some (p, unused))) :
    ∀ s ∈ pairs p.vertices false,
      (∀ x, StrictlyOn s.1 s.2 x → p1.contains 0 x = some .boundary ∧ p2.contains 0 x = some .outside) ∨
      ∀ x, StrictlyOn s.1 s.2 x → p2.contains 0 x = some .boundary ∧ p1.contains 0 x = some .outside := by
  obtain ⟨h1, h2, segments, hs, ho⟩ := Polyline.union_some g1 g2 h
  obtain ⟨gone, rest, hp, -, -, -⟩ := ho.split
  intro s hs'
  obtain ⟨hm, hk⟩ := ((Polyline.sieve_mem (keep := Polyline.keepUnion 0 p1 p2) (l := segments) (u := [])).1 s).1
    (hp.mem_iff.1 (by simp [hs']))
  exact Polyline.keepUnion_piece h1 h2 g1 g2 n1 n2 hs hm hk

/-- C47: points that can be joined by a straight line without touching either polygon are on the same side of the union; in
particular the union adds nothing that the two polygons do not enclose. -/
theorem C47_no_extra {fuel : Nat} {σ : Sched} {p1 p2 p : Polyline (Vertex K)}
    {unused : List (Vertex K × Vertex K)}
    (g1 : ∀ v ∈ p1.vertices, v.isGhost = false) (g2 : ∀ v ∈ p2.vertices, v.isGhost = false)
    (h : Polyline.union 0 fuel σ p1 p2 = .ok (some (p, unused))) {v w : Vertex K}
    (hmiss : ∀ s ∈ pairs p1.vertices false ++ pairs p2.vertices false, ∀ x,
      OnSegment s.1 s.2 x → ¬ OnSegment v w x) :
    p.contains 0 v = p.contains 0 w ∧ p.contains 0 v ≠ some .boundary := by
  obtain ⟨h1, h2, segments, hs, ho⟩ := Polyline.union_some g1 g2 h
  obtain ⟨gone, rest, hp, -, -, -⟩ := ho.split
  have hinv := splitIntersections_inv (Polyline.two_solid (o1 := false) (o2 := false) g1 g2) hs
  refine contains_const ho.closed fun s hs' x hx => ?_
  have hm := (((Polyline.sieve_mem (keep := Polyline.keepUnion 0 p1 p2) (l := segments) (u := [])).1 s).1
    (hp.mem_iff.1 (by simp [hs']))).1
  obtain ⟨t, ht, t1, t2⟩ := hinv.parent s (by simpa using hm)
  exact hmiss t ht x (onSegment_trans t1 t2 hx)

/-- C47: the computation always ends. It can only panic on a closed chain of pieces that encloses no area. -/
theorem C47_terminates {p1 p2 : Polyline (Vertex K)} (g1 : ∀ v ∈ p1.vertices, v.isGhost = false)
    (g2 : ∀ v ∈ p2.vertices, v.isGhost = false) :
    ∃ n, ∀ fuel, n ≤ fuel → ∀ σ,
      (∃ r, Polyline.union 0 fuel σ p1 p2 = .ok r) ∨
      (Polyline.union 0 fuel σ p1 p2 = .panic ∧ ∃ pieces l : List (Vertex K × Vertex K),
        Cuts (pairs p1.vertices false ++ pairs p2.vertices false) pieces ∧ l.Subperm pieces ∧ 2 < l.length ∧
        l = pairs (l.map (·.1)) false ∧ shoelace (l.map (·.1)) = 0) := by
  obtain ⟨n, hn⟩ := splitIntersections_total (Polyline.two_solid (o1 := false) (o2 := false) g1 g2)
  refine ⟨n, fun fuel hf σ => ?_⟩
  obtain ⟨segments, hs⟩ := hn fuel hf
  by_cases he : p1.opened = true ∨ p2.opened = true ∨ Polyline.boxesDisjoint p1 p2 = .ok true
  · exact Or.inl ⟨_, Polyline.union_early he⟩
  · push Not at he
    obtain ⟨e1, e2, e3⟩ := he
    obtain ⟨d, hd⟩ := Polyline.boxesDisjoint_ok p1 p2
    have hd' : Polyline.boxesDisjoint p1 p2 = .ok false := by
      cases d with
      | false => exact hd
      | true => exact absurd hd e3
    rcases Polyline.union_cases (σ := σ) (by simpa using e1) (by simpa using e2) hd' g1 g2 hs with
      ⟨p, out, e, -⟩ | ⟨e, -⟩ | ⟨e, c, c1, c2, c3, c4⟩
    · exact Or.inl ⟨_, e⟩
    · exact Or.inl ⟨_, e⟩
    · refine Or.inr ⟨e, segments, c, splitIntersections_cuts (Polyline.two_solid g1 g2) hs, ?_, c2, c3.symm, c4⟩
      refine c1.trans (List.subperm_of_subset (Polyline.sieve_nodup List.nodup_nil).1 fun s hs' => ?_)
      exact (Polyline.sieve_mem.1 s |>.1 hs').1

/-- C47: when the pieces of each polygon that lie outside the other one form closed circuits that do not branch and that
enclose a positive area in total, the union is not missed. -/
theorem C47_found_partial {fuel : Nat} {σ : Sched} {p1 p2 : Polyline (Vertex K)} (h1 : p1.opened = false)
    (h2 : p2.opened = false) (g1 : ∀ v ∈ p1.vertices, v.isGhost = false)
    (g2 : ∀ v ∈ p2.vertices, v.isGhost = false)
    (hmeet : ∃ v, (∃ s ∈ pairs p1.vertices false, OnSegment s.1 s.2 v) ∧
      ∃ s ∈ pairs p2.vertices false, OnSegment s.1 s.2 v)
    {pieces : List (Vertex K × Vertex K)}
    (hs : splitIntersections 0 fuel (pairs p1.vertices false ++ pairs p2.vertices false) = .ok pieces)
    {outer : List (Vertex K × Vertex K)} (hn : outer.Nodup)
    (houter : ∀ s, s ∈ outer ↔ s ∈ pieces ∧
      (p1.contains 0 (Edge.midpoint ⟨s.1, s.2⟩) = some .outside ∨
        p2.contains 0 (Edge.midpoint ⟨s.1, s.2⟩) = some .outside))
    (hc : Circuits outer) (hpos : 0 < enclosed outer) :
    Polyline.union 0 fuel σ p1 p2 ≠ .ok none := by
  have hsol := Polyline.two_solid (o1 := false) (o2 := false) g1 g2
  have hd : Polyline.boxesDisjoint p1 p2 = .ok false := by
    obtain ⟨v, ⟨s, hs1, hv1⟩, t, ht1, hv2⟩ := hmeet
    have inbox : ∀ (p : Polyline (Vertex K)) (b : BBox K), p.boundingBox = some b →
        ∀ s ∈ pairs p.vertices false, ∀ x, OnSegment s.1 s.2 x → b.contains x = true := by
      intro p b hb s hs x hx
      rw [C05_contains_iff]
      obtain ⟨hl, -⟩ := C05_least hb
      have m1 := hl _ (mem_pairs hs).1
      have m2 := hl _ (mem_pairs hs).2
      obtain ⟨⟨a1, a2⟩, a3, a4⟩ := onSegment_box hx
      obtain ⟨b1, b2, b3, b4⟩ := m1
      obtain ⟨c1, c2, c3, c4⟩ := m2
      exact ⟨(le_min b1 c1).trans a1, a2.trans (max_le b2 c2), (le_min b3 c3).trans a3,
        a4.trans (max_le b4 c4)⟩
    obtain ⟨d, hd⟩ := Polyline.boxesDisjoint_ok p1 p2
    cases d with
    | false => exact hd
    | true =>
      exfalso
      unfold Polyline.boxesDisjoint at hd
      cases hb1 : p1.boundingBox with
      | none => rw [hb1] at hd; simp at hd
      | some b1 =>
        cases hb2 : p2.boundingBox with
        | none => rw [hb1, hb2] at hd; simp at hd
        | some b2 =>
          rw [hb1, hb2] at hd
          simp only [Res.ok.injEq, Option.isNone_iff_eq_none] at hd
          exact (C05_intersection_none b1 b2).1 hd ⟨v, inbox p1 b1 hb1 s hs1 v hv1, inbox p2 b2 hb2 t ht1 v hv2⟩
  rw [Polyline.union_unfold h1 h2 hd, hs, Res.bind_ok]
  have hk := (Polyline.sieve_mem (keep := Polyline.keepUnion 0 p1 p2) (l := pieces) (u := [])).1
  have hnk := (Polyline.sieve_nodup (keep := Polyline.keepUnion 0 p1 p2) (l := pieces) (u := [])
    List.nodup_nil).1
  have hperm : outer.Perm (Polyline.sieve (Polyline.keepUnion 0 p1 p2) pieces []).1 := by
    rw [List.perm_ext_iff_of_nodup hn hnk]
    intro s
    rw [houter, hk]
    refine and_congr_right fun hsp => ?_
    rw [← Polyline.midpoint_eq_edge (Polyline.segments_solid hsol hs s hsp)]
    unfold Polyline.keepUnion Polyline.outsideOne
    rw [Bool.or_eq_true, decide_eq_true_eq, decide_eq_true_eq]
  refine Polyline.unionLoop_complete _ _ _ _ le_rfl hnk (fun s hs' => ?_) ?_ ?_
  · exact Polyline.segments_solid hsol hs s ((hk s).1 hs').1
  · exact ⟨fun s hs' => by
        obtain ⟨t, ht, he⟩ := hc.next s (hperm.mem_iff.2 hs')
        exact ⟨t, hperm.mem_iff.1 ht, he⟩,
      fun s hs' t ht => hc.starts s (hperm.mem_iff.2 hs') t (hperm.mem_iff.2 ht),
      fun s hs' t ht => hc.ends s (hperm.mem_iff.2 hs') t (hperm.mem_iff.2 ht),
      fun s hs' => ⟨(hc.proper s (hperm.mem_iff.2 hs')).1, fun hm =>
        (hc.proper s (hperm.mem_iff.2 hs')).2 (hperm.mem_iff.2 hm)⟩⟩
  · rw [← Polyline.enclosed_perm hperm]; exact hpos

/-- A square. -/
def plate : Polyline (Vertex ℚ) := ⟨[⟨0, 0, false⟩, ⟨2, 0, false⟩, ⟨2, 2, false⟩, ⟨0, 2, false⟩], false, by simp⟩
/-- A square that overlaps a corner of `plate`. -/
def cornerPlate : Polyline (Vertex ℚ) :=
  ⟨[⟨1, 1, false⟩, ⟨3, 1, false⟩, ⟨3, 3, false⟩, ⟨1, 3, false⟩], false, by simp⟩
/-- A square inside `plate`, with one side on a side of it. -/
def sidePlate : Polyline (Vertex ℚ) :=
  ⟨[⟨1/2, 0, false⟩, ⟨3/2, 0, false⟩, ⟨3/2, 1, false⟩, ⟨1/2, 1, false⟩], false, by simp⟩
/-- The hypotheses of the theorems above are met by two overlapping squares. -/
example : (∀ v ∈ plate.vertices, v.isGhost = false) ∧ (∀ v ∈ cornerPlate.vertices, v.isGhost = false) ∧
    NoFold plate.vertices ∧ NoFold cornerPlate.vertices ∧
    Polyline.union 0 100 Sched.first plate cornerPlate =
      .ok (some (⟨[⟨3, 3, false⟩, ⟨1, 3, false⟩, ⟨1, 2, false⟩, ⟨0, 2, false⟩, ⟨0, 0, false⟩, ⟨2, 0, false⟩,
          ⟨2, 1, false⟩, ⟨3, 1, false⟩], false, by simp⟩,
        [(⟨1, 1, false⟩, ⟨2, 1, false⟩), (⟨2, 1, false⟩, ⟨2, 2, false⟩), (⟨1, 2, false⟩, ⟨1, 1, false⟩),
          (⟨2, 2, false⟩, ⟨1, 2, false⟩)])) :=
  ⟨by decide +kernel, by decide +kernel, noFold_of_check (by decide +kernel),
    noFold_of_check (by decide +kernel), by decide +kernel⟩

/-- The pieces of the sides of `plate` and `cornerPlate`. -/
def cornerPieces : List (Vertex ℚ × Vertex ℚ) :=
  (splitIntersections 0 100 (pairs plate.vertices false ++ pairs cornerPlate.vertices false)).toOption.getD []
/-- The pieces outside one of the two squares. -/
def cornerOuter : List (Vertex ℚ × Vertex ℚ) :=
  cornerPieces.filter fun s => decide (plate.contains 0 (Edge.midpoint ⟨s.1, s.2⟩) = some .outside ∨
    cornerPlate.contains 0 (Edge.midpoint ⟨s.1, s.2⟩) = some .outside)

/-- The hypotheses of `C47_found_partial` are met by the two overlapping squares. -/
example : (∃ v, (∃ s ∈ pairs plate.vertices false, OnSegment s.1 s.2 v) ∧
      ∃ s ∈ pairs cornerPlate.vertices false, OnSegment s.1 s.2 v) ∧
    splitIntersections 0 100 (pairs plate.vertices false ++ pairs cornerPlate.vertices false) = .ok cornerPieces ∧
    cornerOuter.Nodup ∧ Circuits cornerOuter ∧ enclosed cornerOuter = 7 := by
  refine ⟨⟨⟨2, 1, false⟩, ⟨(⟨2, 0, false⟩, ⟨2, 2, false⟩), by decide +kernel, 1 / 2, by norm_num, by norm_num,
      by norm_num, by norm_num⟩, (⟨1, 1, false⟩, ⟨3, 1, false⟩), by decide +kernel, 1 / 2, by norm_num,
      by norm_num, by norm_num, by norm_num⟩, by decide +kernel, by decide +kernel,
    ⟨by decide +kernel, by decide +kernel, by decide +kernel, by decide +kernel⟩, by decide +kernel⟩

/-- C47, its limit: a square and a smaller one inside it that shares part of a side overlap, yet there is no union,
whatever the order of iteration. -/
theorem C47_shared_side_false :
    (∃ v, plate.contains 0 v = some .inside ∧ sidePlate.contains 0 v = some .inside) ∧
    ∃ n, ∀ fuel, n ≤ fuel → ∀ σ, Polyline.union 0 fuel σ plate sidePlate = .ok none := by
  refine ⟨⟨⟨1, 1 / 2, false⟩, by decide +kernel, by decide +kernel⟩, 100, fun fuel hf σ => ?_⟩
  have hs : splitIntersections 0 fuel (pairs plate.vertices false ++ pairs sidePlate.vertices false) =
      .ok ((splitIntersections 0 100 (pairs plate.vertices false ++ pairs sidePlate.vertices false)).toOption.getD
        []) :=
    splitLoop_mono (n := 100) (by decide +kernel) hf
  have g1 : ∀ v ∈ plate.vertices, v.isGhost = false := by decide +kernel
  have g2 : ∀ v ∈ sidePlate.vertices, v.isGhost = false := by decide +kernel
  let rank : Vertex ℚ → ℤ := fun v =>
    if v.y = 0 then (if v.x = 3 / 2 then 0 else if v.x = 2 then 1 else if v.x = 0 then 4 else 5)
    else if v.x = 2 then 2 else 3
  have hrank : ∀ s ∈ (Polyline.sieve (Polyline.keepUnion 0 plate sidePlate)
      ((splitIntersections 0 100 (pairs plate.vertices false ++ pairs sidePlate.vertices false)).toOption.getD [])
      []).1, rank s.1 < rank s.2 := by decide +kernel
  rcases Polyline.union_cases (σ := σ) (p1 := plate) (p2 := sidePlate) rfl rfl (by decide +kernel) g1 g2 hs with
    ⟨p, out, -, ho⟩ | ⟨e, -⟩ | ⟨-, c, c1, c2, c3, -⟩
  · obtain ⟨gone, rest, hp, -⟩ := ho.split
    exfalso
    refine Polyline.no_polygon_of_rank rank (l := p.vertices) ?_ fun s hs' =>
      hrank s (hp.mem_iff.1 (by simp [hs']))
    have := p.two_le
    intro h; rw [h] at this; simp at this
  · exact e
  · exfalso
    refine Polyline.no_polygon_of_rank rank (l := c.map (·.1)) ?_ fun s hs' =>
      hrank s (c1.subset (c3 ▸ hs'))
    intro h; simp at h; subst h; simp at c2

/-- C47, its limit: with a clockwise polygon the computation may panic. -/
theorem C47_clockwise_false : ∃ p1 p2 : Polyline (Vertex ℚ), p1.opened = false ∧ p2.opened = false ∧
    NoFold p1.vertices ∧ NoFold p2.vertices ∧ ∃ fuel σ, Polyline.union 0 fuel σ p1 p2 = .panic :=
  ⟨⟨[⟨2, 0, false⟩, ⟨3, 2, false⟩, ⟨4, 0, false⟩], false, by simp⟩,
    ⟨[⟨0, 0, false⟩, ⟨2, 0, false⟩, ⟨1, 2, false⟩], false, by simp⟩, rfl, rfl,
    noFold_of_check (by decide +kernel), noFold_of_check (by decide +kernel), 100, Sched.first, by decide +kernel⟩

end Verif.Props
