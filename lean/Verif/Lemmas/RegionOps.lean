import Verif.Lemmas.AreaSign
import Verif.Props.Continence

/-!
# Lemmas: the results of `intersection`, `subtraction` and `union` as regions
-/

namespace Verif

open Spec

variable {K : Type*} [Field K] [LinearOrder K] [IsStrictOrderedRing K]

set_option linter.unusedSectionVars false

theorem boxesDisjoint_iff (p1 p2 : Polyline (Vertex K)) :
    Polyline.boxesDisjoint p1 p2 = .ok true ↔ LineBetween p1.vertices p2.vertices := by
  have ne : ∀ p : Polyline (Vertex K), p.vertices ≠ [] := fun p h => by have := p.two_le; rw [h] at this; simp at this
  have box : ∀ p : Polyline (Vertex K), ∃ b, p.boundingBox = some b := by
    intro p
    cases h : p.boundingBox with
    | none => exact absurd ((Props.C05_none_iff _).1 h) (ne p)
    | some b => exact ⟨b, rfl⟩
  obtain ⟨b1, h1⟩ := box p1
  obtain ⟨b2, h2⟩ := box p2
  obtain ⟨⟨a1, ha1, e1⟩, ⟨a2, ha2, e2⟩, ⟨a3, ha3, e3⟩, ⟨a4, ha4, e4⟩⟩ := fromVertices_attained h1
  obtain ⟨⟨c1, hc1, f1⟩, ⟨c2, hc2, f2⟩, ⟨c3, hc3, f3⟩, ⟨c4, hc4, f4⟩⟩ := fromVertices_attained h2
  have in1 := (Props.C05_least h1).1
  have in2 := (Props.C05_least h2).1
  unfold Polyline.boxesDisjoint
  rw [h1, h2]
  simp only [Res.ok.injEq, Option.isNone_iff_eq_none]
  rw [Props.C05_intersection_none]
  constructor
  · intro h
    by_contra hl
    unfold LineBetween at hl
    push Not at hl
    obtain ⟨⟨u1, m1, v1, n1, g1⟩, ⟨u2, m2, v2, n2, g2⟩, ⟨u3, m3, v3, n3, g3⟩, ⟨u4, m4, v4, n4, g4⟩⟩ := hl
    refine h ⟨⟨max b1.origin.x b2.origin.x, max b1.origin.y b2.origin.y, false⟩, ?_, ?_⟩ <;>
      rw [Props.C05_contains_iff] <;> unfold InBox <;> simp only
    · have i1 := in1 u1 m1; have j1 := in2 v1 n1
      have i3 := in1 u3 m3; have j3 := in2 v3 n3
      have i0 := in1 a1 ha1
      unfold InBox at i1 j1 i3 j3 i0
      exact ⟨le_max_left _ _, max_le (i0.1.trans i0.2.1) (j1.1.trans (g1.trans i1.2.1)), le_max_left _ _,
        max_le (i0.2.2.1.trans i0.2.2.2) (j3.2.2.1.trans (g3.trans i3.2.2.2))⟩
    · have i1 := in1 u2 m2; have j1 := in2 v2 n2
      have i3 := in1 u4 m4; have j3 := in2 v4 n4
      have i0 := in2 c1 hc1
      unfold InBox at i1 j1 i3 j3 i0
      exact ⟨le_max_right _ _, max_le (i1.1.trans (g2.trans j1.2.1)) (i0.1.trans i0.2.1), le_max_right _ _,
        max_le (i3.2.2.1.trans (g4.trans j3.2.2.2)) (i0.2.2.1.trans i0.2.2.2)⟩
  · rintro h ⟨q, hq1, hq2⟩
    rw [Props.C05_contains_iff] at hq1 hq2
    obtain ⟨q1, q2, q3, q4⟩ := hq1
    obtain ⟨r1, r2, r3, r4⟩ := hq2
    rcases h with h | h | h | h
    · have := h a2 ha2 c1 hc1; linarith
    · have := h a1 ha1 c2 hc2; linarith
    · have := h a4 ha4 c3 hc3; linarith
    · have := h a3 ha3 c4 hc4; linarith

/-- No side of a simple polygon folds back on the previous one. -/
theorem Spec.SimplePolygon.noFold {p : Polyline (Vertex K)} (hp : p.opened = false)
    (h : SimplePolygon p.vertices) : NoFold p.vertices := by
  have hn : 0 < p.vertices.length := by have := p.two_le; omega
  intro i u v w hu hv hw
  have key : ∀ j : ℕ, ∀ z, p.vertices[(i + j) % p.vertices.length]? = some z → cyc p.vertices ((i : ℤ) + j) = z := by
    intro j z hz
    have := cyc_getElem hn ((i : ℤ) + j)
    have e : (((i : ℤ) + j) % (p.vertices.length : ℤ)).toNat = (i + j) % p.vertices.length := by
      rw [← Nat.cast_add, ← Int.natCast_mod]; rfl
    rw [e, hz] at this
    injection this with this
    exact this.symm
  have e0 := key 0 u hu
  have e1 := key 1 v hv
  have e2 := key 2 w hw
  push_cast at e0 e1 e2
  rw [add_zero] at e0
  have m1 := (mem_pairs_cyc hp hn).2 ⟨(i : ℤ), rfl⟩
  have m2 := (mem_pairs_cyc hp hn).2 ⟨(i : ℤ) + 1, rfl⟩
  rw [show (i : ℤ) + 1 + 1 = i + 2 by ring] at m2
  rw [e0, e1] at m1
  rw [e1, e2] at m2
  refine ⟨h.proper _ m1, fun hc => ?_⟩
  have hne : (u, v) ≠ (v, w) := fun he => h.proper _ m1 (by
    have : u = v := congrArg Prod.fst he
    rw [this]; exact ⟨rfl, rfl⟩)
  have hsym : Std.Symm (Adjoin (K := K)) := ⟨fun _ _ h => h.symm⟩
  have had : Adjoin (u, v) (v, w) := List.Pairwise.forall (R := Adjoin) h.apart m1 m2 hne
  have hpar : Parallel u v v w := by unfold Parallel; unfold cross at hc; linear_combination hc
  exact adjoin_dot had (h.proper _ m1) (h.proper _ m2) ⟨rfl, rfl⟩ hpar

/-- Off its sides, a polygon that winds once contains the points with winding number one. -/
theorem contains_once {p : Polyline (Vertex K)} (ho : p.opened = false) (hw : WindsOnce p.vertices) {v : Vertex K}
    (hv : ¬ OnSome (pairs p.vertices false) v) :
    windingNumber (pairs p.vertices false) v = if p.contains 0 v = some .inside then 1 else 0 := by
  obtain ⟨h1, h2⟩ := contains_off ho hv
  rcases hw v fun s hs h => hv ⟨s, hs, h⟩ with h | h
  · rw [h, if_neg fun h' => h1.1 h' h]
  · rw [h, if_pos (h1.2 (by rw [h]; decide))]

theorem contains_boundary {p : Polyline (Vertex K)} (ho : p.opened = false) {v : Vertex K} :
    p.contains 0 v = some .boundary ↔ OnSome (pairs p.vertices false) v := Props.C08_boundary_exact p ho v

theorem windingNumber_append (l m : List (Vertex K × Vertex K)) (v : Vertex K) :
    windingNumber (l ++ m) v = windingNumber l v + windingNumber m v := by
  unfold windingNumber; rw [List.map_append, List.sum_append]

theorem windingNumber_perm {l m : List (Vertex K × Vertex K)} (h : l.Perm m) (v : Vertex K) :
    windingNumber l v = windingNumber m v := (h.map _).sum_eq

theorem windingNumber_flatMap {A : Type*} (l : List A) (f : A → List (Vertex K × Vertex K)) (v : Vertex K) :
    windingNumber (l.flatMap f) v = (l.map fun a => windingNumber (f a) v).sum := by
  induction l with
  | nil => simp [windingNumber]
  | cons a l ih => rw [List.flatMap_cons, windingNumber_append, ih, List.map_cons, List.sum_cons]

theorem cuts_ne_nil {l r : List (Vertex K × Vertex K)} (h : Cuts l r) (hl : l ≠ []) : r ≠ [] := by
  obtain ⟨s, hs⟩ := List.exists_mem_of_ne_nil l hl
  obtain ⟨t, ht, -⟩ := h.onSome.2 ⟨s, hs, onSegment_left s.1 s.2⟩
  exact List.ne_nil_of_mem ht

theorem onSome_reverse {l : List (Vertex K)} {v : Vertex K} :
    OnSome (pairs l.reverse false) v ↔ OnSome (pairs l false) v := by
  have key : ∀ {l : List (Vertex K)} {v : Vertex K}, OnSome (pairs l false) v → OnSome (pairs l.reverse false) v := by
    rintro l v ⟨s, hs, hv⟩
    exact ⟨(s.2, s.1), (mem_pairs_reverse).2 hs, onSegment_symm hv⟩
  exact ⟨fun h => by simpa using key h, key⟩

section Ops

variable {p1 p2 : Polyline (Vertex K)}

/-- The test of `intersection` at the midpoint of a piece. -/
def inBoth (p1 p2 : Polyline (Vertex K)) (v : Vertex K) : Bool :=
  decide (p1.contains 0 v ≠ some .outside) && decide (p2.contains 0 v ≠ some .outside)

/-- The test of `subtraction` at the midpoint of a piece. -/
def inFirst (p1 p2 : Polyline (Vertex K)) (v : Vertex K) : Bool :=
  decide (p1.contains 0 v ≠ some .outside) && decide (p2.contains 0 v ≠ some .inside)

theorem inBoth_symm (v : Vertex K) : inBoth p1 p2 v = inBoth p2 p1 v := Bool.and_comm _ _

theorem inBoth_first (h1 : p1.opened = false) (h2 : p2.opened = false) (w2 : WindsOnce p2.vertices) {q : Vertex K}
    (hq1 : OnSome (pairs p1.vertices false) q) (hq2 : ¬ OnSome (pairs p2.vertices false) q) :
    (if inBoth p1 p2 q then (1 : ℤ) else 0) = windingNumber (pairs p2.vertices false) q := by
  have b1 := (contains_boundary h1).2 hq1
  obtain ⟨c1, c2⟩ := contains_off h2 hq2
  rw [contains_once h2 w2 hq2]
  unfold inBoth
  rw [b1]
  by_cases hi : p2.contains 0 q = some .inside
  · rw [hi]; simp
  · have : p2.contains 0 q = some .outside := c2.2 (by by_contra h; exact hi (c1.2 h))
    rw [this]; simp

theorem outsideOne_first (h1 : p1.opened = false) (h2 : p2.opened = false) (w2 : WindsOnce p2.vertices) {q : Vertex K}
    (hq1 : OnSome (pairs p1.vertices false) q) (hq2 : ¬ OnSome (pairs p2.vertices false) q) :
    (if Polyline.outsideOne 0 p1 p2 q then (1 : ℤ) else 0) = 1 - windingNumber (pairs p2.vertices false) q := by
  have b1 := (contains_boundary h1).2 hq1
  obtain ⟨c1, c2⟩ := contains_off h2 hq2
  rw [contains_once h2 w2 hq2]
  unfold Polyline.outsideOne
  rw [b1]
  by_cases hi : p2.contains 0 q = some .inside
  · rw [hi]; simp
  · have : p2.contains 0 q = some .outside := c2.2 (by by_contra h; exact hi (c1.2 h))
    rw [this]; simp

theorem inFirst_first (h1 : p1.opened = false) (h2 : p2.opened = false) (w2 : WindsOnce p2.vertices) {q : Vertex K}
    (hq1 : OnSome (pairs p1.vertices false) q) (hq2 : ¬ OnSome (pairs p2.vertices false) q) :
    (if inFirst p1 p2 q then (1 : ℤ) else 0) = 1 - windingNumber (pairs p2.vertices false) q := by
  have b1 := (contains_boundary h1).2 hq1
  rw [contains_once h2 w2 hq2]
  unfold inFirst
  rw [b1]
  by_cases hi : p2.contains 0 q = some .inside
  · rw [hi]; simp
  · simp [hi]

theorem inFirst_second (h1 : p1.opened = false) (h2 : p2.opened = false) (w1 : WindsOnce p1.vertices) {q : Vertex K}
    (hq1 : OnSome (pairs p2.vertices false) q) (hq2 : ¬ OnSome (pairs p1.vertices false) q) :
    (if inFirst p1 p2 q then (1 : ℤ) else 0) = windingNumber (pairs p1.vertices false) q := by
  have b1 := (contains_boundary h2).2 hq1
  obtain ⟨c1, c2⟩ := contains_off h1 hq2
  rw [contains_once h1 w1 hq2]
  unfold inFirst
  rw [b1]
  by_cases hi : p1.contains 0 q = some .inside
  · rw [hi]; simp
  · have : p1.contains 0 q = some .outside := c2.2 (by by_contra h; exact hi (c1.2 h))
    rw [this]; simp

/-- Two simple polygons that run counterclockwise and touch only crosswise. -/
structure Two (p1 p2 : Polyline (Vertex K)) : Prop where
  closed1 : p1.opened = false
  closed2 : p2.opened = false
  solid1 : ∀ v ∈ p1.vertices, v.isGhost = false
  solid2 : ∀ v ∈ p2.vertices, v.isGhost = false
  simple1 : SimplePolygon p1.vertices
  simple2 : SimplePolygon p2.vertices
  once1 : WindsOnce p1.vertices
  once2 : WindsOnce p2.vertices
  cross : Crosswise p1.vertices p2.vertices

/-- What `intersection` and `subtraction` return when they get to trace the kept pieces. -/
structure Traced (r : List (Vertex K × Vertex K)) (kp : Vertex K → Bool) (polys : List (Polyline (Vertex K)))
    (unused : List (Vertex K × Vertex K)) : Prop where
  closed : ∀ p ∈ polys, p.opened = false
  used : (polys.flatMap fun p => pairs p.vertices false).Perm (r.filter fun s => kp (midpoint s.1 s.2))
  nodup : unused.Nodup
  rest : ∀ s, s ∈ unused ↔ s ∈ r ∧ kp (midpoint s.1 s.2) = false

theorem Traced.winding {r : List (Vertex K × Vertex K)} {kp : Vertex K → Bool} {polys : List (Polyline (Vertex K))}
    {unused : List (Vertex K × Vertex K)} (h : Traced r kp polys unused) (v : Vertex K) :
    (polys.map fun p => windingNumber (pairs p.vertices false) v).sum =
      windingNumber (r.filter fun s => kp (midpoint s.1 s.2)) v := by
  rw [← windingNumber_flatMap, windingNumber_perm h.used]

theorem Traced.all {r : List (Vertex K × Vertex K)} {kp : Vertex K → Bool} {polys : List (Polyline (Vertex K))}
    {unused : List (Vertex K × Vertex K)} (h : Traced r kp polys unused) (hr : r.Nodup) :
    ((polys.flatMap fun p => pairs p.vertices false) ++ unused).Perm r := by
  have : unused.Perm (r.filter fun s => !kp (midpoint s.1 s.2)) := by
    rw [List.perm_ext_iff_of_nodup h.nodup (hr.filter _)]
    intro s
    rw [h.rest, List.mem_filter]
    simp
  exact (h.used.append this).trans (List.filter_append_perm _ _)

namespace Two

variable (h : Two p1 p2)
include h

/-- The pieces of the two polygons, once there is enough fuel. -/
theorem pieces : ∃ n r, Arranged p1.vertices p2.vertices r ∧
    Cuts (pairs p1.vertices false ++ pairs p2.vertices false) r ∧ r ≠ [] ∧ ∀ fuel, n ≤ fuel → r.length ≤ fuel ∧
      splitIntersections 0 fuel (pairs p1.vertices false ++ pairs p2.vertices false) = .ok r := by
  have hsol := Polyline.two_solid (o1 := false) (o2 := false) h.solid1 h.solid2
  obtain ⟨n, hn⟩ := splitIntersections_total hsol
  obtain ⟨r, hr⟩ := hn n le_rfl
  have hcut := splitIntersections_cuts hsol hr
  refine ⟨max n r.length, r, arranged h.solid1 h.solid2 h.simple1 h.simple2 h.cross hr, hcut, ?_, fun fuel hf =>
    ⟨(le_max_right _ _).trans hf, splitLoop_mono hr ((le_max_left _ _).trans hf)⟩⟩
  refine cuts_ne_nil hcut fun he => ?_
  have := pairs_ne_nil p1
  rw [h.closed1] at this
  exact this (List.append_eq_nil_iff.1 he).1

theorem inBoth_region {r : List (Vertex K × Vertex K)} (ha : Arranged p1.vertices p2.vertices r) :
    Polyline.Balanced (r.filter fun s => inBoth p1 p2 (midpoint s.1 s.2)) ∧
    Polyline.Proper (r.filter fun s => inBoth p1 p2 (midpoint s.1 s.2)) ∧
    ∀ v, ¬ OnSome (pairs p1.vertices false) v → ¬ OnSome (pairs p2.vertices false) v →
      windingNumber (r.filter fun s => inBoth p1 p2 (midpoint s.1 s.2)) v =
        windingNumber (pairs p1.vertices false) v * windingNumber (pairs p2.vertices false) v := by
  obtain ⟨a, b, c⟩ := ha.region (inBoth p1 p2) (α := 0) (β := 0) (γ := 1)
    (fun q q1 q2 => by rw [inBoth_first h.closed1 h.closed2 h.once2 q1 q2]; ring)
    (fun q q1 q2 => by rw [inBoth_symm, inBoth_first h.closed2 h.closed1 h.once1 q1 q2]; ring)
  exact ⟨a, b, fun v v1 v2 => by rw [c v v1 v2]; ring⟩

theorem outsideOne_region {r : List (Vertex K × Vertex K)} (ha : Arranged p1.vertices p2.vertices r) :
    Polyline.Balanced (r.filter fun s => Polyline.outsideOne 0 p1 p2 (midpoint s.1 s.2)) ∧
    Polyline.Proper (r.filter fun s => Polyline.outsideOne 0 p1 p2 (midpoint s.1 s.2)) ∧
    ∀ v, ¬ OnSome (pairs p1.vertices false) v → ¬ OnSome (pairs p2.vertices false) v →
      windingNumber (r.filter fun s => Polyline.outsideOne 0 p1 p2 (midpoint s.1 s.2)) v =
        windingNumber (pairs p1.vertices false) v + windingNumber (pairs p2.vertices false) v -
          windingNumber (pairs p1.vertices false) v * windingNumber (pairs p2.vertices false) v := by
  obtain ⟨a, b, c⟩ := ha.region (Polyline.outsideOne 0 p1 p2) (α := 1) (β := 1) (γ := -1)
    (fun q q1 q2 => by rw [outsideOne_first h.closed1 h.closed2 h.once2 q1 q2]; ring)
    (fun q q1 q2 => by
      rw [show Polyline.outsideOne 0 p1 p2 q = Polyline.outsideOne 0 p2 p1 q from Bool.or_comm _ _,
        outsideOne_first h.closed2 h.closed1 h.once1 q1 q2]; ring)
  exact ⟨a, b, fun v v1 v2 => by rw [c v v1 v2]; ring⟩

/-- The result of `intersection`. -/
theorem intersection : ∃ n r, Arranged p1.vertices p2.vertices r ∧
    Cuts (pairs p1.vertices false ++ pairs p2.vertices false) r ∧ ∀ fuel, n ≤ fuel → ∀ σ,
      (LineBetween p1.vertices p2.vertices → Polyline.intersection 0 fuel σ p1 p2 = .ok ([], [])) ∧
      (¬ LineBetween p1.vertices p2.vertices → ∃ polys unused,
        Polyline.intersection 0 fuel σ p1 p2 = .ok (polys, unused) ∧ Traced r (inBoth p1 p2) polys unused) := by
  obtain ⟨n, r, ha, hcut, hne, hn⟩ := h.pieces
  refine ⟨n, r, ha, hcut, fun fuel hf σ => ?_⟩
  obtain ⟨hlen, hr⟩ := hn fuel hf
  have hr' : Polyline.splitTwo 0 fuel p1.vertices p2.vertices p1.opened p2.opened = .ok r := by
    rw [h.closed1, h.closed2]; exact hr
  unfold Polyline.intersection
  rw [hr', Res.bind_ok, if_neg (by simp [h.closed1, h.closed2])]
  constructor
  · intro hl
    rw [(boxesDisjoint_iff p1 p2).2 hl, Res.bind_ok, if_pos rfl]
  · intro hl
    obtain ⟨d, hd⟩ := Polyline.boxesDisjoint_ok p1 p2
    have hd' : d = false := by
      cases d with
      | false => rfl
      | true => exact absurd ((boxesDisjoint_iff p1 p2).1 hd) hl
    subst hd'
    rw [hd, Res.bind_ok]
    obtain ⟨hb, hp, -⟩ := h.inBoth_region ha
    obtain ⟨polys, unused, e, c1, c2, c3, c4⟩ := ha.combine hne (inBoth p1 p2) hb hp (p1 := p1) (p2 := p2) hlen σ
    exact ⟨polys, unused, e, c1, c2, c3, c4⟩

end Two

namespace Two

variable (h : Two p1 p2)
include h

theorem pieces_back : ∃ n r, Arranged p1.vertices p2.vertices.reverse r ∧
    Cuts (pairs p1.vertices false ++ pairs p2.vertices.reverse false) r ∧ r ≠ [] ∧ ∀ fuel, n ≤ fuel →
      r.length ≤ fuel ∧
      splitIntersections 0 fuel (pairs p1.vertices false ++ pairs p2.vertices.reverse false) = .ok r := by
  have g2 : ∀ v ∈ p2.vertices.reverse, v.isGhost = false := fun v hv => h.solid2 v (List.mem_reverse.1 hv)
  have hsol := Polyline.two_solid (o1 := false) (o2 := false) h.solid1 g2
  obtain ⟨n, hn⟩ := splitIntersections_total hsol
  obtain ⟨r, hr⟩ := hn n le_rfl
  have hcut := splitIntersections_cuts hsol hr
  refine ⟨max n r.length, r, Verif.arranged h.solid1 g2 h.simple1 h.simple2.reverse h.cross.reverse hr, hcut, ?_,
    fun fuel hf => ⟨(le_max_right _ _).trans hf, splitLoop_mono hr ((le_max_left _ _).trans hf)⟩⟩
  refine cuts_ne_nil hcut fun he => ?_
  have := pairs_ne_nil p1
  rw [h.closed1] at this
  exact this (List.append_eq_nil_iff.1 he).1

theorem inFirst_region {r : List (Vertex K × Vertex K)} (ha : Arranged p1.vertices p2.vertices.reverse r) :
    Polyline.Balanced (r.filter fun s => inFirst p1 p2 (midpoint s.1 s.2)) ∧
    Polyline.Proper (r.filter fun s => inFirst p1 p2 (midpoint s.1 s.2)) ∧
    ∀ v, ¬ OnSome (pairs p1.vertices false) v → ¬ OnSome (pairs p2.vertices false) v →
      windingNumber (r.filter fun s => inFirst p1 p2 (midpoint s.1 s.2)) v =
        windingNumber (pairs p1.vertices false) v * (1 - windingNumber (pairs p2.vertices false) v) := by
  obtain ⟨a, b, c⟩ := ha.region (inFirst p1 p2) (α := 1) (β := 0) (γ := 1)
    (fun q q1 q2 => by
      rw [onSome_reverse] at q2
      rw [inFirst_first h.closed1 h.closed2 h.once2 q1 q2, winding_reverse]; ring)
    (fun q q1 q2 => by
      rw [onSome_reverse] at q1
      rw [inFirst_second h.closed1 h.closed2 h.once1 q1 q2]; ring)
  exact ⟨a, b, fun v v1 v2 => by
    rw [c v v1 (by rw [onSome_reverse]; exact v2), winding_reverse]; ring⟩

/-- The result of `subtraction` when it does not return early. -/
theorem subtraction : ∃ n r, Arranged p1.vertices p2.vertices.reverse r ∧
    Cuts (pairs p1.vertices false ++ pairs p2.vertices.reverse false) r ∧ ∀ fuel, n ≤ fuel → ∀ σ,
      ((LineBetween p1.vertices p2.vertices ∨ Polyline.continence 0 fuel p1 p2 = .ok (some (.inside, .opened))) →
        ∃ unused, Polyline.subtraction 0 fuel σ p1 p2 = .ok ([], unused) ∧ unused.Perm r) ∧
      (¬ LineBetween p1.vertices p2.vertices → Polyline.continence 0 fuel p1 p2 ≠ .ok (some (.inside, .opened)) →
        ∃ polys unused,
        Polyline.subtraction 0 fuel σ p1 p2 = .ok (polys, unused) ∧ Traced r (inFirst p1 p2) polys unused) := by
  obtain ⟨n, r, ha, hcut, hne, hn⟩ := h.pieces_back
  obtain ⟨m, hm⟩ := Props.C42_terminates h.solid1 h.solid2
  refine ⟨max n m, r, ha, hcut, fun fuel hf σ => ?_⟩
  obtain ⟨hlen, hr⟩ := hn fuel ((le_max_left _ _).trans hf)
  obtain ⟨c, hc⟩ := hm fuel ((le_max_right _ _).trans hf)
  have hr' : Polyline.splitTwo 0 fuel p1.vertices p2.vertices.reverse p1.opened p2.opened = .ok r := by
    rw [h.closed1, h.closed2]; exact hr
  obtain ⟨d, hd⟩ := Polyline.boxesDisjoint_ok p1 p2
  have hd' := boxesDisjoint_iff p1 p2
  rw [hd] at hd'
  unfold Polyline.subtraction
  rw [hr', hd, hc, Res.bind_ok, Res.bind_ok, Res.bind_ok, h.closed1, h.closed2]
  constructor
  · intro hl
    refine ⟨toSet r, if_pos ?_, (List.perm_ext_iff_of_nodup (nodup_toSet r) ha.nodup).2 fun s => mem_toSet⟩
    rcases hl with hl | hl
    · have := hd'.2 hl
      simp only [Res.ok.injEq] at this
      rw [this]; simp
    · simp only [Res.ok.injEq] at hl
      rw [hl]; simp
  · intro hl hl'
    have e1 : d = false := by
      cases d with
      | false => rfl
      | true => exact absurd (hd'.1 rfl) hl
    have e2 : c ≠ some (.inside, .opened) := fun he => hl' (by rw [he])
    subst e1
    rw [if_neg (by simp [e2])]
    obtain ⟨hb, hp, -⟩ := h.inFirst_region ha
    obtain ⟨polys, unused, e, c1, c2, c3, c4⟩ := ha.combine hne (inFirst p1 p2) hb hp (p1 := p1) (p2 := p2) hlen σ
    exact ⟨polys, unused, e, c1, c2, c3, c4⟩

end Two

end Ops

end Verif
