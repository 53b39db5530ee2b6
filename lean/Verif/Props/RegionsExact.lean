import Verif.Lemmas.UnionExact
import Verif.Props.Regions

/-!
# Exactly what union, intersection and subtraction of polygons return (C47, C48, C49)

Exact arithmetic (tolerance zero), polygons between ordinary vertices, every order of iteration of the hash sets; two
simple polygons neither of which has a vertex on the other.
-/

set_option linter.unusedSectionVars false

namespace Verif.Props

open Spec

variable {K : Type*} [Field K] [LinearOrder K] [IsStrictOrderedRing K]

/-- The hypotheses of the theorems below: two simple closed polygons that run counterclockwise, and no vertex of one of
them is on the other. -/
structure Generic (p1 p2 : Polyline (Vertex K)) : Prop where
  closed1 : p1.opened = false
  closed2 : p2.opened = false
  ordinary1 : ∀ v ∈ p1.vertices, v.isGhost = false
  ordinary2 : ∀ v ∈ p2.vertices, v.isGhost = false
  simple1 : SimplePolygon p1.vertices
  simple2 : SimplePolygon p2.vertices
  ccw1 : 0 < shoelace p1.vertices
  ccw2 : 0 < shoelace p2.vertices
  general : GeneralPosition p1.vertices p2.vertices

theorem Generic.overlay {p1 p2 : Polyline (Vertex K)} (h : Generic p1 p2) : Overlay p1 p2 :=
  ⟨h.closed1, h.closed2, h.ordinary1, h.ordinary2, h.simple1, h.simple2, h.ccw1, h.ccw2,
    h.general.crosswise h.simple1 h.simple2⟩

theorem Generic.two {p1 p2 : Polyline (Vertex K)} (h : Generic p1 p2) : Two p1 p2 := h.overlay.two

/-- General position, in terms of `contains`. -/
theorem general_of_check {p1 p2 : Polyline (Vertex K)} (h1 : p1.opened = false) (h2 : p2.opened = false)
    (c1 : ∀ v ∈ p1.vertices, p2.contains 0 v ≠ some .boundary)
    (c2 : ∀ v ∈ p2.vertices, p1.contains 0 v ≠ some .boundary) : GeneralPosition p1.vertices p2.vertices :=
  ⟨fun v hv t ht ho => c1 v hv ((contains_boundary h2).2 ⟨t, ht, ho⟩),
    fun v hv t ht ho => c2 v hv ((contains_boundary h1).2 ⟨t, ht, ho⟩)⟩

/-- The polygons are simple and run counterclockwise, and they contain the points, off the two given polygons, where
`inside` is true, each in exactly one of them; no such point is on their boundary. -/
def Tiles (p1 p2 : Polyline (Vertex K)) (polys : List (Polyline (Vertex K))) (inside : Vertex K → Prop) : Prop :=
  (∀ p ∈ polys, p.opened = false ∧ SimplePolygon p.vertices ∧ 0 < shoelace p.vertices) ∧
  ∀ v, p1.contains 0 v ≠ some .boundary → p2.contains 0 v ≠ some .boundary →
    (∀ p ∈ polys, p.contains 0 v ≠ some .boundary) ∧
    (inside v → polys.countP (fun p => decide (p.contains 0 v = some .inside)) = 1) ∧
    (¬ inside v → polys.countP (fun p => decide (p.contains 0 v = some .inside)) = 0)

/-- C48: the intersection is made of simple polygons that run counterclockwise; a point, not on either given polygon, is in
exactly one of them if it is inside both given polygons, and in none otherwise. -/
theorem C48_exact {p1 p2 : Polyline (Vertex K)} (h : Generic p1 p2) :
    ∃ n, ∀ fuel, n ≤ fuel → ∀ σ, ∃ polys unused,
      Polyline.intersection 0 fuel σ p1 p2 = .ok (polys, unused) ∧
      Tiles p1 p2 polys fun v => p1.contains 0 v = some .inside ∧ p2.contains 0 v = some .inside := by
  have ht := h.two
  obtain ⟨n, r, ha, -, hn⟩ := ht.intersection
  obtain ⟨m, hm⟩ := C48_region h.overlay
  refine ⟨max n m, fun fuel hf σ => ?_⟩
  obtain ⟨e1, e2⟩ := hn fuel ((le_max_left _ _).trans hf) σ
  obtain ⟨polys', unused', e', hcl, hw⟩ := hm fuel ((le_max_right _ _).trans hf) σ
  refine ⟨polys', unused', e', ?_⟩
  by_cases hl : LineBetween p1.vertices p2.vertices
  · have := e1 hl
    rw [e'] at this
    injection this with this
    injection this with h1 h2
    subst h1
    refine ⟨by simp, fun v v1 v2 => ⟨by simp, fun hi => ?_, fun _ => rfl⟩⟩
    have := hw v v1 v2
    rw [if_pos hi] at this
    simp at this
  · obtain ⟨polys, unused, e, tr⟩ := e2 hl
    rw [e'] at e
    injection e with e
    injection e with h1 h2
    subst h1
    have key := fun p (hp : p ∈ polys') => ht.intersection_polys h.general ha tr hp
    have off : ∀ v, p1.contains 0 v ≠ some .boundary → p2.contains 0 v ≠ some .boundary → ∀ p ∈ polys',
        ¬ OnSome (pairs p.vertices false) v := by
      rintro v v1 v2 p hp ⟨s, hs, ho⟩
      obtain ⟨r1, r2, P1, P2, hpt⟩ := ha.polygons h.simple1 h.simple2
      exact hpt.off (fun hh => v1 ((contains_boundary h.closed1).2 hh))
        (fun hh => v2 ((contains_boundary h.closed2).2 hh)) s (List.mem_filter.1 (tr.sub hp s hs)).1 ho
    refine ⟨fun p hp => ⟨hcl p hp, (key p hp).1, (key p hp).1.area_pos (hcl p hp) (key p hp).2⟩, fun v v1 v2 =>
      ⟨fun p hp hb => off v v1 v2 p hp ((contains_boundary (hcl p hp)).1 hb), fun hi => ?_, fun hi => ?_⟩⟩
    · have := count_inside hcl (fun p hp => (key p hp).2) (off v v1 v2)
      rw [hw v v1 v2, if_pos hi] at this
      exact_mod_cast this
    · have := count_inside hcl (fun p hp => (key p hp).2) (off v v1 v2)
      rw [hw v v1 v2, if_neg hi] at this
      exact_mod_cast this

/-- C49: if no horizontal or vertical line separates the polygons and the second one is not inside the first one, the
difference is made of simple polygons that run counterclockwise; a point, not on either given polygon, is in exactly one
of them if it is inside the first and outside the second polygon, and in none otherwise. -/
theorem C49_exact_partial {p1 p2 : Polyline (Vertex K)} (h : Generic p1 p2) (hl : ¬ LineBetween p1.vertices p2.vertices)
    (hr : ∃ s ∈ pairs p2.vertices false, ∃ x, OnSegment s.1 s.2 x ∧ p1.contains 0 x = some .outside) :
    ∃ n, ∀ fuel, n ≤ fuel → ∀ σ, ∃ polys unused,
      Polyline.subtraction 0 fuel σ p1 p2 = .ok (polys, unused) ∧
      Tiles p1 p2 polys fun v => p1.contains 0 v = some .inside ∧ p2.contains 0 v = some .outside := by
  have ht := h.two
  have hre : Reaches p1 p2 := Or.inl hr
  obtain ⟨n, r, ha, -, hn⟩ := ht.subtraction
  obtain ⟨m, hm⟩ := C49_region h.overlay hl hre
  refine ⟨max n m, fun fuel hf σ => ?_⟩
  obtain ⟨polys, unused, e, tr⟩ := (hn fuel ((le_max_left _ _).trans hf) σ).2 hl (hre.not_strict h.overlay fuel)
  obtain ⟨polys', unused', e', hcl, hw⟩ := hm fuel ((le_max_right _ _).trans hf) σ
  refine ⟨polys', unused', e', ?_⟩
  rw [e'] at e
  injection e with e
  injection e with h1 h2
  subst h1
  obtain ⟨s, hs, x, hx, hox⟩ := hr
  have key := fun p (hp : p ∈ polys') => ht.subtraction_polys h.general ha tr ⟨s, hs, hx⟩ hox hp
  have off : ∀ v, p1.contains 0 v ≠ some .boundary → p2.contains 0 v ≠ some .boundary → ∀ p ∈ polys',
      ¬ OnSome (pairs p.vertices false) v := by
    rintro v v1 v2 p hp ⟨s, hs, ho⟩
    obtain ⟨r1, r2, hp', q1, q2⟩ := ha.parts
    rcases List.mem_append.1 (hp'.mem_iff.1 (List.mem_filter.1 (tr.sub hp s hs)).1) with hm | hm
    · exact v1 ((contains_boundary h.closed1).2 (q1.onSome.1 ⟨s, hm, ho⟩))
    · exact v2 ((contains_boundary h.closed2).2 (onSome_reverse.1 (q2.onSome.1 ⟨s, hm, ho⟩)))
  refine ⟨fun p hp => ⟨hcl p hp, (key p hp).1, (key p hp).1.area_pos (hcl p hp) (key p hp).2⟩, fun v v1 v2 =>
    ⟨fun p hp hb => off v v1 v2 p hp ((contains_boundary (hcl p hp)).1 hb), fun hi => ?_, fun hi => ?_⟩⟩
  · have := count_inside hcl (fun p hp => (key p hp).2) (off v v1 v2)
    rw [hw v v1 v2, if_pos hi] at this
    exact_mod_cast this
  · have := count_inside hcl (fun p hp => (key p hp).2) (off v v1 v2)
    rw [hw v v1 v2, if_neg hi] at this
    exact_mod_cast this

/-- C47: if the polygons touch or overlap, the union is found: a simple polygon that runs counterclockwise and contains
everything, off the two polygons, that is inside one of them. What it contains besides is exactly what the two polygons
wall in between them: it is inside exactly one of the `holes`, simple polygons that run clockwise and whose sides are
returned with the union as unused segments; every other point is outside the union. -/
theorem C47_exact_partial {p1 p2 : Polyline (Vertex K)} (h : Generic p1 p2)
    (hov : (∃ v, p1.contains 0 v = some .boundary ∧ p2.contains 0 v = some .boundary) ∨
      ∃ v, p1.contains 0 v = some .inside ∧ p2.contains 0 v = some .inside) :
    ∃ n, ∀ fuel, n ≤ fuel → ∀ σ, ∃ p unused, Polyline.union 0 fuel σ p1 p2 = .ok (some (p, unused)) ∧
      p.opened = false ∧ SimplePolygon p.vertices ∧ 0 < shoelace p.vertices ∧
      ∃ holes : List (Polyline (Vertex K)),
        (∀ c ∈ holes, c.opened = false ∧ SimplePolygon c.vertices ∧ shoelace c.vertices < 0 ∧
          ∀ s ∈ pairs c.vertices false, s ∈ unused) ∧
        ∀ v, p1.contains 0 v ≠ some .boundary → p2.contains 0 v ≠ some .boundary →
          p.contains 0 v ≠ some .boundary ∧ (∀ c ∈ holes, c.contains 0 v ≠ some .boundary) ∧
          (p1.contains 0 v = some .inside ∨ p2.contains 0 v = some .inside →
            p.contains 0 v = some .inside ∧ holes.countP (fun c => decide (c.contains 0 v = some .inside)) = 0) ∧
          (p1.contains 0 v = some .outside → p2.contains 0 v = some .outside →
            holes.countP (fun c => decide (c.contains 0 v = some .inside)) =
              if p.contains 0 v = some .inside then 1 else 0) := by
  have ht := h.two
  obtain ⟨n, hn⟩ := ht.union_exact h.general (hov.imp
    (fun ⟨v, v1, v2⟩ => ⟨v, (contains_boundary h.closed1).1 v1, (contains_boundary h.closed2).1 v2⟩)
    fun ⟨v, v1, v2⟩ => by
      have b1 : p1.contains 0 v ≠ some .boundary := by rw [v1]; simp
      have b2 : p2.contains 0 v ≠ some .boundary := by rw [v2]; simp
      refine ⟨v, fun hh => b1 ((contains_boundary h.closed1).2 hh), fun hh => b2 ((contains_boundary h.closed2).2 hh),
        ?_, ?_⟩
      · rw [C08_simple h.closed1 h.simple1 h.ccw1 v b1, if_pos v1]
      · rw [C08_simple h.closed2 h.simple2 h.ccw2 v b2, if_pos v2])
  refine ⟨n, fun fuel hf σ => ?_⟩
  obtain ⟨p, unused, e, hcl, hccw, holes, rest, hu, hrest⟩ := hn fuel hf σ
  have inUnused : ∀ c ∈ holes, ∀ s ∈ pairs c.vertices false, s ∈ unused := fun c hc s hs =>
    hrest s (hu.holes_pieces.mem_iff.1 (List.mem_flatMap.2 ⟨c, hc, hs⟩))
  refine ⟨p, unused, e, hcl, hu.simple, hccw, holes, fun c hc => ⟨hu.holes_closed c hc, hu.holes_simple c hc,
    hu.holes_back c hc, inUnused c hc⟩, fun v v1 v2 => ?_⟩
  have o1 : ¬ OnSome (pairs p1.vertices false) v := fun hh => v1 ((contains_boundary h.closed1).2 hh)
  have o2 : ¬ OnSome (pairs p2.vertices false) v := fun hh => v2 ((contains_boundary h.closed2).2 hh)
  obtain ⟨-, -, -, -, pieces, hcut, hp, hun⟩ := C47_result h.ordinary1 h.ordinary2 e
  have offp : ∀ s ∈ pieces, ¬ OnSegment s.1 s.2 v := by
    intro s hs ho
    obtain ⟨t, ht, hto⟩ := hcut.onSome.1 ⟨s, hs, ho⟩
    rcases List.mem_append.1 ht with hm | hm
    · exact o1 ⟨t, hm, hto⟩
    · exact o2 ⟨t, hm, hto⟩
  have op : ¬ OnSome (pairs p.vertices false) v := fun ⟨s, hs, ho⟩ => offp s (hp s hs) ho
  have oc : ∀ c ∈ holes, ¬ OnSome (pairs c.vertices false) v := fun c hc ⟨s, hs, ho⟩ =>
    offp s ((hun s).1 (inUnused c hc s hs)).1 ho
  have cin : ∀ c ∈ holes, c.contains 0 v = some .inside ↔ windingNumber (pairs c.vertices false) v = -1 := by
    intro c hc
    rw [(contains_off (hu.holes_closed c hc) (oc c hc)).1]
    have := hu.back c hc v o1 o2
    omega
  have w1 := C08_simple h.closed1 h.simple1 h.ccw1 v v1
  have w2 := C08_simple h.closed2 h.simple2 h.ccw2 v v2
  have hpb : p.contains 0 v ≠ some .boundary := fun hb => op ((contains_boundary hcl).1 hb)
  have wp := C08_simple hcl hu.simple hccw v hpb
  have count : ((holes.countP fun c => decide (c.contains 0 v = some .inside) : ℕ) : ℤ) =
      -(holes.map fun c => windingNumber (pairs c.vertices false) v).sum := by
    have hb := hu.back
    clear inUnused hu
    induction holes with
    | nil => rfl
    | cons c holes ih =>
      have := ih (fun d hd => oc d (List.mem_cons_of_mem _ hd)) (fun d hd => cin d (List.mem_cons_of_mem _ hd))
        fun d hd => hb d (List.mem_cons_of_mem _ hd)
      rw [List.countP_cons, List.map_cons, List.sum_cons, Nat.cast_add, this]
      have hc := cin c (by simp)
      rcases hb c (by simp) v o1 o2 with h0 | h0
      · rw [h0, if_neg (by rw [decide_eq_true_eq, hc]; omega)]; simp
      · rw [h0, if_pos (by rw [decide_eq_true_eq, hc]; omega)]; push_cast; ring
  refine ⟨hpb, fun c hc hb => oc c hc ((contains_boundary (hu.holes_closed c hc)).1 hb), fun hi => ?_, fun x1 x2 => ?_⟩
  · obtain ⟨a, b⟩ := hu.covers v o1 o2 (hi.imp (fun hi => by rw [w1, if_pos hi]) fun hi => by rw [w2, if_pos hi])
    refine ⟨?_, ?_⟩
    · by_contra hn
      rw [wp, if_neg hn] at a
      omega
    · have : (holes.map fun c => windingNumber (pairs c.vertices false) v).sum = 0 := by
        refine List.sum_eq_zero fun x hx => ?_
        obtain ⟨c, hc, rfl⟩ := List.mem_map.1 hx
        exact b c hc
      rw [this, neg_zero] at count
      exact_mod_cast count
  · have := hu.total v o1 o2
    rw [w1, w2, wp, x1, x2] at this
    have e : ((holes.countP fun c => decide (c.contains 0 v = some .inside) : ℕ) : ℤ) =
        if p.contains 0 v = some .inside then 1 else 0 := by
      rw [count]
      simp at this
      omega
    split_ifs at e ⊢ <;> exact_mod_cast e

/-- C47, its limit: polygons that have nothing in common, but that no horizontal or vertical line separates, do not have
the result `None`. What is returned as their union is one of the two; the other one is lost. -/
theorem C47_disjoint_false {p1 p2 : Polyline (Vertex K)} (h : Generic p1 p2)
    (hl : ¬ LineBetween p1.vertices p2.vertices)
    (hb : ∀ v, p1.contains 0 v = some .boundary → p2.contains 0 v ≠ some .boundary)
    (hi : ∀ v, p1.contains 0 v = some .inside → p2.contains 0 v ≠ some .inside) :
    ∃ n, ∀ fuel, n ≤ fuel → ∀ σ, ∃ p unused, Polyline.union 0 fuel σ p1 p2 = .ok (some (p, unused)) ∧
      ∃ v, (p1.contains 0 v = some .inside ∨ p2.contains 0 v = some .inside) ∧ p.contains 0 v = some .outside := by
  have ht := h.two
  have hd : Polyline.boxesDisjoint p1 p2 = .ok false := by
    obtain ⟨d, hd⟩ := Polyline.boxesDisjoint_ok p1 p2
    cases d with
    | false => exact hd
    | true => exact absurd ((boxesDisjoint_iff p1 p2).1 hd) hl
  obtain ⟨n, r, ha, hn⟩ := ht.union_found h.general hd
  refine ⟨n, fun fuel hf σ => ?_⟩
  obtain ⟨p, unused, e, hcl, hccw, rest, hp, hu⟩ := hn fuel hf σ
  refine ⟨p, unused, e, ?_⟩
  obtain ⟨r1, r2, P1, P2, hpt⟩ := ha.polygons h.simple1 h.simple2
  have off : ∀ v, (∀ s ∈ r, ¬ OnSegment s.1 s.2 v) → ¬ OnSome (pairs p.vertices false) v := fun v hv ⟨s, hs, ho⟩ =>
    hv s (List.mem_filter.1 (hp.mem_iff.1 (List.mem_append_left _ hs))).1 ho
  rcases ht.union_single ha (fun v v1 v2 => hb v ((contains_boundary h.closed1).2 v1)
      ((contains_boundary h.closed2).2 v2)) hcl hp with hw | hw
  · obtain ⟨v, v1, v2⟩ := hpt.simple2.encloses hpt.closed2 hpt.sep fun s hs =>
      hpt.symm.mem1 (hpt.own2.mem_iff.1 hs)
    rw [windingNumber_perm hpt.own2, hpt.cut2.winding] at v2
    have i2 := (contains_off h.closed2 (hpt.symm.off_iff v1)).1.2 v2
    refine ⟨v, Or.inr i2, (contains_off hcl (off v v1)).2.2 ?_⟩
    rw [hw]
    by_contra h1
    exact hi v ((contains_off h.closed1 (hpt.off_iff v1)).1.2 h1) i2
  · obtain ⟨v, v1, v2⟩ := hpt.simple1.encloses hpt.closed1 hpt.sep fun s hs =>
      hpt.mem1 (hpt.own1.mem_iff.1 hs)
    rw [windingNumber_perm hpt.own1, hpt.cut1.winding] at v2
    have i1 := (contains_off h.closed1 (hpt.off_iff v1)).1.2 v2
    refine ⟨v, Or.inl i1, (contains_off hcl (off v v1)).2.2 ?_⟩
    rw [hw]
    by_contra h2
    exact hi v i1 ((contains_off h.closed2 (hpt.symm.off_iff v1)).1.2 h2)

/-- The hypotheses are met by two overlapping squares. -/
theorem generic_plates : Generic plate cornerPlate :=
  ⟨rfl, rfl, by decide +kernel, by decide +kernel, simple_of_check (by decide +kernel),
    simple_of_check (by decide +kernel), by decide +kernel, by decide +kernel,
    general_of_check rfl rfl (by decide +kernel) (by decide +kernel)⟩

/-- A cup. -/
def cup : Polyline (Vertex ℚ) :=
  ⟨[⟨0, 0, false⟩, ⟨4, 0, false⟩, ⟨4, 3, false⟩, ⟨3, 3, false⟩, ⟨3, 1, false⟩, ⟨1, 1, false⟩, ⟨1, 3, false⟩,
    ⟨0, 3, false⟩], false, by simp⟩
/-- A bar across the cup. -/
def bar : Polyline (Vertex ℚ) :=
  ⟨[⟨-1, 2, false⟩, ⟨5, 2, false⟩, ⟨5, 5/2, false⟩, ⟨-1, 5/2, false⟩], false, by simp⟩

/-- They are met by a cup and a bar, too, which wall in a hole. -/
theorem generic_cup : Generic cup bar :=
  ⟨rfl, rfl, by decide +kernel, by decide +kernel, simple_of_check (by decide +kernel),
    simple_of_check (by decide +kernel), by decide +kernel, by decide +kernel,
    general_of_check rfl rfl (by decide +kernel) (by decide +kernel)⟩

example : (∃ v, cup.contains 0 v = some .boundary ∧ bar.contains 0 v = some .boundary) ∧
    (∃ p unused, Polyline.union 0 300 Sched.first cup bar = .ok (some (p, unused)) ∧
      p.contains 0 ⟨2, 3/2, false⟩ = some .inside ∧ (⟨3, 1, false⟩, ⟨1, 1, false⟩) ∈ unused) ∧
    cup.contains 0 ⟨2, 3/2, false⟩ = some .outside ∧ bar.contains 0 ⟨2, 3/2, false⟩ = some .outside ∧
    (∃ s ∈ pairs bar.vertices false, ∃ x, OnSegment s.1 s.2 x ∧ cup.contains 0 x = some .outside) ∧
    ¬ LineBetween cup.vertices bar.vertices := by
  refine ⟨⟨⟨0, 2, false⟩, by decide +kernel, by decide +kernel⟩, ?_, by decide +kernel, by decide +kernel,
    ⟨(⟨5, 2, false⟩, ⟨5, 5/2, false⟩), by decide +kernel, ⟨5, 2, false⟩, onSegment_left _ _, by decide +kernel⟩,
    by unfold LineBetween; decide +kernel⟩
  obtain ⟨p, u, e⟩ : ∃ p u, (Polyline.union 0 300 Sched.first cup bar).toOption.join = some (p, u) ∧
      p.contains 0 ⟨2, 3/2, false⟩ = some .inside ∧ (⟨3, 1, false⟩, ⟨1, 1, false⟩) ∈ u :=
    ⟨_, _, (Option.some_get (by decide +kernel : (Polyline.union 0 300 Sched.first cup bar).toOption.join.isSome)).symm,
      by decide +kernel, by decide +kernel⟩
  refine ⟨p, u, ?_, e.2⟩
  have := e.1
  cases hr : Polyline.union 0 300 Sched.first cup bar with
  | ok x => rw [hr] at this; simpa [Res.toOption] using this
  | _ => rw [hr] at this; simp [Res.toOption] at this

/-- A corner piece. -/
def ell : Polyline (Vertex ℚ) :=
  ⟨[⟨0, 0, false⟩, ⟨4, 0, false⟩, ⟨4, 1, false⟩, ⟨1, 1, false⟩, ⟨1, 4, false⟩, ⟨0, 4, false⟩], false, by simp⟩
/-- A square in its notch. -/
def inset : Polyline (Vertex ℚ) :=
  ⟨[⟨2, 2, false⟩, ⟨3, 2, false⟩, ⟨3, 3, false⟩, ⟨2, 3, false⟩], false, by simp⟩

theorem generic_ell : Generic ell inset :=
  ⟨rfl, rfl, by decide +kernel, by decide +kernel, simple_of_check (by decide +kernel),
    simple_of_check (by decide +kernel), by decide +kernel, by decide +kernel,
    general_of_check rfl rfl (by decide +kernel) (by decide +kernel)⟩

theorem inset_box {v : Vertex ℚ} (h : inset.contains 0 v ≠ some .outside) :
    (2 ≤ v.x ∧ v.x ≤ 3) ∧ 2 ≤ v.y ∧ v.y ≤ 3 := by
  by_cases hb : OnSome (pairs inset.vertices false) v
  · obtain ⟨s, hs, ho⟩ := hb
    obtain ⟨⟨a1, a2⟩, a3, a4⟩ := onSegment_box ho
    have m1 : ∀ u ∈ inset.vertices, (2 ≤ u.x ∧ u.x ≤ 3) ∧ 2 ≤ u.y ∧ u.y ≤ 3 := by decide +kernel
    obtain ⟨⟨b1, b2⟩, b3, b4⟩ := m1 _ (mem_pairs hs).1
    obtain ⟨⟨c1, c2⟩, c3, c4⟩ := m1 _ (mem_pairs hs).2
    exact ⟨⟨(le_min b1 c1).trans a1, a2.trans (max_le b2 c2)⟩, (le_min b3 c3).trans a3, a4.trans (max_le b4 c4)⟩
  · have hw : windingNumber (pairs inset.vertices false) v ≠ 0 := fun h0 => h ((contains_off rfl hb).2.2 h0)
    obtain ⟨⟨u1, m1, e1⟩, ⟨u2, m2, e2⟩, ⟨u3, m3, e3⟩, u4, m4, e4⟩ := winding_box hw
    have m : ∀ u ∈ inset.vertices, (2 ≤ u.x ∧ u.x ≤ 3) ∧ 2 ≤ u.y ∧ u.y ≤ 3 := by decide +kernel
    exact ⟨⟨(m _ m1).1.1.trans e1, e2.trans (m _ m2).1.2⟩, (m _ m3).2.1.trans e3, e4.trans (m _ m4).2.2⟩

theorem ell_outside {v : Vertex ℚ} (h : (2 ≤ v.x ∧ v.x ≤ 3) ∧ 2 ≤ v.y ∧ v.y ≤ 3) :
    ell.contains 0 v = some .outside := by
  obtain ⟨⟨h1, h2⟩, h3, h4⟩ := h
  refine (contains_off rfl ?_).2.2 ?_
  · rintro ⟨s, hs, ho⟩
    obtain ⟨⟨a1, a2⟩, a3, a4⟩ := onSegment_box ho
    have m : ∀ s ∈ pairs ell.vertices false, max s.1.x s.2.x ≤ 1 ∨ max s.1.y s.2.y ≤ 1 := by decide +kernel
    rcases m s hs with h | h <;> linarith
  · refine List.sum_eq_zero fun x hx => ?_
    obtain ⟨s, hs, rfl⟩ := List.mem_map.1 hx
    have m : ∀ s ∈ pairs ell.vertices false, (s.1.x ≤ 1 ∧ s.2.x ≤ 1) ∨ (s.1.x = 4 ∧ s.2.x = 4) ∨
        (s.1.y ≤ 1 ∧ s.2.y = s.1.y) := by decide +kernel
    unfold crossingAbove
    rcases m s hs with ⟨k1, k2⟩ | ⟨k1, k2⟩ | ⟨k1, k2⟩
    · rw [if_neg (by rintro ⟨q1, q2, q3⟩; linarith), if_neg (by rintro ⟨q1, q2, q3⟩; linarith)]
    · rw [if_neg (by rintro ⟨q1, q2, q3⟩; linarith), if_neg (by rintro ⟨q1, q2, q3⟩; linarith)]
    · rw [if_neg (by rintro ⟨q1, q2, q3⟩; unfold cross at q3; rw [k2] at q3; nlinarith),
        if_neg (by rintro ⟨q1, q2, q3⟩; unfold cross at q3; rw [k2] at q3; nlinarith)]

/-- The hypotheses of `C47_disjoint_false` are met by a square in the notch of another polygon. -/
example : ¬ LineBetween ell.vertices inset.vertices ∧
    (∀ v, ell.contains 0 v = some .boundary → inset.contains 0 v ≠ some .boundary) ∧
    ∀ v, ell.contains 0 v = some .inside → inset.contains 0 v ≠ some .inside := by
  refine ⟨by unfold LineBetween; decide +kernel, fun v h1 h2 => ?_, fun v h1 h2 => ?_⟩
  · rw [ell_outside (inset_box (by rw [h2]; simp))] at h1; simp at h1
  · rw [ell_outside (inset_box (by rw [h2]; simp))] at h1; simp at h1
end Verif.Props
