import Verif.Lemmas.Confine

/-!
# Lemmas: the polygons returned by `intersection` and `subtraction` are simple and run counterclockwise
-/

namespace Verif

open Spec

variable {K : Type*} [Field K] [LinearOrder K] [IsStrictOrderedRing K]

set_option linter.unusedSectionVars false

/-- The pieces `r1` and `r2` of the two polygons, as sides of the polygons `P1` and `P2` with more vertices. -/
structure Parts (p1 p2 : Polyline (Vertex K)) (r r1 r2 : List (Vertex K × Vertex K)) (P1 P2 : Polyline (Vertex K)) :
    Prop where
  perm : r.Perm (r1 ++ r2)
  sep : r.Pairwise Separate
  proper : ∀ s ∈ r, ¬ SamePoint s.1 s.2
  solid : ∀ s ∈ r, Solid s
  cut1 : Cuts (pairs p1.vertices false) r1
  cut2 : Cuts (pairs p2.vertices false) r2
  own1 : (pairs P1.vertices false).Perm r1
  own2 : (pairs P2.vertices false).Perm r2
  closed1 : P1.opened = false
  closed2 : P2.opened = false
  simple1 : SimplePolygon P1.vertices
  simple2 : SimplePolygon P2.vertices

section Parts

variable {p1 p2 P1 P2 : Polyline (Vertex K)} {r r1 r2 : List (Vertex K × Vertex K)}

theorem Arranged.polygons (h : Arranged p1.vertices p2.vertices r) (hl : SimplePolygon p1.vertices)
    (hm : SimplePolygon p2.vertices) : ∃ r1 r2 P1 P2, Parts p1 p2 r r1 r2 P1 P2 := by
  obtain ⟨r1, r2, hp, c1, c2⟩ := h.parts
  obtain ⟨P1, a1, a2, a3⟩ := refined hl c1
  obtain ⟨P2, b1, b2, b3⟩ := refined hm c2
  exact ⟨r1, r2, P1, P2, hp, h.separate, h.proper, h.solid, c1, c2, a2, b2, a1, b1, a3, b3⟩

theorem Parts.symm (h : Parts p1 p2 r r1 r2 P1 P2) : Parts p2 p1 r r2 r1 P2 P1 :=
  ⟨h.perm.trans List.perm_append_comm, h.sep, h.proper, h.solid, h.cut2, h.cut1, h.own2, h.own1, h.closed2, h.closed1,
    h.simple2, h.simple1⟩

theorem Parts.mem1 (h : Parts p1 p2 r r1 r2 P1 P2) {s : Vertex K × Vertex K} (hs : s ∈ r1) : s ∈ r :=
  h.perm.mem_iff.2 (List.mem_append_left _ hs)

theorem Parts.cases (h : Parts p1 p2 r r1 r2 P1 P2) {s : Vertex K × Vertex K} (hs : s ∈ r) : s ∈ r1 ∨ s ∈ r2 :=
  List.mem_append.1 (h.perm.mem_iff.1 hs)

theorem Parts.nodup (h : Parts p1 p2 r r1 r2 P1 P2) : r.Nodup := by
  refine List.Pairwise.imp_of_mem ?_ h.sep
  rintro s t hs - hst rfl
  exact separate_self (h.proper s hs) hst

theorem Parts.miss (h : Parts p1 p2 r r1 r2 P1 P2) {s : Vertex K × Vertex K} (hs : s ∈ r1) {q : Vertex K}
    (hq : StrictlyOn s.1 s.2 q) : ¬ OnSome (pairs p2.vertices false) q := by
  intro hm
  obtain ⟨t, ht, htq⟩ := h.cut2.onSome.2 hm
  have hap : (r1 ++ r2).Pairwise Separate := (List.Perm.pairwise_iff (fun h => Separate.symm h) h.perm).1 h.sep
  exact ((List.pairwise_append.1 hap).2.2 s hs t ht q hq.1 htq).1 hq

theorem Parts.off (h : Parts p1 p2 r r1 r2 P1 P2) {v : Vertex K} (h1 : ¬ OnSome (pairs p1.vertices false) v)
    (h2 : ¬ OnSome (pairs p2.vertices false) v) : ∀ s ∈ r, ¬ OnSegment s.1 s.2 v := by
  intro s hs hv
  rcases h.cases hs with hs | hs
  · exact h1 (h.cut1.onSome.1 ⟨s, hs, hv⟩)
  · exact h2 (h.cut2.onSome.1 ⟨s, hs, hv⟩)

theorem Parts.off_iff (h : Parts p1 p2 r r1 r2 P1 P2) {v : Vertex K} (hv : ∀ s ∈ r, ¬ OnSegment s.1 s.2 v) :
    ¬ OnSome (pairs p1.vertices false) v := by
  intro h1
  obtain ⟨s, hs, ho⟩ := h.cut1.onSome.2 h1
  exact hv s (h.mem1 hs) ho

theorem Parts.once (h : Parts p1 p2 r r1 r2 P1 P2) (hw : WindsOnce p1.vertices) : WindsOnce P1.vertices := by
  intro v hv
  rw [windingNumber_perm h.own1, h.cut1.winding]
  refine hw v fun s hs ho => ?_
  obtain ⟨t, ht, e⟩ := h.cut1.onSome.2 ⟨s, hs, ho⟩
  exact hv t (h.own1.mem_iff.2 ht) e

theorem Parts.mid (h : Parts p1 p2 r r1 r2 P1 P2) {s : Vertex K × Vertex K} (hs : s ∈ r) :
    StrictlyOn s.1 s.2 (midpoint s.1 s.2) := by
  rw [Polyline.midpoint_eq_edge (h.solid s hs)]
  exact midpoint_strictlyOn (h.proper s hs)

/-- The winding number of the first polygon at the pieces of the second one that are kept. -/
theorem Parts.side (h : Parts p1 p2 r r1 r2 P1 P2) {kp : Vertex K → Bool} {β γ ω : ℤ}
    (k2 : ∀ q, OnSome (pairs p2.vertices false) q → ¬ OnSome (pairs p1.vertices false) q →
      (if kp q then (1 : ℤ) else 0) = β + γ * windingNumber (pairs p1.vertices false) q)
    (hγ : γ ≠ 0) (hω : 1 = β + γ * ω) {s : Vertex K × Vertex K} (hs : s ∈ r2)
    (hk : kp (midpoint s.1 s.2) = true) : windingNumber r1 (Edge.midpoint ⟨s.1, s.2⟩) = ω := by
  have hm := h.mid (h.symm.mem1 hs)
  have e := k2 _ (h.cut2.onSome.1 ⟨s, hs, hm.1⟩) (h.symm.miss hs hm)
  rw [if_pos hk, hω] at e
  rw [h.cut1.winding, ← Polyline.midpoint_eq_edge (h.solid s (h.symm.mem1 hs))]
  apply mul_left_cancel₀ hγ
  linarith

theorem Parts.confined (h : Parts p1 p2 r r1 r2 P1 P2) {c : Polyline (Vertex K)} {kp : Vertex K → Bool} {ω : ℤ}
    (hsub : ∀ s ∈ pairs c.vertices false, s ∈ r.filter fun s => kp (midpoint s.1 s.2))
    (hnd : (pairs c.vertices false).Nodup)
    (hside : ∀ s ∈ r2, kp (midpoint s.1 s.2) = true → windingNumber r1 (Edge.midpoint ⟨s.1, s.2⟩) = ω) :
    Confined r r1 r2 P1 c ω :=
  ⟨h.perm, h.sep, h.proper, h.own1, h.closed1, h.simple1, fun s hs => (List.mem_filter.1 (hsub s hs)).1, hnd,
    fun s hs hc => hside s hs (List.mem_filter.1 (hsub s hc)).2⟩

end Parts

section Polys

variable {r : List (Vertex K × Vertex K)} {kp : Vertex K → Bool} {polys : List (Polyline (Vertex K))}
  {unused : List (Vertex K × Vertex K)}

theorem Traced.sub (h : Traced r kp polys unused) {p : Polyline (Vertex K)} (hp : p ∈ polys) :
    ∀ s ∈ pairs p.vertices false, s ∈ r.filter fun s => kp (midpoint s.1 s.2) := fun _ hs =>
  h.used.mem_iff.1 (List.mem_flatMap.2 ⟨p, hp, hs⟩)

theorem Traced.nodups (h : Traced r kp polys unused) (hr : r.Nodup) {p : Polyline (Vertex K)} (hp : p ∈ polys) :
    (pairs p.vertices false).Nodup :=
  (List.nodup_flatMap.1 (h.used.nodup_iff.2 (hr.filter _))).1 p hp

theorem Traced.simple (h : Traced r kp polys unused) (hr : r.Nodup) (hsep : r.Pairwise Separate)
    (hsolid : ∀ s ∈ r, Solid s) (hc : Circuits (r.filter fun s => kp (midpoint s.1 s.2)))
    {p : Polyline (Vertex K)} (hp : p ∈ polys) : SimplePolygon p.vertices :=
  simple_of_circuits hc (hsep.filter _) (fun s hs => hsolid s (List.mem_filter.1 hs).1) (h.sub hp) (h.nodups hr hp)

/-- How many polygons contain a point, when all run once around their inside. -/
theorem count_inside {v : Vertex K} (hcl : ∀ p ∈ polys, p.opened = false) (hw : ∀ p ∈ polys, WindsOnce p.vertices)
    (hv : ∀ p ∈ polys, ¬ OnSome (pairs p.vertices false) v) :
    ((polys.countP fun p => decide (p.contains 0 v = some .inside) : ℕ) : ℤ) =
      (polys.map fun p => windingNumber (pairs p.vertices false) v).sum := by
  induction polys with
  | nil => rfl
  | cons p polys ih =>
    have := ih (fun p hp => hcl p (List.mem_cons_of_mem _ hp)) (fun p hp => hw p (List.mem_cons_of_mem _ hp))
      fun p hp => hv p (List.mem_cons_of_mem _ hp)
    rw [List.map_cons, List.sum_cons, ← this, List.countP_cons,
      contains_once (hcl p (by simp)) (hw p (by simp)) (hv p (by simp))]
    by_cases h : p.contains 0 v = some .inside
    · simp [h, add_comm]
    · simp [h]

end Polys

section Ops

variable {p1 p2 : Polyline (Vertex K)} {r : List (Vertex K × Vertex K)} {polys : List (Polyline (Vertex K))}
  {unused : List (Vertex K × Vertex K)}

theorem inBoth_k (h : Two p1 p2) : ∀ q, OnSome (pairs p1.vertices false) q → ¬ OnSome (pairs p2.vertices false) q →
    (if inBoth p1 p2 q then (1 : ℤ) else 0) = 0 + 1 * windingNumber (pairs p2.vertices false) q := fun q q1 q2 => by
  rw [inBoth_first h.closed1 h.closed2 h.once2 q1 q2]; ring

theorem inBoth_k' (h : Two p1 p2) : ∀ q, OnSome (pairs p2.vertices false) q → ¬ OnSome (pairs p1.vertices false) q →
    (if inBoth p1 p2 q then (1 : ℤ) else 0) = 0 + 1 * windingNumber (pairs p1.vertices false) q := fun q q1 q2 => by
  rw [inBoth_symm, inBoth_first h.closed2 h.closed1 h.once1 q1 q2]; ring

/-- The polygons of an intersection are simple and run counterclockwise. -/
theorem Two.intersection_polys (h : Two p1 p2) (hg : GeneralPosition p1.vertices p2.vertices)
    (ha : Arranged p1.vertices p2.vertices r) (tr : Traced r (inBoth p1 p2) polys unused) {p : Polyline (Vertex K)}
    (hp : p ∈ polys) : SimplePolygon p.vertices ∧ WindsOnce p.vertices := by
  have hc := ha.circuits h.simple1 h.simple2 hg (inBoth p1 p2) (inBoth_k h) (inBoth_k' h) one_ne_zero
  have hsim := tr.simple ha.nodup ha.separate ha.solid hc hp
  refine ⟨hsim, ?_⟩
  obtain ⟨r1, r2, P1, P2, hpt⟩ := ha.polygons h.simple1 h.simple2
  have c1 := hpt.confined (tr.sub hp) (tr.nodups ha.nodup hp) fun s hs hk =>
    hpt.side (inBoth_k' h) one_ne_zero (ω := 1) (by norm_num) hs hk
  have c2 := hpt.symm.confined (tr.sub hp) (tr.nodups ha.nodup hp) fun s hs hk =>
    hpt.symm.side (inBoth_k h) one_ne_zero (ω := 1) (by norm_num) hs hk
  have hcl := tr.closed p hp
  have hne := pairs_ne_nil p
  rw [hcl] at hne
  obtain ⟨s, hs⟩ := List.exists_mem_of_ne_nil _ hne
  rcases hpt.cases (List.mem_filter.1 (tr.sub hp s hs)).1 with h1 | h1
  · exact once_of_right hcl hsim hs (c1.inner (hpt.once h.once1) h1 hs)
  · exact once_of_right hcl hsim hs (c2.inner (hpt.symm.once h.once2) h1 hs)

theorem inFirst_k (h : Two p1 p2) : ∀ q, OnSome (pairs p1.vertices false) q →
    ¬ OnSome (pairs p2.vertices.reverse false) q →
    (if inFirst p1 p2 q then (1 : ℤ) else 0) = 1 + 1 * windingNumber (pairs p2.vertices.reverse false) q :=
  fun q q1 q2 => by
    rw [onSome_reverse] at q2
    rw [inFirst_first h.closed1 h.closed2 h.once2 q1 q2, winding_reverse]; ring

theorem inFirst_k' (h : Two p1 p2) : ∀ q, OnSome (pairs p2.vertices.reverse false) q →
    ¬ OnSome (pairs p1.vertices false) q →
    (if inFirst p1 p2 q then (1 : ℤ) else 0) = 0 + 1 * windingNumber (pairs p1.vertices false) q := fun q q1 q2 => by
  rw [onSome_reverse] at q1
  rw [inFirst_second h.closed1 h.closed2 h.once1 q1 q2]; ring

/-- The polygons of a subtraction are simple and run counterclockwise, if the subtracted polygon has a point outside the
other one. -/
theorem Two.subtraction_polys (h : Two p1 p2) (hg : GeneralPosition p1.vertices p2.vertices)
    (ha : Arranged p1.vertices p2.vertices.reverse r) (tr : Traced r (inFirst p1 p2) polys unused)
    {x : Vertex K} (hx : OnSome (pairs p2.vertices false) x) (hox : p1.contains 0 x = some .outside)
    {p : Polyline (Vertex K)} (hp : p ∈ polys) : SimplePolygon p.vertices ∧ WindsOnce p.vertices := by
  obtain ⟨p2', hp2'⟩ : ∃ p2' : Polyline (Vertex K), p2'.vertices = p2.vertices.reverse :=
    ⟨⟨p2.vertices.reverse, false, by rw [List.length_reverse]; exact p2.two_le⟩, rfl⟩
  have hsr := h.simple2.reverse
  have hgr := hg.reverse
  have k1 := inFirst_k h
  have k2 := inFirst_k' h
  rw [← onSome_reverse] at hx
  rw [← hp2'] at ha hsr hgr k1 k2 hx
  have hc := ha.circuits h.simple1 hsr hgr (inFirst p1 p2) k1 k2 one_ne_zero
  have hsim := tr.simple ha.nodup ha.separate ha.solid hc hp
  refine ⟨hsim, ?_⟩
  obtain ⟨r1, r2, P1, P2, hpt⟩ := ha.polygons h.simple1 hsr
  have c1 := hpt.confined (tr.sub hp) (tr.nodups ha.nodup hp) fun s hs hk =>
    hpt.side k2 one_ne_zero (ω := 1) (by norm_num) hs hk
  have hcl := tr.closed p hp
  have hne := pairs_ne_nil p
  rw [hcl] at hne
  by_cases hex : ∃ s ∈ pairs p.vertices false, s ∈ r1
  · obtain ⟨s, hs, h1⟩ := hex
    exact once_of_right hcl hsim hs (c1.inner (hpt.once h.once1) h1 hs)
  · exfalso
    push Not at hex
    have hall : ∀ s ∈ pairs p.vertices false, s ∈ r2 := fun s hs =>
      (hpt.cases (List.mem_filter.1 (tr.sub hp s hs)).1).resolve_left (hex s hs)
    have c2 : Confined r r2 r1 P2 p 0 := hpt.symm.confined (tr.sub hp) (tr.nodups ha.nodup hp) fun s hs hk =>
      hpt.symm.side k1 one_ne_zero (ω := 0) (by norm_num) hs hk
    have hw := c2.whole hall hne
    obtain ⟨t, ht, htx⟩ := hpt.cut2.onSome.2 hx
    have hk := (List.mem_filter.1 (tr.sub hp t (hw t ht))).2
    have hmid := hpt.mid (hpt.symm.mem1 ht)
    have e1 := hpt.side k2 one_ne_zero (ω := 1) (by norm_num) ht hk
    have hb : ¬ OnSome (pairs p1.vertices false) x := fun hb => by
      rw [(contains_boundary h.closed1).2 hb] at hox
      simp at hox
    have e2 := (contains_off h.closed1 hb).2.1 hox
    rw [hpt.cut1.winding, ← Polyline.midpoint_eq_edge (hpt.solid t (hpt.symm.mem1 ht))] at e1
    have e3 : windingNumber (pairs p1.vertices false) x = windingNumber (pairs p1.vertices false) (midpoint t.1 t.2) := by
      refine winding_const p1.vertices fun s hs y hy hy' => ?_
      rcases strictlyOn_between (hpt.proper t (hpt.symm.mem1 ht)) htx hmid hy' with h1 | h1
      · exact hpt.symm.miss ht h1 ⟨s, hs, hy⟩
      · exact hb ⟨s, hs, (onSegment_congr ⟨rfl, rfl⟩ ⟨rfl, rfl⟩ h1).2 hy⟩
    omega

end Ops

end Verif
