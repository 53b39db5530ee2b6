import Verif.Lemmas.Exact
import Verif.Props.Boolean

/-!
# Lemmas: `union` finds the outer boundary
-/

namespace Verif

open Spec

variable {K : Type*} [Field K] [LinearOrder K] [IsStrictOrderedRing K]

set_option linter.unusedSectionVars false

/-- On the right of its sides a simple polygon has the outside, or the inside. -/
theorem right_value {p : Polyline (Vertex K)} (hp : p.opened = false) (hs : SimplePolygon p.vertices) :
    (WindsOnce p.vertices ∧ ∀ s ∈ pairs p.vertices false, rightOf (pairs p.vertices false) s = 0) ∨
    ((∀ v, (∀ s ∈ pairs p.vertices false, ¬ OnSegment s.1 s.2 v) →
        windingNumber (pairs p.vertices false) v = 0 ∨ windingNumber (pairs p.vertices false) v = -1) ∧
      shoelace p.vertices < 0 ∧
      ∀ s ∈ pairs p.vertices false, rightOf (pairs p.vertices false) s = -1) := by
  rcases jordan hp hs with h | h
  · exact Or.inl ⟨h, fun s hm => right_outside hp hs h hm⟩
  · right
    have hval : ∀ v, (∀ s ∈ pairs p.vertices false, ¬ OnSegment s.1 s.2 v) →
        windingNumber (pairs p.vertices false) v = 0 ∨ windingNumber (pairs p.vertices false) v = -1 := by
      intro v hv
      have := h v fun s hs ho => hv _ (mem_pairs_reverse.1 hs) (onSegment_symm ho)
      rw [winding_reverse] at this
      omega
    refine ⟨hval, ?_, fun s hm => ?_⟩
    · have h2 : 2 ≤ p.vertices.reverse.length := by rw [List.length_reverse]; exact p.two_le
      have := Spec.SimplePolygon.area_pos (p := ⟨p.vertices.reverse, false, h2⟩) rfl hs.reverse h
      simp only at this
      rw [shoelace_reverse'] at this
      linarith
    · obtain ⟨c, hc⟩ := rightOf_const hp hs
      obtain ⟨v, v1, v2⟩ := hs.encloses hp hs.separate fun _ h => h
      have h1 := (winding_values hs hc v1).resolve_left v2
      have h2 := (hval v v1).resolve_left v2
      rw [hc s hm]
      omega

/-- The next and the previous side. -/
theorem side_next {p : Polyline (Vertex K)} (hp : p.opened = false) {s : Vertex K × Vertex K}
    (hs : s ∈ pairs p.vertices false) :
    (∃ t ∈ pairs p.vertices false, t.1 = s.2) ∧ ∃ t ∈ pairs p.vertices false, t.2 = s.1 := by
  have hn : 0 < p.vertices.length := by have := p.two_le; omega
  obtain ⟨i, rfl⟩ := (mem_pairs_cyc hp hn).1 hs
  refine ⟨⟨_, (mem_pairs_cyc hp hn).2 ⟨i + 1, rfl⟩, rfl⟩, _, (mem_pairs_cyc hp hn).2 ⟨i - 1, rfl⟩, ?_⟩
  simp

theorem polygon_balanced (l : List (Vertex K)) : Polyline.Balanced (pairs l false) := by
  intro b
  have h := sum_pairs_closed (fun v => if v = b then (1 : ℤ) else 0) l
  have e : ∀ m : List (Vertex K × Vertex K),
      (m.map fun s => (if s.2 = b then (1 : ℤ) else 0) - if s.1 = b then 1 else 0).sum =
        (m.countP (fun s => decide (s.2 = b)) : ℤ) - m.countP (fun s => decide (s.1 = b)) := by
    intro m
    induction m with
    | nil => rfl
    | cons s m ih =>
      rw [List.map_cons, List.sum_cons, ih, List.countP_cons, List.countP_cons]
      by_cases h1 : s.1 = b <;> by_cases h2 : s.2 = b <;> simp [h1, h2] <;> ring
  rw [e] at h
  have := sub_eq_zero.1 h
  exact_mod_cast this

theorem Polyline.Balanced.telescopes {l : List (Vertex K × Vertex K)} (h : Polyline.Balanced l) : Telescopes l := by
  intro f
  have hperm : (l.map Prod.snd).Perm (l.map Prod.fst) := by
    classical
    rw [List.perm_iff_count]
    intro b
    have := h b
    rw [List.count_eq_countP, List.count_eq_countP, List.countP_map, List.countP_map]
    convert this using 2 <;> (funext s; simp only [Function.comp]; rw [Bool.eq_iff_iff]; simp)
  have e : (l.map fun s => f s.2).sum = (l.map fun s => f s.1).sum := by
    have := (hperm.map f).sum_eq
    simpa [List.map_map, Function.comp_def] using this
  have : ∀ m : List (Vertex K × Vertex K),
      (m.map fun s => f s.2 - f s.1).sum = (m.map fun s => f s.2).sum - (m.map fun s => f s.1).sum := by
    intro m
    induction m with
    | nil => rfl
    | cons s m ih => simp only [List.map_cons, List.sum_cons, ih]; ring
  rw [this, e, sub_self]

theorem back_winding (l : List (Vertex K × Vertex K)) (v : Vertex K) : windingNumber (l ++ l.map Prod.swap) v = 0 := by
  rw [windingNumber_append]
  unfold windingNumber
  induction l with
  | nil => rfl
  | cons s l ih =>
    have := crossingAbove_swap v s.1 s.2
    simp only [List.map_cons, List.sum_cons, Prod.fst_swap, Prod.snd_swap]
    omega

theorem back_enclosed (l : List (Vertex K × Vertex K)) : enclosed (l ++ l.map Prod.swap) = 0 := by
  rw [Polyline.enclosed_append]
  unfold enclosed
  induction l with
  | nil => simp
  | cons s l ih =>
    simp only [List.map_cons, List.sum_cons, Prod.fst_swap, Prod.snd_swap]
    linear_combination ih

theorem back_telescopes (l : List (Vertex K × Vertex K)) (f : Vertex K → ℤ) :
    ((l ++ l.map Prod.swap).map fun s => f s.2 - f s.1).sum = 0 := by
  rw [List.map_append, List.sum_append]
  induction l with
  | nil => simp
  | cons s l ih =>
    simp only [List.map_cons, List.sum_cons, Prod.fst_swap, Prod.snd_swap]
    omega

theorem Spec.Circuits.perm {k l : List (Vertex K × Vertex K)} (hc : Circuits k) (hp : k.Perm l) : Circuits l :=
  ⟨fun s hs' => by
      obtain ⟨t, ht, he⟩ := hc.next s (hp.mem_iff.2 hs')
      exact ⟨t, hp.mem_iff.1 ht, he⟩,
    fun s hs' t ht => hc.starts s (hp.mem_iff.2 hs') t (hp.mem_iff.2 ht),
    fun s hs' t ht => hc.ends s (hp.mem_iff.2 hs') t (hp.mem_iff.2 ht),
    fun s hs' => ⟨(hc.proper s (hp.mem_iff.2 hs')).1, fun hm =>
      (hc.proper s (hp.mem_iff.2 hs')).2 (hp.mem_iff.2 hm)⟩⟩

section Union

variable {p1 p2 P1 P2 : Polyline (Vertex K)} {r r1 r2 : List (Vertex K × Vertex K)}

theorem outer_k (h : Two p1 p2) : ∀ q, OnSome (pairs p1.vertices false) q → ¬ OnSome (pairs p2.vertices false) q →
    (if Polyline.outsideOne 0 p1 p2 q then (1 : ℤ) else 0) = 1 + -1 * windingNumber (pairs p2.vertices false) q :=
  fun q q1 q2 => by rw [outsideOne_first h.closed1 h.closed2 h.once2 q1 q2]; ring

theorem outer_k' (h : Two p1 p2) : ∀ q, OnSome (pairs p2.vertices false) q → ¬ OnSome (pairs p1.vertices false) q →
    (if Polyline.outsideOne 0 p1 p2 q then (1 : ℤ) else 0) = 1 + -1 * windingNumber (pairs p1.vertices false) q :=
  fun q q1 q2 => by
    rw [show Polyline.outsideOne 0 p1 p2 q = Polyline.outsideOne 0 p2 p1 q from Bool.or_comm _ _,
      outsideOne_first h.closed2 h.closed1 h.once1 q1 q2]; ring

/-- The pieces that `union` keeps. -/
def outer (p1 p2 : Polyline (Vertex K)) (r : List (Vertex K × Vertex K)) : List (Vertex K × Vertex K) :=
  r.filter fun s => Polyline.outsideOne 0 p1 p2 (midpoint s.1 s.2)

/-- If the boundaries meet, not all pieces of a polygon are outside the other one. -/
theorem Parts.not_all_outer (hpt : Parts p1 p2 r r1 r2 P1 P2) (h : Two p1 p2)
    (hg : GeneralPosition p1.vertices p2.vertices) {b : Vertex K} (h1 : OnSome (pairs p1.vertices false) b)
    (h2 : OnSome (pairs p2.vertices false) b)
    (hall : ∀ s ∈ r1, Polyline.outsideOne 0 p1 p2 (midpoint s.1 s.2) = true) : False := by
  obtain ⟨s, hs, hbs⟩ := hpt.cut1.onSome.2 h1
  have hns : ¬ StrictlyOn s.1 s.2 b := fun hc => hpt.miss hs hc h2
  have hw : ∀ s ∈ r1, windingNumber (pairs p2.vertices false) (midpoint s.1 s.2) = 0 := by
    intro s hs
    have hm := hpt.mid (hpt.mem1 hs)
    have := outer_k h _ (hpt.cut1.onSome.1 ⟨s, hs, hm.1⟩) (hpt.miss hs hm)
    rw [if_pos (hall s hs)] at this
    linarith
  have alt : ∀ x ∈ r1, ∀ s ∈ r1, x.2 = s.1 → SamePoint s.1 b → False := by
    intro x hx s hs hxs hb
    obtain ⟨t, ht, htb⟩ := h2
    refine alternate h.simple1 h.simple2 hg hpt.cut1 (fun s hs q hq => hpt.miss hs hq) hx hs
      (by rw [hxs]; exact ⟨rfl, rfl⟩) ⟨t, ht, (onSegment_congr ⟨rfl, rfl⟩ ⟨rfl, rfl⟩ hb).2 htb⟩
      (hpt.mid (hpt.mem1 hx)) (hpt.mid (hpt.mem1 hs)) ?_
    rw [hw x hx, hw s hs]
  obtain ⟨⟨t, ht, hts⟩, x, hx, hxs⟩ := side_next hpt.closed1 (hpt.own1.mem_iff.2 hs)
  by_cases e1 : SamePoint s.1 b
  · exact alt x (hpt.own1.mem_iff.1 hx) s hs hxs e1
  · by_cases e2 : SamePoint s.2 b
    · exact alt s hs t (hpt.own1.mem_iff.1 ht) hts.symm (hts ▸ e2)
    · exact hns ⟨hbs, e1, e2⟩

/-- What the union encloses: `p` is the polygon found, the holes are made of segments that are returned with it. -/
structure UnionRegion (p1 p2 p : Polyline (Vertex K)) (holes : List (Polyline (Vertex K)))
    (rest : List (Vertex K × Vertex K)) : Prop where
  simple : SimplePolygon p.vertices
  holes_closed : ∀ c ∈ holes, c.opened = false
  holes_simple : ∀ c ∈ holes, SimplePolygon c.vertices
  holes_back : ∀ c ∈ holes, shoelace c.vertices < 0
  holes_pieces : (holes.flatMap fun c => pairs c.vertices false).Perm rest
  covers : ∀ v, ¬ OnSome (pairs p1.vertices false) v → ¬ OnSome (pairs p2.vertices false) v →
    windingNumber (pairs p1.vertices false) v = 1 ∨ windingNumber (pairs p2.vertices false) v = 1 →
      windingNumber (pairs p.vertices false) v = 1 ∧ ∀ c ∈ holes, windingNumber (pairs c.vertices false) v = 0
  total : ∀ v, ¬ OnSome (pairs p1.vertices false) v → ¬ OnSome (pairs p2.vertices false) v →
    windingNumber (pairs p.vertices false) v + (holes.map fun c => windingNumber (pairs c.vertices false) v).sum =
      windingNumber (pairs p1.vertices false) v + windingNumber (pairs p2.vertices false) v -
        windingNumber (pairs p1.vertices false) v * windingNumber (pairs p2.vertices false) v
  back : ∀ c ∈ holes, ∀ v, ¬ OnSome (pairs p1.vertices false) v → ¬ OnSome (pairs p2.vertices false) v →
    windingNumber (pairs c.vertices false) v = 0 ∨ windingNumber (pairs c.vertices false) v = -1

/-- The polygon that `union` finds, when the boundaries meet. -/
theorem Two.union_meet (h : Two p1 p2) (hg : GeneralPosition p1.vertices p2.vertices)
    (ha : Arranged p1.vertices p2.vertices r) {b : Vertex K} (h1 : OnSome (pairs p1.vertices false) b)
    (h2 : OnSome (pairs p2.vertices false) b) {p : Polyline (Vertex K)} {rest : List (Vertex K × Vertex K)}
    (hcl : p.opened = false) (hccw : 0 < shoelace p.vertices)
    (hp : (pairs p.vertices false ++ rest).Perm (outer p1 p2 r)) : ∃ holes, UnionRegion p1 p2 p holes rest := by
  obtain ⟨hbal, hprop, hwin⟩ := h.outsideOne_region ha
  have hc : Circuits (outer p1 p2 r) := ha.circuits h.simple1 h.simple2 hg _ (outer_k h) (outer_k' h) (by decide)
  have hnd : (outer p1 p2 r).Nodup := ha.nodup.filter _
  have hnd' := hp.nodup_iff.2 hnd
  have hsolid : ∀ s ∈ outer p1 p2 r, Solid s := fun s hs => ha.solid s (List.mem_filter.1 hs).1
  have hbr : Polyline.Balanced rest := by
    intro b
    have e1 := (Polyline.Balanced.perm hbal hp.symm) b
    have e2 := polygon_balanced p.vertices b
    rw [List.countP_append, List.countP_append] at e1
    omega
  have hpr : Polyline.Proper rest := fun s hs => ⟨(hprop s (hp.mem_iff.1 (List.mem_append_right _ hs))).1, fun hc =>
    (hprop s (hp.mem_iff.1 (List.mem_append_right _ hs))).2 (hp.mem_iff.1 (List.mem_append_right _ hc))⟩
  obtain ⟨holes, -, e2, e3⟩ := Polyline.buildAll_complete rest.length Sched.first rest [] [] le_rfl
    hnd'.of_append_right (fun s hs => hsolid s (hp.mem_iff.1 (List.mem_append_right _ hs))) hbr hpr
  -- every polygon made of such pieces is simple and follows both polygons
  obtain ⟨r1, r2, P1, P2, hpt⟩ := ha.polygons h.simple1 h.simple2
  have one : ∀ c : Polyline (Vertex K), c.opened = false → (∀ s ∈ pairs c.vertices false, s ∈ outer p1 p2 r) →
      (pairs c.vertices false).Nodup → SimplePolygon c.vertices ∧ ∃ κ : ℤ,
        (∀ s ∈ pairs c.vertices false, rightOf (pairs c.vertices false) s = κ - 1) ∧
        ∀ v, ¬ OnSome (pairs p1.vertices false) v → ¬ OnSome (pairs p2.vertices false) v →
          windingNumber (pairs p1.vertices false) v = 1 ∨ windingNumber (pairs p2.vertices false) v = 1 →
          windingNumber (pairs c.vertices false) v = κ := by
    intro c hcc hsub hn
    have hsim := simple_of_circuits hc (ha.separate.filter _) hsolid hsub hn
    refine ⟨hsim, ?_⟩
    have c1 : Confined r r1 r2 P1 c 0 := hpt.confined hsub hn fun s hs hk =>
      hpt.side (outer_k' h) (by decide) (ω := 0) (by norm_num) hs hk
    have c2 : Confined r r2 r1 P2 c 0 := hpt.symm.confined hsub hn fun s hs hk =>
      hpt.symm.side (outer_k h) (by decide) (ω := 0) (by norm_num) hs hk
    have hne := pairs_ne_nil c
    rw [hcc] at hne
    have ex1 : ∃ s ∈ pairs c.vertices false, s ∈ r1 := by
      by_contra hno
      push Not at hno
      have hall : ∀ s ∈ pairs c.vertices false, s ∈ r2 := fun s hs =>
        (hpt.cases (List.mem_filter.1 (hsub s hs)).1).resolve_left (hno s hs)
      refine hpt.symm.not_all_outer ⟨h.closed2, h.closed1, h.solid2, h.solid1, h.simple2, h.simple1, h.once2, h.once1,
        hg.symm.crosswise h.simple2 h.simple1⟩ hg.symm h2 h1 fun s hs => ?_
      rw [show Polyline.outsideOne 0 p2 p1 _ = Polyline.outsideOne 0 p1 p2 _ from Bool.or_comm _ _]
      exact (List.mem_filter.1 (hsub s (c2.whole hall hne s hs))).2
    have ex2 : ∃ s ∈ pairs c.vertices false, s ∈ r2 := by
      by_contra hno
      push Not at hno
      have hall : ∀ s ∈ pairs c.vertices false, s ∈ r1 := fun s hs =>
        (hpt.cases (List.mem_filter.1 (hsub s hs)).1).resolve_right (hno s hs)
      exact hpt.not_all_outer h hg h1 h2 fun s hs => (List.mem_filter.1 (hsub s (c1.whole hall hne s hs))).2
    obtain ⟨κ1, a1, a2⟩ := c1.outer (hpt.once h.once1)
    obtain ⟨κ2, b1, b2⟩ := c2.outer (hpt.symm.once h.once2)
    obtain ⟨ρ, hρ⟩ := rightOf_const hcc hsim
    obtain ⟨s1, hs1, m1⟩ := ex1
    obtain ⟨s2, hs2, m2⟩ := ex2
    have f1 := (hρ s1 hs1).symm.trans (a2 s1 m1 hs1)
    have f2 := (hρ s2 hs2).symm.trans (b2 s2 m2 hs2)
    have hκ : κ2 = κ1 := by omega
    subst hκ
    refine ⟨κ2, fun s hs => (hρ s hs).trans f1, fun v v1 v2 hv => ?_⟩
    rcases hv with hv | hv
    · exact a1 v (hpt.off v1 v2) (by rw [hpt.cut1.winding]; exact hv)
    · exact b1 v (hpt.off v1 v2) (by rw [hpt.cut2.winding]; exact hv)
  have sub_p : ∀ s ∈ pairs p.vertices false, s ∈ outer p1 p2 r := fun s hs =>
    hp.mem_iff.1 (List.mem_append_left _ hs)
  have sub_c : ∀ c ∈ holes, ∀ s ∈ pairs c.vertices false, s ∈ outer p1 p2 r := fun c hc s hs =>
    hp.mem_iff.1 (List.mem_append_right _ (e3.mem_iff.1 (List.mem_flatMap.2 ⟨c, hc, hs⟩)))
  have nd_c : ∀ c ∈ holes, (pairs c.vertices false).Nodup := fun c hc =>
    (List.nodup_flatMap.1 (e3.nodup_iff.2 hnd'.of_append_right)).1 c hc
  obtain ⟨psim, κ, pr, pv⟩ := one p hcl sub_p hnd'.of_append_left
  have hpo := windsOnce hcl psim hccw
  have hκ : κ = 1 := by
    have hne := pairs_ne_nil p
    rw [hcl] at hne
    obtain ⟨s, hs⟩ := List.exists_mem_of_ne_nil _ hne
    have e := pr s hs
    rw [right_outside hcl psim hpo hs] at e
    omega
  subst hκ
  have total : ∀ v, ¬ OnSome (pairs p1.vertices false) v → ¬ OnSome (pairs p2.vertices false) v →
      windingNumber (pairs p.vertices false) v + (holes.map fun c => windingNumber (pairs c.vertices false) v).sum =
        windingNumber (pairs p1.vertices false) v + windingNumber (pairs p2.vertices false) v -
          windingNumber (pairs p1.vertices false) v * windingNumber (pairs p2.vertices false) v := by
    intro v v1 v2
    rw [← hwin v v1 v2]
    show _ = windingNumber (outer p1 p2 r) v
    rw [← windingNumber_perm hp, windingNumber_append, ← windingNumber_flatMap, windingNumber_perm e3]
  -- a point inside the first polygon
  have c1 : Confined r r1 r2 P1 p 0 := hpt.confined sub_p hnd'.of_append_left fun s hs hk =>
    hpt.side (outer_k' h) (by decide) (ω := 0) (by norm_num) hs hk
  obtain ⟨u, u1, u2⟩ := c1.inside_point (hpt.once h.once1)
  rw [hpt.cut1.winding] at u2
  have o1 := hpt.off_iff u1
  have o2 := hpt.symm.off_iff u1
  have zero : ∀ c ∈ holes, windingNumber (pairs c.vertices false) u = 0 := by
    have ht := total u o1 o2
    rw [pv u o1 o2 (Or.inl u2), u2] at ht
    have hs0 : (holes.map fun c => windingNumber (pairs c.vertices false) u).sum = 0 := by linarith
    have hnn : ∀ c ∈ holes, 0 ≤ windingNumber (pairs c.vertices false) u := by
      intro c hc'
      obtain ⟨csim, κc, cr, cv⟩ := one c (e2 c hc') (sub_c c hc') (nd_c c hc')
      rw [cv u o1 o2 (Or.inl u2)]
      have hne := pairs_ne_nil c
      rw [e2 c hc'] at hne
      obtain ⟨s, hs⟩ := List.exists_mem_of_ne_nil _ hne
      have e := cr s hs
      rcases right_value (e2 c hc') csim with ⟨-, h0⟩ | ⟨-, -, h0⟩
      · rw [h0 s hs] at e; omega
      · rw [h0 s hs] at e; omega
    intro c hc'
    obtain ⟨m1, m2, hm⟩ := List.append_of_mem hc'
    rw [hm, List.map_append, List.sum_append, List.map_cons, List.sum_cons] at hs0
    have n1 : 0 ≤ (m1.map fun c => windingNumber (pairs c.vertices false) u).sum :=
      List.sum_nonneg fun x hx => by
        obtain ⟨d, hd, rfl⟩ := List.mem_map.1 hx
        exact hnn d (hm ▸ List.mem_append_left _ hd)
    have n2 : 0 ≤ (m2.map fun c => windingNumber (pairs c.vertices false) u).sum :=
      List.sum_nonneg fun x hx => by
        obtain ⟨d, hd, rfl⟩ := List.mem_map.1 hx
        exact hnn d (hm ▸ List.mem_append_right _ (List.mem_cons_of_mem _ hd))
    have := hnn c hc'
    omega
  have hole : ∀ c ∈ holes, SimplePolygon c.vertices ∧ shoelace c.vertices < 0 ∧
      (∀ v, (∀ s ∈ pairs c.vertices false, ¬ OnSegment s.1 s.2 v) →
        windingNumber (pairs c.vertices false) v = 0 ∨ windingNumber (pairs c.vertices false) v = -1) ∧
      ∀ v, ¬ OnSome (pairs p1.vertices false) v → ¬ OnSome (pairs p2.vertices false) v →
        windingNumber (pairs p1.vertices false) v = 1 ∨ windingNumber (pairs p2.vertices false) v = 1 →
        windingNumber (pairs c.vertices false) v = 0 := by
    intro c hc'
    obtain ⟨csim, κc, cr, cv⟩ := one c (e2 c hc') (sub_c c hc') (nd_c c hc')
    have k0 : κc = 0 := (cv u o1 o2 (Or.inl u2)).symm.trans (zero c hc')
    have hne := pairs_ne_nil c
    rw [e2 c hc'] at hne
    obtain ⟨s, hs⟩ := List.exists_mem_of_ne_nil _ hne
    have e := cr s hs
    rw [k0] at e cv
    rcases right_value (e2 c hc') csim with ⟨-, h0⟩ | ⟨hv, harea, -⟩
    · rw [h0 s hs] at e; omega
    · exact ⟨csim, harea, hv, cv⟩
  refine ⟨holes, psim, e2, fun c hc' => (hole c hc').1, fun c hc' => (hole c hc').2.1, e3, fun v v1 v2 hv =>
    ⟨pv v v1 v2 hv, fun c hc' => (hole c hc').2.2.2 v v1 v2 hv⟩, total, fun c hc' v v1 v2 => ?_⟩
  refine (hole c hc').2.2.1 v fun s hs ho => hpt.off v1 v2 s (List.mem_filter.1 (sub_c c hc' s hs)).1 ho

/-- The polygon that `union` finds, when the boundaries do not meet and something is inside both polygons. -/
theorem Two.union_nested (h : Two p1 p2) (hg : GeneralPosition p1.vertices p2.vertices)
    (ha : Arranged p1.vertices p2.vertices r)
    (hno : ∀ v, OnSome (pairs p1.vertices false) v → ¬ OnSome (pairs p2.vertices false) v) {u : Vertex K}
    (u1 : ¬ OnSome (pairs p1.vertices false) u) (u2 : ¬ OnSome (pairs p2.vertices false) u)
    (w1 : windingNumber (pairs p1.vertices false) u = 1) (w2 : windingNumber (pairs p2.vertices false) u = 1)
    {p : Polyline (Vertex K)} {rest : List (Vertex K × Vertex K)}
    (hcl : p.opened = false) (hp : (pairs p.vertices false ++ rest).Perm (outer p1 p2 r)) :
    UnionRegion p1 p2 p [] rest := by
  classical
  obtain ⟨hbal, -, hwin⟩ := h.outsideOne_region ha
  have hc : Circuits (outer p1 p2 r) := ha.circuits h.simple1 h.simple2 hg _ (outer_k h) (outer_k' h) (by decide)
  have hnd : (outer p1 p2 r).Nodup := ha.nodup.filter _
  have hnd' := hp.nodup_iff.2 hnd
  have hsolid : ∀ s ∈ outer p1 p2 r, Solid s := fun s hs => ha.solid s (List.mem_filter.1 hs).1
  obtain ⟨r1, r2, P1, P2, hpt⟩ := ha.polygons h.simple1 h.simple2
  have sub_p : ∀ s ∈ pairs p.vertices false, s ∈ outer p1 p2 r := fun s hs =>
    hp.mem_iff.1 (List.mem_append_left _ hs)
  have psim := simple_of_circuits hc (ha.separate.filter _) hsolid sub_p hnd'.of_append_left
  have hne := pairs_ne_nil p
  rw [hcl] at hne
  have all : ∀ {q1 q2 Q1 Q2 : Polyline (Vertex K)} {t1 t2 : List (Vertex K × Vertex K)}
      (_ : Parts q1 q2 r t1 t2 Q1 Q2)
      (_ : ∀ v, OnSome (pairs q1.vertices false) v → ¬ OnSome (pairs q2.vertices false) v),
      (∀ s ∈ t1, s ∈ outer p1 p2 r) ∨ ∀ s ∈ t1, s ∉ outer p1 p2 r := by
    intro q1 q2 Q1 Q2 t1 t2 hq hq12
    obtain ⟨κ, hκ⟩ := const_of_balance hq.closed1 hq.simple1
      (k := fun s => if s ∈ outer p1 p2 r then (1 : ℤ) else 0) fun b => by
        rw [(hq.own1.map _).sum_eq]
        by_cases hb : ∃ s ∈ t1, OnSegment s.1 s.2 b
        · have hz : (t2.map fun s => (if s ∈ outer p1 p2 r then (1 : ℤ) else 0) * (at' b s.2 - at' b s.1)).sum = 0 := by
            apply List.sum_eq_zero
            intro x hx
            obtain ⟨s, hs, rfl⟩ := List.mem_map.1 hx
            have off : ¬ OnSegment s.1 s.2 b := fun ho =>
              hq12 b (hq.cut1.onSome.1 hb) (hq.cut2.onSome.1 ⟨s, hs, ho⟩)
            have f1 : at' b s.1 = 0 := if_neg fun e => off ((onSegment_congr ⟨rfl, rfl⟩ ⟨rfl, rfl⟩ e).1 (onSegment_left _ _))
            have f2 : at' b s.2 = 0 := if_neg fun e => off ((onSegment_congr ⟨rfl, rfl⟩ ⟨rfl, rfl⟩ e).1 (onSegment_right _ _))
            simp [f1, f2]
          have ht : (r.map fun s => (if s ∈ outer p1 p2 r then (1 : ℤ) else 0) * (at' b s.2 - at' b s.1)).sum = 0 := by
            rw [sum_indicator hnd ha.nodup (fun s hs => (List.mem_filter.1 hs).1) fun s => at' b s.2 - at' b s.1]
            exact hbal.telescopes (at' b)
          rw [(hq.perm.map _).sum_eq, List.map_append, List.sum_append, hz, add_zero] at ht
          exact ht
        · apply List.sum_eq_zero
          intro x hx
          obtain ⟨s, hs, rfl⟩ := List.mem_map.1 hx
          push Not at hb
          have off := hb s hs
          have f1 : at' b s.1 = 0 := if_neg fun e => off ((onSegment_congr ⟨rfl, rfl⟩ ⟨rfl, rfl⟩ e).1 (onSegment_left _ _))
          have f2 : at' b s.2 = 0 := if_neg fun e => off ((onSegment_congr ⟨rfl, rfl⟩ ⟨rfl, rfl⟩ e).1 (onSegment_right _ _))
          simp [f1, f2]
    by_cases hk : κ = 1
    · left
      intro s hs
      have := hκ s (hq.own1.mem_iff.2 hs)
      by_contra hn
      simp only [hn, if_false] at this
      omega
    · right
      intro s hs hn
      have := hκ s (hq.own1.mem_iff.2 hs)
      simp only [hn, if_true] at this
      omega
  have hr12 : (r1 ++ r2).Nodup := hpt.perm.nodup_iff.1 ha.nodup
  have hwu := hwin u u1 u2
  rw [w1, w2] at hwu
  replace hwu : windingNumber (outer p1 p2 r) u = 1 := hwu.trans (by norm_num)
  have whole : rest = [] := by
    have fin : (∀ s ∈ outer p1 p2 r, s ∈ pairs p.vertices false) → rest = [] := by
      intro hall
      rw [List.eq_nil_iff_forall_not_mem]
      intro s hs
      exact (List.nodup_append.1 hnd').2.2 s (hall s (hp.mem_iff.1 (List.mem_append_right _ hs))) s hs rfl
    rcases all hpt hno with k1 | k1 <;> rcases all hpt.symm (fun v a b => hno v b a) with k2 | k2
    · exfalso
      have : (outer p1 p2 r).Perm (r1 ++ r2) := by
        rw [List.perm_ext_iff_of_nodup hnd hr12]
        intro s
        rw [List.mem_append]
        exact ⟨fun hs => hpt.cases (List.mem_filter.1 hs).1, fun hs => hs.elim (k1 s) (k2 s)⟩
      rw [windingNumber_perm this, windingNumber_append, hpt.cut1.winding, hpt.cut2.winding, w1, w2] at hwu
      omega
    · have sub1 : ∀ s ∈ outer p1 p2 r, s ∈ r1 := fun s hs =>
        (hpt.cases (List.mem_filter.1 hs).1).resolve_right fun hm => k2 s hm hs
      have c1 : Confined r r1 r2 P1 p 0 := hpt.confined sub_p hnd'.of_append_left fun s hs hk =>
        hpt.side (outer_k' h) (by decide) (ω := 0) (by norm_num) hs hk
      exact fin fun s hs => c1.whole (fun s hs => sub1 s (sub_p s hs)) hne s (sub1 s hs)
    · have sub2 : ∀ s ∈ outer p1 p2 r, s ∈ r2 := fun s hs =>
        (hpt.cases (List.mem_filter.1 hs).1).resolve_left fun hm => k1 s hm hs
      have c2 : Confined r r2 r1 P2 p 0 := hpt.symm.confined sub_p hnd'.of_append_left fun s hs hk =>
        hpt.symm.side (outer_k h) (by decide) (ω := 0) (by norm_num) hs hk
      exact fin fun s hs => c2.whole (fun s hs => sub2 s (sub_p s hs)) hne s (sub2 s hs)
    · exfalso
      have : outer p1 p2 r = [] := by
        rw [List.eq_nil_iff_forall_not_mem]
        intro s hs
        rcases hpt.cases (List.mem_filter.1 hs).1 with hm | hm
        · exact k1 s hm hs
        · exact k2 s hm hs
      rw [this] at hwu
      simp [windingNumber] at hwu
  subst whole
  rw [List.append_nil] at hp
  have total : ∀ v, ¬ OnSome (pairs p1.vertices false) v → ¬ OnSome (pairs p2.vertices false) v →
      windingNumber (pairs p.vertices false) v =
        windingNumber (pairs p1.vertices false) v + windingNumber (pairs p2.vertices false) v -
          windingNumber (pairs p1.vertices false) v * windingNumber (pairs p2.vertices false) v := by
    intro v v1 v2
    rw [← hwin v v1 v2]
    exact windingNumber_perm hp v
  refine ⟨psim, by simp, by simp, by simp, by simp, fun v v1 v2 hv => ⟨?_, by simp⟩, fun v v1 v2 => ?_, by simp⟩
  · rw [total v v1 v2]
    rcases hv with hv | hv <;> rw [hv] <;> ring
  · rw [total v v1 v2]; simp

/-- The pieces that `union` keeps enclose a positive area. -/
theorem Two.outer_area (h : Two p1 p2) (ha : Arranged p1.vertices p2.vertices r) : 0 < enclosed (outer p1 p2 r) := by
  obtain ⟨hbal, -, hwin⟩ := h.outsideOne_region ha
  obtain ⟨r1, r2, P1, P2, hpt⟩ := ha.polygons h.simple1 h.simple2
  obtain ⟨u, u1, u2⟩ : ∃ v, (∀ s ∈ r, ¬ OnSegment s.1 s.2 v) ∧ windingNumber r1 v = 1 := by
    obtain ⟨v, v1, v2⟩ := hpt.simple1.encloses hpt.closed1 hpt.sep fun s hs => hpt.mem1 (hpt.own1.mem_iff.1 hs)
    refine ⟨v, v1, ?_⟩
    rw [← windingNumber_perm hpt.own1]
    exact (hpt.once h.once1 v fun s hs => v1 s (hpt.mem1 (hpt.own1.mem_iff.1 hs))).resolve_left v2
  obtain ⟨gone, hgone⟩ : ∃ g, g = r.filter fun s => !Polyline.outsideOne 0 p1 p2 (midpoint s.1 s.2) := ⟨_, rfl⟩
  obtain ⟨L, hL⟩ : ∃ L, L = outer p1 p2 r ++ (gone ++ gone.map Prod.swap) := ⟨_, rfl⟩
  have off : ∀ v, (∀ s ∈ L, ¬ OnSegment s.1 s.2 v) → ∀ s ∈ r, ¬ OnSegment s.1 s.2 v := by
    intro v hv s hs
    cases hk : Polyline.outsideOne 0 p1 p2 (midpoint s.1 s.2) with
    | true => exact hv s (hL ▸ List.mem_append_left _ (List.mem_filter.2 ⟨hs, hk⟩))
    | false =>
      refine hv s (hL ▸ List.mem_append_right _ (List.mem_append_left _ ?_))
      rw [hgone]
      exact List.mem_filter.2 ⟨hs, by simp [hk]⟩
  have wL : ∀ v, windingNumber L v = windingNumber (outer p1 p2 r) v := fun v => by
    rw [hL, windingNumber_append, back_winding, add_zero]
  have eL : enclosed L = enclosed (outer p1 p2 r) := by
    rw [hL, Polyline.enclosed_append, back_enclosed, add_zero]
  have tL : Telescopes L := fun f => by
    rw [hL, List.map_append, List.sum_append, back_telescopes, add_zero]
    exact hbal.telescopes f
  have val : ∀ v, ¬ OnSome (pairs p1.vertices false) v → ¬ OnSome (pairs p2.vertices false) v →
      windingNumber (pairs p1.vertices false) v = 1 ∧ windingNumber (outer p1 p2 r) v = 1 ∨
        0 ≤ windingNumber (outer p1 p2 r) v ∧ windingNumber (pairs p1.vertices false) v ≠ 1 := by
    intro v v1 v2
    rw [show windingNumber (outer p1 p2 r) v = _ from hwin v v1 v2]
    rcases h.once1 v (fun s hs ho => v1 ⟨s, hs, ho⟩) with e1 | e1 <;>
      rcases h.once2 v (fun s hs ho => v2 ⟨s, hs, ho⟩) with e2 | e2 <;> rw [e1, e2] <;> norm_num
  have key := enclosed_nonneg tL fun v hv => by
    rw [wL]
    have := val v (hpt.off_iff (off v hv)) (hpt.symm.off_iff (off v hv))
    omega
  rw [← eL]
  have offL : ∀ s ∈ L, ¬ OnSegment s.1 s.2 u := by
    intro s hs ho
    rw [hL, List.mem_append, List.mem_append, hgone] at hs
    rcases hs with hs | hs | hs
    · exact u1 s (List.mem_filter.1 hs).1 ho
    · exact u1 s (List.mem_filter.1 hs).1 ho
    · obtain ⟨t, ht, rfl⟩ := List.mem_map.1 hs
      exact u1 t (List.mem_filter.1 ht).1 (onSegment_symm ho)
  refine key.2 ⟨u, offL, ?_⟩
  rw [wL]
  have := val u (hpt.off_iff u1) (hpt.symm.off_iff u1)
  rw [hpt.cut1.winding] at u2
  omega

/-- Polygons that meet or overlap have overlapping bounding boxes. -/
theorem overlap_boxes {p1 p2 : Polyline (Vertex K)}
    (hov : (∃ v, OnSome (pairs p1.vertices false) v ∧ OnSome (pairs p2.vertices false) v) ∨
      ∃ v, windingNumber (pairs p1.vertices false) v ≠ 0 ∧ windingNumber (pairs p2.vertices false) v ≠ 0) :
    Polyline.boxesDisjoint p1 p2 = .ok false := by
  obtain ⟨d, hd⟩ := Polyline.boxesDisjoint_ok p1 p2
  cases d with
  | false => exact hd
  | true =>
    exfalso
    rcases hov with ⟨v, ⟨s, hs, h1⟩, t, ht, h2⟩ | ⟨v, h1, h2⟩
    · obtain ⟨⟨a1, a2⟩, a3, a4⟩ := onSegment_box h1
      obtain ⟨⟨b1, b2⟩, b3, b4⟩ := onSegment_box h2
      have s1 := (mem_pairs hs).1
      have s2 := (mem_pairs hs).2
      have t1 := (mem_pairs ht).1
      have t2 := (mem_pairs ht).2
      rcases (boxesDisjoint_iff p1 p2).1 hd with h | h | h | h
      · have := max_lt (lt_min (h _ s1 _ t1) (h _ s1 _ t2)) (lt_min (h _ s2 _ t1) (h _ s2 _ t2))
        linarith
      · have := max_lt (lt_min (h _ s1 _ t1) (h _ s2 _ t1)) (lt_min (h _ s1 _ t2) (h _ s2 _ t2))
        linarith
      · have := max_lt (lt_min (h _ s1 _ t1) (h _ s1 _ t2)) (lt_min (h _ s2 _ t1) (h _ s2 _ t2))
        linarith
      · have := max_lt (lt_min (h _ s1 _ t1) (h _ s2 _ t1)) (lt_min (h _ s1 _ t2) (h _ s2 _ t2))
        linarith
    · exact (boxes_apart hd v).elim h1 h2

/-- Unless a line separates the polygons, `union` finds a counterclockwise polygon made of outer pieces. -/
theorem Two.union_found (h : Two p1 p2) (hg : GeneralPosition p1.vertices p2.vertices)
    (hd : Polyline.boxesDisjoint p1 p2 = .ok false) :
    ∃ n r, Arranged p1.vertices p2.vertices r ∧ ∀ fuel, n ≤ fuel → ∀ σ, ∃ p unused,
      Polyline.union 0 fuel σ p1 p2 = .ok (some (p, unused)) ∧ p.opened = false ∧ 0 < shoelace p.vertices ∧
      ∃ rest, (pairs p.vertices false ++ rest).Perm (outer p1 p2 r) ∧ ∀ s ∈ rest, s ∈ unused := by
  obtain ⟨n, r, ha, -, -, hr⟩ := h.pieces
  refine ⟨n, r, ha, fun fuel hf σ => ?_⟩
  have hs := (hr fuel hf).2
  have hnk := (Polyline.sieve_nodup (keep := Polyline.keepUnion 0 p1 p2) (l := r) (u := []) List.nodup_nil).1
  have hk := (Polyline.sieve_mem (keep := Polyline.keepUnion 0 p1 p2) (l := r) (u := [])).1
  have hperm : (Polyline.sieve (Polyline.keepUnion 0 p1 p2) r []).1.Perm (outer p1 p2 r) := by
    unfold outer
    rw [List.perm_ext_iff_of_nodup hnk (ha.nodup.filter _)]
    intro s
    rw [hk, List.mem_filter]
    rfl
  have hc : Circuits (outer p1 p2 r) := ha.circuits h.simple1 h.simple2 hg _ (outer_k h) (outer_k' h) (by decide)
  have hck := hc.perm hperm.symm
  have hsolid : ∀ s ∈ outer p1 p2 r, Solid s := fun s hs => ha.solid s (List.mem_filter.1 hs).1
  rcases Polyline.union_cases (σ := σ) h.closed1 h.closed2 hd h.solid1 h.solid2 hs with
    ⟨p, unused, e, ho⟩ | ⟨e, -⟩ | ⟨-, c, c1, c2, c3, c4⟩
  · obtain ⟨gone, rest, hp, -, hu, -⟩ := ho.split
    refine ⟨p, unused, e, ho.closed, ho.ccw, gone.flatten ++ rest, ?_, fun s hs =>
      (hu s).2 (Or.inr (List.mem_append.1 hs))⟩
    rw [← List.append_assoc]; exact hp.trans hperm
  · exfalso
    rw [Polyline.union_unfold h.closed1 h.closed2 hd, hs, Res.bind_ok] at e
    refine Polyline.unionLoop_complete _ _ _ _ le_rfl hnk (fun s hs => hsolid s (hperm.mem_iff.1 hs)) hck ?_ e
    rw [Polyline.enclosed_perm hperm]
    exact h.outer_area ha
  · exfalso
    have h2 : 2 ≤ (c.map (·.1)).length := by rw [List.length_map]; omega
    have hsim : SimplePolygon (c.map (·.1)) := simple_of_circuits hc (ha.separate.filter _) hsolid
      (fun s hs => hperm.mem_iff.1 (c1.subset (c3 ▸ hs))) (by
        rw [c3]; obtain ⟨l, hl, hl'⟩ := c1; exact hl.nodup_iff.1 (hl'.nodup hnk))
    exact hsim.area_ne (p := ⟨c.map (·.1), false, h2⟩) rfl c4

/-- **`union` finds the outer boundary of what the two polygons enclose.** -/
theorem Two.union_exact (h : Two p1 p2) (hg : GeneralPosition p1.vertices p2.vertices)
    (hov : (∃ v, OnSome (pairs p1.vertices false) v ∧ OnSome (pairs p2.vertices false) v) ∨
      ∃ v, ¬ OnSome (pairs p1.vertices false) v ∧ ¬ OnSome (pairs p2.vertices false) v ∧
        windingNumber (pairs p1.vertices false) v = 1 ∧ windingNumber (pairs p2.vertices false) v = 1) :
    ∃ n, ∀ fuel, n ≤ fuel → ∀ σ, ∃ p unused, Polyline.union 0 fuel σ p1 p2 = .ok (some (p, unused)) ∧
      p.opened = false ∧ 0 < shoelace p.vertices ∧ ∃ holes rest, UnionRegion p1 p2 p holes rest ∧
        ∀ s ∈ rest, s ∈ unused := by
  obtain ⟨n, r, ha, hn⟩ := h.union_found hg (overlap_boxes (hov.imp id fun ⟨v, _, _, a, b⟩ =>
    ⟨v, by omega, by omega⟩))
  refine ⟨n, fun fuel hf σ => ?_⟩
  obtain ⟨p, unused, e, hcl, hccw, rest, hp, hu⟩ := hn fuel hf σ
  refine ⟨p, unused, e, hcl, hccw, ?_⟩
  by_cases hb : ∃ v, OnSome (pairs p1.vertices false) v ∧ OnSome (pairs p2.vertices false) v
  · obtain ⟨b, b1, b2⟩ := hb
    obtain ⟨holes, hh⟩ := h.union_meet hg ha b1 b2 hcl hccw hp
    exact ⟨holes, _, hh, hu⟩
  · obtain ⟨u, u1, u2, w1, w2⟩ := hov.resolve_left hb
    push Not at hb
    exact ⟨[], _, h.union_nested hg ha hb u1 u2 w1 w2 hcl hp, hu⟩

theorem cyc_add_mul (l : List (Vertex K)) (i z : ℤ) : cyc l (i + z * (l.length : ℤ)) = cyc l i := by
  unfold cyc; rw [Int.add_mul_emod_self_right]

/-- What holds for a side of a closed polygon and is passed on to the next side, holds for all. -/
theorem sides_all {p : Polyline (Vertex K)} (hcl : p.opened = false) {A : Vertex K × Vertex K → Prop}
    (hstep : ∀ s ∈ pairs p.vertices false, ∀ t ∈ pairs p.vertices false, s.2 = t.1 → A s → A t)
    {s : Vertex K × Vertex K} (hs : s ∈ pairs p.vertices false) (ha : A s) : ∀ t ∈ pairs p.vertices false, A t := by
  have hn : 0 < p.vertices.length := by have := p.two_le; omega
  have hm := fun i => (mem_pairs_cyc hcl hn).2 ⟨i, rfl⟩
  obtain ⟨i, rfl⟩ := (mem_pairs_cyc hcl hn).1 hs
  have up : ∀ k : ℕ, A (cyc p.vertices (i + k), cyc p.vertices (i + k + 1)) := by
    intro k
    induction k with
    | zero => simpa using ha
    | succ k ih =>
      have := hstep _ (hm (i + k)) _ (hm (i + k + 1)) rfl ih
      push_cast
      rw [← add_assoc]
      exact this
  intro t ht
  obtain ⟨j, rfl⟩ := (mem_pairs_cyc hcl hn).1 ht
  obtain ⟨k, hk⟩ : ∃ k : ℕ, ∃ z : ℤ, j = i + k + z * p.vertices.length := by
    refine ⟨((j - i) % p.vertices.length).toNat, (j - i) / p.vertices.length, ?_⟩
    rw [Int.toNat_of_nonneg (Int.emod_nonneg _ (by omega))]
    have := Int.emod_add_mul_ediv (j - i) p.vertices.length
    linarith
  obtain ⟨z, hz⟩ := hk
  have := up k
  rw [hz, cyc_add_mul, show i + k + z * (p.vertices.length : ℤ) + 1 = i + k + 1 + z * p.vertices.length by ring,
    cyc_add_mul]
  exact this

/-- If the boundaries do not meet, the polygon that `union` finds has all the pieces of one polygon and none of the
other. -/
theorem Two.union_single (h : Two p1 p2) (ha : Arranged p1.vertices p2.vertices r)
    (hno : ∀ v, OnSome (pairs p1.vertices false) v → ¬ OnSome (pairs p2.vertices false) v)
    {p : Polyline (Vertex K)} {rest : List (Vertex K × Vertex K)}
    (hcl : p.opened = false) (hp : (pairs p.vertices false ++ rest).Perm (outer p1 p2 r)) :
    (∀ v, windingNumber (pairs p.vertices false) v = windingNumber (pairs p1.vertices false) v) ∨
      ∀ v, windingNumber (pairs p.vertices false) v = windingNumber (pairs p2.vertices false) v := by
  have hnd : (outer p1 p2 r).Nodup := ha.nodup.filter _
  have hnp := (hp.nodup_iff.2 hnd).of_append_left
  obtain ⟨r1, r2, P1, P2, hpt⟩ := ha.polygons h.simple1 h.simple2
  have sub_p : ∀ s ∈ pairs p.vertices false, s ∈ outer p1 p2 r := fun s hs =>
    hp.mem_iff.1 (List.mem_append_left _ hs)
  have hne := pairs_ne_nil p
  rw [hcl] at hne
  obtain ⟨s, hs⟩ := List.exists_mem_of_ne_nil _ hne
  have hr12 : (r1 ++ r2).Nodup := hpt.perm.nodup_iff.1 ha.nodup
  rcases hpt.cases (List.mem_filter.1 (sub_p s hs)).1 with h1 | h1
  · left
    have hall := sides_all hcl (A := fun s => s ∈ r1) (fun x hx t ht e hx1 => by
      refine (hpt.cases (List.mem_filter.1 (sub_p t ht)).1).resolve_right fun ht2 => ?_
      refine hno x.2 (hpt.cut1.onSome.1 ⟨x, hx1, onSegment_right _ _⟩) (hpt.cut2.onSome.1 ⟨t, ht2, ?_⟩)
      rw [e]; exact onSegment_left _ _) hs h1
    have c1 : Confined r r1 r2 P1 p 0 := hpt.confined sub_p hnp fun s hs hk =>
      hpt.side (outer_k' h) (by decide) (ω := 0) (by norm_num) hs hk
    have hw := c1.whole hall hne
    have : (pairs p.vertices false).Perm r1 := by
      rw [List.perm_ext_iff_of_nodup hnp hr12.of_append_left]
      exact fun s => ⟨hall s, hw s⟩
    intro v
    rw [windingNumber_perm this, hpt.cut1.winding]
  · right
    have hall := sides_all hcl (A := fun s => s ∈ r2) (fun x hx t ht e hx1 => by
      refine (hpt.cases (List.mem_filter.1 (sub_p t ht)).1).resolve_left fun ht2 => ?_
      refine hno t.1 (hpt.cut1.onSome.1 ⟨t, ht2, onSegment_left _ _⟩) (hpt.cut2.onSome.1 ⟨x, hx1, ?_⟩)
      rw [← e]; exact onSegment_right _ _) hs h1
    have c2 : Confined r r2 r1 P2 p 0 := hpt.symm.confined sub_p hnp fun s hs hk =>
      hpt.symm.side (outer_k h) (by decide) (ω := 0) (by norm_num) hs hk
    have hw := c2.whole hall hne
    have : (pairs p.vertices false).Perm r2 := by
      rw [List.perm_ext_iff_of_nodup hnp hr12.of_append_right]
      exact fun s => ⟨hall s, hw s⟩
    intro v
    rw [windingNumber_perm this, hpt.cut2.winding]

end Union

end Verif
