import Verif.Props.Domains
import Verif.Props.RegionsExact
import Verif.Props.Continence
import Verif.Props.Triangulator
import Verif.Props.Arrange

/-!
# From the actions of the input to the domain that is triangulated (C33, C53)

Exact arithmetic (tolerance zero), polygons between ordinary vertices, every order of iteration of the hash sets.
-/

set_option linter.unusedSectionVars false

namespace Verif.Props

open Spec

variable {K : Type*} [Field K] [LinearOrder K] [IsStrictOrderedRing K]

/-! ## C33 -/

/-- A closed polygon between ordinary vertices, every point of which is strictly inside `b`. -/
structure Within (b x : Polyline (Vertex K)) : Prop where
  closed : x.opened = false
  ordinary : ∀ v ∈ x.vertices, v.isGhost = false
  inside : ∀ s ∈ pairs x.vertices false, ∀ q, OnSegment s.1 s.2 q → b.contains 0 q = some .inside

theorem polylineOps_union {fuel : Nat} {σ : Sched} {a c u : Polyline (Vertex K)} :
    (polylineOps (0 : K) fuel).union σ a c = .ok (some u) ↔ ∃ l, Polyline.union 0 fuel σ a c = .ok (some (u, l)) := by
  simp only [polylineOps, resBind_ok]
  constructor
  · rintro ⟨r, h1, h2⟩
    cases r with
    | none => simp at h2
    | some r =>
      obtain ⟨r1, r2⟩ := r
      simp only [Option.map_some, Res.ok.injEq, Option.some.injEq] at h2
      subst h2
      exact ⟨_, h1⟩
  · rintro ⟨l, h⟩
    exact ⟨_, h, rfl⟩

/-- Uniting polygons that are within `b` yields a polygon within `b`. -/
theorem Within.unite {b x y u : Polyline (Vertex K)} {fuel : Nat} (hx : Within b x) (hy : Within b y)
    (h : UnionIs (polylineOps (0 : K) fuel) x y u) : Within b u := by
  obtain ⟨σ, h⟩ := h
  obtain ⟨l, h⟩ := polylineOps_union.1 h
  obtain ⟨hcl, -, -, -, pieces, -, hp, -⟩ := C47_result hx.ordinary hy.ordinary h
  obtain ⟨-, -, segments, hs, ho⟩ := Polyline.union_some hx.ordinary hy.ordinary h
  obtain ⟨gone, rest, hperm, -⟩ := ho.split
  have hk := (Polyline.sieve_mem (keep := Polyline.keepUnion 0 x y) (l := segments) (u := []))
  have hm : ∀ s ∈ pairs u.vertices false, s ∈ segments := fun s hs' =>
    ((hk.1 s).1 (hperm.mem_iff.1 (by simp [hs']))).1
  have hi := splitIntersections_inv (Polyline.two_solid hx.ordinary hy.ordinary) hs
  refine ⟨hcl, fun v hv => ?_, fun s hs' q hq => ?_⟩
  · rw [← pairs_fst u.vertices] at hv
    obtain ⟨s, hs', rfl⟩ := List.mem_map.1 hv
    exact (hi.solid s (by simpa using hm s hs')).1
  · obtain ⟨t, ht, hto⟩ := (hi.cover q).1 ⟨s, by simpa using hm s hs', hq⟩
    rcases List.mem_append.1 ht with ht | ht
    · exact hx.inside t ht q hto
    · exact hy.inside t ht q hto

theorem strictly_true {fuel : Nat} {b x : Polyline (Vertex K)} :
    (polylineOps (0 : K) fuel).strictlyInside b x = .ok true ↔
      Polyline.continence 0 fuel b x = .ok (some (.inside, .opened)) := by
  simp only [polylineOps, resBind_ok]
  constructor
  · rintro ⟨c, h1, h2⟩
    simp only [Res.ok.injEq, decide_eq_true_eq] at h2
    rw [h1, h2]
  · intro h
    exact ⟨_, h, by simp⟩

theorem Within.strictly {b x : Polyline (Vertex K)} (hb : ∀ v ∈ b.vertices, v.isGhost = false) (hc : b.opened = false)
    (hx : Within b x) : ∃ n, ∀ fuel, n ≤ fuel → Polyline.continence 0 fuel b x = .ok (some (.inside, .opened)) :=
  C42_complete hb hx.ordinary hc (by simp) (by rw [hx.closed]; exact hx.inside)

theorem Within.not_false {b x : Polyline (Vertex K)} (hb : ∀ v ∈ b.vertices, v.isGhost = false) (hc : b.opened = false)
    (hx : Within b x) (fuel : Nat) : (polylineOps (0 : K) fuel).strictlyInside b x ≠ .ok false := by
  intro h
  obtain ⟨n, hn⟩ := hx.strictly hb hc
  simp only [polylineOps, resBind_ok] at h
  obtain ⟨c, h1, h2⟩ := h
  have e1 := continence_mono h1 (le_max_left fuel n)
  rw [hn _ (le_max_right fuel n)] at e1
  simp only [Res.ok.injEq] at e1
  subst e1
  simp at h2

/-- C33, part that holds: every removed polygon that is strictly within the boundary is represented among the holes, by
itself or by a polygon obtained from it by uniting; every hole is strictly within the boundary and comes, in this way, from
a removed polygon. The other removals must have a vertex that is not inside the boundary. Missing: that the merged polygons are
absent and that uniting loses nothing; both are false (`C33_merged_kept`, `C33_lost_false`). -/
theorem C33_holes_partial {b : Polyline (Vertex K)} (hb : ∀ v ∈ b.vertices, v.isGhost = false) (hc : b.opened = false)
    {fuel n : Nat} {σ : Sched} {removes res : List (Polyline (Vertex K))}
    (hr : ∀ r ∈ removes, Within b r ∨ r.opened = false ∧ ∃ v ∈ r.vertices, b.contains 0 v ≠ some .inside)
    (h : evalHoles (polylineOps 0 fuel) n σ b removes = .ok res) :
    (∀ r ∈ removes, Within b r → ∃ x ∈ res, Relation.ReflTransGen (Unites (polylineOps 0 fuel)) r x) ∧
    (∀ x ∈ res, Within b x ∧ ∃ r ∈ removes, Within b r ∧ Relation.ReflTransGen (Unites (polylineOps 0 fuel)) r x) := by
  refine holes_track _ b (Within b) n σ removes res (fun x hx => hx.not_false hb hc fuel)
    (fun x y u hx hy hu => hx.unite hy hu) (fun x hx hn ht => ?_) h
  rcases hr x hx with hw | ⟨ho, v, hv, hvb⟩
  · exact hn hw
  · have := (C42_strict_partial (strictly_true.1 ht)).2
    rw [ho] at this
    rw [← pairs_fst x.vertices] at hv
    obtain ⟨s, hs, rfl⟩ := List.mem_map.1 hv
    exact hvb (this s hs).1

/-- The rectangle with lower left corner (x, y), width w and height h. -/
def box (x y w h : ℚ) : Polyline (Vertex ℚ) :=
  ⟨[⟨x, y, false⟩, ⟨x + w, y, false⟩, ⟨x + w, y + h, false⟩, ⟨x, y + h, false⟩], false, by simp⟩

/-- Two triangles that have nothing in common, although no horizontal or vertical line separates them. -/
def lowerTriangle : Polyline (Vertex ℚ) := ⟨[⟨1, 1, false⟩, ⟨4, 1, false⟩, ⟨1, 4, false⟩], false, by simp⟩

@[inherit_doc lowerTriangle]
def upperTriangle : Polyline (Vertex ℚ) := ⟨[⟨4, 2, false⟩, ⟨4, 4, false⟩, ⟨2, 4, false⟩], false, by simp⟩

/-- The input is refused. -/
def refused {α : Type*} : Res (Parsed α) → Bool
  | .ok .err => true
  | _ => false

theorem refused_iff {α : Type*} {r : Res (Parsed α)} : refused r = true ↔ r = .ok .err := by
  rcases r with (_ | _) | _ | _ <;> simp [refused]

/-- C33 fails: of two overlapping removals, one is kept as a hole beside their union, which contains it; the input is then
refused because these two holes overlap. -/
theorem C33_merged_kept : ∃ (b r1 r2 u : Polyline (Vertex ℚ)), UnionIs (polylineOps 0 100) r2 r1 u ∧
    evalHoles (polylineOps 0 100) 10 Sched.first b [r1, r2] = .ok [u, r1] ∧
    buildTriangulator 0 100 Sched.first ⟨[b], [r1, r2], [], []⟩ = .ok .err :=
  ⟨box 0 0 10 10, box 2 2 3 3, box 4 4 3 3,
    ⟨[⟨2, 5, false⟩, ⟨2, 2, false⟩, ⟨5, 2, false⟩, ⟨5, 4, false⟩, ⟨7, 4, false⟩, ⟨7, 7, false⟩, ⟨4, 7, false⟩,
      ⟨4, 5, false⟩], false, by simp⟩, ⟨Sched.first, by decide +kernel⟩, by decide +kernel,
    refused_iff.1 (by decide +kernel)⟩

/-- C33 fails: of two removals that do not even touch one another (an oblique line separates them), one gets lost; in its
place there is a second copy of the other one, and the input is refused. -/
theorem C33_lost_false : ∃ (b r1 r2 r3 : Polyline (Vertex ℚ)),
    (∀ v ∈ r1.vertices, ∀ w ∈ r2.vertices, v.x + v.y < w.x + w.y) ∧
    r3.vertices.IsRotated r1.vertices ∧
    evalHoles (polylineOps 0 100) 10 Sched.first b [r1, r2] = .ok [r3, r1] ∧
    buildTriangulator 0 100 Sched.first ⟨[b], [r1, r2], [], []⟩ = .ok .err :=
  ⟨box 0 0 10 10, lowerTriangle, upperTriangle, ⟨[⟨1, 4, false⟩, ⟨1, 1, false⟩, ⟨4, 1, false⟩], false, by simp⟩,
    by decide +kernel, ⟨1, by decide +kernel⟩, by decide +kernel, refused_iff.1 (by decide +kernel)⟩

/-- All points of the sides of `x` are inside `b` if its vertices are and no side of `x` touches a side of `b`. -/
theorem within_of_check {b x : Polyline (Vertex K)} (hb : b.opened = false) (hx : x.opened = false)
    (ho : ∀ v ∈ x.vertices, v.isGhost = false) (hv : ∀ v ∈ x.vertices, b.contains 0 v = some .inside)
    (hs : ∀ s ∈ pairs b.vertices false, ∀ t ∈ pairs x.vertices false, apartCheck s t = true) : Within b x := by
  refine ⟨hx, ho, fun t ht q hq => ?_⟩
  rw [← (C45_locally_constant hb (v := t.1) (w := q) fun s hs' y hy hy' =>
    apart_of_check (hs s hs' t ht) hy (onSegment_trans (onSegment_left _ _) hq hy')).1]
  exact hv _ (mem_pairs ht).1

/-- The hypotheses of `C33_holes_partial` are met by a square with one removal within it and one across its side. -/
example : (∀ v ∈ (box 0 0 10 10).vertices, v.isGhost = false) ∧ (box 0 0 10 10).opened = false ∧
    Within (box 0 0 10 10) (box 2 2 3 3) ∧
    ((box 8 8 3 3).opened = false ∧ ∃ v ∈ (box 8 8 3 3).vertices, (box 0 0 10 10).contains 0 v ≠ some .inside) ∧
    evalHoles (polylineOps 0 100) 10 Sched.first (box 0 0 10 10) [box 2 2 3 3, box 8 8 3 3] = .ok [box 2 2 3 3] :=
  ⟨by decide +kernel, rfl, within_of_check rfl rfl (by decide +kernel) (by decide +kernel) (by decide +kernel),
    ⟨rfl, by decide +kernel⟩, by decide +kernel⟩

/-! ## C43, examples -/

/-- Two overlapping squares without a corner, and a removal that is not used (`C43_ok`). -/
example : (match evalBoundary (polylineOps 0 200) Sched.first [box 0 0 10 10, box 8 8 3 3]
      [box (-1) (-1) 2 2, box 4 4 1 1] with
    | .ok (.ok (b, unused)) => some (b.vertices.map fun v => (v.x, v.y), unused)
    | _ => none) = some ([(0, 1), (1, 1), (1, 0), (10, 0), (10, 8), (11, 8), (11, 11), (8, 11), (8, 10), (0, 10)],
      [box 4 4 1 1]) := by
  decide +kernel

/-- Two squares apart from one another, and a square cut in two (`C43_err`). -/
example : evalBoundary (polylineOps 0 200) Sched.first [box 0 0 10 10, box 20 0 1 1] [] = .ok .err ∧
    evalBoundary (polylineOps 0 200) Sched.first [box 0 0 10 10] [box 4 (-1) 2 12] = .ok .err :=
  ⟨refused_iff.1 (by decide +kernel), refused_iff.1 (by decide +kernel)⟩

/-! ## C53 -/

/-- The domain of a triangulator: the points strictly inside its boundary and strictly outside its holes. -/
def InDomain (T : Triangulator K) (v : Vertex K) : Prop :=
  T.boundary.contains 0 v = some .inside ∧ ∀ p ∈ T.holes, p.contains 0 v = some .outside

/-- The end of `buildTriangulator` when there are no segments. -/
theorem finish_build {fuel : Nat} {σ : Sched} {b : Polyline (Vertex K)} {removes unused holes hs : List (Polyline (Vertex K))}
    {includes : List (Polyline (Vertex K))} {vs : List (Vertex K)} (hg : ∀ v ∈ vs, v.isGhost = false)
    (h1 : evalBoundary (polylineOps 0 fuel) (σ.sub 0) includes removes = .ok (.ok (b, unused)))
    (h2 : evalHoles (polylineOps 0 fuel) fuel (σ.sub 1) b unused = .ok holes)
    (h3 : insertHoles 0 fuel (shuffle (σ.sub 2) holes) (Triangulator.new b) =
      .ok (.ok { Triangulator.new b with holes := hs })) :
    (∃ T, buildTriangulator 0 fuel σ ⟨includes, removes, [], vs⟩ = .ok (.ok T) ∧ T.boundary = b ∧ T.holes = hs ∧
      T.segments = [] ∧ (∀ v, v ∈ T.vertices ↔ v ∈ vs) ∧ ∀ v ∈ vs, InDomain T v) ∨
    (buildTriangulator 0 fuel σ ⟨includes, removes, [], vs⟩ = .ok .err ∧
      ∃ v ∈ vs, ¬ (b.contains 0 v = some .inside ∧ ∀ p ∈ hs, p.contains 0 v = some .outside)) := by
  have e0 : buildTriangulator 0 fuel σ ⟨includes, removes, [], vs⟩ =
      match ({ Triangulator.new b with holes := hs } : Triangulator K).insertVertices 0 (σ.sub 4) vs with
      | .err _ _ => .ok .err
      | .ok T3 => .ok (.ok T3) := by
    simp only [buildTriangulator, h1, Res.bind, h2, h3, Triangulator.insertSegments, if_true]
    rfl
  cases h4 : ({ Triangulator.new b with holes := hs } : Triangulator K).insertVertices 0 (σ.sub 4) vs with
  | err t bad =>
    right
    refine ⟨by rw [e0, h4], ?_⟩
    by_contra hn
    push Not at hn
    obtain ⟨T', hT⟩ := (C22_ok_iff 0 (σ.sub 4) ({ Triangulator.new b with holes := hs } : Triangulator K) vs).2 hn
    rw [hT] at h4
    simp at h4
  | ok T' =>
    left
    have hin := (C22_ok_iff 0 (σ.sub 4) ({ Triangulator.new b with holes := hs } : Triangulator K) vs).1 ⟨T', h4⟩
    obtain ⟨k1, k2, -, k3, -, k4, k5⟩ := C22_ok le_rfl hg h4
    have hseg : T'.segments = [] := by
      have hv : ∀ s ∈ T'.segments, False := by
        have := Triangulator.insertVerticesLoop_induct (eps := (0 : K)) (fun X => X.segments = []) (vs := vs)
          (fun v _ X hX _ => hX) (fun v _ X s hs hX _ _ _ => by rw [hX] at hs; simp at hs)
          (σ := (σ.sub 4).sub 1) (l := shuffle ((σ.sub 4).sub 0) vs) (fun v hv => mem_shuffle.1 hv)
          (T := { Triangulator.new b with holes := hs }) rfl
        unfold Triangulator.insertVertices at h4
        simp only [] at h4
        split_ifs at h4 with hb
        injection h4 with h4
        rw [h4] at this
        simp [this]
      exact List.eq_nil_iff_forall_not_mem.2 hv
    refine ⟨T', by rw [e0, h4], k1, k2, hseg, fun v => ⟨fun hv => ?_, fun hv => ?_⟩, fun v hv => ?_⟩
    · rcases k4 v hv with h | h
      · simp [Triangulator.new] at h
      · exact h
    · rcases k3 v hv with h | ⟨s, hs, -⟩
      · exact h
      · rw [hseg] at hs; simp at hs
    · unfold InDomain
      rw [k1, k2]
      exact hin v hv

theorem evalBoundary_one {P : Type*} [DecidableEq P] (O : DomainOps P) (σ : Sched) (b : P) (removes : List P) :
    evalBoundary O σ [b] removes = subtractAll O (σ.sub 2) removes b [] := by
  have e : toSet [b] = [b] := by simp [toSet, setInsert]
  have e2 : choose (σ.sub 0) [b] = some b := by simp [choose, Nat.mod_one]
  have e3 : setErase b [b] = [] := by simp [setErase]
  unfold evalBoundary
  simp only [e, e2, e3, List.length_nil, absorbPasses, Res.bind, ne_eq, not_true_eq_false, if_false]

theorem subtraction_one {fuel : Nat} {σ : Sched} {b r : Polyline (Vertex K)} {polys : List (Polyline (Vertex K))}
    {out : List (Vertex K × Vertex K)} (h : Polyline.subtraction 0 fuel ((σ.sub 2).sub 0) b r = .ok (polys, out)) :
    (polys = [] → evalBoundary (polylineOps 0 fuel) σ [b] [r] = .ok (.ok (b, [r]))) ∧
    (∀ s, polys = [s] → evalBoundary (polylineOps 0 fuel) σ [b] [r] = .ok (.ok (s, []))) ∧
    (2 ≤ polys.length → evalBoundary (polylineOps 0 fuel) σ [b] [r] = .ok .err) := by
  rw [evalBoundary_one]
  simp only [subtractAll, polylineOps, h, Res.bind]
  match polys with
  | [] => simp
  | [s] => simp
  | _ :: _ :: _ => simp

/-- C53 (part): one included polygon and one removed polygon. The removed polygon is strictly within the included one, or it
reaches outside it without being separated from it by a horizontal or vertical line; no vertex of one is on the other; and
something is left. Then the domain is exactly the included polygon without the removed one, up to points on the two
polygons, and the vertices are the given ones; the input is refused only if a given vertex is not in the difference or the
difference falls into several polygons. Missing: several polygons, and the cases of the counterexamples below. -/
theorem C53_removal_partial {b r : Polyline (Vertex K)} (h : Generic b r)
    (hr : Within b r ∨ ¬ LineBetween b.vertices r.vertices ∧
      ∃ s ∈ pairs r.vertices false, ∃ x, OnSegment s.1 s.2 x ∧ b.contains 0 x = some .outside)
    (hleft : ∃ v, b.contains 0 v = some .inside ∧ r.contains 0 v = some .outside) :
    ∃ n, ∀ fuel, n ≤ fuel → ∀ σ vs, (∀ v ∈ vs, v.isGhost = false) →
      (∃ T, buildTriangulator 0 fuel σ ⟨[b], [r], [], vs⟩ = .ok (.ok T) ∧
        T.segments = [] ∧ (∀ v, v ∈ T.vertices ↔ v ∈ vs) ∧ (∀ v ∈ vs, InDomain T v) ∧
        ∀ v, b.contains 0 v ≠ some .boundary → r.contains 0 v ≠ some .boundary →
          (InDomain T v ↔ b.contains 0 v = some .inside ∧ r.contains 0 v = some .outside)) ∨
      (buildTriangulator 0 fuel σ ⟨[b], [r], [], vs⟩ = .ok .err ∧
        ((∃ v ∈ vs, ¬ (b.contains 0 v = some .inside ∧ r.contains 0 v = some .outside)) ∨
          ∃ polys, 2 ≤ polys.length ∧
            Tiles b r polys fun v => b.contains 0 v = some .inside ∧ r.contains 0 v = some .outside)) := by
  rcases hr with hr | ⟨hl, hr⟩
  · obtain ⟨n, pieces, -, hn⟩ := C49_nothing h.overlay (Or.inr hr.inside)
    obtain ⟨m, hm⟩ := hr.strictly h.ordinary1 h.closed1
    refine ⟨max (max n m) 1, fun fuel hf σ vs hg => ?_⟩
    have hfn : n ≤ fuel := (le_max_left _ _).trans ((le_max_left _ _).trans hf)
    have hfm : m ≤ fuel := (le_max_right _ _).trans ((le_max_left _ _).trans hf)
    have hf1 : 1 ≤ fuel := (le_max_right _ _).trans hf
    obtain ⟨out, ho, -⟩ := hn fuel hfn (((σ.sub 0).sub 2).sub 0)
    have h1 := (subtraction_one ho).1 rfl
    obtain ⟨k, rfl⟩ : ∃ k, fuel = k + 1 := ⟨fuel - 1, by omega⟩
    have h2 : evalHoles (polylineOps 0 (k + 1)) (k + 1) (σ.sub 1) b [r] = .ok [r] := by
      have e : (polylineOps 0 (k + 1)).strictlyInside b r = .ok true := strictly_true.2 (hm _ hfm)
      simp only [evalHoles, List.reverse_cons, List.reverse_nil, List.nil_append, holesLoop, e, Res.bind,
        Bool.not_true, Bool.false_eq_true, if_false]
      simp [shuffle, shuffleAux, uniteHole, setInsert]
    have h3 : insertHoles 0 (k + 1) (shuffle (σ.sub 2) [r]) (Triangulator.new b) =
        .ok (.ok { Triangulator.new b with holes := [r] }) := by
      have e : shuffle (σ.sub 2) [r] = [r] := by simp [shuffle, shuffleAux, Nat.mod_one]
      have e2 := hm _ hfm
      simp [e, insertHoles, Triangulator.insertHole, Triangulator.holeConflicts, Triangulator.new, e2, Res.bind,
        filterRes, toSet, setInsert]
    rcases finish_build hg h1 h2 h3 with ⟨T, t1, t2, t3, t4, t5, t6⟩ | ⟨t1, t2⟩
    · refine Or.inl ⟨T, t1, t4, t5, t6, fun v _ _ => ?_⟩
      unfold InDomain
      rw [t2, t3]
      simp
    · exact Or.inr ⟨t1, Or.inl (by simpa using t2)⟩
  · obtain ⟨n, hn⟩ := C49_exact_partial h hl hr
    refine ⟨n, fun fuel hf σ vs hg => ?_⟩
    obtain ⟨polys, out, ho, ht⟩ := hn fuel hf (((σ.sub 0).sub 2).sub 0)
    have h1 := subtraction_one ho
    match polys, ht, h1 with
    | [], ht, _ =>
      obtain ⟨v, v1, v2⟩ := hleft
      have := (ht.2 v (by simp [v1]) (by simp [v2])).2.1 ⟨v1, v2⟩
      simp at this
    | [s], ht, h1 =>
      replace h1 := h1.2.1 s rfl
      have h2 : evalHoles (polylineOps 0 fuel) fuel (σ.sub 1) s [] = .ok [] := by
        simp only [evalHoles, List.reverse_nil]
        cases fuel <;> rfl
      have h3 : insertHoles 0 fuel (shuffle (σ.sub 2) []) (Triangulator.new s) =
          .ok (.ok { Triangulator.new s with holes := [] }) := by
        simp [shuffle, shuffleAux, insertHoles, Triangulator.new]
      have key : ∀ v, b.contains 0 v ≠ some .boundary → r.contains 0 v ≠ some .boundary →
          (s.contains 0 v = some .inside ↔ b.contains 0 v = some .inside ∧ r.contains 0 v = some .outside) := by
        intro v v1 v2
        obtain ⟨-, k1, k2⟩ := ht.2 v v1 v2
        constructor
        · intro hs
          by_contra hn
          have := k2 hn
          simp [hs] at this
        · intro hs
          have := k1 hs
          by_contra hn
          simp [hn] at this
      rcases finish_build hg h1 h2 h3 with ⟨T, t1, t2, t3, t4, t5, t6⟩ | ⟨t1, v, hv, t2⟩
      · refine Or.inl ⟨T, t1, t4, t5, t6, fun v v1 v2 => ?_⟩
        unfold InDomain
        rw [t2, t3, ← key v v1 v2]
        simp
      · refine Or.inr ⟨t1, Or.inl ⟨v, hv, fun hc => t2 ⟨(key v (by simp [hc.1]) (by simp [hc.2])).2 hc, by simp⟩⟩⟩
    | p :: q :: l, ht, h1 =>
      replace h1 := h1.2.2 (by simp)
      exact Or.inr ⟨by simp only [buildTriangulator, h1, Res.bind], Or.inr ⟨_, by simp, ht⟩⟩

/-- The hypotheses are met by a square and one that overlaps its corner, and by a square and one within it. -/
example : Generic (box 0 0 10 10) (box 8 8 3 3) ∧ ¬ LineBetween (box 0 0 10 10).vertices (box 8 8 3 3).vertices ∧
    (∃ s ∈ pairs (box 8 8 3 3).vertices false, ∃ x, OnSegment s.1 s.2 x ∧
      (box 0 0 10 10).contains 0 x = some .outside) ∧
    (∃ v, (box 0 0 10 10).contains 0 v = some .inside ∧ (box 8 8 3 3).contains 0 v = some .outside) :=
  ⟨⟨rfl, rfl, by decide +kernel, by decide +kernel, simple_of_check (by decide +kernel),
    simple_of_check (by decide +kernel), by decide +kernel, by decide +kernel,
    general_of_check rfl rfl (by decide +kernel) (by decide +kernel)⟩, by unfold LineBetween; decide +kernel,
    ⟨(⟨11, 11, false⟩, ⟨8, 11, false⟩), by decide +kernel, ⟨11, 11, false⟩, onSegment_left _ _, by decide +kernel⟩,
    ⟨1, 1, false⟩, by decide +kernel⟩

example : Generic (box 0 0 10 10) (box 2 2 3 3) ∧ Within (box 0 0 10 10) (box 2 2 3 3) ∧
    (∃ v, (box 0 0 10 10).contains 0 v = some .inside ∧ (box 2 2 3 3).contains 0 v = some .outside) :=
  ⟨⟨rfl, rfl, by decide +kernel, by decide +kernel, simple_of_check (by decide +kernel),
    simple_of_check (by decide +kernel), by decide +kernel, by decide +kernel,
    general_of_check rfl rfl (by decide +kernel) (by decide +kernel)⟩,
    within_of_check rfl rfl (by decide +kernel) (by decide +kernel) (by decide +kernel),
    ⟨1, 1, false⟩, by decide +kernel⟩

/-- C53 (part): one included polygon and no removals: the domain is exactly the included polygon, and the input is refused
exactly if a given vertex is not strictly inside it. -/
theorem C53_plain_partial {fuel : Nat} {σ : Sched} {b : Polyline (Vertex K)} {vs : List (Vertex K)}
    (hg : ∀ v ∈ vs, v.isGhost = false) :
    (∃ T, buildTriangulator 0 fuel σ ⟨[b], [], [], vs⟩ = .ok (.ok T) ∧ T.segments = [] ∧
      (∀ v, v ∈ T.vertices ↔ v ∈ vs) ∧ (∀ v ∈ vs, InDomain T v) ∧
      ∀ v, InDomain T v ↔ b.contains 0 v = some .inside) ∨
    (buildTriangulator 0 fuel σ ⟨[b], [], [], vs⟩ = .ok .err ∧ ∃ v ∈ vs, b.contains 0 v ≠ some .inside) := by
  have h1 : evalBoundary (polylineOps 0 fuel) (σ.sub 0) [b] [] = .ok (.ok (b, [])) := by
    rw [evalBoundary_one]; rfl
  have h2 : evalHoles (polylineOps 0 fuel) fuel (σ.sub 1) b [] = .ok [] := by
    simp only [evalHoles, List.reverse_nil]
    cases fuel <;> rfl
  have h3 : insertHoles 0 fuel (shuffle (σ.sub 2) []) (Triangulator.new b) =
      .ok (.ok { Triangulator.new b with holes := [] }) := by
    simp [shuffle, shuffleAux, insertHoles, Triangulator.new]
  rcases finish_build hg h1 h2 h3 with ⟨T, t1, t2, t3, t4, t5, t6⟩ | ⟨t1, t2⟩
  · refine Or.inl ⟨T, t1, t4, t5, t6, fun v => ?_⟩
    unfold InDomain
    rw [t2, t3]
    simp
  · exact Or.inr ⟨t1, by simpa using t2⟩

theorem insertHoles_ok {eps : K} {fuel : Nat} : ∀ {l : List (Polyline (Vertex K))} {T T' : Triangulator K},
    insertHoles eps fuel l T = .ok (.ok T') →
    T'.boundary = T.boundary ∧ T'.mesh = T.mesh ∧ T'.vertices = T.vertices ∧ T'.segments = T.segments ∧
      (∀ p, p ∈ T'.holes ↔ p ∈ l ∨ p ∈ T.holes) ∧
      (∀ p ∈ l, Polyline.continence eps fuel T.boundary p = .ok (some (.inside, .opened))) ∧
      (∀ p ∈ T.holes, ∀ q ∈ l, Polyline.continence eps fuel p q = .ok (some (.outside, .opened))) ∧
      l.Pairwise fun p q => Polyline.continence eps fuel p q = .ok (some (.outside, .opened))
  | [], T, T', h => by
    simp only [insertHoles, Res.ok.injEq, Parsed.ok.injEq] at h
    subst h
    simp
  | p :: l, T, T', h => by
    rw [insertHoles, resBind_ok] at h
    obtain ⟨r, hr, h⟩ := h
    cases r with
    | err _ _ => simp at h
    | ok T1 =>
      obtain ⟨a1, a2, a3, a4, a5, a6, a7, -⟩ := C24_ok hr
      obtain ⟨b1, b2, b3, b4, b5, b6, b7, b8⟩ := insertHoles_ok (l := l) h
      refine ⟨b1.trans a1, b2.trans a2, b3.trans a3, b4.trans a4, fun q => ?_, fun q hq => ?_, fun q hq q' hq' => ?_, ?_⟩
      · rw [b5, a5, List.mem_cons]; tauto
      · rcases List.mem_cons.1 hq with rfl | hq
        · exact a6
        · rw [← a1]; exact b6 q hq
      · rcases List.mem_cons.1 hq' with rfl | hq'
        · exact a7 q hq
        · exact b7 q ((a5 q).2 (Or.inr hq)) q' hq'
      · exact List.pairwise_cons.2 ⟨fun q hq => b7 p ((a5 p).2 (Or.inl rfl)) q hq, b8⟩

/-- C53 (part): whatever the input, and whatever the tolerance and the order of iteration: when it is accepted, the holes are
those found for the boundary, each is reported strictly inside the boundary, and of two of them one is reported strictly
outside the other; every given segment is reported strictly inside the boundary and outside the holes, every given vertex is
in the domain, and there is no mesh yet. -/
theorem C53_accepted {eps : K} (he : 0 ≤ eps) {fuel : Nat} {σ : Sched} {d : Domains K} {T : Triangulator K}
    (hg : ∀ v ∈ d.vertices, v.isGhost = false) (h : buildTriangulator eps fuel σ d = .ok (.ok T)) :
    (∃ unused holes, evalBoundary (polylineOps eps fuel) (σ.sub 0) d.includes d.removes = .ok (.ok (T.boundary, unused)) ∧
      evalHoles (polylineOps eps fuel) fuel (σ.sub 1) T.boundary unused = .ok holes ∧ ∀ p, p ∈ T.holes ↔ p ∈ holes) ∧
    (∀ p ∈ T.holes, Polyline.continence eps fuel T.boundary p = .ok (some (.inside, .opened))) ∧
    (∀ p ∈ T.holes, ∀ q ∈ T.holes, p ≠ q → Polyline.continence eps fuel p q = .ok (some (.outside, .opened)) ∨
      Polyline.continence eps fuel q p = .ok (some (.outside, .opened))) ∧
    (∀ s ∈ d.segments, Polyline.continence eps fuel T.boundary ⟨[s.v1, s.v2], true, by simp⟩ =
        .ok (some (.inside, .opened)) ∧
      ∀ p ∈ T.holes, Polyline.continence eps fuel p ⟨[s.v1, s.v2], true, by simp⟩ = .ok (some (.outside, .opened))) ∧
    (∀ v ∈ d.vertices, T.boundary.contains eps v = some .inside ∧
      ∀ p ∈ T.holes, p.contains eps v = some .outside) ∧
    (∀ v ∈ d.vertices, v ∈ T.vertices ∨ ∃ s ∈ T.segments, Vertex.eqv eps s.v1 v = true ∨ Vertex.eqv eps s.v2 v = true) ∧
    (∀ v ∈ T.vertices, v ∈ d.vertices) ∧ T.mesh = Mesh.empty := by
  unfold buildTriangulator at h
  simp only [resBind_ok] at h
  obtain ⟨r, hr, h⟩ := h
  match r, hr, h with
  | .err, _, h => simp at h
  | .ok (b, unused), hr, h =>
    simp only [resBind_ok] at h
    obtain ⟨holes, hh, r, hr', h⟩ := h
    match r, hr', h with
    | .err, _, h => simp at h
    | .ok T1, h1, h =>
      simp only [resBind_ok] at h
      obtain ⟨r, hr', h⟩ := h
      match r, hr', h with
      | .err _ _, _, h => simp at h
      | .ok T2, h2, h =>
        simp only [] at h
        split at h
        · simp at h
        · rename_i T3 h3
          simp only [Res.ok.injEq, Parsed.ok.injEq] at h
          subst h
          obtain ⟨a1, a2, a3, a4, a5, a6, a7, a8⟩ := insertHoles_ok h1
          obtain ⟨b1, b2, b3, b4, b5⟩ := C23_ok h2
          have hin := (C22_ok_iff eps (σ.sub 4) T2 d.vertices).1 ⟨T3, h3⟩
          obtain ⟨c1, c2, c3, c4, c5, c6, c7⟩ := C22_ok he hg h3
          have eb : T3.boundary = b := c1.trans (b1.trans a1)
          have eh : T3.holes = T1.holes := c2.trans b2
          have hm : ∀ p, p ∈ T1.holes ↔ p ∈ shuffle (σ.sub 2) holes := fun p => by
            rw [a5]; simp [Triangulator.new]
          refine ⟨⟨unused, holes, by rw [eb]; exact hr, by rw [eb]; exact hh, fun p => by
            rw [eh, hm, mem_shuffle]⟩, fun p hp => ?_, fun p hp q hq hpq => ?_, fun s hs => ?_, fun v hv => ?_, c4,
            fun v hv => ?_, ?_⟩
          · rw [eb]
            exact a6 p ((hm p).1 (eh ▸ hp))
          · rw [eh, hm] at hp hq
            obtain ⟨i, hi, rfl⟩ := List.getElem_of_mem hp
            obtain ⟨j, hj, rfl⟩ := List.getElem_of_mem hq
            have hP := List.pairwise_iff_getElem.1 a8
            rcases lt_trichotomy i j with hij | hij | hij
            · exact Or.inl (hP i j hi hj hij)
            · subst hij; exact absurd rfl hpq
            · exact Or.inr (hP j i hj hi hij)
          · obtain ⟨k1, k2⟩ := b5 s hs
            rw [eb, eh]
            rw [a1] at k1
            exact ⟨k1, k2⟩
          · rw [c1, c2]
            exact hin v hv
          · rcases c6 v hv with h | h
            · have := b4 v h
              rw [a3] at this
              simp [Triangulator.new] at this
            · exact h
          · rw [c3, b3, a2]; rfl

theorem Generic.symm {p1 p2 : Polyline (Vertex K)} (h : Generic p1 p2) : Generic p2 p1 :=
  ⟨h.closed2, h.closed1, h.ordinary2, h.ordinary1, h.simple2, h.simple1, h.ccw2, h.ccw1, ⟨h.general.2, h.general.1⟩⟩

theorem evalBoundary_two {P : Type*} [DecidableEq P] (O : DomainOps P) (σ : Sched) (a b : P) (hab : a ≠ b) :
    ∃ first second σ', (first = a ∧ second = b ∨ first = b ∧ second = a) ∧
      ∀ u, O.union σ' first second = .ok (some u) → evalBoundary O σ [a, b] [] = .ok (.ok (u, [])) := by
  have e : toSet [a, b] = [b, a] := by simp [toSet, setInsert, hab.symm]
  have one : ∀ (τ : Sched) (x : P), shuffle τ [x] = [x] := fun τ x => by simp [shuffle, shuffleAux, Nat.mod_one]
  rcases Nat.mod_two_eq_zero_or_one (σ.sub 0).here with h0 | h0
  · refine ⟨b, a, (((σ.sub 1).sub 2).sub 0), Or.inr ⟨rfl, rfl⟩, fun u hu => ?_⟩
    have e2 : choose (σ.sub 0) [b, a] = some b := by simp [choose, h0]
    have e3 : setErase b [b, a] = [a] := by simp [setErase, hab]
    have e4 : setErase a [a] = ([] : List P) := by simp [setErase]
    unfold evalBoundary
    simp only [e, e2, e3, List.length_singleton, absorbPasses, one, absorbOne, hu, Res.bind, e4, ne_eq,
      not_true_eq_false, if_false, subtractAll]
  · refine ⟨a, b, (((σ.sub 1).sub 2).sub 0), Or.inl ⟨rfl, rfl⟩, fun u hu => ?_⟩
    have e2 : choose (σ.sub 0) [b, a] = some a := by simp [choose, h0]
    have e3 : setErase a [b, a] = [b] := by simp [setErase, hab.symm]
    have e4 : setErase b [b] = ([] : List P) := by simp [setErase]
    unfold evalBoundary
    simp only [e, e2, e3, List.length_singleton, absorbPasses, one, absorbOne, hu, Res.bind, e4, ne_eq,
      not_true_eq_false, if_false, subtractAll]

/-- C53 (part): two included polygons that overlap or touch. The domain has no holes and contains every point inside one of
them; a point outside both is in the domain exactly if it is in a gap enclosed by the two polygons together (such gaps
are not respected, `C53_gap_false`). Without vertices the input is never refused. -/
theorem C53_union_partial {b1 b2 : Polyline (Vertex K)} (h : Generic b1 b2)
    (hov : (∃ v, b1.contains 0 v = some .boundary ∧ b2.contains 0 v = some .boundary) ∨
      ∃ v, b1.contains 0 v = some .inside ∧ b2.contains 0 v = some .inside) :
    ∃ n, ∀ fuel, n ≤ fuel → ∀ σ, ∃ T, buildTriangulator 0 fuel σ ⟨[b1, b2], [], [], []⟩ = .ok (.ok T) ∧
      T.segments = [] ∧ T.vertices = [] ∧ T.holes = [] ∧
      ∃ gaps : List (Polyline (Vertex K)), (∀ c ∈ gaps, c.opened = false ∧ SimplePolygon c.vertices) ∧
        ∀ v, b1.contains 0 v ≠ some .boundary → b2.contains 0 v ≠ some .boundary →
          (InDomain T v ↔ b1.contains 0 v = some .inside ∨ b2.contains 0 v = some .inside ∨
            ∃ c ∈ gaps, c.contains 0 v = some .inside) ∧
          ((b1.contains 0 v = some .inside ∨ b2.contains 0 v = some .inside) →
            ∀ c ∈ gaps, c.contains 0 v = some .outside) := by
  have hne : b1 ≠ b2 := by
    rintro rfl
    obtain ⟨a, ha⟩ : ∃ a, a ∈ b1.vertices := List.exists_mem_of_length_pos (by have := b1.two_le; omega)
    rw [← pairs_fst b1.vertices] at ha
    obtain ⟨s, hs, rfl⟩ := List.mem_map.1 ha
    exact h.general.1 s.1 (mem_pairs hs).1 s hs (onSegment_left _ _)
  have three : ∀ {p : Polyline (Vertex K)}, p.opened = false → ∀ {v : Vertex K}, p.contains 0 v ≠ some .boundary →
      p.contains 0 v ≠ some .inside → p.contains 0 v = some .outside := by
    intro p hp v h1 h2
    have o : ¬ OnSome (pairs p.vertices false) v := fun hh => h1 ((contains_boundary hp).2 hh)
    obtain ⟨k1, k2⟩ := contains_off hp o
    by_cases hw : windingNumber (pairs p.vertices false) v = 0
    · exact k2.2 hw
    · exact absurd (k1.2 hw) h2
  obtain ⟨n, hn⟩ := C47_exact_partial h hov
  obtain ⟨m, hm⟩ := C47_exact_partial h.symm (hov.imp (fun ⟨v, a, b⟩ => ⟨v, b, a⟩) fun ⟨v, a, b⟩ => ⟨v, b, a⟩)
  refine ⟨max n m, fun fuel hf σ => ?_⟩
  have hfn := (le_max_left n m).trans hf
  have hfm := (le_max_right n m).trans hf
  have key : ∃ p, evalBoundary (polylineOps 0 fuel) (σ.sub 0) [b1, b2] [] = .ok (.ok (p, [])) ∧
      ∃ holes : List (Polyline (Vertex K)), (∀ c ∈ holes, c.opened = false ∧ SimplePolygon c.vertices) ∧
        ∀ v, b1.contains 0 v ≠ some .boundary → b2.contains 0 v ≠ some .boundary →
          p.contains 0 v ≠ some .boundary ∧ (∀ c ∈ holes, c.contains 0 v ≠ some .boundary) ∧
          (b1.contains 0 v = some .inside ∨ b2.contains 0 v = some .inside →
            p.contains 0 v = some .inside ∧ holes.countP (fun c => decide (c.contains 0 v = some .inside)) = 0) ∧
          (b1.contains 0 v = some .outside → b2.contains 0 v = some .outside →
            holes.countP (fun c => decide (c.contains 0 v = some .inside)) =
              if p.contains 0 v = some .inside then 1 else 0) := by
    obtain ⟨f, s, σ', hfs, hu⟩ := evalBoundary_two (polylineOps (0 : K) fuel) (σ.sub 0) b1 b2 hne
    rcases hfs with ⟨rfl, rfl⟩ | ⟨rfl, rfl⟩
    · obtain ⟨p, unused, e, -, -, -, holes, k1, k2⟩ := hn fuel hfn σ'
      exact ⟨p, hu p (polylineOps_union.2 ⟨_, e⟩), holes, fun c hc => ⟨(k1 c hc).1, (k1 c hc).2.1⟩, k2⟩
    · obtain ⟨p, unused, e, -, -, -, holes, k1, k2⟩ := hm fuel hfm σ'
      refine ⟨p, hu p (polylineOps_union.2 ⟨_, e⟩), holes, fun c hc => ⟨(k1 c hc).1, (k1 c hc).2.1⟩, fun v v1 v2 => ?_⟩
      obtain ⟨x1, x2, x3, x4⟩ := k2 v v2 v1
      exact ⟨x1, x2, fun hh => x3 hh.symm, fun a b => x4 b a⟩
  obtain ⟨p, h1, gaps, hgaps, hp⟩ := key
  have h2 : evalHoles (polylineOps 0 fuel) fuel (σ.sub 1) p [] = .ok [] := by
    simp only [evalHoles, List.reverse_nil]
    cases fuel <;> rfl
  have h3 : insertHoles 0 fuel (shuffle (σ.sub 2) []) (Triangulator.new p) =
      .ok (.ok { Triangulator.new p with holes := [] }) := by
    simp [shuffle, shuffleAux, insertHoles, Triangulator.new]
  rcases finish_build (vs := []) (by simp) h1 h2 h3 with ⟨T, t1, t2, t3, t4, t5, -⟩ | ⟨-, v, hv, -⟩
  · refine ⟨T, t1, t4, List.eq_nil_iff_forall_not_mem.2 fun v hv => by simpa using (t5 v).1 hv, t3, gaps, hgaps,
      fun v v1 v2 => ?_⟩
    obtain ⟨x1, x2, x3, x4⟩ := hp v v1 v2
    have hd : InDomain T v ↔ p.contains 0 v = some .inside := by
      unfold InDomain
      rw [t2, t3]
      simp
    have zero : gaps.countP (fun c => decide (c.contains 0 v = some .inside)) = 0 →
        ∀ c ∈ gaps, c.contains 0 v ≠ some .inside := fun hz c hc => by
      simpa using (List.countP_eq_zero.1 hz) c hc
    refine ⟨?_, fun hi c hc => three (hgaps c hc).1 (x2 c hc) (zero (x3 hi).2 c hc)⟩
    rw [hd]
    by_cases hi : b1.contains 0 v = some .inside ∨ b2.contains 0 v = some .inside
    · rw [← or_assoc]
      exact ⟨fun _ => Or.inl hi, fun _ => (x3 hi).1⟩
    · rw [← or_assoc]
      have hc := x4 (three h.closed1 v1 fun h' => hi (Or.inl h')) (three h.closed2 v2 fun h' => hi (Or.inr h'))
      constructor
      · intro hin
        right
        rw [if_pos hin] at hc
        have := List.countP_pos_iff.1 (by omega : 0 < gaps.countP (fun c => decide (c.contains 0 v = some .inside)))
        simpa using this
      · rintro (hh | ⟨c, hc', hcv⟩)
        · exact absurd hh hi
        · by_contra hn
          rw [if_neg hn] at hc
          exact zero hc c hc' hcv
  · simp at hv

/-- The hypotheses are met by the two squares that overlap at a corner. -/
example : Generic (box 0 0 10 10) (box 8 8 3 3) ∧
    ∃ v, (box 0 0 10 10).contains 0 v = some .inside ∧ (box 8 8 3 3).contains 0 v = some .inside :=
  ⟨⟨rfl, rfl, by decide +kernel, by decide +kernel, simple_of_check (by decide +kernel),
    simple_of_check (by decide +kernel), by decide +kernel, by decide +kernel,
    general_of_check rfl rfl (by decide +kernel) (by decide +kernel)⟩, ⟨9, 9, false⟩, by decide +kernel⟩

/-- What was accepted: boundary and holes. -/
def accepted : Res (Parsed (Triangulator ℚ)) → Option (Polyline (Vertex ℚ) × List (Polyline (Vertex ℚ)))
  | .ok (.ok T) => some (T.boundary, T.holes)
  | _ => none

theorem accepted_iff {r : Res (Parsed (Triangulator ℚ))} {b : Polyline (Vertex ℚ)} {hs : List (Polyline (Vertex ℚ))} :
    accepted r = some (b, hs) ↔ ∃ T, r = .ok (.ok T) ∧ T.boundary = b ∧ T.holes = hs := by
  rcases r with (_ | _) | _ | _ <;> simp [accepted]

/-- C53 fails: a removal that covers the included polygon, so that nothing should be left, is ignored. -/
theorem C53_covered_false : ∃ (b r : Polyline (Vertex ℚ)) (v : Vertex ℚ) (T : Triangulator ℚ), Generic b r ∧
    buildTriangulator 0 100 Sched.first ⟨[b], [r], [], []⟩ = .ok (.ok T) ∧
    InDomain T v ∧ r.contains 0 v = some .inside := by
  obtain ⟨T, h1, h2, h3⟩ := (accepted_iff (r := buildTriangulator 0 100 Sched.first
    ⟨[box 0 0 10 10], [box (-1) (-1) 12 12], [], []⟩) (b := box 0 0 10 10) (hs := [])).1 (by decide +kernel)
  refine ⟨box 0 0 10 10, box (-1) (-1) 12 12, ⟨5, 5, false⟩, T, ⟨rfl, rfl, by decide +kernel, by decide +kernel,
    simple_of_check (by decide +kernel), simple_of_check (by decide +kernel), by decide +kernel, by decide +kernel,
    general_of_check rfl rfl (by decide +kernel) (by decide +kernel)⟩, h1, ?_, by decide +kernel⟩
  unfold InDomain
  rw [h2, h3]
  exact ⟨by decide +kernel, by simp⟩

/-- C53 fails: a notch one side of which is on the outline of the included polygon is ignored. -/
theorem C53_flush_false : ∃ (b r : Polyline (Vertex ℚ)) (v : Vertex ℚ) (T : Triangulator ℚ),
    SimplePolygon b.vertices ∧ SimplePolygon r.vertices ∧ 0 < shoelace b.vertices ∧ 0 < shoelace r.vertices ∧
    buildTriangulator 0 100 Sched.first ⟨[b], [r], [], []⟩ = .ok (.ok T) ∧
    InDomain T v ∧ r.contains 0 v = some .inside := by
  obtain ⟨T, h1, h2, h3⟩ := (accepted_iff (r := buildTriangulator 0 100 Sched.first
    ⟨[box 0 0 10 10], [box 4 8 2 2], [], []⟩) (b := box 0 0 10 10) (hs := [])).1 (by decide +kernel)
  refine ⟨box 0 0 10 10, box 4 8 2 2, ⟨5, 9, false⟩, T, simple_of_check (by decide +kernel),
    simple_of_check (by decide +kernel), by decide +kernel, by decide +kernel, h1, ?_, by decide +kernel⟩
  unfold InDomain
  rw [h2, h3]
  exact ⟨by decide +kernel, by simp⟩

/-- A square that is open to the right. -/
def claw : Polyline (Vertex ℚ) :=
  ⟨[⟨0, 0, false⟩, ⟨6, 0, false⟩, ⟨6, 2, false⟩, ⟨2, 2, false⟩, ⟨2, 4, false⟩, ⟨6, 4, false⟩, ⟨6, 6, false⟩,
    ⟨0, 6, false⟩], false, by simp⟩

/-- C53 fails: the gap that two included polygons enclose together becomes part of the domain. -/
theorem C53_gap_false : ∃ (b1 b2 : Polyline (Vertex ℚ)) (v : Vertex ℚ) (T : Triangulator ℚ), Generic b1 b2 ∧
    buildTriangulator 0 200 Sched.first ⟨[b1, b2], [], [], []⟩ = .ok (.ok T) ∧
    InDomain T v ∧ b1.contains 0 v = some .outside ∧ b2.contains 0 v = some .outside := by
  obtain ⟨T, h1, h2, h3⟩ := (accepted_iff (r := buildTriangulator 0 200 Sched.first
    ⟨[claw, box 5 1 3 4], [], [], []⟩) (b := ⟨[⟨0, 6, false⟩, ⟨0, 0, false⟩, ⟨6, 0, false⟩, ⟨6, 1, false⟩,
      ⟨8, 1, false⟩, ⟨8, 5, false⟩, ⟨6, 5, false⟩, ⟨6, 6, false⟩], false, by simp⟩) (hs := [])).1 (by decide +kernel)
  refine ⟨claw, box 5 1 3 4, ⟨3, 3, false⟩, T, ⟨rfl, rfl, by decide +kernel, by decide +kernel,
    simple_of_check (by decide +kernel), simple_of_check (by decide +kernel), by decide +kernel, by decide +kernel,
    general_of_check rfl rfl (by decide +kernel) (by decide +kernel)⟩, h1, ?_, by decide +kernel⟩
  unfold InDomain
  rw [h2, h3]
  exact ⟨by decide +kernel, by simp⟩

/-- C53 fails: of two included polygons that do not touch one another, one is dropped without an error if no horizontal or
vertical line separates them. -/
theorem C53_dropped_false : ∃ (b1 b2 : Polyline (Vertex ℚ)) (v : Vertex ℚ) (T : Triangulator ℚ), Generic b1 b2 ∧
    buildTriangulator 0 100 Sched.first ⟨[b1, b2], [], [], []⟩ = .ok (.ok T) ∧
    b2.contains 0 v = some .inside ∧ ¬ InDomain T v := by
  obtain ⟨T, h1, h2, h3⟩ := (accepted_iff (r := buildTriangulator 0 100 Sched.first
    ⟨[lowerTriangle, upperTriangle], [], [], []⟩) (b := ⟨[⟨1, 4, false⟩, ⟨1, 1, false⟩, ⟨4, 1, false⟩], false, by simp⟩)
    (hs := [])).1 (by decide +kernel)
  refine ⟨lowerTriangle, upperTriangle, ⟨7/2, 7/2, false⟩, T, ⟨rfl, rfl, by decide +kernel, by decide +kernel,
    simple_of_check (by decide +kernel), simple_of_check (by decide +kernel), by decide +kernel, by decide +kernel,
    general_of_check rfl rfl (by decide +kernel) (by decide +kernel)⟩, h1, by decide +kernel, ?_⟩
  unfold InDomain
  rw [h2]
  rintro ⟨h, -⟩
  exact absurd h (by decide +kernel)

/-- An accepted input with a cut corner, a hole, a segment and a vertex (`C53_accepted`). -/
example : accepted (buildTriangulator 0 200 Sched.first ⟨[box 0 0 10 10], [box 8 8 3 3, box 2 2 3 3],
    [⟨⟨6, 6, false⟩, ⟨7, 7, false⟩⟩], [⟨1, 1, false⟩]⟩) =
    some (⟨[⟨0, 0, false⟩, ⟨10, 0, false⟩, ⟨10, 8, false⟩, ⟨8, 8, false⟩, ⟨8, 10, false⟩, ⟨0, 10, false⟩], false, by simp⟩,
      [box 2 2 3 3]) := by
  decide +kernel

end Verif.Props
