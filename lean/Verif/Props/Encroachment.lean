import Verif.Lemmas.Bisection
import Verif.Props.Predicates
import Verif.Model.Triangulator
import Mathlib.Algebra.Order.Ring.Rat
import Mathlib.Algebra.Field.Rat

/-!
# C29: splitting an encroached segment

`unencroachSegment` takes a segment and the vertices that encroach it. The full claim is: the returned
subsegments are obtained by repeated bisection, cover exactly the segment, and none of them is encroached by any of
the given vertices. The last part is false (`C29_false`): a vertex that still encroaches one half is forgotten when the
other half is processed first. It is true of one given vertex (`C29_single`) and of the vertices still in the returned
set (`C29_survivors`).
-/

set_option linter.unusedSectionVars false

namespace Verif.Props

open Spec

variable {K : Type*} [Field K] [LinearOrder K] [IsStrictOrderedRing K]

section

variable {eps : K} {fuel : Nat} {dist : Vertex K → Vertex K → K} {params : RefineParams K}
  {boundary : Option (Polyline (Vertex K))} {holes : List (Polyline (Vertex K))} {σ : Sched}
  {C : List (Edge (Vertex K))} {m : Mesh (Vertex K)} {e : Edge (Vertex K)} {vs : List (Vertex K)}
  {r : UnencState (Vertex K)}

theorem geo_encroaches_iff {f : Edge (Vertex K)} {v : Vertex K} :
    (geoRPreds eps fuel dist params boundary holes).encroaches f v = true ↔
      encroach eps f.v1 f.v2 v = .inside := by
  show decide _ = true ↔ _
  rw [decide_eq_true_iff]; rfl

theorem geo_not_encroaches_iff {f : Edge (Vertex K)} {v : Vertex K} :
    (geoRPreds eps fuel dist params boundary holes).encroaches f v = false ↔
      encroach eps f.v1 f.v2 v ≠ .inside := by
  show decide _ = false ↔ _
  rw [decide_eq_false_iff_not]; rfl

/-- C29 (partial): the returned subsegments are the pieces of the two halves of the segment after
repeated bisection. Missing: that no given vertex encroaches them, which is false (`C29_false`). -/
theorem C29_tiles_partial
    (h : unencroachSegment (geoRPreds eps fuel dist params boundary holes) fuel σ C m e vs = .ok r) :
    ∃ l1 l2, Bisects Edge.midpoint ⟨e.v1, e.midpoint⟩ l1 ∧ Bisects Edge.midpoint ⟨e.midpoint, e.v2⟩ l2 ∧
      ∀ f, f ∈ r.newEdges ↔ f ∈ l1 ++ l2 := by
  obtain ⟨ls, k1, k2, -, -⟩ := unencLoop_tiles h
  rw [List.forall₂_cons_left_iff] at k1
  obtain ⟨l, ls', ⟨l1, l2, rfl, c1, c2⟩, k1, rfl⟩ := k1
  rw [List.forall₂_nil_left_iff] at k1
  subst k1
  exact ⟨l1, l2, c1, c2, fun f => by rw [k2]; simp⟩

theorem onSegment_midpoint (e : Edge (Vertex K)) (p : Vertex K) :
    OnSegment e.v1 e.v2 p ↔ OnSegment e.v1 e.midpoint p ∨ OnSegment e.midpoint e.v2 p := by
  simp only [OnSegment, Edge.midpoint, Vertex.mk']
  constructor
  · rintro ⟨t, h0, h1, hx, hy⟩
    rcases le_total t (1 / 2) with h | h
    · left
      exact ⟨2 * t, by linarith, by linarith, by rw [hx]; ring, by rw [hy]; ring⟩
    · right
      exact ⟨2 * t - 1, by linarith, by linarith, by rw [hx]; ring, by rw [hy]; ring⟩
  · rintro (⟨t, h0, h1, hx, hy⟩ | ⟨t, h0, h1, hx, hy⟩)
    · exact ⟨t / 2, by linarith, by linarith, by rw [hx]; ring, by rw [hy]; ring⟩
    · exact ⟨(t + 1) / 2, by linarith, by linarith, by rw [hx]; ring, by rw [hy]; ring⟩

theorem bisects_cover {e : Edge (Vertex K)} {l : List (Edge (Vertex K))}
    (h : Bisects Edge.midpoint e l) (p : Vertex K) :
    OnSegment e.v1 e.v2 p ↔ ∃ f ∈ l, OnSegment f.v1 f.v2 p := by
  induction h with
  | whole e => simp
  | halves _ _ ih1 ih2 =>
    rw [onSegment_midpoint, ih1, ih2]
    simp only [List.mem_append]
    constructor
    · rintro (⟨f, hf, hp⟩ | ⟨f, hf, hp⟩)
      · exact ⟨f, Or.inl hf, hp⟩
      · exact ⟨f, Or.inr hf, hp⟩
    · rintro ⟨f, hf | hf, hp⟩
      · exact Or.inl ⟨f, hf, hp⟩
      · exact Or.inr ⟨f, hf, hp⟩

/-- C29: a point is on the segment if and only if it is on one of the returned subsegments. -/
theorem C29_cover
    (h : unencroachSegment (geoRPreds eps fuel dist params boundary holes) fuel σ C m e vs = .ok r)
    (p : Vertex K) :
    OnSegment e.v1 e.v2 p ↔ ∃ f ∈ r.newEdges, OnSegment f.v1 f.v2 p := by
  obtain ⟨l1, l2, c1, c2, k⟩ := C29_tiles_partial h
  rw [bisects_cover (Bisects.halves c1 c2) p]
  constructor
  · rintro ⟨f, hf, hp⟩; exact ⟨f, (k f).2 hf, hp⟩
  · rintro ⟨f, hf, hp⟩; exact ⟨f, (k f).1 hf, hp⟩

/-- C29: the vertices still listed as encroaching are among the given ones and encroach none of the returned
subsegments. -/
theorem C29_survivors
    (h : unencroachSegment (geoRPreds eps fuel dist params boundary holes) fuel σ C m e vs = .ok r) :
    ∀ v ∈ r.vertices, v ∈ vs ∧ ∀ f ∈ r.newEdges, encroach eps f.v1 f.v2 v ≠ .inside := by
  obtain ⟨ls, -, -, k3, k4⟩ := unencLoop_tiles h
  intro v hv
  refine ⟨k3 v hv, fun f hf => ?_⟩
  rcases k4 f hf with k | k
  · cases k
  · exact geo_not_encroaches_iff.1 (k v hv)

/-- The open discs on the two halves of a segment are disjoint. -/
theorem encroach_halves (he : 0 ≤ eps) (e : Edge (Vertex K)) (v : Vertex K)
    (h1 : encroach eps e.v1 e.midpoint v = .inside) : encroach eps e.midpoint e.v2 v ≠ .inside := by
  intro h2
  have d1 := C04_inside he h1
  have d2 := C04_inside he h2
  simp only [dist2, centre, Edge.midpoint, Vertex.mk'] at d1 d2
  nlinarith [sq_nonneg ((e.v1.x + e.v2.x) / 2 - v.x), sq_nonneg ((e.v1.y + e.v2.y) / 2 - v.y)]

/-- C29: when one vertex is given, it encroaches none of the returned subsegments. -/
theorem C29_single (he : 0 ≤ eps) {v : Vertex K}
    (h : unencroachSegment (geoRPreds eps fuel dist params boundary holes) fuel σ C m e [v] = .ok r) :
    ∀ f ∈ r.newEdges, encroach eps f.v1 f.v2 v ≠ .inside := by
  intro f hf
  have := unencLoop_single (v := v) (by
    intro g hg
    have := encroach_halves he g v (geo_encroaches_iff.1 hg)
    exact geo_not_encroaches_iff.2 this) rfl h f hf
  rcases this with k | k
  · cases k
  · exact geo_not_encroaches_iff.1 k

theorem onSegment_convex {a b p q : Vertex K} (hp : OnSegment a b p) (hq : OnSegment a b q) :
    OnSegment a b (centre p q) := by
  obtain ⟨s, s0, s1, sx, sy⟩ := hp
  obtain ⟨t, t0, t1, tx, ty⟩ := hq
  exact ⟨(s + t) / 2, by linarith, by linarith, by simp only [centre]; rw [sx, tx]; ring,
    by simp only [centre]; rw [sy, ty]; ring⟩

theorem dist2_half1 (e : Edge (Vertex K)) : 4 * dist2 e.v1 e.midpoint = dist2 e.v1 e.v2 := by
  simp only [dist2, Edge.midpoint, Vertex.mk']; ring

theorem dist2_half2 (e : Edge (Vertex K)) : 4 * dist2 e.midpoint e.v2 = dist2 e.v1 e.v2 := by
  simp only [dist2, Edge.midpoint, Vertex.mk']; ring

/-- C29: if all the given vertices are at distance at least `d` from the segment, and one of them encroaches it,
every returned subsegment is longer than `d` (`D` is the square of `d`). -/
theorem C29_min_length (he : 0 ≤ eps) {D : K}
    (hD : ∀ v ∈ vs, ∀ p, OnSegment e.v1 e.v2 p → D ≤ dist2 p v)
    (hin : ∃ v ∈ vs, encroach eps e.v1 e.v2 v = .inside)
    (h : unencroachSegment (geoRPreds eps fuel dist params boundary holes) fuel σ C m e vs = .ok r) :
    ∀ f ∈ r.newEdges, D < dist2 f.v1 f.v2 := by
  have h01 : (0 : K) ≤ 1 := zero_le_one
  have ha : OnSegment e.v1 e.v2 e.v1 := ⟨0, le_refl _, h01, by ring, by ring⟩
  have hb : OnSegment e.v1 e.v2 e.v2 := ⟨1, h01, le_refl _, by ring, by ring⟩
  have key : ∀ f : Edge (Vertex K), OnSegment e.v1 e.v2 f.v1 → OnSegment e.v1 e.v2 f.v2 →
      ∀ v ∈ vs, encroach eps f.v1 f.v2 v = .inside → 4 * D < dist2 f.v1 f.v2 := by
    intro f h1 h2 v hv hi
    have := C04_inside he hi
    have := hD v hv _ (onSegment_convex h1 h2)
    linarith
  intro f hf
  have := unencLoop_induct (W := fun v => v ∈ vs)
    (A := fun g => OnSegment e.v1 e.v2 g.v1 ∧ OnSegment e.v1 e.v2 g.v2 ∧ 4 * D < dist2 g.v1 g.v2)
    (B := fun g => D < dist2 g.v1 g.v2) (by
      rintro g v ⟨g1, g2, g3⟩ hv
      have hm : OnSegment e.v1 e.v2 g.midpoint := onSegment_convex g1 g2
      refine ⟨fun hi => ⟨g1, hm, key ⟨g.v1, g.midpoint⟩ g1 hm v hv ?_⟩,
        fun hi => ⟨hm, g2, key ⟨g.midpoint, g.v2⟩ hm g2 v hv ?_⟩⟩
      · exact geo_encroaches_iff.1 hi
      · exact geo_encroaches_iff.1 hi) (by
      rintro g ⟨-, -, g3⟩
      have a1 := dist2_half1 g
      have a2 := dist2_half2 g
      constructor
      · show D < dist2 g.v1 g.midpoint; linarith
      · show D < dist2 g.midpoint g.v2; linarith)
    (s := ⟨m, vs, [], [], []⟩) (fun v hv => hv) (stack := [e]) (by
      intro g hg
      rw [List.mem_singleton] at hg
      subst hg
      obtain ⟨v, hv, hi⟩ := hin
      exact ⟨ha, hb, key g ha hb v hv hi⟩) h f hf
  rcases this with k | k
  · cases k
  · exact k

/-- C29: the splitting stops. If all the given vertices are at distance at least `d` from the segment and the
segment is at most `2 ^ (k + 1) * d` long, the loop does not need more than `2 ^ (k + 1)` iterations; it can only fail
to end if one of the insertions of a midpoint does not end. -/
theorem C29_iterations (he : 0 ≤ eps) {D : K} {k : Nat}
    (hD : ∀ v ∈ vs, ∀ p, OnSegment e.v1 e.v2 p → D ≤ dist2 p v)
    (hk : dist2 e.v1 e.v2 ≤ 4 ^ (k + 1) * D) (hf : 2 ^ (k + 1) ≤ fuel)
    (h : unencroachSegment (geoRPreds eps fuel dist params boundary holes) fuel σ C m e vs = .diverged) :
    ∃ σ' m' e', splitSegment (geoRPreds eps fuel dist params boundary holes) fuel σ' C m' e' = .diverged := by
  have h01 : (0 : K) ≤ 1 := zero_le_one
  have ha : OnSegment e.v1 e.v2 e.v1 := ⟨0, le_refl _, h01, by ring, by ring⟩
  have hb : OnSegment e.v1 e.v2 e.v2 := ⟨1, h01, le_refl _, by ring, by ring⟩
  have key : ∀ f : Edge (Vertex K), OnSegment e.v1 e.v2 f.v1 → OnSegment e.v1 e.v2 f.v2 →
      ∀ v ∈ vs, encroach eps f.v1 f.v2 v = .inside → 4 * D < dist2 f.v1 f.v2 := by
    intro f h1 h2 v hv hi
    have := C04_inside he hi
    have := hD v hv _ (onSegment_convex h1 h2)
    linarith
  have hDv : ∀ v ∈ vs, ∀ g : Edge (Vertex K), OnSegment e.v1 e.v2 g.v1 → OnSegment e.v1 e.v2 g.v2 →
      dist2 g.v1 g.v2 ≤ D → encroach eps g.v1 g.v2 v ≠ .inside := by
    intro v hv g h1 h2 h3 hi
    have := key g h1 h2 v hv hi
    have hnn : 0 ≤ dist2 g.v1 g.v2 := by unfold dist2; positivity
    linarith
  refine unencLoop_bound (W := fun v => v ∈ vs)
    (A := fun k g => OnSegment e.v1 e.v2 g.v1 ∧ OnSegment e.v1 e.v2 g.v2 ∧
      dist2 g.v1 g.v2 ≤ 4 ^ (k + 1) * D) ?_ ?_ (s := ⟨m, vs, [], [], []⟩) (fun v hv => hv)
    (stack := [e]) (ks := [k]) (List.Forall₂.cons ⟨ha, hb, hk⟩ List.Forall₂.nil) ?_ h
  · rintro g v ⟨g1, g2, g3⟩ hv
    have hm : OnSegment e.v1 e.v2 g.midpoint := onSegment_convex g1 g2
    have a1 := dist2_half1 g
    have a2 := dist2_half2 g
    simp only [zero_add, pow_one] at g3
    have n1 := hDv v hv ⟨g.v1, g.midpoint⟩ g1 hm (by show dist2 g.v1 g.midpoint ≤ D; linarith)
    have n2 := hDv v hv ⟨g.midpoint, g.v2⟩ hm g2 (by show dist2 g.midpoint g.v2 ≤ D; linarith)
    exact ⟨geo_not_encroaches_iff.2 n1, geo_not_encroaches_iff.2 n2⟩
  · rintro k g ⟨g1, g2, g3⟩
    have hm : OnSegment e.v1 e.v2 g.midpoint := onSegment_convex g1 g2
    have a1 := dist2_half1 g
    have a2 := dist2_half2 g
    rw [pow_succ] at g3
    refine ⟨⟨g1, hm, ?_⟩, hm, g2, ?_⟩
    · show dist2 g.v1 g.midpoint ≤ _; linarith
    · show dist2 g.midpoint g.v2 ≤ _; linarith
  · simp only [List.map_cons, List.map_nil, List.sum_cons, List.sum_nil]
    omega

end

namespace BisectSample

abbrev a : Vertex ℚ := ⟨0, 0, false⟩
abbrev b : Vertex ℚ := ⟨16, 0, false⟩
abbrev v1 : Vertex ℚ := ⟨1, 1 / 2, false⟩
abbrev v2 : Vertex ℚ := ⟨15, 1 / 2, false⟩

/-- A triangulator whose boundary is a square on `a b`, with two vertices just above that side. -/
def T : Triangulator ℚ :=
  ⟨Mesh.empty, ⟨[a, b, ⟨16, 16, false⟩, ⟨0, 16, false⟩], false, by decide⟩, [], [v1, v2], []⟩

/-- Its mesh. -/
def start : Mesh (Vertex ℚ) :=
  match T.triangulate 0 100 Sched.first with
  | .ok T' => T'.mesh
  | _ => Mesh.empty

abbrev P : RPreds (Vertex ℚ) :=
  geoRPreds 0 100 (fun _ _ => 1) ⟨none, 2⟩ (some T.boundary) T.holes

/-- The pieces of `a b` after splitting it because of the vertices `vs`, and the vertices left. -/
def pieces (vs : List (Vertex ℚ)) : Option (List (Edge (Vertex ℚ)) × List (Vertex ℚ)) :=
  match unencroachSegment P 100 Sched.first T.constraints start ⟨a, b⟩ vs with
  | .ok r => some (r.newEdges, r.vertices)
  | _ => none

end BisectSample

open BisectSample in
/-- The last part of C29 is false: in the mesh of a square with two vertices above its lower side, both encroach
that side; splitting it because of both returns a subsegment that one of them encroaches. -/
theorem C29_false : encroach 0 a b v1 = .inside ∧ encroach 0 a b v2 = .inside ∧
    ∃ r, unencroachSegment P 100 Sched.first T.constraints start ⟨a, b⟩ [v1, v2] = .ok r ∧
      ∃ f ∈ r.newEdges, ∃ v ∈ [v1, v2], encroach 0 f.v1 f.v2 v = .inside := by
  have h : (match pieces [v1, v2] with
      | some (l, _) => decide (∃ f ∈ l, ∃ v ∈ [v1, v2], encroach 0 f.v1 f.v2 v = .inside)
      | none => false) = true := by decide +kernel
  refine ⟨by decide +kernel, by decide +kernel, ?_⟩
  unfold pieces at h
  split at h
  · rename_i l w heq
    split at heq
    · rename_i r hr
      injection heq with heq
      refine ⟨r, hr, ?_⟩
      have : l = r.newEdges := by injection heq with h1 h2; exact h1.symm
      rw [← this]
      exact of_decide_eq_true h
    · cases heq
  · cases h

open BisectSample in
/-- The hypotheses of the theorems above are met: splitting the side because of the first vertex ends with five
subsegments, the vertex encroaches the side and is at distance at least one half from it. -/
example : pieces [v1] = some ([⟨⟨1, 0, false⟩, ⟨2, 0, false⟩⟩, ⟨a, ⟨1, 0, false⟩⟩,
      ⟨⟨2, 0, false⟩, ⟨4, 0, false⟩⟩, ⟨⟨4, 0, false⟩, ⟨8, 0, false⟩⟩, ⟨⟨8, 0, false⟩, b⟩], []) ∧
    encroach 0 a b v1 = .inside ∧ (∀ v ∈ [v1], ∀ p, OnSegment a b p → (1 / 4 : ℚ) ≤ dist2 p v) ∧
    dist2 a b ≤ 4 ^ (4 + 1) * (1 / 4 : ℚ) := by
  refine ⟨by decide +kernel, by decide +kernel, ?_, by norm_num [dist2]⟩
  intro v hv p ⟨t, _, _, hx, hy⟩
  rw [List.mem_singleton] at hv
  subst hv
  simp only [dist2, hx, hy]
  nlinarith [sq_nonneg ((0 : ℚ) + t * (16 - 0) - 1)]

end Verif.Props
