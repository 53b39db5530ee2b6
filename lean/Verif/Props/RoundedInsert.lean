import Verif.Model.RoundedInsert
import Verif.Props.Rounding
import Verif.Lemmas.Continence
import Verif.Lemmas.Sets

/-!
# C85: `insert_vertices` with rounding
-/

set_option linter.unusedSectionVars false

namespace Verif.Spec

/-- Both coordinates of a vertex are on the grid of width `2 ^ e`. -/
def VertexOnGrid (e : ℤ) (v : Vertex ℚ) : Prop := OnGrid e v.x ∧ OnGrid e v.y

/-- All the coordinates of the boundary, the holes and the segments are on the grid. -/
structure DomainOnGrid (e : ℤ) (T : Triangulator ℚ) : Prop where
  boundary : ∀ v ∈ T.boundary.vertices, VertexOnGrid e v
  holes : ∀ h ∈ T.holes, ∀ v ∈ h.vertices, VertexOnGrid e v
  segments : ∀ s ∈ T.segments, VertexOnGrid e s.v1 ∧ VertexOnGrid e s.v2

end Verif.Spec

namespace Verif.Props

open Spec Triangulator

section

variable {K : Type*} [Field K] [LinearOrder K] [IsStrictOrderedRing K]

/-- The answer of `contains` depends on the answers of the orientation test only. -/
theorem containsLoopRounded_eq {rnd : K → K} {eps : K} {v : Vertex K} :
    ∀ {l : List (Vertex K × Vertex K)} {n : Int},
      (∀ s ∈ l, orientationRounded rnd eps s.1 s.2 v = orientation eps s.1 s.2 v) →
      Polyline.containsLoopRounded rnd eps v l n = Polyline.containsLoop eps v l n
  | [], n, _ => rfl
  | s :: rest, n, h => by
    have hs := h s (List.mem_cons_self ..)
    have ih : ∀ n, Polyline.containsLoopRounded rnd eps v rest n = Polyline.containsLoop eps v rest n :=
      fun n => containsLoopRounded_eq fun t ht => h t (List.mem_cons_of_mem _ ht)
    unfold Polyline.containsLoopRounded Polyline.containsLoop
    simp only [hs, ih]
    cases orientation eps s.1 s.2 v <;> rfl

theorem containsRounded_eq {rnd : K → K} {eps : K} {p : Polyline (Vertex K)} {v : Vertex K}
    (h : ∀ s ∈ pairs p.vertices p.opened, orientationRounded rnd eps s.1 s.2 v = orientation eps s.1 s.2 v) :
    p.containsRounded rnd eps v = p.contains eps v := by
  unfold Polyline.containsRounded Polyline.contains
  rw [containsLoopRounded_eq h]

/-- The exact orientation test of three points away from a line. -/
theorem orientationRounded_eq {rnd : K → K} {u s : K} (h : Rounds rnd u s) (hu : u ≤ 1 / 16) {eps M : K} (he : 0 ≤ eps)
    (hs : s ≤ M) (hs2 : s ≤ M ^ 2) {a b c : Vertex K} (ha : |a.x| ≤ M ∧ |a.y| ≤ M) (hb : |b.x| ≤ M ∧ |b.y| ≤ M)
    (hc : |c.x| ≤ M ∧ |c.y| ≤ M) (hx : eps + 24 * u * M ^ 2 < |cross a b c|) :
    orientationRounded rnd eps a b c = orientation eps a b c := by
  obtain ⟨h1, h2, -⟩ := C83_orientation h hu he hs hs2 ha hb hc
  have hm : 0 ≤ 24 * u * M ^ 2 := mul_nonneg (mul_nonneg (by norm_num) h.u_nonneg) (sq_nonneg M)
  have hval : orientation eps a b c =
      if |cross a b c| ≤ eps then .colinear else if 0 < cross a b c then .counterclockwise else .clockwise := by
    unfold orientation approxEq
    rw [orientDet_eq]
    simp
  rw [hval, if_neg (by linarith)]
  rcases lt_or_ge 0 (cross a b c) with hp | hp
  · rw [if_pos hp]
    rw [abs_of_pos hp] at hx
    exact h1 hx
  · rw [if_neg (not_lt.2 hp)]
    rw [abs_of_nonpos hp] at hx
    exact h2 (by linarith)

/-- C85 away from the outlines: with any rounding, `insert_vertices` accepts and refuses the same vertices as with exact
arithmetic, if no vertex is so near to the line of a side of the boundary or of a hole that the determinant is below
the tolerance and the margin of the rounding. -/
theorem C85_accepts {rnd : K → K} {u s : K} (h : Rounds rnd u s) (hu : u ≤ 1 / 16) {eps M : K} (he : 0 ≤ eps)
    (hs : s ≤ M) (hs2 : s ≤ M ^ 2) {T : Triangulator K} {vs : List (Vertex K)}
    (hT : ∀ p ∈ T.boundary :: T.holes, ∀ w ∈ p.vertices, |w.x| ≤ M ∧ |w.y| ≤ M) (hv : ∀ v ∈ vs, |v.x| ≤ M ∧ |v.y| ≤ M)
    (hfar : ∀ v ∈ vs, ∀ p ∈ T.boundary :: T.holes, ∀ e ∈ pairs p.vertices p.opened,
      eps + 24 * u * M ^ 2 < |cross e.1 e.2 v|) (σ : Sched) :
    (∀ t bad, insertVerticesRounded rnd eps σ T vs = .err t bad ↔ insertVertices eps σ T vs = .err t bad) ∧
    ((∃ t, insertVerticesRounded rnd eps σ T vs = .ok t) ↔ ∃ t, insertVertices eps σ T vs = .ok t) := by
  have hc : ∀ v ∈ vs, ∀ p ∈ T.boundary :: T.holes, p.containsRounded rnd eps v = p.contains eps v := by
    intro v hv' p hp
    refine containsRounded_eq fun e he' => ?_
    obtain ⟨m1, m2⟩ := mem_pairs he'
    exact orientationRounded_eq h hu he hs hs2 (hT p hp _ m1) (hT p hp _ m2) (hv v hv') (hfar v hv' p hp e he')
  have hr : ∀ v ∈ vs, vertexRejectedRounded rnd eps T v = vertexRejected eps T v := by
    intro v hv'
    unfold vertexRejectedRounded vertexRejected
    rw [hc v hv' _ (List.mem_cons_self ..)]
    congr 1
    refine Bool.eq_iff_iff.2 ?_
    simp only [List.any_eq_true]
    constructor
    · rintro ⟨p, hp, h1⟩
      exact ⟨p, hp, by rwa [hc v hv' p (List.mem_cons_of_mem _ hp)] at h1⟩
    · rintro ⟨p, hp, h1⟩
      exact ⟨p, hp, by rwa [hc v hv' p (List.mem_cons_of_mem _ hp)]⟩
  have hb : vs.filter (vertexRejectedRounded rnd eps T) = vs.filter (vertexRejected eps T) :=
    List.filter_congr hr
  unfold insertVerticesRounded insertVertices
  simp only [hb]
  split_ifs <;> simp

end

/-! ## Points on a grid -/

theorem VertexOnGrid.orientation {e : ℤ} (he : -537 ≤ e) {eps : ℚ} {a b c : Vertex ℚ} (ha : VertexOnGrid e a)
    (hb : VertexOnGrid e b) (hc : VertexOnGrid e c) :
    orientationRounded roundF64 eps a b c = Verif.orientation eps a b c := (C83_grid he ha hb hc).1

theorem approxEq_grid {e : ℤ} (he : -537 ≤ e) {eps x y : ℚ} (hx : OnGrid e x) (hy : OnGrid e y) :
    approxEqRounded roundF64 eps x y = approxEq eps x y := by
  obtain ⟨n, hn, rfl⟩ := hx
  obtain ⟨m, hm, rfl⟩ := hy
  have h1 := abs_sub_le_add hn hm
  unfold approxEqRounded approxEq
  rw [roundF64_grid (n := n - m) (e := e) (h1.trans (by norm_num)) (by omega) (by push_cast; ring)]

theorem eqvRounded_grid {e : ℤ} (he : -537 ≤ e) {eps : ℚ} {a b : Vertex ℚ} (ha : VertexOnGrid e a)
    (hb : VertexOnGrid e b) : Vertex.eqvRounded roundF64 eps a b = Vertex.eqv eps a b := by
  unfold Vertex.eqvRounded Vertex.eqv
  rw [approxEq_grid he ha.1 hb.1, approxEq_grid he ha.2 hb.2]

theorem placeVertex_grid {e : ℤ} (he : -537 ≤ e) {eps : ℚ} {v : Vertex ℚ} (hv : VertexOnGrid e v) :
    ∀ {l : List (Edge (Vertex ℚ))}, (∀ s ∈ l, VertexOnGrid e s.v1 ∧ VertexOnGrid e s.v2) →
      placeVertexRounded roundF64 eps v l = placeVertex eps v l
  | [], _ => rfl
  | s :: rest, h => by
    have hs := h s (List.mem_cons_self ..)
    unfold placeVertexRounded placeVertex
    rw [eqvRounded_grid he hs.1 hv, eqvRounded_grid he hs.2 hv,
      placeVertex_grid he hv fun t ht => h t (List.mem_cons_of_mem _ ht)]
    have : s.containsRounded roundF64 eps v = s.contains eps v := by
      unfold Edge.containsRounded Edge.contains
      rw [VertexOnGrid.orientation he hs.1 hs.2 hv]
      cases BBox.fromVertices [s.v1, s.v2] <;> rfl
    rw [this]

theorem placeVertex_split_mem {eps : ℚ} {v : Vertex ℚ} : ∀ {l : List (Edge (Vertex ℚ))} {s : Edge (Vertex ℚ)},
    placeVertex eps v l = .split s → s ∈ l
  | [], s, h => by simp [placeVertex] at h
  | t :: rest, s, h => by
    unfold placeVertex at h
    split_ifs at h
    · injection h with h
      exact h ▸ List.mem_cons_self ..
    · exact List.mem_cons_of_mem _ (placeVertex_split_mem h)

theorem insertVerticesLoop_grid {e : ℤ} (he : -537 ≤ e) {eps : ℚ} : ∀ {vs : List (Vertex ℚ)} {σ : Sched}
    {T : Triangulator ℚ}, (∀ v ∈ vs, VertexOnGrid e v) → DomainOnGrid e T →
      insertVerticesLoopRounded roundF64 eps σ vs T = insertVerticesLoop eps σ vs T
  | [], _, _, _, _ => rfl
  | v :: vs, σ, T, hv, hT => by
    have h0 := hv v (List.mem_cons_self ..)
    have hvs : ∀ w ∈ vs, VertexOnGrid e w := fun w hw => hv w (List.mem_cons_of_mem _ hw)
    unfold insertVerticesLoopRounded insertVerticesLoop
    rw [placeVertex_grid he h0 fun s hs => hT.segments s (mem_shuffle.1 hs)]
    refine insertVerticesLoop_grid he hvs ?_
    cases hp : placeVertex eps v (shuffle (σ.sub 0) T.segments) with
    | store => exact ⟨hT.boundary, hT.holes, hT.segments⟩
    | ignore => exact hT
    | split s =>
      have hs := hT.segments s (mem_shuffle.1 (placeVertex_split_mem hp))
      refine ⟨hT.boundary, hT.holes, fun t ht => ?_⟩
      simp only [mem_setInsert, mem_setErase] at ht
      rcases ht with rfl | rfl | ht
      · exact ⟨h0, hs.2⟩
      · exact ⟨hs.1, h0⟩
      · exact hT.segments t ht.1

/-- C85: when all coordinates are on a grid of width `2 ^ e` (integers for `e = 0`) at most `2 ^ 25` steps from the origin,
`insert_vertices` computed with `f64` does exactly what it does with exact arithmetic. -/
theorem C85_grid {e : ℤ} (he : -537 ≤ e) {eps : ℚ} {σ : Sched} {T : Triangulator ℚ} {vs : List (Vertex ℚ)}
    (hT : DomainOnGrid e T) (hv : ∀ v ∈ vs, VertexOnGrid e v) :
    insertVerticesRounded roundF64 eps σ T vs = insertVertices eps σ T vs := by
  have hc : ∀ v ∈ vs, ∀ p : Polyline (Vertex ℚ), (∀ w ∈ p.vertices, VertexOnGrid e w) →
      p.containsRounded roundF64 eps v = p.contains eps v := by
    intro v hv' p hp
    refine containsRounded_eq fun s hs => ?_
    obtain ⟨m1, m2⟩ := mem_pairs hs
    exact VertexOnGrid.orientation he (hp _ m1) (hp _ m2) (hv v hv')
  have hb : vs.filter (vertexRejectedRounded roundF64 eps T) = vs.filter (vertexRejected eps T) := by
    refine List.filter_congr fun v hv' => ?_
    unfold vertexRejectedRounded vertexRejected
    rw [hc v hv' _ hT.boundary]
    congr 1
    refine Bool.eq_iff_iff.2 ?_
    simp only [List.any_eq_true]
    constructor
    · rintro ⟨p, hp, h1⟩
      exact ⟨p, hp, by rwa [hc v hv' p (hT.holes p hp)] at h1⟩
    · rintro ⟨p, hp, h1⟩
      exact ⟨p, hp, by rwa [hc v hv' p (hT.holes p hp)]⟩
  unfold insertVerticesRounded insertVertices
  simp only [hb]
  split_ifs
  · rfl
  · rw [insertVerticesLoop_grid he (fun v hv' => hv v (mem_shuffle.1 hv')) hT]

/-- A triangle with integer corners. -/
def farTriangle : Polyline (Vertex ℚ) :=
  ⟨[lattice 367892902 487990804, lattice 367893319 488006651, lattice 367892902 488006651], false, by simp⟩

/-- C85 fails for larger integers: `insert_vertices` computed with `f64` accepts a vertex outside of a triangle, on the other
side of its first side than the third corner. With exact arithmetic it is refused. -/
theorem C85_false (σ : Sched) : ∃ (T T' : Triangulator ℚ) (a b c v : Vertex ℚ), T = Triangulator.new farTriangle ∧
    farTriangle.vertices = [a, b, c] ∧ v = lattice 367892912 487991184 ∧ 0 < cross a b c ∧ cross a b v < 0 ∧
    insertVerticesRounded roundF64 (1 / 10 ^ 14) σ T [v] = .ok T' ∧ v ∈ T'.vertices ∧
    insertVertices (1 / 10 ^ 14) σ T [v] = .err T [v] := by
  have hr : [lattice 367892912 487991184].filter
      (vertexRejectedRounded roundF64 (1 / 10 ^ 14) (Triangulator.new farTriangle)) = [] := by decide +kernel
  have hx : [lattice 367892912 487991184].filter (vertexRejected (1 / 10 ^ 14) (Triangulator.new farTriangle)) =
      [lattice 367892912 487991184] := by decide +kernel
  refine ⟨_, insertVerticesLoopRounded roundF64 (1 / 10 ^ 14) (σ.sub 1)
    (shuffle (σ.sub 0) [lattice 367892912 487991184]) (Triangulator.new farTriangle), _, _, _, _, rfl, rfl, rfl,
    by decide +kernel, by decide +kernel, ?_, ?_, ?_⟩
  · simp only [insertVerticesRounded, hr, ne_eq, not_true_eq_false, if_false]
  · have : shuffle (σ.sub 0) [lattice 367892912 487991184] = [lattice 367892912 487991184] :=
      List.perm_singleton.1 (shuffle_perm _ _)
    rw [this]
    have h2 : shuffle ((σ.sub 1).sub 0) ([] : List (Edge (Vertex ℚ))) = [] := List.perm_nil.1 (shuffle_perm _ _)
    simp [insertVerticesLoopRounded, Triangulator.new, h2, placeVertexRounded]
  · simp only [insertVertices, hx, ne_eq, List.cons_ne_nil, not_false_eq_true, if_true]

/-- The hypotheses of `C85_grid` are met: a triangle of integers with a vertex inside and a segment. -/
example : ∃ T : Triangulator ℚ, DomainOnGrid 0 T ∧ T.segments ≠ [] ∧ ∀ σ : Sched,
    ∃ T', insertVerticesRounded roundF64 (1 / 10 ^ 14) σ T [lattice 3 4] = .ok T' := by
  have g : ∀ x y : ℤ, |x| ≤ 2 ^ 25 → |y| ≤ 2 ^ 25 → VertexOnGrid 0 (lattice x y) := fun x y hx hy =>
    ⟨⟨x, hx, by simp [lattice, Vertex.mk']⟩, ⟨y, hy, by simp [lattice, Vertex.mk']⟩⟩
  let b : Polyline (Vertex ℚ) := ⟨[lattice 0 0, lattice 20 0, lattice 0 20], false, by simp⟩
  let T : Triangulator ℚ := ⟨Mesh.empty, b, [], [], [⟨lattice 1 1, lattice 2 2⟩]⟩
  refine ⟨T, ⟨?_, ?_, ?_⟩, by simp [T], fun σ => ?_⟩
  · intro v hv
    simp only [T, b, List.mem_cons, List.not_mem_nil, or_false] at hv
    rcases hv with rfl | rfl | rfl <;> exact g _ _ (by norm_num) (by norm_num)
  · simp [T]
  · intro s hs
    simp only [T, List.mem_cons, List.not_mem_nil, or_false] at hs
    subst hs
    exact ⟨g _ _ (by norm_num) (by norm_num), g _ _ (by norm_num) (by norm_num)⟩
  · have hr : [lattice 3 4].filter (vertexRejectedRounded roundF64 (1 / 10 ^ 14) T) = [] := by decide +kernel
    exact ⟨_, by simp only [insertVerticesRounded, hr, ne_eq, not_true_eq_false, if_false]; rfl⟩

/-- The hypotheses of `C85_accepts` are met by `f64`: a triangle and a vertex that is far from its sides. -/
example : ∀ σ : Sched, (∃ t, insertVerticesRounded roundF64 (1 / 10 ^ 14) σ
      (Triangulator.new ⟨[lattice 0 0, lattice 20 0, lattice 0 20], false, by simp⟩) [lattice 3 4] = .ok t) ↔
    ∃ t, insertVertices (1 / 10 ^ 14) σ
      (Triangulator.new ⟨[lattice 0 0, lattice 20 0, lattice 0 20], false, by simp⟩) [lattice 3 4] = .ok t := by
  intro σ
  have hs : (2 : ℚ) ^ (-1022 : ℤ) ≤ 1 := zpow_le_one_of_nonpos₀ (by norm_num) (by norm_num)
  refine (C85_accepts (M := 20) rounds_f64 (by norm_num) (by norm_num) (by linarith) (hs.trans (by norm_num)) ?_ ?_ ?_ σ).2
  · decide +kernel
  · decide +kernel
  · decide +kernel

end Verif.Props
