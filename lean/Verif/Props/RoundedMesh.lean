import Verif.Lemmas.RoundedRun
import Verif.Model.RoundedMesh
import Verif.Props.CircleRounding
import Verif.Props.RoundedInsert
import Verif.Props.Delaunay
import Verif.Props.Convex
import Verif.Props.Unique
import Mathlib.Data.Fin.VecNotation
import Mathlib.Tactic.FinCases

/-!
# Inserting vertices and triangulating an outline in `f64` (C87)
-/

set_option linter.unusedSectionVars false

namespace Verif.Props

open Spec

section

variable {K : Type*} [Field K] [LinearOrder K] [IsStrictOrderedRing K]

/-- Rounded tests that decide as the exact ones for distinct vertices of `S`. -/
theorem same_of {rnd : K → K} {eps : K} {g : Vertex K} (hg : g.isGhost = true) {S : Vertex K → Prop}
    (hv : ∀ a b, S a → S b → a.isGhost = false → b.isGhost = false → Vertex.eqvRounded rnd eps a b = Vertex.eqv 0 a b)
    (ho : ∀ a b c, S a → S b → S c → a ≠ b → a ≠ c → b ≠ c → orientationRounded rnd eps a b c = orientation 0 a b c)
    (hc : ∀ a b c d, S a → S b → S c → S d → d ≠ a → d ≠ b → d ≠ c → 0 < cross a b c →
      (continenceRounded rnd eps a b c d = .inside ↔ continence 0 a b c d = .inside)) :
    Same (geoPredsRounded rnd eps) g S where
  ghost := rfl
  may _ _ := rfl
  veq a b ha hb := by
    show Vertex.eqvRounded rnd eps a b = _
    rcases ha with ha | rfl <;> rcases hb with hb | rfl
    · exact hv a b ha.2 hb.2 ha.1 hb.1
    · simp [Vertex.eqvRounded, Vertex.eqv, ha.1, hg]
    · simp [Vertex.eqvRounded, Vertex.eqv, hb.1, hg]
    · simp [Vertex.eqvRounded, Vertex.eqv, hg]
  inside f t v hs hcor hr hD hn := by
    have hn1 : v ≠ t.v1 := fun h => hn (Or.inl h)
    have hn2 : v ≠ t.v2 := fun h => hn (Or.inr (Or.inl h))
    have hn3 : v ≠ t.v3 := fun h => hn (Or.inr (Or.inr h))
    have in1 : ∀ x, IsCorner t x → x.isGhost = false → S x := by
      intro x hx hxg
      rcases hcor x hx with k | k
      · exact k.2
      · rw [k, hg] at hxg; simp at hxg
    show decide (t.encirclesRounded rnd eps v = .inside) = decide (t.encircles 0 v = .inside)
    refine decide_eq_decide.2 ?_
    unfold Tri.encirclesRounded Tri.encircles
    rcases hs with h | h
    · rw [solid_notGhost h]
      simp only [Bool.not_false, if_true]
      exact hc _ _ _ _ (in1 _ (Or.inl rfl) h.r1) (in1 _ (Or.inr (Or.inl rfl)) h.r2) (in1 _ (Or.inr (Or.inr rfl)) h.r3) hD
        hn1 hn2 hn3 h.ccw
    · rw [ghost_isGhost hg h]
      simp only [Bool.not_true, Bool.false_eq_true, if_false]
      rw [ho _ _ _ (in1 _ (Or.inl rfl) h.r1) (in1 _ (Or.inr (Or.inl rfl)) h.r2) hD h.ne hn1.symm hn2.symm]
      cases orientation 0 t.v1 t.v2 v <;> simp
  onEdge f t v h hcor hr hD hn := by
    have in1 : ∀ x, IsCorner t x → x.isGhost = false → S x := by
      intro x hx hxg
      rcases hcor x hx with k | k
      · exact k.2
      · rw [k, hg] at hxg; simp at hxg
    show Edge.containsRounded rnd eps ⟨t.v1, t.v2⟩ v = Edge.contains 0 ⟨t.v1, t.v2⟩ v
    unfold Edge.containsRounded Edge.contains
    simp only
    rw [ho _ _ _ (in1 _ (Or.inl rfl) h.r1) (in1 _ (Or.inr (Or.inl rfl)) h.r2) hD h.ne (fun k => hn (Or.inl k.symm))
      fun k => hn (Or.inr (Or.inl k.symm))]
    rfl

theorem center_of {a b c : Vertex K} (h : cross a b c ≠ 0) : ∃ o, Equidistant o a b c := by
  cases hc : circumcenter a b c with
  | none => exact absurd ((C03_none_iff _ _ _).1 hc) h
  | some o => exact ⟨o, (C03_some hc).1⟩

theorem approxEq_zero_eps_self (x : K) : approxEq 0 x x = true := by simp [approxEq]

/-- The exact test, by the determinant. -/
theorem continence_inside {a b c d : Vertex K} : continence 0 a b c d = .inside ↔ 0 < circleDet a b c d := by
  unfold continence
  by_cases h1 : circleDet a b c d = 0
  · rw [if_pos (approxEq_zero_eps.2 h1), h1]; simp
  · rw [if_neg (fun h => h1 (approxEq_zero_eps.1 h))]
    split_ifs with h2 <;> simp <;> linarith

/-- Tests that agree lead to the same run. -/
theorem include_same {Q : Preds (Vertex K)} {S : Vertex K → Prop} {f fuel : Nat} {σ : Sched} {g : Vertex K}
    {m : Mesh (Vertex K)} {vs : List (Vertex K)} (hQ : Same Q g S) (hs : AdjSound m) (hc : AdjComplete m)
    (hd : Delaunay g m.tris) (hn : vs.Nodup) (ho : ∀ w ∈ vs, w.isGhost = false)
    (hf : 2 * (m.tris.length + 2 * vs.length) + 3 ≤ fuel) (hm : ∀ p, VertexOf m.tris p → S p) (hS : ∀ w ∈ vs, S w) :
    includeVertices Q [] fuel σ m vs = includeVertices (geoPreds 0 f none []) [] fuel σ m vs := by
  have hA : ∀ x, InMesh m x → Among S g x := by
    rintro x ⟨t, ht, hx⟩
    by_cases hxg : x.isGhost = false
    · exact Or.inl ⟨hxg, hm x ⟨⟨t, ht, hx⟩, hxg⟩⟩
    · right
      rcases hd.good.shape t ht with k | k
      · rcases hx with rfl | rfl | rfl
        exacts [absurd k.r1 hxg, absurd k.r2 hxg, absurd k.r3 hxg]
      · rcases hx with rfl | rfl | rfl
        exacts [absurd k.r1 hxg, absurd k.r2 hxg, k.g3]
  unfold includeVertices
  rw [hQ.ghost]
  show (distributeAll Q _ _ _).bind _ =
    (distributeAll (freePreds f) _ _ (vs.filter fun v => !decide (v ∈ m.vertices Vertex.isGhost))).bind _
  rw [distributeAll_same (P := freePreds f)]
  · cases h0 : distributeAll (freePreds f) (shuffle (σ.sub 0) m.tris) []
      (vs.filter fun v => !decide (v ∈ m.vertices Vertex.isGhost)) with
    | ok q =>
      rw [Res.bind_ok, Res.bind_ok]
      have hst : startState (freePreds f) σ m vs = .ok ⟨m, q.1, q.2, [], []⟩ := by
        unfold startState
        show (distributeAll (freePreds f) _ _ (vs.filter fun v => !decide (v ∈ m.vertices Vertex.isGhost))).bind _ = _
        rw [h0]; rfl
      have hN := start_nice hs hc hd hn ho hst
      have hl := start_legit hs hc hn ho hA (fun w hw => Or.inl ⟨ho w hw, hS w hw⟩) hst
      have hlen := start_len hst
      exact hN.loop_same hQ hl (by simp only at hlen ⊢; omega) _
    | panic => rfl
    | diverged => rfl
  · intro t ht w hw
    rw [List.mem_filter] at hw
    have htm := mem_shuffle.1 ht
    refine ⟨hQ.may t w, hQ.inside f t w (hd.good.shape t htm) (fun x hx => hA x ⟨t, htm, hx⟩) (ho w hw.1) (hS w hw.1) ?_⟩
    intro hcor
    have h2 := hw.2
    simp only [Bool.not_eq_true', decide_eq_false_iff_not] at h2
    exact h2 (mem_vertices.2 ⟨⟨t, htm, hcor⟩, ho w hw.1⟩)

/-- C87, any rounding: vertices that are far enough from each other, such that no three are close to a line and no four close
to a circle, compared with the rounding error. Then inserting them with rounded tests is the same as inserting them with
exact tests: the same mesh, for every order of the hash tables. -/
theorem C87_margin {rnd : K → K} {u s eps R : K} (h : Rounds rnd u s) (hu : u ≤ 1 / 1000) (hus : u * s ≤ eps) (hR : 1 ≤ R)
    (hs1 : s ≤ 1) (hsR : s * R ^ 2 ≤ 1 / 10) {S : Vertex K → Prop} (hsize : ∀ v, S v → |v.x| ≤ R ∧ |v.y| ≤ R)
    (hpoint : ∀ a b, S a → S b → a ≠ b → 2 * eps + s < |a.x - b.x| ∨ 2 * eps + s < |a.y - b.y|)
    (hline : ∀ a b c, S a → S b → S c → a ≠ b → a ≠ c → b ≠ c → eps + 24 * u * R ^ 2 < |cross a b c|)
    (hcircle : ∀ o a b c d, S a → S b → S c → S d → d ≠ a → d ≠ b → d ≠ c → 0 < cross a b c → Equidistant o a b c →
      eps + 6400 * u * R ^ 4 < |cross a b c * (dist2 o a - dist2 o d)|)
    {f fuel : Nat} {σ : Sched} {g : Vertex K} {m : Mesh (Vertex K)} {vs : List (Vertex K)}
    (hs : AdjSound m) (hc : AdjComplete m) (hd : Delaunay g m.tris) (hn : vs.Nodup) (ho : ∀ w ∈ vs, w.isGhost = false)
    (hf : 2 * (m.tris.length + 2 * vs.length) + 3 ≤ fuel) (hm : ∀ p, VertexOf m.tris p → S p) (hS : ∀ w ∈ vs, S w) :
    includeVertices (geoPredsRounded rnd eps) [] fuel σ m vs = includeVertices (geoPreds 0 f none []) [] fuel σ m vs := by
  have hR2 : (1 : K) ≤ R ^ 2 := one_le_pow₀ hR
  have he : 0 ≤ eps := (mul_nonneg h.u_nonneg h.s_nonneg).trans hus
  have ho' : ∀ a b c, S a → S b → S c → a ≠ b → a ≠ c → b ≠ c →
      orientationRounded rnd eps a b c = orientation 0 a b c := by
    intro a b c ha hb hc hab hac hbc
    have hl := hline a b c ha hb hc hab hac hbc
    obtain ⟨h1, h2, -⟩ := C83_orientation h (by linarith) he (hs1.trans hR) (hs1.trans hR2) (hsize a ha) (hsize b hb)
      (hsize c hc)
    have hm : 0 ≤ 24 * u * R ^ 2 := mul_nonneg (mul_nonneg (by norm_num) h.u_nonneg) (sq_nonneg R)
    rcases lt_abs.1 hl with k | k
    · rw [h1 k, eq_comm, C01_counterclockwise_iff le_rfl]
      linarith
    · rw [h2 (by linarith), eq_comm, C01_clockwise_iff le_rfl]
      linarith
  refine include_same (same_of hd.ghost ?_ ho' ?_) hs hc hd hn ho hf hm hS
  · intro a b ha hb hga hgb
    have hz : ∀ x : K, approxEqRounded rnd eps x x = true := by
      intro x
      unfold approxEqRounded
      rw [decide_eq_true_iff, sub_self]
      have := h.error 0
      rw [sub_zero, abs_zero, max_eq_right h.s_nonneg] at this
      exact this.trans hus
    have hfar : ∀ x y : K, 2 * eps + s < |x - y| → approxEqRounded rnd eps x y = false := by
      intro x y hxy
      unfold approxEqRounded
      rw [decide_eq_false_iff_not, not_le]
      have h1 := h.error (x - y)
      rw [max_eq_left (by linarith [h.s_nonneg])] at h1
      have h2 : |x - y| - |rnd (x - y)| ≤ |rnd (x - y) - (x - y)| := by
        rw [abs_sub_comm (rnd _)]; exact abs_sub_abs_le_abs_sub _ _
      have h3 : u * |x - y| ≤ 1 / 1000 * |x - y| := mul_le_mul_of_nonneg_right hu (abs_nonneg _)
      linarith [h.s_nonneg]
    by_cases hab : a = b
    · subst hab
      unfold Vertex.eqvRounded Vertex.eqv
      rw [hz, hz, approxEq_zero_eps_self, approxEq_zero_eps_self]
    · have hne : Vertex.eqv 0 a b = false := by
        rw [← Bool.not_eq_true, eqv_zero hga hgb]
        rintro ⟨e1, e2⟩
        rcases hpoint a b ha hb hab with k | k
        · rw [e1, sub_self, abs_zero] at k; linarith [h.s_nonneg]
        · rw [e2, sub_self, abs_zero] at k; linarith [h.s_nonneg]
      rw [hne]
      unfold Vertex.eqvRounded
      rcases hpoint a b ha hb hab with k | k
      · simp [hfar _ _ k, hga]
      · simp [hfar _ _ k, hga]
  · intro a b c d ha hb hc hd hda hdb hdc hccw
    obtain ⟨o, hoe⟩ := center_of hccw.ne'
    have hl := hcircle o a b c d ha hb hc hd hda hdb hdc hccw hoe
    obtain ⟨h1, h2, -⟩ := C86_circle h hu he hR hs1 hsR (hsize a ha) (hsize b hb) (hsize c hc) (hsize d hd) hoe
    have hm : 0 ≤ 6400 * u * R ^ 4 := mul_nonneg (mul_nonneg (by norm_num) h.u_nonneg) (by positivity)
    rcases lt_abs.1 hl with k | k
    · refine iff_of_true (h1 k) (continence_inside.2 ?_)
      rw [circleDet_eq hoe]
      linarith
    · refine iff_of_false (by rw [h2 (by linarith)]; simp) (fun hx => ?_)
      rw [continence_inside, circleDet_eq hoe] at hx
      linarith

end

/-! ## The format `f64` and integer coordinates -/

/-- Both coordinates are integers up to 1000. -/
def SmallInteger (v : Vertex ℚ) : Prop := ∃ x y : ℤ, |x| ≤ 1000 ∧ |y| ≤ 1000 ∧ v = lattice x y

theorem SmallInteger.real {v : Vertex ℚ} (h : SmallInteger v) : v.isGhost = false := by
  obtain ⟨x, y, -, -, rfl⟩ := h; rfl

theorem SmallInteger.grid {v : Vertex ℚ} (h : SmallInteger v) : VertexOnGrid 0 v := by
  obtain ⟨x, y, hx, hy, rfl⟩ := h
  exact ⟨⟨x, hx.trans (by norm_num), by simp [lattice, Vertex.mk']⟩, ⟨y, hy.trans (by norm_num), by simp [lattice, Vertex.mk']⟩⟩

theorem approxEq_int (n : ℤ) : approxEq (1 / 10 ^ 14 : ℚ) n 0 = approxEq 0 (n : ℚ) 0 := by
  unfold approxEq
  rw [sub_zero]
  refine decide_eq_decide.2 ⟨fun h => ?_, fun h => h.trans (by norm_num)⟩
  have h1 : |(n : ℚ)| < 1 := lt_of_le_of_lt h (by norm_num)
  have h2 : |n| < 1 := by exact_mod_cast h1
  rw [Int.abs_lt_one_iff.1 h2]
  simp

/-- The exact tests of `same_of`, for integers: the tolerance makes no difference. -/
theorem same_integers {g : Vertex ℚ} (hg : g.isGhost = true) {S : Vertex ℚ → Prop} (hS : ∀ v, S v → SmallInteger v)
    (h4 : NoFourOnCircle S) : Same (geoPredsRounded roundF64 (1 / 10 ^ 14)) g S := by
  refine same_of hg ?_ ?_ ?_
  · intro a b ha hb _ _
    rw [eqvRounded_grid (e := 0) (by norm_num) (hS a ha).grid (hS b hb).grid]
    obtain ⟨x, y, -, -, rfl⟩ := hS a ha
    obtain ⟨x', y', -, -, rfl⟩ := hS b hb
    have k : ∀ n m : ℤ, approxEq (1 / 10 ^ 14 : ℚ) n m = approxEq 0 (n : ℚ) m := by
      intro n m
      have := approxEq_int (n - m)
      unfold approxEq at this ⊢
      push_cast at this
      simpa using this
    simp only [Vertex.eqv, lattice, Vertex.mk', k]
    rfl
  · intro a b c ha hb hc _ _ _
    rw [VertexOnGrid.orientation (e := 0) (by norm_num) (hS a ha).grid (hS b hb).grid (hS c hc).grid]
    obtain ⟨x, y, -, -, rfl⟩ := hS a ha
    obtain ⟨x', y', -, -, rfl⟩ := hS b hb
    obtain ⟨x'', y'', -, -, rfl⟩ := hS c hc
    have e : orientDet (lattice x y) (lattice x' y') (lattice x'' y'') =
        (((x' - x) * (y'' - y) - (y' - y) * (x'' - x) : ℤ) : ℚ) := by
      rw [orientDet_eq]
      simp only [cross, lattice, Vertex.mk']
      push_cast; ring
    unfold orientation
    rw [e, approxEq_int]
  · intro a b c d ha hb hc hd hda hdb hdc hccw
    obtain ⟨o, hoe⟩ := center_of hccw.ne'
    obtain ⟨x, y, hx, hy, ea⟩ := hS a ha
    obtain ⟨x', y', hx', hy', eb⟩ := hS b hb
    obtain ⟨x'', y'', hx'', hy'', ec⟩ := hS c hc
    obtain ⟨x3, y3, hx3, hy3, ed⟩ := hS d hd
    obtain ⟨h1, h2⟩ := C86_integers (x := ![x, x', x'', x3]) (y := ![y, y', y'', y3])
      (by intro i; fin_cases i; exacts [⟨hx, hy⟩, ⟨hx', hy'⟩, ⟨hx'', hy''⟩, ⟨hx3, hy3⟩]) ea eb ec ed hccw hoe
    rw [continence_inside, circleDet_eq hoe]
    have hab : a ≠ b := by rintro rfl; simp [cross] at hccw
    have hac : a ≠ c := by rintro rfl; simp [cross] at hccw
    have hbc : b ≠ c := by rintro rfl; simp only [cross] at hccw; ring_nf at hccw; simp at hccw
    have hne : dist2 o a ≠ dist2 o d := fun k =>
      h4 o a b c d ha hb hc hd hab hac hda.symm hbc hdb.symm hdc.symm ⟨hoe.1, hoe.2, k⟩
    rcases lt_or_gt_of_ne hne with k | k
    · refine iff_of_false (by rw [h2 k]; simp) ?_
      nlinarith
    · exact iff_of_true (h1 k) (mul_pos hccw (sub_pos.2 k))

/-- C87 for the numbers of the program: vertices with integer coordinates up to 1000, no four of them on a circle, are inserted
in a Delaunay mesh of such vertices. In `f64` and with the tolerance `1e-14` of the code the outcome is, triangle by
triangle, that of exact arithmetic without tolerance, for every order of the hash tables. -/
theorem C87_integers {S : Vertex ℚ → Prop} (hI : ∀ v, S v → SmallInteger v) (h4 : NoFourOnCircle S) {f fuel : Nat}
    {σ : Sched} {g : Vertex ℚ} {m : Mesh (Vertex ℚ)} {vs : List (Vertex ℚ)}
    (hs : AdjSound m) (hc : AdjComplete m) (hd : Delaunay g m.tris) (hn : vs.Nodup)
    (hf : 2 * (m.tris.length + 2 * vs.length) + 3 ≤ fuel) (hm : ∀ p, VertexOf m.tris p → S p) (hS : ∀ w ∈ vs, S w) :
    includeVertices (geoPredsRounded roundF64 (1 / 10 ^ 14)) [] fuel σ m vs =
      includeVertices (geoPreds 0 f none []) [] fuel σ m vs :=
  include_same (same_integers hd.ghost hI h4) hs hc hd hn (fun w hw => (hI w (hS w hw)).real) hf hm hS

/-- C87: so in `f64` too such vertices are inserted without a panic and without an endless loop, and the mesh remains a
Delaunay mesh. -/
theorem C87_delaunay {S : Vertex ℚ → Prop} (hI : ∀ v, S v → SmallInteger v) (h4 : NoFourOnCircle S) {fuel : Nat}
    {σ : Sched} {g : Vertex ℚ} {m : Mesh (Vertex ℚ)} {vs : List (Vertex ℚ)}
    (hs : AdjSound m) (hc : AdjComplete m) (hd : Delaunay g m.tris) (hn : vs.Nodup)
    (hf : 2 * (m.tris.length + 2 * vs.length) + 3 ≤ fuel) (hm : ∀ p, VertexOf m.tris p → S p) (hS : ∀ w ∈ vs, S w) :
    ∃ r, includeVertices (geoPredsRounded roundF64 (1 / 10 ^ 14)) [] fuel σ m vs = .ok r ∧
      Delaunay g r.mesh.tris ∧ AdjSound r.mesh ∧ AdjComplete r.mesh ∧
      ((∃ t ∈ m.tris, Face t) → ∃ t ∈ r.mesh.tris, Face t) := by
  rw [C87_integers (f := 0) hI h4 hs hc hd hn hf hm hS]
  exact C19_delaunay hs hc hd hn (fun w hw => (hI w (hS w hw)).real) hf

/-- Outlines: triangulating the outline with these tests is the same as triangulating it with the exact ones. -/
theorem outline_same {fuel : Nat} {σ : Sched} {b : Polyline (Vertex ℚ)} (hs : SimplePolygon b.vertices) (hI : ∀ v ∈ b.vertices, SmallInteger v)
    (h4 : NoFourOnCircle (· ∈ b.vertices)) (hf : 4 * b.vertices.length + 7 ≤ fuel) :
    (Triangulator.new b).triangulate 0 fuel σ =
      (meshOutlineRounded roundF64 (1 / 10 ^ 14) fuel σ b).bind fun m => .ok ⟨m, b, [], [], []⟩ := by
  obtain ⟨v1, v2, rest, hl⟩ := two_vertices b
  rw [triangulate_new hl]
  unfold meshOutlineRounded
  rw [hl]
  simp only
  have h12 := first_side hl
  obtain ⟨m1, m2⟩ := mem_pairs h12
  have hne : v1 ≠ v2 := by
    rintro rfl
    exact hs.proper _ h12 ⟨rfl, rfl⟩
  have hd := C19_segment (g := (Vertex.ghost : Vertex ℚ)) rfl (hI v1 m1).real (hI v2 m2).real hne
  have hlen : (Mesh.fromInitialSegment Vertex.ghost v1 v2).tris.length ≤ 2 := by
    simp [Mesh.fromInitialSegment, Mesh.add, Mesh.include, Mesh.empty, hne.symm]
  have hcomp : AdjComplete (Mesh.fromInitialSegment Vertex.ghost v1 v2) := by
    refine adjComplete_add (adjComplete_add adjComplete_empty ?_) hd.simple.edgeDisjoint
    intro t ht s hs e h1 h2
    simp [Mesh.add, Mesh.include, Mesh.empty] at ht hs
    rw [ht, hs]
  unfold includeBoundary
  rw [C87_integers (f := fuel) hI h4 (fromInitialSegment_sound _ _ _) hcomp hd (simplePolygon_nodup hs) (by omega) ?_
    fun w hw => hw]
  rintro p ⟨⟨t, ht, hc⟩, hp2⟩
  have : p = v1 ∨ p = v2 := by
    have hg : (Vertex.ghost : Vertex ℚ).isGhost = true := rfl
    rcases (by simpa [Mesh.fromInitialSegment, mem_add, Mesh.empty] using ht :
      t = ⟨v2, v1, Vertex.ghost⟩ ∨ t = ⟨v1, v2, Vertex.ghost⟩) with rfl | rfl <;> rcases hc with h | h | h <;> simp_all
  rcases this with rfl | rfl
  · exact m1
  · exact m2

/-- C87, outlines: a simple polygon with integer coordinates up to 1000, no four corners of which are on a circle, and whose
sides all appear among the edges when it is triangulated exactly (for convex polygons see `C87_convex`). Its triangulation in `f64`
is the one of exact arithmetic, hence a proper triangulation of the polygon with the Delaunay property. -/
theorem C87_outline {b : Polyline (Vertex ℚ)} (hb : b.opened = false) (hs : SimplePolygon b.vertices)
    (ha : 0 < shoelace b.vertices) (hI : ∀ v ∈ b.vertices, SmallInteger v) (h4 : NoFourOnCircle (· ∈ b.vertices))
    (hin : SidesAppear b) : ∃ n, ∀ fuel, n ≤ fuel → ∀ σ, ∃ m,
      meshOutlineRounded roundF64 (1 / 10 ^ 14) fuel σ b = .ok m ∧ Proper b m := by
  have hreal : ∀ v ∈ b.vertices, v.isGhost = false := fun v hv => (hI v hv).real
  obtain ⟨n, hn⟩ := (bare_new b).returns hb hs ha hreal hin
  refine ⟨max n (4 * b.vertices.length + 7), fun fuel hf σ => ?_⟩
  obtain ⟨T, hT⟩ := hn fuel ((le_max_left _ _).trans hf) σ
  have h0 := hT
  rw [outline_same hs hI h4 ((le_max_right _ _).trans hf), Res.bind_eq_ok] at h0
  obtain ⟨m, hm, e⟩ := h0
  simp only [Res.ok.injEq] at e
  refine ⟨m, hm, ?_⟩
  have := (bare_new b).triangulate hb hs ha hreal hT (hin _ _ _ hT) hT
  have hp := this.1.proper this.2
  rw [← e] at hp
  exact hp

/-- C87, convex outlines: nothing is assumed of the sides. -/
theorem C87_convex {b : Polyline (Vertex ℚ)} (hb : b.opened = false) (hc : StrictlyConvex b.vertices)
    (h3 : 3 ≤ b.vertices.length) (hI : ∀ v ∈ b.vertices, SmallInteger v) (h4 : NoFourOnCircle (· ∈ b.vertices)) :
    ∃ n, ∀ fuel, n ≤ fuel → ∀ σ, ∃ m,
      meshOutlineRounded roundF64 (1 / 10 ^ 14) fuel σ b = .ok m ∧ Proper b m :=
  C87_outline hb (hc.simple h3) (hc.area h3) hI h4 (sidesAppear_convex hb hc h3 fun v hv => (hI v hv).real)

/-- C87: in `f64` too, the triangulation of such a polygon does not depend on the order of the hash tables. -/
theorem C87_order {b : Polyline (Vertex ℚ)} (hb : b.opened = false) (hs : SimplePolygon b.vertices)
    (ha : 0 < shoelace b.vertices) (hI : ∀ v ∈ b.vertices, SmallInteger v) (h4 : NoFourOnCircle (· ∈ b.vertices))
    (hin : SidesAppear b) {fuel fuel' : Nat} (hf : 4 * b.vertices.length + 7 ≤ fuel) (hf' : 4 * b.vertices.length + 7 ≤ fuel')
    {σ σ' : Sched} {m m' : Mesh (Vertex ℚ)} (h : meshOutlineRounded roundF64 (1 / 10 ^ 14) fuel σ b = .ok m)
    (h' : meshOutlineRounded roundF64 (1 / 10 ^ 14) fuel' σ' b = .ok m') : SameFaces m.tris m'.tris :=
  C72_polygon_partial hb hs ha (fun v hv => (hI v hv).real) hin h4
    (by rw [outline_same hs hI h4 hf, h]; rfl) (by rw [outline_same hs hI h4 hf', h']; rfl)

/-! ## Points on a circle -/

/-- Some order of the hash tables. -/
def shuffled : Sched := fun p =>
  (p.foldl (fun h k => (h * 1103515245 + k * 7919 + 12345) % 4294967296) (3 * 2654435761 + 17)) / 65536

/-- Some triangle of the outcome is clockwise. -/
def upsideDown (r : Res (SolveState (Vertex ℚ))) : Bool :=
  match r with
  | .ok s => s.mesh.tris.any fun t => !t.isGhost Vertex.isGhost && decide (cross t.v1 t.v2 t.v3 < 0)
  | _ => false

/-- C87 fails on circles: six more integer points are inserted in the mesh of the segment from (2, 1) to (10, 10); seven of
the eight points are on the circle with centre (5, 5) and radius 5. In exact arithmetic the outcome is a Delaunay mesh, for
every order of the hash tables (`C19_from_segment`). In `f64`, for some order, the outcome has a clockwise triangle: the mesh
overlaps itself. -/
theorem C87_false : ∃ (σ : Sched) (a b : Vertex ℚ) (vs : List (Vertex ℚ)) (r : SolveState (Vertex ℚ)),
    a = lattice 2 1 ∧ b = lattice 10 10 ∧
    vs = [lattice 8 9, lattice 5 10, lattice 10 5, lattice 9 2, lattice 0 5, lattice 5 0] ∧
    includeVertices (geoPredsRounded roundF64 (1 / 10 ^ 14)) [] 80 σ (Mesh.fromInitialSegment Vertex.ghost a b) vs = .ok r ∧
    (∃ t ∈ r.mesh.tris, ¬ HasGhost t ∧ cross t.v1 t.v2 t.v3 < 0) ∧ ¬ Delaunay Vertex.ghost r.mesh.tris ∧
    ∃ r', includeVertices (geoPreds 0 0 none []) [] 80 σ (Mesh.fromInitialSegment Vertex.ghost a b) vs = .ok r' ∧
      Delaunay Vertex.ghost r'.mesh.tris := by
  let vs := [lattice 8 9, lattice 5 10, lattice 10 5, lattice 9 2, lattice 0 5, lattice 5 0]
  have h : upsideDown (includeVertices (geoPredsRounded roundF64 (1 / 10 ^ 14)) [] 80 shuffled
    (Mesh.fromInitialSegment Vertex.ghost (lattice 2 1) (lattice 10 10)) vs) = true := by decide +kernel
  cases hr : includeVertices (geoPredsRounded roundF64 (1 / 10 ^ 14)) [] 80 shuffled
    (Mesh.fromInitialSegment Vertex.ghost (lattice 2 1) (lattice 10 10)) vs with
  | panic => rw [hr] at h; cases h
  | diverged => rw [hr] at h; cases h
  | ok r =>
    rw [hr] at h
    simp only [upsideDown, List.any_eq_true, Bool.and_eq_true, Bool.not_eq_true', decide_eq_true_eq] at h
    obtain ⟨t, ht, hg, hc⟩ := h
    have hg' : ¬ HasGhost t := by
      unfold Tri.isGhost at hg
      simp only [Bool.or_eq_false_iff] at hg
      rintro (k | k | k) <;> simp_all
    obtain ⟨r', hr', hd', -⟩ := C19_from_segment (f := 0) (fuel := 80) (σ := shuffled) (g := (Vertex.ghost : Vertex ℚ))
      (a := lattice 2 1) (b := lattice 10 10) (vs := vs) rfl rfl rfl (by decide +kernel) (by decide +kernel)
      (by decide +kernel) (by decide +kernel)
    refine ⟨shuffled, _, _, vs, r, rfl, rfl, rfl, hr, ⟨t, ht, hg', hc⟩, fun hd => ?_, r', hr', hd'⟩
    rcases hd.shape t ht with k | k
    · exact absurd k.2.2.2 (not_lt.2 hc.le)
    · exact hg' (Or.inr (Or.inr (by rw [k.2.2.2]; rfl)))

/-! ## Examples -/

namespace RoundedMeshExample

/-- A convex pentagon. -/
def corners : List (Vertex ℚ) := [lattice 0 0, lattice 900 100, lattice 1000 700, lattice 400 999, lattice (-50) 600]

def pentagon : Polyline (Vertex ℚ) := ⟨corners, false, by decide⟩

theorem corners_general : NoFourOnCircle (· ∈ corners) := noFour_of_check (by decide +kernel)

theorem corners_integer : ∀ v ∈ corners, SmallInteger v := by
  simp only [corners, List.mem_cons, List.not_mem_nil, or_false, forall_eq_or_imp, forall_eq]
  exact ⟨⟨_, _, by decide, by decide, rfl⟩, ⟨_, _, by decide, by decide, rfl⟩, ⟨_, _, by decide, by decide, rfl⟩,
    ⟨_, _, by decide, by decide, rfl⟩, ⟨_, _, by decide, by decide, rfl⟩⟩

/-- `C87_convex` applies to the pentagon. -/
example : ∃ n, ∀ fuel, n ≤ fuel → ∀ σ, ∃ m,
    meshOutlineRounded roundF64 (1 / 10 ^ 14) fuel σ pentagon = .ok m ∧ Proper pentagon m :=
  C87_convex rfl (strictlyConvex_of_check (by decide +kernel)) (by decide) corners_integer corners_general

/-- The computed determinants are not all exact here. -/
example : circleDetRounded roundF64 (lattice 0 0) (lattice 900 100) (lattice 1000 700) (lattice 400 999) ≠
    circleDet (lattice 0 0) (lattice 900 100) (lattice 1000 700) (lattice 400 999) := by decide +kernel

/-- Points of the unit square. -/
def square : List (Vertex ℚ) :=
  [Vertex.mk' 0 0, Vertex.mk' 1 (1 / 10), Vertex.mk' (9 / 10) 1, Vertex.mk' (1 / 5) (4 / 5), Vertex.mk' (1 / 2) (1 / 3)]

/-- `C87_margin` applies to these points, in `f64`. -/
example (σ : Sched) : includeVertices (geoPredsRounded roundF64 (1 / 10 ^ 14)) [] 19 σ
      (Mesh.fromInitialSegment Vertex.ghost (Vertex.mk' 0 0) (Vertex.mk' 1 (1 / 10))) (square.drop 2) =
    includeVertices (geoPreds 0 0 none []) [] 19 σ
      (Mesh.fromInitialSegment Vertex.ghost (Vertex.mk' 0 0) (Vertex.mk' 1 (1 / 10))) (square.drop 2) := by
  have hs : (2 : ℚ) ^ (-1022 : ℤ) ≤ 2 ^ (-53 : ℤ) := zpow_le_zpow_right₀ (by norm_num) (by norm_num)
  have hs0 : (0 : ℚ) ≤ 2 ^ (-1022 : ℤ) := (zpow_pos (by norm_num) _).le
  obtain ⟨s, hse⟩ : ∃ s : ℚ, s = 2 ^ (-1022 : ℤ) := ⟨_, rfl⟩
  have hr := rounds_f64
  rw [← hse] at hs hs0 hr
  have hd := C19_segment (g := (Vertex.ghost : Vertex ℚ)) (a := Vertex.mk' 0 0) (b := Vertex.mk' 1 (1 / 10)) rfl rfl rfl
    (by decide +kernel)
  refine C87_margin (S := (· ∈ square)) (R := 1) hr (by norm_num) ?_ le_rfl (hs.trans (by norm_num))
    (by rw [one_pow, mul_one]; exact hs.trans (by norm_num)) (by decide +kernel) ?_ ?_ ?_
    (fromInitialSegment_sound _ _ _) ?_ hd (by decide +kernel) (by decide +kernel) (by decide +kernel) ?_ (by decide +kernel)
  · calc (1 / 2 ^ 53 : ℚ) * s ≤ 1 / 2 ^ 53 * 1 := by
          refine mul_le_mul_of_nonneg_left (hs.trans (by norm_num)) (by norm_num)
      _ ≤ 1 / 10 ^ 14 := by norm_num
  · have h : ∀ a ∈ square, ∀ b ∈ square, a ≠ b →
        2 * (1 / 10 ^ 14 : ℚ) + 2 ^ (-53 : ℤ) < |a.x - b.x| ∨ 2 * (1 / 10 ^ 14 : ℚ) + 2 ^ (-53 : ℤ) < |a.y - b.y| := by
      decide +kernel
    intro a b ha hb hab
    exact (h a ha b hb hab).imp (lt_of_le_of_lt (add_le_add_right hs _)) (lt_of_le_of_lt (add_le_add_right hs _))
  · have h : ∀ a ∈ square, ∀ b ∈ square, ∀ c ∈ square, a ≠ b → a ≠ c → b ≠ c →
        1 / 10 ^ 14 + 24 * (1 / 2 ^ 53) * 1 ^ 2 < |cross a b c| := by decide +kernel
    exact fun a b c ha hb hc => h a ha b hb c hc
  · have h : ∀ a ∈ square, ∀ b ∈ square, ∀ c ∈ square, ∀ d ∈ square, d ≠ a → d ≠ b → d ≠ c → 0 < cross a b c →
        1 / 10 ^ 14 + 6400 * (1 / 2 ^ 53) * 1 ^ 4 < |circleDet a b c d| := by decide +kernel
    intro o a b c d ha hb hc hd h1 h2 h3 h4 ho
    rw [← circleDet_eq ho]
    exact h a ha b hb c hc d hd h1 h2 h3 h4
  · refine adjComplete_add (adjComplete_add adjComplete_empty ?_) hd.simple.edgeDisjoint
    intro t ht s hs e h1 h2
    simp [Mesh.add, Mesh.include, Mesh.empty] at ht hs
    rw [ht, hs]
  · rintro p ⟨⟨t, ht, hc⟩, hp⟩
    have h : ∀ t ∈ (Mesh.fromInitialSegment Vertex.ghost (Vertex.mk' (0 : ℚ) 0) (Vertex.mk' 1 (1 / 10))).tris,
        ∀ p ∈ [t.v1, t.v2, t.v3], p.isGhost = false → p ∈ square := by decide +kernel
    exact h t ht p (by rcases hc with rfl | rfl | rfl <;> simp) hp

end RoundedMeshExample

end Verif.Props
