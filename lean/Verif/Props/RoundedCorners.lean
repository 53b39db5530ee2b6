import Verif.Props.RoundedSymmetry
import Verif.Props.RoundedInsert

/-!
# C93: corners, vertical sides and points beside a polygon are judged correctly in f64

`Polyline::contains` and `insert_vertices` with the rounding of `f64`. Rounding can make a point on a slanted side inside or
outside (C89), and a point outside inside (C85). It does so neither for the corners, nor for points on vertical sides, nor
for points to the left or to the right of the polygon. On horizontal sides it does.
-/

set_option linter.unusedSectionVars false

namespace Verif.Props

open Spec Polyline Triangulator

/-- The pair stops the loop of `contains`. -/
def StopsAt (eps : ℚ) (v : Vertex ℚ) (s : Vertex ℚ × Vertex ℚ) : Prop :=
  (s.1.x = s.2.x ∧ s.1.x = v.x ∧ ((s.1.y ≤ v.y ∧ v.y ≤ s.2.y) ∨ (s.2.y ≤ v.y ∧ v.y ≤ s.1.y))) ∨
  (s.1.x ≠ s.2.x ∧ ¬ ((s.1.x < v.x ∧ s.2.x < v.x) ∨ (s.1.x > v.x ∧ s.2.x > v.x)) ∧
    orientationRounded roundF64 eps s.1 s.2 v = .colinear)

theorem containsLoop_stops {eps : ℚ} {v : Vertex ℚ} {s : Vertex ℚ × Vertex ℚ} (h : StopsAt eps v s) :
    ∀ {l : List (Vertex ℚ × Vertex ℚ)} {n : Int}, s ∈ l → containsLoopRounded roundF64 eps v l n = .boundary := by
  intro l
  induction l with
  | nil => intro n hs; cases hs
  | cons p rest ih =>
    intro n hs
    obtain ⟨p1, p2⟩ := p
    rcases List.mem_cons.1 hs with rfl | hs
    · rw [containsLoopRounded]
      rcases h with ⟨h1, h2, h3⟩ | ⟨h1, h2, h3⟩
      · rw [if_pos h1, if_pos ⟨h2, h3⟩]
      · rw [if_neg h1, if_neg h2, h3]
    · rw [containsLoopRounded]
      split_ifs
      · rfl
      · exact ih hs
      · exact ih hs
      all_goals
        split
        · rfl
        all_goals exact ih hs

theorem containsLoop_beside {eps : ℚ} {v : Vertex ℚ} :
    ∀ {l : List (Vertex ℚ × Vertex ℚ)}, (∀ s ∈ l, (s.1.x < v.x ∧ s.2.x < v.x) ∨ (s.1.x > v.x ∧ s.2.x > v.x)) →
    containsLoopRounded roundF64 eps v l 0 = .outside := by
  intro l
  induction l with
  | nil => intro _; simp [containsLoopRounded]
  | cons p rest ih =>
    intro h
    obtain ⟨p1, p2⟩ := p
    have hp := h _ List.mem_cons_self
    have hr := ih fun s hs => h s (List.mem_cons_of_mem _ hs)
    rw [containsLoopRounded]
    split_ifs with k1 k2
    · exfalso
      rcases hp with ⟨k, -⟩ | ⟨k, -⟩
      · exact absurd k2.1 (ne_of_lt k)
      · exact absurd k2.1 (ne_of_gt k)
    · exact hr
    · exact hr

theorem corner_pair {V : Type*} : ∀ {l : List V} {a v : V}, v ∈ l → ∃ u, (u, v) ∈ consecutivePairs (a :: l) := by
  intro l
  induction l with
  | nil => intro a v h; cases h
  | cons b rest ih =>
    intro a v h
    rcases List.mem_cons.1 h with rfl | h
    · exact ⟨a, by simp [consecutivePairs]⟩
    · obtain ⟨u, hu⟩ := ih (a := b) h
      exact ⟨u, by simp [consecutivePairs, hu]⟩

theorem corner_pairs {V : Type*} {l : List V} {v : V} (h : v ∈ l) : ∃ u, (u, v) ∈ pairs l false := by
  cases l with
  | nil => cases h
  | cons a rest =>
    rcases List.mem_cons.1 h with rfl | h
    · have hne : (v :: rest) ≠ [] := List.cons_ne_nil _ _
      refine ⟨(v :: rest).getLast hne, ?_⟩
      simp [pairs, List.getLast?_eq_some_getLast hne]
    · obtain ⟨u, hu⟩ := corner_pair (a := a) h
      exact ⟨u, by simp [pairs, hu]⟩

section

variable {eps : ℚ} {p : Polyline (Vertex ℚ)} {v : Vertex ℚ}

/-- C93: in `f64` every corner of a closed polyline is judged to be on it. -/
theorem C93_corner (he : 0 ≤ eps) (hp : p.opened = false) (hv : v ∈ p.vertices) :
    p.containsRounded roundF64 eps v = some .boundary := by
  obtain ⟨u, hu⟩ := corner_pairs hv
  unfold containsRounded
  rw [hp, if_neg Bool.false_ne_true]
  refine congrArg some (containsLoop_stops (s := (u, v)) ?_ hu)
  by_cases hx : u.x = v.x
  · exact Or.inl ⟨hx, hx, by
      rcases le_total u.y v.y with k | k
      · exact Or.inl ⟨k, le_refl _⟩
      · exact Or.inr ⟨le_refl _, k⟩⟩
  · exact Or.inr ⟨hx, by
      rintro (⟨-, k⟩ | ⟨-, k⟩)
      · exact lt_irrefl _ k
      · exact lt_irrefl _ k, C92_repeated he u v⟩

/-- C93: in `f64` every point of a vertical side of a closed polyline is judged to be on it. -/
theorem C93_vertical (hp : p.opened = false) {a b : Vertex ℚ} (hs : (a, b) ∈ pairs p.vertices false) (hx : a.x = b.x)
    (hv : OnSegment a b v) : p.containsRounded roundF64 eps v = some .boundary := by
  unfold containsRounded
  rw [hp, if_neg Bool.false_ne_true]
  refine congrArg some (containsLoop_stops (s := (a, b)) ?_ hs)
  obtain ⟨t, t0, t1, k1, k2⟩ := hv
  refine Or.inl ⟨hx, ?_, ?_⟩
  · show a.x = v.x
    rw [k1, ← hx]
    ring
  · show (a.y ≤ v.y ∧ v.y ≤ b.y) ∨ (b.y ≤ v.y ∧ v.y ≤ a.y)
    rw [k2]
    rcases le_total a.y b.y with k | k
    · exact Or.inl ⟨by nlinarith, by nlinarith⟩
    · exact Or.inr ⟨by nlinarith, by nlinarith⟩

/-- C93: in `f64` every point to the left of all corners, or to the right of all corners, is judged outside. -/
theorem C93_beside (hp : p.opened = false) (hv : (∀ w ∈ p.vertices, v.x < w.x) ∨ ∀ w ∈ p.vertices, w.x < v.x) :
    p.containsRounded roundF64 eps v = some .outside := by
  unfold containsRounded
  rw [hp, if_neg Bool.false_ne_true]
  refine congrArg some (containsLoop_beside fun s hs => ?_)
  have hm := mem_pairs hs
  rcases hv with k | k
  · exact Or.inr ⟨k _ hm.1, k _ hm.2⟩
  · exact Or.inl ⟨k _ hm.1, k _ hm.2⟩

/-- C93: in `f64` `insert_vertices` refuses every set of vertices with a corner of the boundary, a corner of a hole, a point
of a vertical side of either, or a point to the left or right of the boundary; that vertex is named in the error, and the
triangulator is as before. -/
theorem C93_insert (he : 0 ≤ eps) {T : Triangulator ℚ} (hb : T.boundary.opened = false) (hh : ∀ h ∈ T.holes, h.opened = false)
    {vs : List (Vertex ℚ)} (hv : v ∈ vs)
    (hc : (∃ q ∈ T.boundary :: T.holes, v ∈ q.vertices ∨
        ∃ a b, (a, b) ∈ pairs q.vertices false ∧ a.x = b.x ∧ OnSegment a b v) ∨
      (∀ w ∈ T.boundary.vertices, v.x < w.x) ∨ ∀ w ∈ T.boundary.vertices, w.x < v.x) (σ : Sched) :
    ∃ bad, insertVerticesRounded roundF64 eps σ T vs = .err T bad ∧ v ∈ bad := by
  have hr : vertexRejectedRounded roundF64 eps T v = true := by
    unfold vertexRejectedRounded
    rw [Bool.or_eq_true, decide_eq_true_iff, List.any_eq_true]
    have on : ∀ q : Polyline (Vertex ℚ), q.opened = false → (v ∈ q.vertices ∨
        ∃ a b, (a, b) ∈ pairs q.vertices false ∧ a.x = b.x ∧ OnSegment a b v) →
        q.containsRounded roundF64 eps v = some .boundary := by
      rintro q hq (k | ⟨a, b, k1, k2, k3⟩)
      · exact C93_corner he hq k
      · exact C93_vertical hq k1 k2 k3
    rcases hc with ⟨q, hq, k⟩ | k
    · rcases List.mem_cons.1 hq with rfl | hq
      · exact Or.inl (by rw [on _ hb k]; simp)
      · exact Or.inr ⟨q, hq, by rw [on _ (hh q hq) k]; simp⟩
    · exact Or.inl (by rw [C93_beside hb k]; simp)
  have hm : v ∈ vs.filter (vertexRejectedRounded roundF64 eps T) := List.mem_filter.2 ⟨hv, hr⟩
  refine ⟨_, ?_, hm⟩
  unfold insertVerticesRounded
  exact if_pos (List.ne_nil_of_mem hm)

end

/-- A triangle with a vertical side, with decimal coordinates that round. -/
def uprightTriangle : Polyline (Vertex ℚ) :=
  ⟨[hundredths 610 820, hundredths 110 570, hundredths 610 110], false, by simp⟩

/-- C93_corner is not trivial: the first side of this triangle, asked alone, does not contain its first end (the triangle has
the edge of C92_first_end_false), but the triangle has it as a corner. The hypotheses of C93_insert are met by a corner, by a
point of the vertical side and by a point on the right. -/
example : hundredths 610 820 ∈ uprightTriangle.vertices ∧
    Edge.containsRounded roundF64 (1 / 10 ^ 14) ⟨hundredths 610 820, hundredths 110 570⟩ (hundredths 610 820) = false ∧
    uprightTriangle.containsRounded roundF64 (1 / 10 ^ 14) (hundredths 610 820) = some .boundary ∧
    (∃ a b, (a, b) ∈ pairs uprightTriangle.vertices false ∧ a.x = b.x ∧ OnSegment a b (Vertex.mk' a.x 3)) ∧
    (∀ w ∈ uprightTriangle.vertices, w.x < (hundredths 620 500).x) ∧
    uprightTriangle.containsRounded roundF64 (1 / 10 ^ 14) (hundredths 500 500) = some .inside := by
  refine ⟨by decide +kernel, by decide +kernel, C93_corner (by norm_num) rfl (by decide +kernel),
    ⟨hundredths 610 110, hundredths 610 820, by decide +kernel, by decide +kernel, ?_⟩, by decide +kernel, by decide +kernel⟩
  have h1 : (hundredths 610 110).y < 3 := by decide +kernel
  have h2 : 3 < (hundredths 610 820).y := by decide +kernel
  have hd : (hundredths 610 820).y - (hundredths 610 110).y ≠ 0 := by linarith
  refine ⟨(3 - (hundredths 610 110).y) / ((hundredths 610 820).y - (hundredths 610 110).y), ?_, ?_, ?_, ?_⟩
  · exact div_nonneg (by linarith) (by linarith)
  · rw [div_le_one (by linarith)]
    linarith
  · show (hundredths 610 110).x = _
    have : (hundredths 610 820).x = (hundredths 610 110).x := rfl
    rw [this]
    ring
  · show (3 : ℚ) = _
    field_simp
    ring

/-- A rectangle with sides parallel to the axes. -/
def rectangle : Polyline (Vertex ℚ) :=
  ⟨[hundredths 0 890, hundredths 600 890, hundredths 600 1390, hundredths 0 1390], false, by simp⟩

/-- For horizontal sides C93_vertical is false: the point (1.9, 8.9) is on the lower side of the rectangle from (0, 8.9) to
(6, 13.9), its ordinate is exactly that of the corners, and `insert_vertices` in `f64` accepts it as a vertex inside. In exact
arithmetic it is refused. -/
theorem C93_horizontal_false (σ : Sched) : ∃ (a b v : Vertex ℚ) (T' : Triangulator ℚ), a = hundredths 0 890 ∧
    b = hundredths 600 890 ∧ v = hundredths 190 890 ∧ (a, b) ∈ pairs rectangle.vertices false ∧ a.y = v.y ∧ b.y = v.y ∧
    OnSegment a b v ∧
    insertVerticesRounded roundF64 (1 / 10 ^ 14) σ (Triangulator.new rectangle) [v] = .ok T' ∧ v ∈ T'.vertices ∧
    insertVertices (1 / 10 ^ 14) σ (Triangulator.new rectangle) [v] = .err (Triangulator.new rectangle) [v] := by
  have hr : [hundredths 190 890].filter
      (vertexRejectedRounded roundF64 (1 / 10 ^ 14) (Triangulator.new rectangle)) = [] := by decide +kernel
  have hx : [hundredths 190 890].filter (vertexRejected (1 / 10 ^ 14) (Triangulator.new rectangle)) =
      [hundredths 190 890] := by decide +kernel
  refine ⟨_, _, _, insertVerticesLoopRounded roundF64 (1 / 10 ^ 14) (σ.sub 1)
    (shuffle (σ.sub 0) [hundredths 190 890]) (Triangulator.new rectangle), rfl, rfl, rfl, by decide +kernel, rfl, rfl,
    ⟨(hundredths 190 890).x / 6, by decide +kernel, by decide +kernel, ?_, ?_⟩, ?_, ?_, ?_⟩
  · have h1 : (hundredths 0 890).x = 0 := by decide +kernel
    have h2 : (hundredths 600 890).x = 6 := by decide +kernel
    rw [h1, h2]
    ring
  · show (hundredths 190 890).y = _
    have h1 : (hundredths 0 890).y = (hundredths 190 890).y := rfl
    have h2 : (hundredths 600 890).y = (hundredths 190 890).y := rfl
    rw [h1, h2]
    ring
  · simp only [insertVerticesRounded, hr, ne_eq, not_true_eq_false, if_false]
  · have : shuffle (σ.sub 0) [hundredths 190 890] = [hundredths 190 890] := List.perm_singleton.1 (shuffle_perm _ _)
    rw [this]
    have h2 : shuffle ((σ.sub 1).sub 0) ([] : List (Edge (Vertex ℚ))) = [] := List.perm_nil.1 (shuffle_perm _ _)
    simp [insertVerticesLoopRounded, Triangulator.new, h2, placeVertexRounded]
  · simp only [insertVertices, hx, ne_eq, List.cons_ne_nil, not_false_eq_true, if_true]

end Verif.Props
