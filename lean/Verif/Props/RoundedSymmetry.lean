import Verif.Props.Predicates
import Verif.Props.Rounding
import Verif.Lemmas.SplitSingle
import Verif.Lemmas.Boxes
import Verif.Model.RoundedMesh

/-!
# C92: which symmetries of the geometric tests survive in f64

Without rounding the orientation test gives the same answer wherever one starts to list the three points and the opposite
one if two of them are exchanged (`C01_rotate`, `C01_swap`), a segment contains both of its ends, and the corners of a
triangle are on its circle. Here the tests are computed with the rounding of `f64`.
-/

set_option linter.unusedSectionVars false

namespace Verif.Props

open Spec

section

variable {eps : ℚ} {a b c : Vertex ℚ}

theorem orientDetRounded_swap (a b c : Vertex ℚ) :
    orientDetRounded roundF64 a c b = -orientDetRounded roundF64 a b c := by
  unfold orientDetRounded
  have h1 : c.y - b.y = -(b.y - c.y) := by ring
  have h2 : c.x - b.x = -(b.x - c.x) := by ring
  have h3 : roundF64 (c.x * b.y) - roundF64 (b.x * c.y) = -(roundF64 (b.x * c.y) - roundF64 (c.x * b.y)) := by ring
  have h4 : ∀ x y : ℚ, -x - -y = -(x - y) := fun x y => by ring
  have h5 : ∀ x y : ℚ, -x + -y = -(x + y) := fun x y => by ring
  simp only [h1, h2, h3, roundF64_neg, mul_neg, h4, h5]

/-- C92: in `f64` the exchange of the last two points turns the answer of the orientation test around, for all points. -/
theorem C92_swap (he : 0 ≤ eps) (a b c : Vertex ℚ) :
    orientationRounded roundF64 eps a c b = flip (orientationRounded roundF64 eps a b c) := by
  unfold orientationRounded
  rw [orientDetRounded_swap]
  generalize orientDetRounded roundF64 a b c = d
  simp only [approxEq_zero_iff, abs_neg]
  by_cases h : |d| ≤ eps
  · simp [h, flip]
  · have hd : d ≠ 0 := by rintro rfl; exact h (by simpa using he)
    rcases lt_or_gt_of_ne hd with k | k
    · have : ¬ d > 0 := by linarith
      have : -d > 0 := by linarith
      simp [*, flip]
    · have : ¬ -d > 0 := by linarith
      simp [*, flip]

/-- C92: in `f64` the exchange of the last two corners changes the sign of the area and nothing else. -/
theorem C92_area (a b c : Vertex ℚ) : areaTriangleRounded roundF64 a c b = -areaTriangleRounded roundF64 a b c := by
  unfold areaTriangleRounded
  rw [orientDetRounded_swap]
  ring

/-- C92: in `f64` three points of which the last two are the same are always reported colinear. -/
theorem C92_repeated (he : 0 ≤ eps) (a b : Vertex ℚ) : orientationRounded roundF64 eps a b b = .colinear := by
  have h := C92_swap he a b b
  cases k : orientationRounded roundF64 eps a b b <;> rw [k] at h <;> simp [flip] at h ⊢

/-- C92: in `f64` every edge contains its second end. -/
theorem C92_second_end (he : 0 ≤ eps) (e : Edge (Vertex ℚ)) : e.containsRounded roundF64 eps e.v2 = true := by
  unfold Edge.containsRounded
  rw [C92_repeated he]
  simp [BBox.fromVertices, BBox.contains, Vertex.mk', fmax_eq, fmin_eq]

/-- C92: in `f64` the test for encroachment does not depend on the direction of the segment. -/
theorem C92_encroach (a b v : Vertex ℚ) : encroachRounded roundF64 eps b a v = encroachRounded roundF64 eps a b v := by
  have h : encroachMeasureRounded roundF64 b a v = encroachMeasureRounded roundF64 a b v := by
    unfold encroachMeasureRounded
    rw [mul_comm (roundF64 (v.x - a.x)), mul_comm (roundF64 (v.y - a.y))]
  unfold encroachRounded
  rw [h]

/-- C92: in `f64` the ends of a segment never encroach it. -/
theorem C92_encroach_ends (he : 0 ≤ eps) (a b : Vertex ℚ) :
    encroachRounded roundF64 eps a b a = .boundary ∧ encroachRounded roundF64 eps a b b = .boundary := by
  have h : ∀ a b : Vertex ℚ, encroachRounded roundF64 eps a b a = .boundary := by
    intro a b
    have : encroachMeasureRounded roundF64 a b a = 0 := by
      unfold encroachMeasureRounded
      simp [roundF64_zero]
    unfold encroachRounded
    rw [this, if_pos (approxEq_zero_iff.2 (by simpa using he))]
  exact ⟨h a b, by rw [C92_encroach]; exact h b a⟩

/-- C92: on a grid of a power of two, at most `2 ^ 25` steps from the origin, the orientation test in `f64` does not depend
on the point one starts with. -/
theorem C92_grid {k : ℤ} (hk : -537 ≤ k) (ha : OnGrid k a.x ∧ OnGrid k a.y) (hb : OnGrid k b.x ∧ OnGrid k b.y)
    (hc : OnGrid k c.x ∧ OnGrid k c.y) :
    orientationRounded roundF64 eps b c a = orientationRounded roundF64 eps a b c := by
  rw [(C83_grid hk hb hc ha).1, (C83_grid hk ha hb hc).1, C01_rotate]

end

/-- A vertex as it is read from two decimal numbers, given in hundredths. -/
def hundredths (x y : ℤ) : Vertex ℚ := Vertex.mk' (roundF64 (x / 100)) (roundF64 (y / 100))

/-- In general the answer depends on the point one starts with: (8.9, 1.0), (7.0, 9.6), (7.95, 5.3) are reported
counterclockwise, (7.0, 9.6), (7.95, 5.3), (8.9, 1.0) colinear, and (7.95, 5.3), (8.9, 1.0), (7.0, 9.6) clockwise. -/
theorem C92_rotation_false : ∃ a b c : Vertex ℚ, a = hundredths 890 100 ∧ b = hundredths 700 960 ∧ c = hundredths 795 530 ∧
    orientationRounded roundF64 (1 / 10 ^ 14) a b c = .counterclockwise ∧
    orientationRounded roundF64 (1 / 10 ^ 14) b c a = .colinear ∧
    orientationRounded roundF64 (1 / 10 ^ 14) c a b = .clockwise :=
  ⟨_, _, _, rfl, rfl, rfl, by decide +kernel, by decide +kernel, by decide +kernel⟩

/-- An edge need not contain its first end: the edge from (6.1, 8.2) to (1.1, 5.7) does not. Its reverse does. -/
theorem C92_first_end_false : ∃ a b : Vertex ℚ, a = hundredths 610 820 ∧ b = hundredths 110 570 ∧
    Edge.containsRounded roundF64 (1 / 10 ^ 14) ⟨a, b⟩ a = false ∧
    Edge.containsRounded roundF64 (1 / 10 ^ 14) ⟨b, a⟩ a = true :=
  ⟨_, _, rfl, rfl, by decide +kernel, C92_second_end (by norm_num) _⟩

/-- A triangle can encircle one of its own corners, even if the coordinates are small integers: the triangle (4, 1), (5, 1),
(6, 5) is counterclockwise and (5, 1) is reported strictly inside its circle. -/
theorem C92_corner_false : ∃ a b c : Vertex ℚ, a = lattice 4 1 ∧ b = lattice 5 1 ∧ c = lattice 6 5 ∧
    orientationRounded roundF64 (1 / 10 ^ 14) a b c = .counterclockwise ∧
    Tri.encirclesRounded roundF64 (1 / 10 ^ 14) ⟨a, b, c⟩ b = .inside :=
  ⟨_, _, _, rfl, rfl, rfl, by decide +kernel, by decide +kernel⟩

/-- The hypotheses of C92_grid are met by three integer points, with the tolerance of the code. -/
example : (∀ v ∈ [lattice 4 1, lattice 5 1, lattice 6 5], OnGrid 0 v.x ∧ OnGrid 0 v.y) ∧
    orientationRounded roundF64 (1 / 10 ^ 14) (lattice 6 5) (lattice 4 1) (lattice 5 1) = .counterclockwise := by
  refine ⟨fun v hv => ?_, by decide +kernel⟩
  simp only [List.mem_cons, List.not_mem_nil, or_false] at hv
  rcases hv with rfl | rfl | rfl
  · exact ⟨⟨4, by norm_num, by simp [lattice, Vertex.mk']⟩, ⟨1, by norm_num, by simp [lattice, Vertex.mk']⟩⟩
  · exact ⟨⟨5, by norm_num, by simp [lattice, Vertex.mk']⟩, ⟨1, by norm_num, by simp [lattice, Vertex.mk']⟩⟩
  · exact ⟨⟨6, by norm_num, by simp [lattice, Vertex.mk']⟩, ⟨5, by norm_num, by simp [lattice, Vertex.mk']⟩⟩

/-- C92_swap on points that round: the answers are counterclockwise and clockwise. -/
example : orientationRounded roundF64 (1 / 10 ^ 14) (hundredths 890 100) (hundredths 700 960) (hundredths 795 530) =
      .counterclockwise ∧
    orientationRounded roundF64 (1 / 10 ^ 14) (hundredths 890 100) (hundredths 795 530) (hundredths 700 960) =
      .clockwise := ⟨by decide +kernel, by decide +kernel⟩

end Verif.Props
