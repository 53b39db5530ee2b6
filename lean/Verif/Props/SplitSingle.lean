import Verif.Props.SplitRounding
import Verif.Lemmas.SplitSingle

/-!
# C88: splitting segments in f64 for one vertex

`refine` splits the first of the segments that a rejected circumcenter encroaches with that circumcenter as the only vertex.
After that the circumcenter encroaches none of the pieces, with rounding as without it (`C29_single`).
-/

set_option linter.unusedSectionVars false

namespace Verif.Props

open Spec

section

variable {eps : ℚ} {fuel : Nat} {P : RPreds (Vertex ℚ)} {σ : Sched} {C : List (Edge (Vertex ℚ))} {m : Mesh (Vertex ℚ)}
  {e : Edge (Vertex ℚ)} {r : UnencState (Vertex ℚ)}

/-- C88: in `f64` no vertex encroaches both halves of a segment, wherever the computed midpoint lies. -/
theorem C88_halves (he : 0 ≤ eps) (h1 : F64Vertex e.v1) (h2 : F64Vertex e.v2) {v : Vertex ℚ} (hv : F64Vertex v) :
    ¬ (encroachRounded roundF64 eps e.v1 (e.midpointRounded roundF64) v = .inside ∧
      encroachRounded roundF64 eps (e.midpointRounded roundF64) e.v2 v = .inside) :=
  fun h => encroachRounded_halves he h1 h2 hv h.1 h.2

/-- C88: when one vertex is given, in `f64` it encroaches none of the returned subsegments. -/
theorem C88_single (he : 0 ≤ eps) (h1 : F64Vertex e.v1) (h2 : F64Vertex e.v2) {v : Vertex ℚ} (hv : F64Vertex v)
    (h : unencroachSegment (splitPredsRounded roundF64 eps P) fuel σ C m e [v] = .ok r) :
    ∀ f ∈ r.newEdges, encroachRounded roundF64 eps f.v1 f.v2 v ≠ .inside := by
  have hA : ∀ g : Edge (Vertex ℚ), F64Vertex g.v1 ∧ F64Vertex g.v2 →
      (F64Vertex g.v1 ∧ F64Vertex (g.midpointRounded roundF64)) ∧ F64Vertex (g.midpointRounded roundF64) ∧ F64Vertex g.v2 :=
    fun g hg => ⟨⟨hg.1, midpointRounded_f64 g⟩, midpointRounded_f64 g, hg.2⟩
  have hd : ∀ g : Edge (Vertex ℚ), F64Vertex g.v1 ∧ F64Vertex g.v2 →
      (splitPredsRounded roundF64 eps P).encroaches ⟨g.v1, g.midpointRounded roundF64⟩ v = true →
      (splitPredsRounded roundF64 eps P).encroaches ⟨g.midpointRounded roundF64, g.v2⟩ v = false := by
    rintro g ⟨g1, g2⟩ k1
    rw [← Bool.not_eq_true]
    intro k2
    have j1 := (rounded_encroaches_iff (P := P)).1 k1
    have j2 := (rounded_encroaches_iff (P := P)).1 k2
    exact C88_halves (e := g) he g1 g2 hv ⟨j1, j2⟩
  intro f hf hi
  rcases unencLoop_single_of (P := splitPredsRounded roundF64 eps P) (A := fun g => F64Vertex g.v1 ∧ F64Vertex g.v2) hA hd
    ⟨h1, h2⟩ rfl h f hf with k | k
  · exact absurd k List.not_mem_nil
  · have := (rounded_encroaches_iff (P := P)).2 hi
    rw [k] at this
    exact Bool.false_ne_true this

end

open SplitF64 in
/-- The hypotheses of C88_single are met: the vertex encroaches the side, whose computed midpoint is beside it, and one of the
halves; splitting gives three pieces. -/
example : (F64Vertex b ∧ F64Vertex a ∧ F64Vertex v) ∧ encroachRounded roundF64 eps b a v = .inside ∧
    encroachRounded roundF64 eps (Edge.midpointRounded roundF64 ⟨b, a⟩) a v = .inside ∧
    ∃ r, unencroachSegment Q 50 Sched.first [⟨b, a⟩] start ⟨b, a⟩ [v] = .ok r ∧ r.newEdges.length = 3 := by
  refine ⟨⟨⟨f64_dyadic (2 ^ 52 + 1) (-52) (by norm_num) (by norm_num) (by norm_num),
    f64_dyadic 2 0 (by norm_num) (by norm_num) (by norm_num)⟩,
    ⟨f64_dyadic 1 0 (by norm_num) (by norm_num) (by norm_num), f64_dyadic 0 0 (by norm_num) (by norm_num) (by norm_num)⟩,
    f64_dyadic 5 (-2) (by norm_num) (by norm_num) (by norm_num), f64_dyadic 1 (-1) (by norm_num) (by norm_num) (by norm_num)⟩,
    by decide +kernel, by decide +kernel, ?_⟩
  have h := pieces_eq
  unfold pieces at h
  split at h
  · rename_i r hr
    injection h with h
    exact ⟨r, hr, by rw [h]; rfl⟩
  · cases h

end Verif.Props
