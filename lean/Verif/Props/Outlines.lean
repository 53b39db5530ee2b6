import Verif.Lemmas.Pieces
import Verif.Props.Splitting
import Verif.Props.Parsing

/-!
# C32: which outlines are refused by the parser
-/

set_option linter.unusedSectionVars false

namespace Verif.Props

open Spec

variable {K : Type*} [Field K] [LinearOrder K] [IsStrictOrderedRing K]

theorem chop_length {s : Vertex K × Vertex K} {l : List (Vertex K × Vertex K)} (h : Chop s l) :
    1 ≤ l.length ∧ (l.length = 1 → l = [s]) := by
  induction h with
  | whole s => simp
  | cut _ _ _ ih1 ih2 =>
    rw [List.length_append]
    exact ⟨by omega, fun h => by omega⟩

theorem cuts_length {l r : List (Vertex K × Vertex K)} (h : Cuts l r) :
    l.length ≤ r.length ∧ (r.length = l.length → r.Perm l) := by
  obtain ⟨cs, h1, h2⟩ := h
  have key : l.length ≤ cs.flatten.length ∧ (cs.flatten.length = l.length → cs.flatten = l) := by
    clear h2
    induction h1 with
    | nil => simp
    | @cons s c l cs hc _ ih =>
      obtain ⟨k1, k2⟩ := chop_length hc
      rw [List.flatten_cons, List.length_append, List.length_cons]
      refine ⟨by omega, fun h => ?_⟩
      rw [k2 (by omega), ih.2 (by omega)]
      rfl
  rw [h2.length_eq]
  exact ⟨key.1, fun h => by rw [key.2 h] at h2; exact h2⟩

/-- Segments that meet only at ends, or are parallel, are left alone. -/
theorem split_keeps {l r : List (Vertex K × Vertex K)} (hl : ∀ s ∈ l, Solid s)
    (hm : ∀ s ∈ l, ∀ t ∈ l, MeetAtEnds s t) {fuel : Nat} (h : splitIntersections 0 fuel l = .ok r) : r.Perm l := by
  have := splitLoop_induct (fun aux acc => (aux ++ acc).Perm l) (n := fuel) (aux := l.reverse) (acc := []) (r := r)
    ?_ ?_ ?_ h
  · simpa using this
  · intro s aux acc h _
    refine List.Perm.trans ?_ h
    rw [List.perm_iff_count]; intro x
    simp only [List.count_append, List.count_cons, List.count_nil, List.cons_append]; omega
  · intro v1 v2 v3 v4 p aux acc acc' h hp _ hc _
    exfalso
    have m1 : (v1, v2) ∈ l := h.mem_iff.1 (by simp)
    have m2 : (v3, v4) ∈ l := h.mem_iff.1 (by
      have : (v3, v4) ∈ acc := hp.mem_iff.1 List.mem_cons_self
      simp [this])
    obtain ⟨⟨q, q1, q2⟩, n1, n2, n3, n4, hpar⟩ := (crosses_iff (hl _ m1) (hl _ m2)).1 hc
    obtain ⟨a | a, b | b⟩ := hm _ m1 _ m2 hpar q q1 q2
    · exact n1 (a.trans b.symm)
    · exact n2 (a.trans b.symm)
    · exact n3 (a.trans b.symm)
    · exact n4 (a.trans b.symm)
  · rw [List.append_nil]
    exact List.reverse_perm l

/-- C32: a polyline action is refused exactly if it has no points or two sides of the closed outline that are not
parallel meet at a point that is not an end of both. -/
theorem C32_outline {fuel : Nat} {a : Action K} {r : Parsed (Polyline (Vertex K))}
    (h : parsePolyline 0 fuel a = .ok r) :
    (r = .err ↔ a.points = [] ∨
      ∃ s ∈ pairs (a.points.map fun p => (⟨p.1, p.2, false⟩ : Vertex K)) false,
        ∃ t ∈ pairs (a.points.map fun p => (⟨p.1, p.2, false⟩ : Vertex K)) false,
          ¬ Parallel s.1 s.2 t.1 t.2 ∧ ∃ q, OnSegment s.1 s.2 q ∧ OnSegment t.1 t.2 q ∧
            ¬ ((SamePoint s.1 q ∨ SamePoint s.2 q) ∧ (SamePoint t.1 q ∨ SamePoint t.2 q))) := by
  by_cases h0 : a.points = []
  · simp only [h0, true_or, iff_true]
    exact (parsePolyline_spec h).1 h0
  simp only [h0, false_or]
  have hvs : a.points.map pointToVertex = a.points.map fun p => (⟨p.1, p.2, false⟩ : Vertex K) := rfl
  unfold parsePolyline at h
  simp only [hvs] at h
  rw [if_neg (by simpa using h0), Res.bind_eq_ok] at h
  obtain ⟨segs, hsegs, h⟩ := h
  rw [Res.bind_eq_ok] at h
  obtain ⟨sp, hsp, h⟩ := h
  have hseg : segs = pairs (a.points.map fun p => (⟨p.1, p.2, false⟩ : Vertex K)) false := by
    cases hp : a.points with
    | nil => exact absurd hp h0
    | cons p ps =>
      rw [hp] at hsegs
      simp only [List.map_cons, vertexPairs, List.isEmpty_cons, Bool.false_eq_true, if_false, Res.ok.injEq] at hsegs
      rw [← hsegs]
      rfl
  rw [← hseg]
  have hsolid : ∀ s ∈ segs, Solid s := by
    intro s hs
    rw [hseg] at hs
    obtain ⟨m1, m2⟩ := mem_pairs hs
    obtain ⟨_, -, e1⟩ := List.mem_map.1 m1
    obtain ⟨_, -, e2⟩ := List.mem_map.1 m2
    exact ⟨by rw [← e1], by rw [← e2]⟩
  obtain ⟨c1, c2⟩ := cuts_length (splitIntersections_cuts hsolid hsp)
  constructor
  · intro he
    by_contra hn
    push Not at hn
    have hk := split_keeps hsolid (fun s hs t ht hp q h1 h2 => hn s hs t ht hp q h1 h2) hsp
    rw [if_neg (by rw [hk.length_eq]; omega), Res.bind_eq_ok] at h
    obtain ⟨p, -, h⟩ := h
    rw [he] at h
    simp at h
  · rintro ⟨s, hs, t, ht, hp, q, h1, h2, h3⟩
    by_cases hl : sp.length > segs.length
    · rw [if_pos hl] at h
      simpa using h.symm
    · exfalso
      have hk := c2 (by omega)
      exact h3 (C12_no_crossings hsolid hsp s (hk.mem_iff.2 hs) t (hk.mem_iff.2 ht) hp q h1 h2)

/-- A crossed outline, a simple one, and what the parser makes of them. -/
def bowTie : Action ℚ := ⟨"include", "polyline", [], [(0, 0), (2, 2), (2, 0), (0, 2)], []⟩

def plainSquare : Action ℚ := ⟨"include", "polyline", [], [(0, 0), (2, 0), (2, 2), (0, 2)], []⟩

example : (∃ r, parsePolyline 0 40 bowTie = .ok r ∧ r = .err) ∧
    ∃ p, parsePolyline 0 40 plainSquare = .ok (.ok p) ∧ p.vertices.length = 4 := by
  constructor
  · have h : (match parsePolyline 0 40 bowTie with | .ok .err => true | _ => false) = true := by decide +kernel
    split at h
    · rename_i h'; exact ⟨_, h', rfl⟩
    · simp at h
  · have h : (match parsePolyline 0 40 plainSquare with | .ok (.ok p) => decide (p.vertices.length = 4) | _ => false) = true := by
      decide +kernel
    split at h
    · rename_i p h'; exact ⟨p, h', by simpa using h⟩
    · simp at h

end Verif.Props
