import Verif.Lemmas.SeerSafe
import Verif.Props.Holes
import Verif.Props.Whole

/-!
# C62: triangulating and refining do not panic
-/

set_option linter.unusedSectionVars false

namespace Verif.Props

open Spec

variable {K : Type*} [Field K] [LinearOrder K] [IsStrictOrderedRing K]

/-- C62, `triangulate` on domains with a boundary and vertices inside: it does not panic, if all sides of the boundary appear
when the boundary alone is triangulated. -/
theorem C62_triangulate_partial {fuel : Nat} {σ σ' : Sched} {b : Polyline (Vertex K)} {vs : List (Vertex K)}
    {T T0 : Triangulator K} (hb : b.opened = false) (hs : SimplePolygon b.vertices) (ha : 0 < shoelace b.vertices)
    (hreal : ∀ v ∈ b.vertices, v.isGhost = false)
    (hvs : ∀ v ∈ vs, v.isGhost = false) (hi : (Triangulator.new b).insertVertices 0 σ' vs = .ok T)
    (h0 : (Triangulator.new b).triangulate 0 fuel σ = .ok T0)
    (hin : ∀ s ∈ pairs b.vertices false, ∃ t ∈ T0.mesh.tris, Face t ∧ IsSide t ⟨s.1, s.2⟩) :
    T.triangulate 0 fuel σ ≠ .panic := by
  obtain ⟨⟨G, hG⟩, hF, k4, k5, -, hv, he⟩ := interior_start (σ := σ) hb hs ha hreal hvs hi h0 hin
  obtain ⟨h1, h2, h3, -⟩ := hv (σ.sub 6)
  rw [he]
  exact Res.bind_safe ((hG.court fuel).include_safe (walls hb) k4 k5 hF h1 h2 h3) fun _ _ h => by cases h

/-- C62, `refine` on such domains: whatever the parameters, the measure of lengths, the order of the hash tables and the
number of steps, it does not panic. Missing: domains with holes or constrained segments, for which it is false in general
(`C62_triangulate_false`, `C62_refine_false`, `C59_panic_false`), and boundaries with sides that do not appear. -/
theorem C62_refine_partial {fuel fuel' : Nat} {σ σ' τ : Sched} {b : Polyline (Vertex K)} {vs : List (Vertex K)}
    {T T0 T1 : Triangulator K} {dist : Vertex K → Vertex K → K} {p : RefineParams K} (hb : b.opened = false)
    (hs : SimplePolygon b.vertices) (ha : 0 < shoelace b.vertices)
    (hreal : ∀ v ∈ b.vertices, v.isGhost = false)
    (hvs : ∀ v ∈ vs, v.isGhost = false) (hi : (Triangulator.new b).insertVertices 0 σ' vs = .ok T)
    (h0 : (Triangulator.new b).triangulate 0 fuel σ = .ok T0)
    (hin : ∀ s ∈ pairs b.vertices false, ∃ t ∈ T0.mesh.tris, Face t ∧ IsSide t ⟨s.1, s.2⟩)
    (h1 : T.triangulate 0 fuel σ = .ok T1) : T1.refine 0 fuel' dist p τ ≠ .panic := by
  obtain ⟨k1, k2, k3⟩ := interior_fit hb hs ha hreal hvs hi h0 hin h1
  obtain ⟨⟨G, hG⟩, -, -, -, -, -, he⟩ := interior_start (σ := σ) hb hs ha hreal hvs hi h0 hin
  obtain ⟨e1, e2, e3, -⟩ := insert_into_boundary hb hvs hi
  rw [he, Res.bind_eq_ok] at h1
  obtain ⟨st, -, h1⟩ := h1
  simp only [Res.ok.injEq] at h1
  have f1 : T1.boundary = b := by rw [← h1]; exact e1
  have f2 : T1.holes = [] := by rw [← h1]; exact e2
  have f3 : T1.segments = [] := by rw [← h1]; exact e3
  have hC : ∀ c, c ∈ T1.constraints ↔ Wall b.vertices c := by
    intro c
    unfold Triangulator.constraints
    rw [f1, f2, f3, mem_toSet]
    simp only [List.flatMap_nil, List.nil_append, List.append_nil]
    rw [Polyline.intoEdges, hb]
    exact (fromVertexPairs_mem (s := (c.v1, c.v2))).symm
  have key := Plot.refine_safe hG (f := fuel') (dist := dist) (p := p) (fuel := fuel') (σ := τ.sub 0) (τ := τ.sub 1)
    ⟨Subdivides.refl _, k1, k2, k3⟩ hC
  unfold Triangulator.refine
  rw [f1, f2]
  simp only
  intro h
  apply key
  cases hu : Verif.unencroach (geoRPreds 0 fuel' dist p (some b) []) fuel' (τ.sub 0) T1.constraints T1.mesh with
  | panic => rfl
  | diverged => rw [hu] at h; cases h
  | ok r =>
    rw [hu] at h
    simp only [Res.bind_ok] at h ⊢
    cases hv : splitIrregular (geoRPreds 0 fuel' dist p (some b) []) fuel' (τ.sub 1)
        (Triangulator.updateConstraints T1.constraints r.2) r.1 with
    | panic => rfl
    | diverged => rw [hv] at h; cases h
    | ok s => rw [hv] at h; cases h

/-- C62, the program: once the parser has accepted an input with one included polygon, no removals and no segments, the
program does not panic, if all sides of the polygon appear when it is triangulated alone. -/
theorem C62_program_partial {fuel : Nat} {F : CircleFns K} {dist : Vertex K → Vertex K → K} {σ : Sched}
    {i : Input K} {b : Polyline (Vertex K)} {T0 : Triangulator K} {q : Triangulator K × RefineParams K}
    (hinc : (i.actions.filter fun a => decide (a.intent = "include")).filterMap (polygonOf F) = [b.vertices])
    (hrem : ∀ a ∈ i.actions, a.intent ≠ "remove") (hseg : ∀ a ∈ i.actions, a.geometry ≠ "segments")
    (hb : b.opened = false) (hs : SimplePolygon b.vertices) (ha : 0 < shoelace b.vertices)
    (hreal : ∀ v ∈ b.vertices, v.isGhost = false)
    (h0 : (Triangulator.new b).triangulate 0 fuel (σ.sub 1) = .ok T0)
    (hin : ∀ s ∈ pairs b.vertices false, ∃ t ∈ T0.mesh.tris, Face t ∧ IsSide t ⟨s.1, s.2⟩)
    (hp : parseInput 0 fuel F (σ.sub 0) i = .ok (.ok q)) : runProgram 0 fuel F dist σ i ≠ .panic := by
  unfold runProgram
  rw [hp, Res.bind_ok]
  obtain ⟨T, p⟩ := q
  simp only
  have hparse := hp
  unfold parseInput at hparse
  rw [Res.bind_eq_ok] at hparse
  obtain ⟨r, hr, hparse⟩ := hparse
  cases r with
  | err => simp at hparse
  | ok d =>
    simp only [Res.bind_eq_ok] at hparse
    obtain ⟨B, hB, hparse⟩ := hparse
    cases B with
    | err => simp at hparse
    | ok T' =>
      simp only [Res.ok.injEq, Parsed.ok.injEq, Prod.mk.injEq] at hparse
      obtain ⟨rfl, rfl⟩ := hparse
      obtain ⟨c1, c2, c3, c4⟩ := C32_content _ hr
      obtain ⟨hvs, hdd⟩ := single_domain (b := b) ⟨c1, c2, parseActions_closed hr (by simp), c3, c4⟩ hinc hrem hseg hb
      rw [hdd] at hB
      have hi := buildTriangulator_plain hB
      refine Res.bind_safe (C62_triangulate_partial hb hs ha hreal hvs hi h0 hin) fun T1 h1 => ?_
      refine Res.bind_safe (C62_refine_partial hb hs ha hreal hvs hi h0 hin h1) fun T2 _ => ?_
      obtain ⟨out, -, k, -⟩ := C31_output_partial Vertex.isGhost (σ.sub 3) T2.mesh
      rw [k]
      intro h; cases h

namespace ValidityExample

/-- C62 applies to the dart with three vertices inside, for all parameters and numbers of steps of the refinement. -/
example : ∃ T1, dartRequest.triangulate 0 60 (order 3) = .ok T1 ∧
    ∀ fuel' dist p τ, T1.refine 0 fuel' dist p τ ≠ .panic := by
  have hs : SimplePolygon dart.vertices := simple_of_check (by decide +kernel)
  have ha : 0 < shoelace dart.vertices := by decide +kernel
  have hr : ∀ v ∈ dart.vertices, v.isGhost = false := by decide +kernel
  have hv : ∀ v ∈ [pt 1 3, pt 3 3, pt 2 1], v.isGhost = false := by decide +kernel
  have hi : (Triangulator.new dart).insertVertices 0 (order 5) [pt 1 3, pt 3 3, pt 2 1] = .ok dartRequest := by
    obtain ⟨T, h⟩ := (C22_ok_iff 0 (order 5) (Triangulator.new dart) [pt 1 3, pt 3 3, pt 2 1]).2 (by decide +kernel)
    rw [dartRequest, h]
  obtain ⟨T0, h0, e0⟩ := ok_of_finished (σ := order 3) (T := Triangulator.new dart) (by decide +kernel)
  have hside : ∀ s ∈ pairs dart.vertices false, ∃ t ∈ T0.mesh.tris, Face t ∧ IsSide t ⟨s.1, s.2⟩ := by
    rw [e0]
    unfold Face IsSide
    decide +kernel
  obtain ⟨T1, h1, -⟩ := ok_of_finished (σ := order 3) (T := dartRequest) (by decide +kernel)
  exact ⟨T1, h1, fun _ _ _ _ => C62_refine_partial rfl hs ha hr hv hi h0 hside h1⟩

/-- C62 applies to the input of the example of C61, with all quality parameters and measures of lengths. -/
example (p : RefineParams ℚ) (dist : Vertex ℚ → Vertex ℚ → ℚ) :
    runProgram 0 60 noCircles dist (order 3) ⟨dartInput.actions, p⟩ ≠ .panic := by
  obtain ⟨T0, h0, e0⟩ := ok_of_finished (σ := (order 3).sub 1) (T := Triangulator.new dart) (by decide +kernel)
  have hside : ∀ s ∈ pairs dart.vertices false, ∃ t ∈ T0.mesh.tris, Face t ∧ IsSide t ⟨s.1, s.2⟩ := by
    rw [e0]
    unfold Face IsSide
    decide +kernel
  have hp : ∃ q, parseInput 0 60 noCircles ((order 3).sub 0) ⟨dartInput.actions, p⟩ = .ok (.ok q) := by
    have hk : (match parseInput 0 60 noCircles ((order 3).sub 0) dartInput with
      | .ok (.ok _) => true
      | _ => false) = true := by decide +kernel
    unfold parseInput at hk ⊢
    cases h : parseActions 0 60 noCircles dartInput.actions ⟨[], [], [], []⟩ with
    | panic => rw [h] at hk; simp at hk
    | diverged => rw [h] at hk; simp at hk
    | ok r =>
      rw [h] at hk
      simp only [Res.bind_ok] at hk ⊢
      cases r with
      | err => simp at hk
      | ok d =>
        simp only at hk ⊢
        cases hB : buildTriangulator 0 60 ((order 3).sub 0) d with
        | panic => rw [hB] at hk; simp at hk
        | diverged => rw [hB] at hk; simp at hk
        | ok B =>
          rw [hB] at hk
          cases B with
          | err => simp at hk
          | ok T => exact ⟨_, rfl⟩
  obtain ⟨q, hq⟩ := hp
  have k1 : (dartInput.actions.filter fun a => decide (a.intent = "include")).filterMap (polygonOf noCircles)
      = [dart.vertices] := by decide +kernel
  have k2 : ∀ a ∈ dartInput.actions, a.intent ≠ "remove" := by decide +kernel
  have k3 : ∀ a ∈ dartInput.actions, a.geometry ≠ "segments" := by decide +kernel
  exact C62_program_partial (b := dart) k1 k2 k3 rfl
    (simple_of_check (by decide +kernel)) (by decide +kernel) (by decide +kernel) h0 hside hq

end ValidityExample

section

variable {eps : K} {f : Nat} {dist dist' : Vertex K → Vertex K → K} {p p' : RefineParams K}
  {b : Option (Polyline (Vertex K))} {hs : List (Polyline (Vertex K))}

theorem unencLoop_params (C : List (Edge (Vertex K))) (fuel n : Nat) : ∀ (σ : Sched) (l : List (Edge (Vertex K)))
    (s : UnencState (Vertex K)), unencLoop (geoRPreds eps f dist p b hs) C fuel n σ l s =
      unencLoop (geoRPreds eps f dist' p' b hs) C fuel n σ l s := by
  induction n with
  | zero => intro σ l s; cases l <;> rfl
  | succ n ih =>
    intro σ l s
    cases l with
    | nil => rfl
    | cons e l =>
      show (unencStep (geoRPreds eps f dist p b hs) fuel (σ.sub 0) C e s).bind _ = _
      simp only [ih]
      rfl

theorem unencroachLoop_params (C : List (Edge (Vertex K))) (fuel n : Nat) : ∀ (σ : Sched) (m : Mesh (Vertex K)) l s,
    unencroachLoop (geoRPreds eps f dist p b hs) C fuel n σ m l s =
      unencroachLoop (geoRPreds eps f dist' p' b hs) C fuel n σ m l s := by
  induction n with
  | zero => intro σ m l s; cases l <;> rfl
  | succ n ih =>
    intro σ m l s
    cases l with
    | nil => rfl
    | cons e l =>
      simp only [unencroachLoop, unencroachSegment, ih,
        unencLoop_params (dist := dist) (dist' := dist') (p := p) (p' := p')]

/-- The first phase of the refinement does not depend on the parameters. -/
theorem unencroach_params {n : Nat} {σ : Sched} {C : List (Edge (Vertex K))}
    {m : Mesh (Vertex K)} : unencroach (geoRPreds eps f dist p b hs) n σ C m =
      unencroach (geoRPreds eps f dist' p' b hs) n σ C m :=
  unencroachLoop_params C n n σ m _ _

end

namespace ValidityExample

def field : Polyline (Vertex ℚ) := ⟨[pt 0 0, pt 8 0, pt 8 8, pt 0 8], false, by decide⟩

def drawn (l : List (Edge (Vertex ℚ))) : Triangulator ℚ :=
  match Triangulator.insertSegments 0 80 (order 0) (Triangulator.new field) l with
  | .ok (.ok T) => T
  | _ => Triangulator.new field

theorem drawn_ok {l : List (Edge (Vertex ℚ))}
    (h : (match Triangulator.insertSegments 0 80 (order 0) (Triangulator.new field) l with
      | .ok (.ok _) => true | _ => false) = true) :
    (Triangulator.new field).insertSegments 0 80 (order 0) l = .ok (.ok (drawn l)) := by
  unfold drawn
  split at h
  · rename_i T h1; rw [h1]
  · simp at h

/-- The request of `C62_triangulate_false`. -/
def crowded : Triangulator ℚ := drawn [⟨pt 6 5, pt 3 2⟩, ⟨pt 6 2, pt 5 3⟩]

/-- The request of `C62_refine_false`. -/
def close : Triangulator ℚ := drawn [⟨pt 4 3, pt 1 5⟩, ⟨pt 3 3, pt 4 1⟩]

end ValidityExample

open ValidityExample in
/-- C62 is false with segments: a square with two disjoint segments inside, which are accepted, and an order of the hash
tables with which `triangulate` panics. -/
theorem C62_triangulate_false : ∃ (b : Polyline (Vertex ℚ)) (s t : Edge (Vertex ℚ)) (σ : Sched) (T : Triangulator ℚ),
    SimplePolygon b.vertices ∧ b.opened = false ∧ 0 < shoelace b.vertices ∧
    (∀ v ∈ [s.v1, s.v2, t.v1, t.v2], InsidePolygon b.vertices v) ∧
    (¬ ∃ w, OnSegment s.v1 s.v2 w ∧ OnSegment t.v1 t.v2 w) ∧
    (Triangulator.new b).insertSegments 0 80 σ [s, t] = .ok (.ok T) ∧ T.triangulate 0 80 σ = .panic := by
  refine ⟨field, ⟨pt 6 5, pt 3 2⟩, ⟨pt 6 2, pt 5 3⟩, order 0, crowded, simple_of_check (by decide +kernel), rfl,
    by decide +kernel, ?_, ?_, drawn_ok (by decide +kernel), ?_⟩
  · intro v hv
    simp only [List.mem_cons, List.not_mem_nil, or_false] at hv
    rcases hv with rfl | rfl | rfl | rfl <;> exact HoleExample.insidePolygon_of (by decide +kernel) (by decide +kernel)
  · rintro ⟨w, ⟨a, a1, a2, a3, a4⟩, c, c1, c2, c3, c4⟩
    simp only [pt] at a3 a4 c3 c4
    linarith
  · have : (match crowded.triangulate 0 80 (order 0) with
      | .panic => true
      | _ => false) = true := by decide +kernel
    split at this
    · assumption
    · simp at this

open ValidityExample in
/-- C62 is false with segments: a square with two disjoint segments inside, and an order of the hash tables with which
`triangulate` finishes normally, and then `refine` panics, whatever its parameters. -/
theorem C62_refine_false : ∃ (b : Polyline (Vertex ℚ)) (s t : Edge (Vertex ℚ)) (σ : Sched) (T T1 : Triangulator ℚ),
    SimplePolygon b.vertices ∧ b.opened = false ∧ 0 < shoelace b.vertices ∧
    (∀ v ∈ [s.v1, s.v2, t.v1, t.v2], InsidePolygon b.vertices v) ∧
    (¬ ∃ w, OnSegment s.v1 s.v2 w ∧ OnSegment t.v1 t.v2 w) ∧
    (Triangulator.new b).insertSegments 0 80 σ [s, t] = .ok (.ok T) ∧ T.triangulate 0 80 σ = .ok T1 ∧
    ∀ dist p, T1.refine 0 80 dist p σ = .panic := by
  have hT : ∃ T1, close.triangulate 0 80 (order 0) = .ok T1 ∧ unencroach (geoRPreds 0 80 (fun _ _ => 0) ⟨none, 0⟩
      (some T1.boundary) T1.holes) 80 ((order 0).sub 0) T1.constraints T1.mesh = .panic := by
    have hk : (match close.triangulate 0 80 (order 0) with
      | .ok T1 => (match unencroach (geoRPreds 0 80 (fun _ _ => 0) ⟨none, 0⟩ (some T1.boundary) T1.holes) 80
          ((order 0).sub 0) T1.constraints T1.mesh with
        | .panic => true
        | _ => false)
      | _ => false) = true := by decide +kernel
    split at hk
    · rename_i T1 h1
      refine ⟨T1, h1, ?_⟩
      split at hk
      · assumption
      · simp at hk
    · simp at hk
  obtain ⟨T1, h1, h2⟩ := hT
  refine ⟨field, ⟨pt 4 3, pt 1 5⟩, ⟨pt 3 3, pt 4 1⟩, order 0, close, T1, simple_of_check (by decide +kernel), rfl,
    by decide +kernel, ?_, ?_, drawn_ok (by decide +kernel), h1, fun dist p => ?_⟩
  · intro v hv
    simp only [List.mem_cons, List.not_mem_nil, or_false] at hv
    rcases hv with rfl | rfl | rfl | rfl <;> exact HoleExample.insidePolygon_of (by decide +kernel) (by decide +kernel)
  · rintro ⟨w, ⟨a, a1, a2, a3, a4⟩, c, c1, c2, c3, c4⟩
    simp only [pt] at a3 a4 c3 c4
    linarith
  · unfold Triangulator.refine
    simp only
    rw [unencroach_params (dist' := fun _ _ => 0) (p' := ⟨none, 0⟩), h2]
    rfl

end Verif.Props
