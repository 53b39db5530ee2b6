import Verif.Props.Output
import Verif.Props.Outlines
import Verif.Props.Program
import Verif.Props.RefineDomain

/-!
# From the input file to the output file (C61)
-/

set_option linter.unusedSectionVars false

namespace Verif.Props

open Spec

section general

variable {K : Type*} [Field K] [LinearOrder K]

theorem parseAction_closed {eps : K} {fuel : Nat} {F : CircleFns K} {a : Action K} {d d' : Domains K}
    (h : parseAction eps fuel F a d = .ok (.ok d')) (hd : ∀ p ∈ d.includes ++ d.removes, p.opened = false) :
    ∀ p ∈ d'.includes ++ d'.removes, p.opened = false := by
  have hadd : ∀ p : Polyline (Vertex K), p.opened = false → addDomain a.intent p d = .ok d' →
      ∀ p ∈ d'.includes ++ d'.removes, p.opened = false := by
    intro p hp ha q hq
    unfold addDomain at ha
    split_ifs at ha
    · simp only [Parsed.ok.injEq] at ha; subst ha
      simp only [List.mem_append, List.mem_singleton] at hq hd
      rcases hq with (k | rfl) | k
      · exact hd q (Or.inl k)
      · exact hp
      · exact hd q (Or.inr k)
    · simp only [Parsed.ok.injEq] at ha; subst ha
      simp only [List.mem_append, List.mem_singleton] at hq hd
      rcases hq with k | k | rfl
      · exact hd q (Or.inl k)
      · exact hd q (Or.inr k)
      · exact hp
  unfold parseAction at h
  by_cases g1 : a.geometry = "polyline"
  · rw [if_pos g1, Res.bind_eq_ok] at h
    obtain ⟨q, hq, h⟩ := h
    cases q with
    | err => simp at h
    | ok p =>
      simp only [Res.ok.injEq] at h
      exact hadd p ((parsePolyline_spec hq).2 p rfl).2 h
  rw [if_neg g1] at h
  by_cases g2 : a.geometry = "circle"
  · rw [if_pos g2, Res.bind_eq_ok] at h
    obtain ⟨q, hq, h⟩ := h
    cases q with
    | err => simp at h
    | ok p =>
      simp only [Res.ok.injEq] at h
      exact hadd p ((parseCircle_spec g2 hq).2 p rfl).2 h
  rw [if_neg g2] at h
  by_cases g3 : a.geometry = "segments"
  · rw [if_pos g3, Res.bind_eq_ok] at h
    obtain ⟨q, hq, h⟩ := h
    cases q with
    | err => simp at h
    | ok s =>
      simp only [] at h
      split_ifs at h
      · simp only [Res.ok.injEq, Parsed.ok.injEq] at h
        subst h
        exact hd
      · simp at h
  rw [if_neg g3] at h
  split_ifs at h
  · simp only [Res.ok.injEq, Parsed.ok.injEq] at h
    subst h
    exact hd
  · simp at h
  · simp at h

/-- The polygons of the actions are closed. -/
theorem parseActions_closed {eps : K} {fuel : Nat} {F : CircleFns K} : ∀ {acts : List (Action K)} {d d' : Domains K},
    parseActions eps fuel F acts d = .ok (.ok d') → (∀ p ∈ d.includes ++ d.removes, p.opened = false) →
    ∀ p ∈ d'.includes ++ d'.removes, p.opened = false
  | [], d, d', h, hd => by
    simp only [parseActions, Res.ok.injEq, Parsed.ok.injEq] at h
    subst h
    exact hd
  | a :: acts, d, d', h, hd => by
    rw [parseActions, Res.bind_eq_ok] at h
    obtain ⟨q, hq, h⟩ := h
    cases q with
    | err => simp at h
    | ok d1 => exact parseActions_closed h (parseAction_closed hq hd)

/-- The stages of the program. -/
theorem runProgram_stages {eps : K} {fuel : Nat} {F : CircleFns K} {dist : Vertex K → Vertex K → K} {σ : Sched}
    {i : Input K} {out : Output (Vertex K)} (h : runProgram eps fuel F dist σ i = .ok out) :
    ∃ d T T1 T2, parseActions eps fuel F i.actions ⟨[], [], [], []⟩ = .ok (.ok d) ∧
      buildTriangulator eps fuel (σ.sub 0) d = .ok (.ok T) ∧ T.triangulate eps fuel (σ.sub 1) = .ok T1 ∧
      T1.refine eps fuel dist i.params (σ.sub 2) = .ok T2 ∧
      fromTriangulator Vertex.isGhost (σ.sub 3) T2.mesh = .ok out := by
  unfold runProgram at h
  rw [Res.bind_eq_ok] at h
  obtain ⟨q, hq, h⟩ := h
  cases q with
  | err => simp at h
  | ok q =>
    obtain ⟨T, p⟩ := q
    simp only [Res.bind_eq_ok] at h
    obtain ⟨T1, h1, T2, h2, h3⟩ := h
    unfold parseInput at hq
    rw [Res.bind_eq_ok] at hq
    obtain ⟨r, hr, hq⟩ := hq
    cases r with
    | err => simp at hq
    | ok d =>
      simp only [Res.bind_eq_ok] at hq
      obtain ⟨b, hb, hq⟩ := hq
      cases b with
      | err => simp at hq
      | ok T' =>
        simp only [Res.ok.injEq, Parsed.ok.injEq, Prod.mk.injEq] at hq
        obtain ⟨rfl, rfl⟩ := hq
        exact ⟨d, T', T1, T2, hr, hb, h1, h2, h3⟩

end general

/-- The domain `d` is made of exactly the polygons, segments and vertices that the actions describe. -/
structure Collects {K : Type*} [Field K] [LinearOrder K] (F : CircleFns K) (acts : List (Action K)) (d : Domains K) :
    Prop where
  included : d.includes.map (·.vertices) = (acts.filter fun a => decide (a.intent = "include")).filterMap (polygonOf F)
  removed : d.removes.map (·.vertices) = (acts.filter fun a => decide (a.intent = "remove")).filterMap (polygonOf F)
  closed : ∀ p ∈ d.includes ++ d.removes, p.opened = false
  segments : ∀ e, e ∈ d.segments ↔ ∃ a ∈ acts, a.geometry = "segments" ∧ DescribesSegment a e
  vertices : ∀ v, v ∈ d.vertices ↔ ∃ a ∈ acts, a.geometry = "vertices" ∧ ∃ p ∈ a.points, v = ⟨p.1, p.2, false⟩

/-- The output lists the triangles `order`, up to the order of its coordinates (`C31_wrong_indices`): its coordinates are
the given ones, each once, and each index triple stands for the corners of its triangle once the coordinates are put into a
suitable order. -/
structure Lists {V : Type*} (out : Output V) (order : List (Tri V)) (points : V → Prop) : Prop where
  once : out.coordinates.Nodup
  points : ∀ v, v ∈ out.coordinates ↔ points v
  triples : ∃ l, l.Perm out.coordinates ∧
    out.triangles.map (lookup (reorder out l)) = order.map fun t => some (t.v1, t.v2, t.v3)

variable {K : Type*} [Field K] [LinearOrder K] [IsStrictOrderedRing K]

/-- C61: for every input, tolerance and order of the hash tables: when the program writes a file, no action was malformed,
and the file lists the triangles without ghosts, and all vertices, of the mesh that results from refining, with the
parameters of the input, the triangulation of the domain that the actions describe. -/
theorem C61_output {eps : K} {fuel : Nat} {F : CircleFns K} {dist : Vertex K → Vertex K → K} {σ : Sched}
    {i : Input K} {out : Output (Vertex K)} (h : runProgram eps fuel F dist σ i = .ok out) :
    (∀ a ∈ i.actions, ¬ Malformed a) ∧
    ∃ d T T1 T2 order, Collects F i.actions d ∧ buildTriangulator eps fuel (σ.sub 0) d = .ok (.ok T) ∧
      T.triangulate eps fuel (σ.sub 1) = .ok T1 ∧ T1.refine eps fuel dist i.params (σ.sub 2) = .ok T2 ∧
      order.Perm (T2.mesh.tris.filter fun t => !t.isGhost Vertex.isGhost) ∧
      Lists out order fun v => (∃ t ∈ T2.mesh.tris, IsCorner t v) ∧ v.isGhost = false := by
  obtain ⟨d, T, T1, T2, h1, h2, h3, h4, h5⟩ := runProgram_stages h
  refine ⟨fun a ha hm => ?_, d, T, T1, T2, ?_⟩
  · have := C32_reports _ _ h1 ⟨a, ha, hm⟩
    cases this
  obtain ⟨c1, c2, c3, c4⟩ := C32_content _ h1
  obtain ⟨out', order, k1, k2, k3, k4, -, -, k7, -⟩ := C31_output_partial Vertex.isGhost (σ.sub 3) T2.mesh
  rw [k1, Res.ok.injEq] at h5
  subst h5
  exact ⟨order, ⟨c1, c2, parseActions_closed h1 (by simp), c3, c4⟩, h2, h3, h4, k4, k2, k3, k7⟩

theorem buildTriangulator_plain {fuel : Nat} {σ : Sched} {b : Polyline (Vertex K)} {vs : List (Vertex K)}
    {T : Triangulator K} (h : buildTriangulator 0 fuel σ ⟨[b], [], [], vs⟩ = .ok (.ok T)) :
    (Triangulator.new b).insertVertices 0 (σ.sub 4) vs = .ok T := by
  have h1 : evalBoundary (polylineOps 0 fuel) (σ.sub 0) [b] [] = .ok (.ok (b, [])) := by
    rw [evalBoundary_one]; rfl
  have h2 : evalHoles (polylineOps 0 fuel) fuel (σ.sub 1) b [] = .ok [] := by
    simp only [evalHoles, List.reverse_nil]
    cases fuel <;> rfl
  have h3 : insertHoles 0 fuel (shuffle (σ.sub 2) []) (Triangulator.new b) = .ok (.ok (Triangulator.new b)) := by
    simp [shuffle, shuffleAux, insertHoles]
  simp only [buildTriangulator, h1, Res.bind, h2, h3, Triangulator.insertSegments, if_true] at h
  cases h4 : (Triangulator.new b).insertVertices 0 (σ.sub 4) vs with
  | err t bad =>
    have h4' := h4
    simp only [Triangulator.new] at h h4'
    rw [h4'] at h
    simp at h
  | ok T' =>
    have h4' := h4
    simp only [Triangulator.new] at h h4'
    rw [h4'] at h
    simpa using h

/-- The domain described by one included polygon and vertices. -/
theorem single_domain {F : CircleFns K} {acts : List (Action K)} {d : Domains K} {b : Polyline (Vertex K)}
    (hd : Collects F acts d)
    (hinc : (acts.filter fun a => decide (a.intent = "include")).filterMap (polygonOf F) = [b.vertices])
    (hrem : ∀ a ∈ acts, a.intent ≠ "remove") (hseg : ∀ a ∈ acts, a.geometry ≠ "segments") (hb : b.opened = false) :
    (∀ v ∈ d.vertices, v.isGhost = false) ∧ d = ⟨[b], [], [], d.vertices⟩ := by
  have hd1 : d.includes = [b] := by
    have := hd.included
    rw [hinc] at this
    obtain ⟨p, hp⟩ : ∃ p, d.includes = [p] := by
      match hdi : d.includes with
      | [] => rw [hdi] at this; simp at this
      | [p] => exact ⟨p, rfl⟩
      | _ :: _ :: _ => rw [hdi] at this; simp at this
    rw [hp]
    rw [hp] at this
    have hc := hd.closed p (by simp [hp])
    simp only [List.map_cons, List.map_nil, List.cons.injEq, and_true] at this
    obtain ⟨pv, po, hpo⟩ := p
    obtain ⟨bv, bo, hbo⟩ := b
    simp only at this hc hb
    subst this hc hb
    rfl
  have hd2 : d.removes = [] := by
    have := hd.removed
    have hnil : acts.filter (fun a => decide (a.intent = "remove")) = [] := by
      rw [List.filter_eq_nil_iff]
      intro a ha'
      simpa using hrem a ha'
    rw [hnil] at this
    simpa using this
  have hd3 : d.segments = [] := by
    refine List.eq_nil_iff_forall_not_mem.2 fun e he => ?_
    obtain ⟨a, ha', hg, -⟩ := (hd.segments e).1 he
    exact hseg a ha' hg
  have hvs : ∀ v ∈ d.vertices, v.isGhost = false := by
    intro v hv
    obtain ⟨a, -, -, p, -, rfl⟩ := (hd.vertices v).1 hv
    rfl
  refine ⟨hvs, ?_⟩
  have hdd : d = ⟨[b], [], [], d.vertices⟩ := by
    obtain ⟨d1, d2, d3, d4⟩ := d
    simp only at hd1 hd2 hd3
    subst hd1 hd2 hd3
    rfl
  exact hdd

/-- C61, inputs with one included polygon and vertices: the triangles that are written are a partition of the polygon, if
all sides of the polygon appear when it is triangulated alone. Missing: inputs with several polygons, removals or segments,
for which this is false in general (`C53_covered_false`, `C59_reflex_false`, `C51_false`). -/
theorem C61_partition_partial {fuel : Nat} {F : CircleFns K} {dist : Vertex K → Vertex K → K} {σ : Sched}
    {i : Input K} {out : Output (Vertex K)} {b : Polyline (Vertex K)} {T0 : Triangulator K}
    (hinc : (i.actions.filter fun a => decide (a.intent = "include")).filterMap (polygonOf F) = [b.vertices])
    (hrem : ∀ a ∈ i.actions, a.intent ≠ "remove") (hseg : ∀ a ∈ i.actions, a.geometry ≠ "segments")
    (hb : b.opened = false) (hs : SimplePolygon b.vertices) (ha : 0 < shoelace b.vertices)
    (hreal : ∀ v ∈ b.vertices, v.isGhost = false)
    (h0 : (Triangulator.new b).triangulate 0 fuel (σ.sub 1) = .ok T0)
    (hin : ∀ s ∈ pairs b.vertices false, ∃ t ∈ T0.mesh.tris, Face t ∧ IsSide t ⟨s.1, s.2⟩)
    (h : runProgram 0 fuel F dist σ i = .ok out) :
    ∃ order : List (Tri (Vertex K)), order.Nodup ∧ Lists out order (fun v => ∃ t ∈ order, IsCorner t v) ∧
      (∀ t ∈ order, Face t ∧ ∀ w, Inner t w → InsidePolygon b.vertices w) ∧
      (∀ w, InsidePolygon b.vertices w → ∃ t ∈ order, InOrOn t w) ∧
      (∀ s ∈ order, ∀ t ∈ order, ∀ w, Inner s w → Inner t w → s = t) ∧
      DelaunayInside b.vertices order := by
  obtain ⟨-, d, T, T1, T2, order, hd, h1, h2, h3, hperm, hl⟩ := C61_output h
  obtain ⟨hvs, hdd⟩ := single_domain (b := b) hd hinc hrem hseg hb
  rw [hdd] at h1
  have hi := buildTriangulator_plain h1
  obtain ⟨⟨l, -, hT, hside⟩, hS, -, -, -⟩ := C60_refine_partial hb hs ha hreal hvs hi h0 hin h2 h3
  obtain ⟨k1, k2, k3⟩ := C60_covers_partial hb hs ha hreal hvs hi h0 hin h2 h3
  have k4 := C60_delaunay_partial hb hs ha hreal hvs hi h0 hin h2 h3
  have hgh : ∀ t : Tri (Vertex K), (!t.isGhost Vertex.isGhost) = true ↔ ¬ HasGhost t := by
    intro t
    simp [Tri.isGhost, HasGhost, not_or, and_assoc]
  have hmem : ∀ t, t ∈ order ↔ t ∈ T2.mesh.tris ∧ ¬ HasGhost t := by
    intro t
    rw [hperm.mem_iff, List.mem_filter, hgh]
  refine ⟨order, (hperm.nodup_iff).2 (hS.nodup.filter _), ⟨hl.once, fun v => ?_, hl.triples⟩, fun t ht => ?_, fun w hw => ?_,
    fun s hs t ht => ?_, ?_⟩
  · rw [hl.points]
    constructor
    · rintro ⟨⟨t, ht, hc⟩, hg⟩
      by_cases hgt : HasGhost t
      · obtain ⟨s, hs', e1, e2, e3⟩ := hT.border t ht hgt
        obtain ⟨r, hr, hf', hsd⟩ := hside s hs'
        have hc' : IsCorner r s.1 ∧ IsCorner r s.2 := by
          unfold IsSide at hsd
          unfold IsCorner
          rcases hsd with k | k | k <;> (obtain ⟨q1, q2⟩ := k; simp only at q1 q2; rw [q1, q2]; simp)
        have hgr : ¬ HasGhost r := by
          simp [HasGhost, hf'.1, hf'.2.1, hf'.2.2.1]
        refine ⟨r, (hmem r).2 ⟨hr, hgr⟩, ?_⟩
        rcases hc with rfl | rfl | rfl
        · rw [e1]; exact hc'.2
        · rw [e2]; exact hc'.1
        · rw [e3] at hg; cases hg
      · exact ⟨t, (hmem t).2 ⟨ht, hgt⟩, hc⟩
    · rintro ⟨t, ht, hc⟩
      obtain ⟨ht, hg⟩ := (hmem t).1 ht
      refine ⟨⟨t, ht, hc⟩, ?_⟩
      simp only [HasGhost, not_or, Bool.not_eq_true] at hg
      rcases hc with rfl | rfl | rfl
      exacts [hg.1, hg.2.1, hg.2.2]
  · exact k1 t ((hmem t).1 ht).1 ((hmem t).1 ht).2
  · obtain ⟨t, ht, hg, hw⟩ := k2 w hw
    exact ⟨t, (hmem t).2 ⟨ht, hg⟩, hw⟩
  · exact k3 s ((hmem s).1 hs).1 t ((hmem t).1 ht).1 ((hmem s).1 hs).2 ((hmem t).1 ht).2
  · intro t ht hft o ho r hr
    exact k4 t ((hmem t).1 ht).1 hft o ho r ((hmem r).1 hr).1

namespace ValidityExample

/-- An input with a polygon and three vertices. -/
def dartInput : Input ℚ :=
  ⟨[⟨"constraint", "vertices", [], [(1, 3), (3, 3)], []⟩,
    ⟨"include", "polyline", [], [(0, 0), (4, 0), (4, 4), (2, 3), (0, 4)], []⟩,
    ⟨"constraint", "vertices", [], [(2, 1)], []⟩], ⟨some 3, 10⟩⟩

/-- Not needed for an input without circles. -/
def noCircles : CircleFns ℚ := ⟨fun _ => 3, fun _ _ _ _ => ⟨0, 0, false⟩⟩

/-- The numbers of coordinates and of triangles that are written. -/
def written (σ : Sched) (i : Input ℚ) : Option (Nat × Nat) :=
  match runProgram 0 60 noCircles blocks σ i with
  | .ok out => some (out.coordinates.length, out.triangles.length)
  | _ => none

theorem of_written {σ : Sched} {i : Input ℚ} {n m : Nat} (h : written σ i = some (n, m)) :
    ∃ out, runProgram 0 60 noCircles blocks σ i = .ok out ∧ out.coordinates.length = n ∧ out.triangles.length = m := by
  unfold written at h
  split at h
  · next out ho =>
    simp only [Option.some.injEq, Prod.mk.injEq] at h
    exact ⟨out, ho, h.1, h.2⟩
  · cases h

theorem written_dart : written (order 3) dartInput = some (13, 14) := by decide +kernel

/-- C61 applies to this input: 14 triangles with 13 corners are written, a partition of the dart. -/
example : ∃ out, runProgram 0 60 noCircles blocks (order 3) dartInput = .ok out ∧
    out.coordinates.length = 13 ∧ out.triangles.length = 14 ∧
    ∃ order : List (Tri (Vertex ℚ)), Lists out order (fun v => ∃ t ∈ order, IsCorner t v) ∧
      (∀ w, InsidePolygon dart.vertices w → ∃ t ∈ order, InOrOn t w) := by
  obtain ⟨out, h, n1, n2⟩ := of_written written_dart
  obtain ⟨T0, h0, e0⟩ := ok_of_finished (σ := (order 3).sub 1) (T := Triangulator.new dart) (by decide +kernel)
  have hside : ∀ s ∈ pairs dart.vertices false, ∃ t ∈ T0.mesh.tris, Face t ∧ IsSide t ⟨s.1, s.2⟩ := by
    rw [e0]
    unfold Face IsSide
    decide +kernel
  obtain ⟨l, -, k1, -, k2, -⟩ := C61_partition_partial (b := dart) (by decide +kernel) (by decide +kernel)
    (by decide +kernel) rfl (simple_of_check (by decide +kernel)) (by decide +kernel) (by decide +kernel) h0
    hside h
  exact ⟨out, h, n1, n2, l, k1, k2⟩

end ValidityExample

end Verif.Props
