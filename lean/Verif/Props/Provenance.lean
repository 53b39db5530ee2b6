import Verif.Lemmas.Provenance
import Verif.Spec.Provenance
import Verif.Props.RefineDomain
import Verif.Props.Histories
import Verif.Props.Segments

/-!
# C81: refining loses no vertex and adds only vertices it can account for
-/

set_option linter.unusedSectionVars false

namespace Verif.Props

open Spec

variable {K : Type*} [Field K] [LinearOrder K] [IsStrictOrderedRing K]

/-- The triangle is solid, and its quality or its area reaches the requested one, up to the tolerance. -/
def PoorWithin (eps : K) (dist : Vertex K → Vertex K → K) (p : RefineParams K) (t : Tri (Vertex K)) : Prop :=
  t.isGhost Vertex.isGhost = false ∧
    ((∃ q, t.quality dist = some q ∧ p.qualityRatio - eps ≤ q) ∨
      ∃ a mx, t.area = some a ∧ p.maxArea = some mx ∧ mx - eps ≤ a)

theorem poorWithin_of {eps : K} (he : 0 ≤ eps) {fuel : Nat} {dist : Vertex K → Vertex K → K} {p : RefineParams K}
    {b : Option (Polyline (Vertex K))} {hs : List (Polyline (Vertex K))} {t : Tri (Vertex K)}
    (h : Poor (geoRPreds eps fuel dist p b hs) t) : PoorWithin eps dist p t := by
  have aux : ∀ a c : K, (approxEq eps a c || decide (a ≥ c)) = true → c - eps ≤ a := by
    intro a c h
    rw [Bool.or_eq_true, approxEq, decide_eq_true_eq, decide_eq_true_eq] at h
    rcases h with h | h
    · have := (abs_le.1 h).1; linarith
    · linarith
  obtain ⟨hg, h⟩ := h
  refine ⟨hg, h.imp (fun h => ?_) fun h => ?_⟩
  · have h : isIrregular eps dist p t = true := h
    unfold isIrregular at h
    cases hq : t.quality dist with
    | none => rw [hq] at h; simp at h
    | some q => rw [hq] at h; exact ⟨q, rfl, aux _ _ h⟩
  · have h : isLarge eps p t = true := h
    unfold isLarge at h
    cases ha : t.area with
    | none => rw [ha] at h; simp at h
    | some a =>
      cases hm : p.maxArea with
      | none => rw [ha, hm] at h; simp at h
      | some mx => rw [ha, hm] at h; exact ⟨a, mx, rfl, rfl, aux _ _ h⟩

theorem pieceOf_back {C : Edge (Vertex K) → Prop} (hC : ∀ e, C e → C e.opposite) {e : Edge (Vertex K)}
    (h : PieceOf C e) : PieceOf C e.opposite := by
  have comm : ∀ a b : Vertex K, halfway a b = halfway b a := fun a b => by
    unfold halfway; rw [add_comm a.x, add_comm a.y]
  induction h with
  | given h => exact .given (hC _ h)
  | @first a b _ ih =>
    rw [comm a b]
    exact PieceOf.second (a := b) (b := a) ih
  | @second a b _ ih =>
    rw [comm a b]
    exact PieceOf.first (a := b) (b := a) ih

theorem isConstraint_back {T : Triangulator K} (e : Edge (Vertex K)) (h : IsConstraint T e) :
    IsConstraint T e.opposite := by
  obtain ⟨f, hf, h⟩ := h
  refine ⟨f, ?_, h⟩
  rcases hf with rfl | rfl
  · exact Or.inr (by cases f; rfl)
  · exact Or.inl rfl

theorem circumcenter_spec {t : Tri (Vertex K)} {c : Vertex K} (h : t.circumcenter = some c) :
    Equidistant c t.v1 t.v2 t.v3 ∧ c.isGhost = false := by
  unfold Tri.circumcenter at h
  split_ifs at h with hg
  refine ⟨(C03_some h).1, ?_⟩
  unfold Verif.circumcenter at h
  simp only at h
  split_ifs at h
  injection h with h
  rw [← h]
  rfl

/-- C81: every vertex of the refined mesh was a vertex of the mesh before, or is the middle of a side or of a segment or
of a piece of one obtained by repeated halving, or is the circumcentre of a poor triangle whose corners are themselves
accounted for. -/
theorem C81_added {eps : K} (he : 0 ≤ eps) {fuel : Nat} {dist : Vertex K → Vertex K → K} {p : RefineParams K} {σ : Sched}
    {T T' : Triangulator K} (hs : AdjSound T.mesh) (h : T.refine eps fuel dist p σ = .ok T') :
    ∀ v, InMesh T'.mesh v → Accounted (InMesh T.mesh) (IsConstraint T) (PoorWithin eps dist p) v := by
  obtain ⟨r, s, h1, h2, rfl⟩ := refine_split h
  set D := Accounted (InMesh T.mesh) (IsConstraint T) (PoorWithin eps dist p) with hD
  have hE : Cuts (geoRPreds eps fuel dist p (some T.boundary) T.holes) D (PieceOf (IsConstraint T)) :=
    ⟨fun e he => Accounted.cut (a := e.v1) (b := e.v2) he, fun e he => PieceOf.first (a := e.v1) (b := e.v2) he,
      fun e he => PieceOf.second (a := e.v1) (b := e.v2) he, fun e he => pieceOf_back isConstraint_back he⟩
  have hC : ∀ e ∈ T.constraints, PieceOf (IsConstraint T) e := fun e he => .given (isConstraint_iff.2 (Or.inr he))
  obtain ⟨k1, k2, k3⟩ := unencroachLoop_within hE hs (fun t ht x hx => Accounted.old ⟨t, ht, hx⟩) (by
    intro q hq
    unfold distributeEncroachments at hq
    obtain ⟨x, hx, rfl⟩ := List.mem_map.1 (List.mem_of_mem_filter hq)
    exact hC x hx) (by simp) h1
  have k := splitIrregularLoop_within (B := PoorWithin eps dist p) hE (fun t ht => poorWithin_of he ht) (by
    intro t c hb ht hc
    have hc : t.circumcenter = some c := hc
    refine Accounted.centre hb (ht _ (Or.inl rfl)) (ht _ (Or.inr (Or.inl rfl))) (ht _ (Or.inr (Or.inr rfl))) ?_ ?_
    · exact (circumcenter_spec hc).1
    · exact (circumcenter_spec hc).2) (s := splitInit _ _ _) ⟨k1, k2, fun e he => ?_, fun t ht => ?_⟩ h2
  · rintro v ⟨t, ht, hx⟩
    exact k.mesh t ht v hx
  · rcases (C55_constraints e).1 he with ⟨q, -⟩ | ⟨q, hq, rfl⟩
    · exact hC e q
    · exact k3 q hq
  · simp only [splitInit] at ht
    have aux : ∀ c : Tri (Vertex K) → Bool, t ∈ (r.1.tris.filter fun t => !t.isGhost Vertex.isGhost).filter c →
        t ∈ r.1.tris ∧ t.isGhost Vertex.isGhost = false ∧ c t = true := by
      intro c hc
      rw [List.mem_filter, List.mem_filter] at hc
      exact ⟨hc.1.1, by simpa using hc.1.2, hc.2⟩
    rcases ht with ht | ht
    · obtain ⟨j1, j2, j3⟩ := aux _ ht
      exact ⟨poorWithin_of he ⟨j2, Or.inl j3⟩, k2 t j1⟩
    · obtain ⟨j1, j2, j3⟩ := aux _ ht
      exact ⟨poorWithin_of he ⟨j2, Or.inr j3⟩, k2 t j1⟩

/-- C81, over a whole history of calls: the vertices of the mesh are accounted for whatever was called before. -/
theorem C81_session {eps : K} (he : 0 ≤ eps) {dist : Vertex K → Vertex K → K} {b : Polyline (Vertex K)}
    {l : List (Request K)} {T T' : Triangulator K} (hT : Session eps dist (Triangulator.new b) l T) {fuel : Nat}
    {p : RefineParams K} {σ : Sched} (h : T.refine eps fuel dist p σ = .ok T') :
    ∀ v, InMesh T'.mesh v → Accounted (InMesh T.mesh) (IsConstraint T) (PoorWithin eps dist p) v :=
  C81_added he (C13_session he hT) h

/-- C81: no vertex is lost, if no circumcentre that was rejected was already a vertex of the mesh when it was tried.
Missing: the same without this condition, which is proved for domains with a boundary and vertices only
(`C81_polygon_partial`). -/
theorem C81_kept_partial {eps : K} (he : 0 ≤ eps) {fuel : Nat} {dist : Vertex K → Vertex K → K} {p : RefineParams K} {σ : Sched}
    {T T' : Triangulator K} (hs : AdjSound T.mesh) (h : T.refine eps fuel dist p σ = .ok T') :
    ∃ r last attempts,
      unencroach (geoRPreds eps fuel dist p (some T.boundary) T.holes) fuel (σ.sub 0) T.constraints T.mesh = .ok r ∧
      History (geoRPreds eps fuel dist p (some T.boundary) T.holes) fuel
        (splitInit (geoRPreds eps fuel dist p (some T.boundary) T.holes)
          (Triangulator.updateConstraints T.constraints r.2) r.1) attempts last ∧ T'.mesh = last.mesh ∧
      ((∀ a ∈ attempts, a.Rejected → ∀ c, a.tri.circumcenter = some c → ¬ InMesh a.before.mesh c) →
        ∀ v, InMesh T.mesh v → InMesh T'.mesh v) := by
  obtain ⟨r, s, h1, h2, rfl⟩ := refine_split h
  obtain ⟨k1, k2⟩ := unencroachLoop_verts hs h1
  obtain ⟨l, j1, -⟩ := splitIrregularLoop_history (corner_not_inside he) (fun _ => rfl) (splitInit_queued k1) h2
  refine ⟨r, s, l, h1, j1, rfl, fun hf v hv => history_verts (corner_not_inside he) j1 ⟨k1, fun t ht x hx => ?_⟩ hf v
    (k2 v hv)⟩
  simp only [splitInit] at ht
  rcases ht with ht | ht
  · exact ⟨t, List.mem_of_mem_filter (List.mem_of_mem_filter ht), hx⟩
  · exact ⟨t, List.mem_of_mem_filter (List.mem_of_mem_filter ht), hx⟩

section

variable {b : Polyline (Vertex K)} {g : Vertex K} {G : List (Tri (Vertex K))} (hG : Ground g b G)

include hG

theorem Estate.loop_verts {dist : Vertex K → Vertex K → K} {p : RefineParams K} {f fuel : Nat} :
    ∀ {n : Nat} {σ : Sched} {s s' : SplitState (Vertex K)} {l : List (Vertex K)}, Estate g b l s →
      splitIrregularLoop (geoRPreds 0 f dist p (some b) []) fuel n σ s = .ok s' →
      ∀ x, InMesh s.mesh x → InMesh s'.mesh x := by
  intro n
  induction n with
  | zero =>
    intro σ s s' l hE h
    rw [splitIrregularLoop] at h
    cases hp : popTriangle (σ.sub 0) s with
    | none =>
      rw [hp] at h
      simp only [Res.ok.injEq] at h
      subst h
      exact fun _ k => k
    | some q => rw [hp] at h; cases h
  | succ n ih =>
    intro σ s s' l hE h
    rw [splitIrregularLoop] at h
    cases hp : popTriangle (σ.sub 0) s with
    | none =>
      rw [hp] at h
      simp only [Res.ok.injEq] at h
      subst h
      exact fun _ k => k
    | some q =>
      obtain ⟨t, s1⟩ := q
      rw [hp] at h
      simp only at h
      rw [Res.bind_eq_ok] at h
      obtain ⟨s2, h2, h⟩ := h
      obtain ⟨hE1, ht⟩ := hE.pop hp
      obtain ⟨-, p2, -⟩ := popTriangle_mem hp
      obtain ⟨l', hE2⟩ := hE1.step hG ht h2
      obtain ⟨-, hk⟩ := splitStep_verts (P := geoRPreds 0 f dist p (some b) []) (corner_not_inside le_rfl)
        ⟨hE1.plot.sound, fun u hu x hx => ⟨u, hE1.queued u hu, hx⟩⟩ (fun x hx => ⟨t, ht, hx⟩) (fun m' enc hm => by
          left
          cases hE1.plot.try hG hE1.along hE1.walls ht hm with
          | rejected _ hperm _ _ =>
            rintro x ⟨u, hu, hx⟩
            exact ⟨u, hperm.symm.subset hu, hx⟩) h2
      exact fun x hx => ih hE2 h x (hk x (p2 ▸ hx))

end

/-- C81, domains with a boundary and vertices inside: no vertex of the mesh is lost. Missing: domains with holes or
segments, for which see `C81_kept_partial`. -/
theorem C81_polygon_partial {fuel fuel' : Nat} {σ σ' τ : Sched} {b : Polyline (Vertex K)} {vs : List (Vertex K)}
    {T T0 T1 T2 : Triangulator K} {dist : Vertex K → Vertex K → K} {p : RefineParams K} (hb : b.opened = false)
    (hs : SimplePolygon b.vertices) (ha : 0 < shoelace b.vertices)
    (hreal : ∀ v ∈ b.vertices, v.isGhost = false)
    (hvs : ∀ v ∈ vs, v.isGhost = false) (hi : (Triangulator.new b).insertVertices 0 σ' vs = .ok T)
    (h0 : (Triangulator.new b).triangulate 0 fuel σ = .ok T0)
    (hin : ∀ s ∈ pairs b.vertices false, ∃ t ∈ T0.mesh.tris, Face t ∧ IsSide t ⟨s.1, s.2⟩)
    (h1 : T.triangulate 0 fuel σ = .ok T1) (h2 : T1.refine 0 fuel' dist p τ = .ok T2) :
    ∀ v, InMesh T1.mesh v → InMesh T2.mesh v := by
  obtain ⟨k1, k2, k3⟩ := interior_fit hb hs ha hreal hvs hi h0 hin h1
  obtain ⟨⟨G, hG⟩, -, -, -, -, -, he⟩ := interior_start (σ := σ) hb hs ha hreal hvs hi h0 hin
  obtain ⟨e1, e2, e3, -⟩ := insert_into_boundary hb hvs hi
  rw [he, Res.bind_eq_ok] at h1
  obtain ⟨st, -, h1⟩ := h1
  simp only [Res.ok.injEq] at h1
  have f1 : T1.boundary = b := by rw [← h1]; exact e1
  have f2 : T1.holes = [] := by rw [← h1]; exact e2
  have f3 : T1.segments = [] := by rw [← h1]; exact e3
  obtain ⟨r, s, q1, q2, q3⟩ := refine_split h2
  rw [f1, f2] at q1 q2
  have hC : ∀ c, c ∈ T1.constraints ↔ Wall b.vertices c := by
    intro c
    unfold Triangulator.constraints
    rw [f1, f2, f3, mem_toSet]
    simp only [List.flatMap_nil, List.nil_append, List.append_nil]
    rw [Polyline.intoEdges, hb]
    exact (fromVertexPairs_mem (s := (c.v1, c.v2))).symm
  obtain ⟨l', j1, j2, j3⟩ := Plot.unencroach hG ⟨Subdivides.refl _, k1, k2, k3⟩ hC q1
  obtain ⟨-, i2⟩ := unencroachLoop_verts k2 q1
  have hE := Estate.loop_verts hG (l := l') ⟨j1, j2, j3, fun t ht => by
    simp only [splitInit] at ht
    rcases ht with ht | ht
    · exact List.mem_of_mem_filter (List.mem_of_mem_filter ht)
    · exact List.mem_of_mem_filter (List.mem_of_mem_filter ht)⟩ q2
  rw [q3]
  exact fun v hv => hE v (i2 v hv)

namespace ValidityExample

theorem corner_of_mem {u : Tri (Vertex ℚ)} {v : Vertex ℚ} (h : v ∈ [u.v1, u.v2, u.v3]) : IsCorner u v := by
  simpa [IsCorner] using h

theorem not_inMesh {m : Mesh (Vertex ℚ)} {v : Vertex ℚ} (h : ∀ t ∈ m.tris, v ≠ t.v1 ∧ v ≠ t.v2 ∧ v ≠ t.v3) :
    ¬ InMesh m v := by
  rintro ⟨t, ht, rfl | rfl | rfl⟩
  · exact (h t ht).1 rfl
  · exact (h t ht).2.1 rfl
  · exact (h t ht).2.2 rfl

/-- C81 applies to the dart with three vertices inside: `refine` keeps its vertices, and adds middles of sides. -/
example : ∃ T1 T2, dartRequest.triangulate 0 60 (order 3) = .ok T1 ∧
    T1.refine 0 60 blocks ⟨some 3, 10⟩ (order 3) = .ok T2 ∧
    (∀ v, InMesh T1.mesh v → InMesh T2.mesh v) ∧
    (∀ v, InMesh T2.mesh v → Accounted (InMesh T1.mesh) (IsConstraint T1) (PoorWithin 0 blocks ⟨some 3, 10⟩) v) ∧
    ∃ v, InMesh T2.mesh v ∧ ¬ InMesh T1.mesh v ∧ ∃ s ∈ pairs dart.vertices false, v = halfway s.1 s.2 := by
  have hs : SimplePolygon dart.vertices := simple_of_check (by decide +kernel)
  have ha : 0 < shoelace dart.vertices := by decide +kernel
  have hr : ∀ v ∈ dart.vertices, v.isGhost = false := by decide +kernel
  have hv : ∀ v ∈ [pt 1 3, pt 3 3, pt 2 1], v.isGhost = false := by decide +kernel
  have hi : (Triangulator.new dart).insertVertices 0 (order 5) [pt 1 3, pt 3 3, pt 2 1] = .ok dartRequest := by
    obtain ⟨T, h⟩ := (C22_ok_iff 0 (order 5) (Triangulator.new dart) [pt 1 3, pt 3 3, pt 2 1]).2 (by decide +kernel)
    rw [dartRequest, h]
  obtain ⟨T0, h0, e0⟩ := ok_of_finished (σ := order 3) (T := Triangulator.new dart) (by decide +kernel)
  have hside : ∀ s ∈ pairs dart.vertices false, ∃ t ∈ T0.mesh.tris, Face t ∧ IsSide t ⟨s.1, s.2⟩ := by
    rw [e0]
    unfold Face IsSide
    decide +kernel
  have key : (refined (order 3) ⟨some 3, 10⟩ dartRequest).any (fun q => decide (
      ∃ u ∈ q.2, ∃ v ∈ [u.v1, u.v2, u.v3], (∀ t ∈ q.1, v ≠ t.v1 ∧ v ≠ t.v2 ∧ v ≠ t.v3) ∧
        ∃ s ∈ pairs dart.vertices false, v = halfway s.1 s.2)) = true := by decide +kernel
  obtain ⟨T1, T2, h1, h2, e⟩ := ok_of_refined (σ := order 3) (p := ⟨some 3, 10⟩) (T := dartRequest) (by
    cases hh : refined (order 3) ⟨some 3, 10⟩ dartRequest with
    | none => rw [hh] at key; simp at key
    | some q => rfl)
  rw [e, Option.any_some, decide_eq_true_eq] at key
  obtain ⟨u, hu, v, hv1, hv2, hv3⟩ := key
  exact ⟨T1, T2, h1, h2, C81_polygon_partial rfl hs ha hr hv hi h0 hside h1 h2, C81_added le_rfl (triangulate_sound h1) h2,
    v, ⟨u, hu, corner_of_mem hv1⟩, not_inMesh hv2, hv3⟩

/-- C81 applies to a square with the bound 8 on the area: `refine` adds the centre, which is the circumcentre of a
triangle that is too large. -/
example : ∃ T1 T2, (Triangulator.new square).triangulate 0 60 (order 3) = .ok T1 ∧
    T1.refine 0 60 blocks ⟨some 8, 10⟩ (order 3) = .ok T2 ∧
    (∀ v, InMesh T2.mesh v → Accounted (InMesh T1.mesh) (IsConstraint T1) (PoorWithin 0 blocks ⟨some 8, 10⟩) v) ∧
    ∃ v, InMesh T2.mesh v ∧ ¬ InMesh T1.mesh v ∧ ∃ t ∈ T1.mesh.tris, t.area = some 8 ∧ t.circumcenter = some v := by
  have key : (refined (order 3) ⟨some 8, 10⟩ (Triangulator.new square)).any (fun q => decide (
      ∃ u ∈ q.2, ∃ v ∈ [u.v1, u.v2, u.v3], (∀ t ∈ q.1, v ≠ t.v1 ∧ v ≠ t.v2 ∧ v ≠ t.v3) ∧
        ∃ t ∈ q.1, t.area = some 8 ∧ t.circumcenter = some v)) = true := by decide +kernel
  obtain ⟨T1, T2, h1, h2, e⟩ := ok_of_refined (σ := order 3) (p := ⟨some 8, 10⟩) (T := Triangulator.new square) (by
    cases hh : refined (order 3) ⟨some 8, 10⟩ (Triangulator.new square) with
    | none => rw [hh] at key; simp at key
    | some q => rfl)
  rw [e, Option.any_some, decide_eq_true_eq] at key
  obtain ⟨u, hu, v, hv1, hv2, hv3⟩ := key
  exact ⟨T1, T2, h1, h2, C81_added le_rfl (triangulate_sound h1) h2, v, ⟨u, hu, corner_of_mem hv1⟩, not_inMesh hv2, hv3⟩

end ValidityExample

end Verif.Props
