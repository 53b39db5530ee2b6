import Verif.Model.RoundedRefine
import Verif.Props.CircleRounding

/-!
# C91: without rounding, the programs with rounding are the exact ones

Each program of the `Rounded` modules takes the rounding as a parameter. With `id` for it, it gives the same answers as the
program of the other modules, for all inputs, schedules and step counts.
-/

set_option linter.unusedSectionVars false

namespace Verif.Props

open Spec Triangulator

variable {K : Type*} [Field K] [LinearOrder K] [IsStrictOrderedRing K]

theorem orientation_exact (eps : K) (a b c : Vertex K) : orientationRounded id eps a b c = orientation eps a b c := by
  have : orientDetRounded id a b c = orientDet a b c := by
    simp only [orientDetRounded, orientDet_eq, id, cross]
    ring
  simp only [orientationRounded, orientation, this]

theorem approxEq_exact (eps a b : K) : approxEqRounded id eps a b = approxEq eps a b := rfl

theorem eqv_exact (eps : K) (a b : Vertex K) : Vertex.eqvRounded id eps a b = Vertex.eqv eps a b := rfl

theorem edge_contains_exact (eps : K) (e : Edge (Vertex K)) (v : Vertex K) :
    e.containsRounded id eps v = e.contains eps v := by
  unfold Edge.containsRounded Edge.contains
  simp only [orientation_exact]
  rfl

theorem containsLoop_exact (eps : K) (v : Vertex K) (l : List (Vertex K × Vertex K)) (n : Int) :
    Polyline.containsLoopRounded id eps v l n = Polyline.containsLoop eps v l n := by
  induction l generalizing n with
  | nil => rfl
  | cons s l ih => simp only [Polyline.containsLoopRounded, Polyline.containsLoop, orientation_exact, ih]; rfl

theorem contains_exact (eps : K) (p : Polyline (Vertex K)) (v : Vertex K) :
    p.containsRounded id eps v = p.contains eps v := by
  simp only [Polyline.containsRounded, Polyline.contains, containsLoop_exact]

theorem placeVertex_exact (eps : K) (v : Vertex K) (l : List (Edge (Vertex K))) :
    placeVertexRounded id eps v l = placeVertex eps v l := by
  induction l with
  | nil => rfl
  | cons s l ih => simp only [placeVertexRounded, placeVertex, eqv_exact, edge_contains_exact, ih]

theorem insertVerticesLoop_exact (eps : K) (σ : Sched) (l : List (Vertex K)) (T : Triangulator K) :
    insertVerticesLoopRounded id eps σ l T = insertVerticesLoop eps σ l T := by
  induction l generalizing σ T with
  | nil => rfl
  | cons v l ih => simp only [insertVerticesLoopRounded, insertVerticesLoop, placeVertex_exact, ih]; rfl

/-- C91: `insert_vertices`. -/
theorem C91_insert (eps : K) (σ : Sched) (T : Triangulator K) (vs : List (Vertex K)) :
    insertVerticesRounded id eps σ T vs = insertVertices eps σ T vs := by
  have : vertexRejectedRounded id eps T = vertexRejected eps T := by
    funext v
    simp only [vertexRejectedRounded, vertexRejected, contains_exact]
  simp only [insertVerticesRounded, insertVertices, this, insertVerticesLoop_exact]

theorem midpoint_exact (e : Edge (Vertex K)) : e.midpointRounded id = e.midpoint := rfl

theorem det_exact (m : Mat2 K) : m.detRounded id = m.det := by
  simp only [Mat2.detRounded, Mat2.det, id]
  ring

theorem isInvertible_exact (m : Mat2 K) : m.isInvertibleRounded id = m.isInvertible := by
  simp only [Mat2.isInvertibleRounded, Mat2.isInvertible, det_exact]

theorem invMul_exact (m : Mat2 K) (x y : K) : m.invMulRounded id x y = m.invMul x y := by
  simp only [Mat2.invMulRounded, Mat2.mulRounded, Mat2.invMul, det_exact, id]
  refine Prod.ext ?_ ?_ <;> simp only <;> ring

theorem mul_exact (m : Mat2 K) (x y : K) : m.mulRounded id x y = m.mul x y := rfl

theorem segMatrix_exact (a b c d : Vertex K) : segMatrixRounded id a b c d = segMatrix a b c d := rfl

theorem parallel_exact (a b c d : Vertex K) : parallelRounded id a b c d = parallel a b c d := by
  simp only [parallelRounded, parallel, segMatrix_exact, isInvertible_exact]

theorem intersection_exact (eps : K) (a b c d : Vertex K) : intersectionRounded id eps a b c d = intersection eps a b c d := by
  have h : ∀ box, intersectionVertexRounded id eps a b c d box = intersectionVertex eps a b c d box := by
    intro box
    simp only [intersectionVertexRounded, intersectionVertex, segMatrix_exact, isInvertible_exact, mul_exact, invMul_exact, id]
    simp [approxEq, Vertex.mk']
  unfold intersectionRounded intersection
  simp only [h]
  rfl

theorem crosses_exact (eps : K) (a b c d : Vertex K) : crossesRounded id eps a b c d = crosses eps a b c d := by
  simp only [crossesRounded, crosses, intersection_exact, eqv_exact, parallel_exact]

theorem splitLoop_exact (eps : K) (n : Nat) (l acc : List (Vertex K × Vertex K)) :
    splitLoopRounded id eps n l acc = splitLoop eps n l acc := by
  induction n generalizing l acc with
  | zero => cases l <;> simp [splitLoopRounded, splitLoop]
  | succ n ih =>
    cases l with
    | nil => simp [splitLoopRounded, splitLoop]
    | cons s l => simp only [splitLoopRounded, splitLoop, crosses_exact, intersection_exact, eqv_exact, ih]; rfl

theorem continenceLoop_exact (eps : K) (p : Polyline (Vertex K)) (l : List (Vertex K)) (s : Polyline.ContState) :
    Polyline.continenceLoopRounded id eps p l s = Polyline.continenceLoop eps p l s := by
  induction l generalizing s with
  | nil => rfl
  | cons v l ih => simp only [Polyline.continenceLoopRounded, Polyline.continenceLoop, contains_exact, ih]; rfl

theorem continenceSplitLoop_exact (eps : K) (p : Polyline (Vertex K)) (c : Option Continence) (l : List (Edge (Vertex K))) :
    Polyline.continenceSplitLoopRounded id eps p c l = Polyline.continenceSplitLoop eps p c l := by
  induction l with
  | nil => rfl
  | cons v l ih =>
    simp only [Polyline.continenceSplitLoopRounded, Polyline.continenceSplitLoop, contains_exact, midpoint_exact, ih]; rfl

theorem polyline_continence_exact (eps : K) (fuel : Nat) (p q : Polyline (Vertex K)) :
    Polyline.continenceRounded id eps fuel p q = Polyline.continence eps fuel p q := by
  unfold Polyline.continenceRounded Polyline.continence splitIntersectionsRounded splitIntersections
  simp only [continenceLoop_exact, continenceSplitLoop_exact, splitLoop_exact]
  rfl

theorem probe_exact (t : Tri (Vertex K)) (v : Vertex K) : probeRounded id t v = probe t v := rfl

theorem outsideHoles_exact (eps : K) (fuel : Nat) (p : Polyline (Vertex K)) (l : List (Polyline (Vertex K))) (f : Bool) :
    outsideHolesRounded id eps fuel p l f = outsideHoles eps fuel p l f := by
  induction l generalizing f with
  | nil => rfl
  | cons h l ih => simp only [outsideHolesRounded, outsideHoles, polyline_continence_exact, ih]; rfl

/-- C91: `may_insert_triangle`. -/
theorem C91_domain (eps : K) (fuel : Nat) (b : Option (Polyline (Vertex K))) (holes : List (Polyline (Vertex K)))
    (t : Tri (Vertex K)) (v : Vertex K) :
    mayInsertTriangleRounded id eps fuel b holes t v = mayInsertTriangle eps fuel b holes t v := by
  unfold mayInsertTriangleRounded mayInsertTriangle
  simp only [probe_exact, polyline_continence_exact, outsideHoles_exact]
  rfl

theorem encircles_exact (eps : K) (t : Tri (Vertex K)) (v : Vertex K) : t.encirclesRounded id eps v = t.encircles eps v := by
  simp only [Tri.encirclesRounded, Tri.encircles, C86_exact, orientation_exact]
  rfl

theorem domainPreds_exact (eps : K) (fuel : Nat) (b : Option (Polyline (Vertex K))) (holes : List (Polyline (Vertex K))) :
    domainPredsRounded id eps fuel b holes = geoPreds eps fuel b holes := by
  have h1 : mayInsertTriangleRounded id eps fuel b holes = mayInsertTriangle eps fuel b holes := by
    funext t v
    exact C91_domain ..
  simp only [domainPredsRounded, geoPredsRounded, geoPreds, h1, encircles_exact, edge_contains_exact]
  rfl

theorem geoPreds_exact (eps : K) (fuel : Nat) : geoPredsRounded id eps = geoPreds eps fuel none [] := by
  have h1 : mayInsertTriangle eps fuel none [] = fun _ _ => Res.ok true := by
    funext t v
    rfl
  simp only [geoPredsRounded, geoPreds, h1, encircles_exact, edge_contains_exact]
  rfl

/-- C91: `triangulate` for a boundary and vertices. -/
theorem C91_triangulate (eps : K) (fuel : Nat) (σ : Sched) {T : Triangulator K} (hh : T.holes = []) (hs : T.segments = []) :
    T.triangulate eps fuel σ = (meshVerticesRounded id eps fuel σ T).bind fun m => .ok { T with mesh := m } := by
  have e1 : ∀ σ, shuffle σ ([] : List (Polyline (Vertex K))) = [] := fun σ => List.perm_nil.1 (shuffle_perm _ _)
  have e2 : ∀ σ, shuffle σ ([] : List (Edge (Vertex K))) = [] := fun σ => List.perm_nil.1 (shuffle_perm _ _)
  unfold triangulate meshVerticesRounded meshOutlineRounded
  rw [geoPreds_exact eps fuel, hh, hs]
  rcases T.boundary.vertices with _ | ⟨v1, _ | ⟨v2, l⟩⟩
  · rfl
  · rfl
  · simp only [e1, e2, includeHoles, includeSegments, domainPreds_exact]
    cases includeBoundary (geoPreds eps fuel none []) Vertex.ghost [] fuel (σ.sub 0)
      (Mesh.fromInitialSegment Vertex.ghost v1 v2) T.boundary with
    | panic => rfl
    | diverged => rfl
    | ok m =>
      simp only [Res.bind]
      cases includeVertices (geoPreds eps fuel (some T.boundary) []) (toSet T.boundary.intoEdges) fuel (σ.sub 5) m
        (shuffle (σ.sub 6) T.vertices) <;> rfl

theorem circumcenter_exact (t : Tri (Vertex K)) : t.circumcenterRounded id = t.circumcenter := by
  unfold Tri.circumcenterRounded Tri.circumcenter circumcenterRounded circumcenter
  simp only [isInvertible_exact, det_exact, Mat2.mulRounded, Mat2.invMul, id]
  split_ifs
  · rfl
  · rfl
  · simp only [Option.some.injEq, Vertex.mk', Vertex.mk.injEq, and_true]
    constructor <;> ring

/-- C91: `refine`, with the quality test of the exact program. -/
theorem C91_refine (eps : K) (fuel : Nat) (dist : Vertex K → Vertex K → K) (p : RefineParams K) (σ : Sched)
    (T : Triangulator K) :
    T.refineRounded id eps fuel (isIrregular eps dist p) p.maxArea σ = T.refine eps fuel dist p σ := by
  have h1 : ∀ t : Tri (Vertex K), t.areaRounded id = t.area := by
    intro t
    have : orientDetRounded id t.v1 t.v2 t.v3 = orientDet t.v1 t.v2 t.v3 := by
      simp only [orientDetRounded, orientDet_eq, id, cross]
      ring
    simp only [Tri.areaRounded, Tri.area, areaTriangleRounded, areaTriangle, this, id]
  have h2 : isLargeRounded id eps p.maxArea = isLarge eps p := by
    funext t
    simp only [isLargeRounded, isLarge, h1, approxEq_exact]
    rfl
  have h3 : Tri.circumcenterRounded (K := K) id = Tri.circumcenter := funext circumcenter_exact
  have h4 : Edge.midpointRounded (K := K) id = Edge.midpoint := rfl
  have : refinePredsRounded id eps fuel (isIrregular eps dist p) p.maxArea (some T.boundary) T.holes =
      geoRPreds eps fuel dist p (some T.boundary) T.holes := by
    unfold refinePredsRounded geoRPreds
    rw [h2, h3, h4, domainPreds_exact]
    rfl
  unfold refineRounded refine refineWith
  rw [this]

end Verif.Props
