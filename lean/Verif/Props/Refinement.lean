import Verif.Lemmas.Sound
import Verif.Props.Predicates
import Verif.Props.Insertion
import Mathlib.Algebra.Order.Ring.Rat
import Mathlib.Algebra.Field.Rat

/-!
# C30: what the refinement leaves behind; C13: the adjacency after triangulating and refining

The full claim of C30 is that no poor triangle is left when `refine` returns. It is false (`C30_false`): a triangle is
taken from the queue before its circumcentre is tried, and is not put back when the circumcentre is rejected because
it encroaches on a segment. What holds (`C30_partial`): every poor triangle left was tried, and its attempt was
rejected for that reason or its circumcentre does not conflict with it.
-/

set_option linter.unusedSectionVars false

namespace Verif.Props

open Spec

variable {K : Type*} [Field K] [LinearOrder K] [IsStrictOrderedRing K]

/-- A corner of a triangle is never strictly inside its circumcircle. -/
theorem corner_not_inside {eps : K} (he : 0 ≤ eps) {fuel : Nat} {boundary : Option (Polyline (Vertex K))}
    {holes : List (Polyline (Vertex K))} (t : Tri (Vertex K)) (x : Vertex K)
    (hg : NoGhost (geoPreds eps fuel boundary holes).ghost t) (hx : IsCorner t x) :
    (geoPreds eps fuel boundary holes).inside t x = false := by
  have hg' : t.isGhost Vertex.isGhost = false := hg
  have h0 : circleDet t.v1 t.v2 t.v3 x = 0 := by
    rcases hx with rfl | rfl | rfl <;> simp only [circleDet, det4, det3] <;> ring
  show decide (t.encircles eps x = .inside) = false
  rw [decide_eq_false_iff_not, Tri.encircles, hg', continence, h0,
    if_pos (approxEq_zero_iff.2 (by simpa using he))]
  simp

section decision

variable {V : Type*} [DecidableEq V]

/-- C28: when the circumcentre `c` is inserted, no triangle at `c` has an opposite side that is a constrained segment, in
either direction, on which `c` encroaches. -/
theorem C28_inserted {P : RPreds V} (hP : ∀ t x, NoGhost P.ghost t → IsCorner t x → P.inside t x = false)
    (hveq : ∀ a b, P.veq a b = true ↔ a = b) {C : List (Edge V)} {fuel : Nat} {σ : Sched} {m m' : Mesh V}
    {t : Tri V} {c : V} {I R : List (Tri V)} (hs : AdjSound m) (hc : P.circumcenter t = some c)
    (hfresh : ¬ InMesh m c) (h : tryCircumcenter P fuel σ C m t = .ok (.inserted m' I R)) :
    ∀ u ∈ m'.tris, ∀ e, IsSide u e → IsCorner u c → e.v1 ≠ c → e.v2 ≠ c → (e ∈ C ∨ e.opposite ∈ C) →
      P.encroaches e c = false := by
  intro u hu e he hcu h1 h2 hC
  obtain ⟨c', s, hc', ht, -, ho⟩ := tryCircumcenter_track hP hs h
  rw [hc] at hc'
  injection hc' with hc'
  subst hc'
  obtain ⟨c', J, enc, hc', hf, he'⟩ := tryCircumcenter_enc h
  rw [hc] at hc'
  injection hc' with hc'
  subst hc'
  rcases he' with ⟨h0, m'', R', ho'⟩ | ⟨-, m'', ho'⟩
  · injection ho' with e1 e2 e3
    subst e1; subst e2; subst e3
    rcases ho with ho | ⟨enc', ho⟩
    · injection ho with e1 e2 e3
      subst e1; subst e2; subst e3
      have hu' : u ∈ s.included := (ht.orig u hu).resolve_left fun hm => hfresh ⟨u, hm, hcu⟩
      cases hen : P.encroaches e c with
      | false => rfl
      | true =>
        have := (mem_findEncroachments hf e).2 ⟨⟨u, hu', ?_⟩, hC, hen⟩
        · rw [h0] at this; simp at this
        · obtain ⟨x, y⟩ := e
          simp only at h1 h2
          unfold Tri.oppositeEdge
          simp only [hveq]
          rcases hcu with hcu | hcu | hcu <;> rcases he with ⟨k1, k2⟩ | ⟨k1, k2⟩ | ⟨k1, k2⟩ <;>
            simp only at k1 k2 <;> subst k1 <;> subst k2 <;> grind
    · cases ho
  · cases ho'

/-- C28: when the circumcentre is rejected, the segments reported are not empty, and each of them is constrained, in one
of its directions, and encroached by the circumcentre. -/
theorem C28_rejected {P : RPreds V} {C : List (Edge V)} {fuel : Nat} {σ : Sched} {m m' : Mesh V} {t : Tri V} {c : V}
    {enc : List (Edge V)} (hc : P.circumcenter t = some c)
    (h : tryCircumcenter P fuel σ C m t = .ok (.rejected m' enc)) :
    enc ≠ [] ∧ ∀ e ∈ enc, (e ∈ C ∨ e.opposite ∈ C) ∧ P.encroaches e c = true := by
  obtain ⟨c', J, en, hc', hf, he'⟩ := tryCircumcenter_enc h
  rw [hc] at hc'
  injection hc' with hc'
  subst hc'
  rcases he' with ⟨h0, m'', R', ho'⟩ | ⟨h0, m'', ho'⟩
  · cases ho'
  · injection ho' with e1 e2
    subst e1; subst e2
    exact ⟨h0, fun e he => ((mem_findEncroachments hf e).1 he).2⟩

/-- Vertex 3 encroaches on the side (0, 1) of the triangle 0, 1, 2, which is constrained in the other direction. -/
example : ∃ m' enc, tryCircumcenter Sample.rpreds 30 Sched.first [⟨1, 0⟩] Sample.mesh1 ⟨0, 1, 2⟩ =
    .ok (.rejected m' enc) ∧ enc = [⟨0, 1⟩] := ⟨_, _, rfl, by decide⟩

/-- A triangle and its three ghosts. -/
def oneTriangle : Mesh Nat := (((Mesh.empty.add ⟨0, 1, 2⟩).add ⟨1, 0, 9⟩).add ⟨2, 1, 9⟩).add ⟨0, 2, 9⟩

/-- Without the constraint vertex 3 is inserted, and three triangles surround it. -/
example : AdjSound oneTriangle ∧ ¬ InMesh oneTriangle 3 ∧ (∀ a b, Sample.rpreds.veq a b = true ↔ a = b) ∧
    (∀ t x, NoGhost Sample.rpreds.ghost t → IsCorner t x → Sample.rpreds.inside t x = false) ∧
    ∃ m' I R, tryCircumcenter Sample.rpreds 30 Sched.first [] oneTriangle ⟨0, 1, 2⟩ = .ok (.inserted m' I R) ∧
      I.length = 3 := by
  refine ⟨adjSound_add (adjSound_add (adjSound_add (adjSound_add adjSound_empty))), ?_, fun a b => beq_iff_eq, ?_,
    _, _, _, rfl, by decide⟩
  · rintro ⟨t, ht, hc⟩
    have : ∀ t ∈ oneTriangle.tris, ¬ (3 = t.v1 ∨ 3 = t.v2 ∨ 3 = t.v3) := by decide
    exact this t ht hc
  · rintro ⟨a, b, c⟩ x hg hx
    simp only [NoGhost, Tri.isGhost, Sample.rpreds, Sample.preds] at hg ⊢
    simp only [IsCorner] at hx
    rw [Bool.eq_false_iff]
    intro h
    simp only [Bool.or_eq_true, Bool.and_eq_true, decide_eq_true_eq, Tri.mk.injEq, beq_iff_eq] at h
    rcases h with ⟨⟨rfl, rfl, rfl⟩, h⟩ | ⟨⟨rfl, rfl, rfl⟩, h⟩
    · simp at hg
    · omega

end decision

/-- C13: whatever the domain, the vertices and the segments, when `triangulate` returns every entry of the adjacency
refers to a triangle of the mesh that has this side. -/
theorem C13_triangulate {eps : K} {fuel : Nat} {σ : Sched} {T T' : Triangulator K}
    (h : T.triangulate eps fuel σ = .ok T') : AdjSound T'.mesh := triangulate_sound h

theorem refine_split {eps : K} {fuel : Nat} {dist : Vertex K → Vertex K → K} {p : RefineParams K}
    {σ : Sched} {T T' : Triangulator K} (h : T.refine eps fuel dist p σ = .ok T') :
    ∃ r s, unencroach (geoRPreds eps fuel dist p (some T.boundary) T.holes) fuel (σ.sub 0) T.constraints
        T.mesh = .ok r ∧
      splitIrregular (geoRPreds eps fuel dist p (some T.boundary) T.holes) fuel (σ.sub 1)
        (Triangulator.updateConstraints T.constraints r.2) r.1 = .ok s ∧ T' = { T with mesh := s.mesh } := by
  unfold Triangulator.refine at h
  simp only at h
  rw [Res.bind_eq_ok] at h
  obtain ⟨r, h1, h⟩ := h
  rw [Res.bind_eq_ok] at h
  obtain ⟨s, h2, h⟩ := h
  injection h with h
  exact ⟨r, s, h1, h2, h.symm⟩

/-- C13: refining keeps the adjacency truthful. -/
theorem C13_refine {eps : K} (he : 0 ≤ eps) {fuel : Nat} {dist : Vertex K → Vertex K → K}
    {p : RefineParams K} {σ : Sched} {T T' : Triangulator K} (hs : AdjSound T.mesh)
    (h : T.refine eps fuel dist p σ = .ok T') : AdjSound T'.mesh := by
  obtain ⟨r, s, h1, h2, rfl⟩ := refine_split h
  have hm : AdjSound r.1 := unencroachLoop_sound (corner_not_inside he) (fun _ => rfl) hs h1
  obtain ⟨l, -, k, -⟩ := splitIrregularLoop_history (corner_not_inside he) (fun _ => rfl)
    (splitInit_queued hm) h2
  exact k

/-- The triangle has a quality at least the requested ratio, or an area at least the requested one. -/
def PoorTriangle (dist : Vertex K → Vertex K → K) (p : RefineParams K) (t : Tri (Vertex K)) : Prop :=
  t.isGhost Vertex.isGhost = false ∧
    ((∃ q, t.quality dist = some q ∧ p.qualityRatio ≤ q) ∨
      ∃ a mx, t.area = some a ∧ p.maxArea = some mx ∧ mx ≤ a)

theorem poor_of {eps : K} {fuel : Nat} {dist : Vertex K → Vertex K → K} {p : RefineParams K}
    {b : Option (Polyline (Vertex K))} {hs : List (Polyline (Vertex K))} {t : Tri (Vertex K)}
    (h : PoorTriangle dist p t) : Poor (geoRPreds eps fuel dist p b hs) t := by
  obtain ⟨hg, h⟩ := h
  refine ⟨hg, ?_⟩
  rcases h with ⟨q, h1, h2⟩ | ⟨a, mx, h1, h2, h3⟩
  · left
    show isIrregular eps dist p t = true
    simp [isIrregular, h1, h2]
  · right
    show isLarge eps p t = true
    simp [isLarge, h1, h2, h3]

/-- C30 (partial): when `refine` returns, every poor triangle of the mesh was taken from the queue in one of the
attempts of the refinement loop, and that attempt was rejected because the circumcentre encroached on some segment, or
the circumcentre does not split the triangle itself. Missing: that there is no poor triangle, which is false
(`C30_false`). -/
theorem C30_partial {eps : K} (he : 0 ≤ eps) {fuel : Nat} {dist : Vertex K → Vertex K → K}
    {p : RefineParams K} {σ : Sched} {T T' : Triangulator K} (hs : AdjSound T.mesh)
    (h : T.refine eps fuel dist p σ = .ok T') :
    ∃ r last attempts,
      unencroach (geoRPreds eps fuel dist p (some T.boundary) T.holes) fuel (σ.sub 0) T.constraints T.mesh = .ok r ∧
      History (geoRPreds eps fuel dist p (some T.boundary) T.holes) fuel
        (splitInit (geoRPreds eps fuel dist p (some T.boundary) T.holes)
          (Triangulator.updateConstraints T.constraints r.2) r.1) attempts last ∧
      T'.mesh = last.mesh ∧
      ∀ t ∈ T'.mesh.tris, PoorTriangle dist p t →
        ∃ a ∈ attempts, a.tri = t ∧
          (a.Rejected ∨ ¬ SplitsItself (geoRPreds eps fuel dist p (some T.boundary) T.holes) t) := by
  obtain ⟨r, s, h1, h2, rfl⟩ := refine_split h
  have hm : AdjSound r.1 := unencroachLoop_sound (corner_not_inside he) (fun _ => rfl) hs h1
  obtain ⟨l, k1, -, -, -, k5⟩ := splitIrregularLoop_history (corner_not_inside he) (fun _ => rfl)
    (splitInit_queued hm) h2
  refine ⟨r, s, l, h1, k1, rfl, fun t ht hp => ?_⟩
  rcases k5 t ht (poor_of hp) with k | ⟨a, ha, h1, h2⟩
  · exact k.elim
  · subst h1
    exact ⟨a, ha, rfl, h2⟩

/-- In exact arithmetic the circumcentre of a counterclockwise triangle is always inside its circumcircle, so that it
splits the triangle itself unless the boundary or a hole forbids it. -/
theorem C30_splits_itself {fuel : Nat} {dist : Vertex K → Vertex K → K} {p : RefineParams K}
    {b : Option (Polyline (Vertex K))} {hs : List (Polyline (Vertex K))} {t : Tri (Vertex K)}
    (hg : t.isGhost Vertex.isGhost = false) (hc : 0 < cross t.v1 t.v2 t.v3)
    (hn : ¬ SplitsItself (geoRPreds 0 fuel dist p b hs) t) :
    ∃ c, t.circumcenter = some c ∧ Equidistant c t.v1 t.v2 t.v3 ∧
      mayInsertTriangle 0 fuel b hs t c ≠ .ok true := by
  have hne : cross t.v1 t.v2 t.v3 ≠ 0 := ne_of_gt hc
  cases hcc : Verif.circumcenter t.v1 t.v2 t.v3 with
  | none => exact absurd ((C03_none_iff _ _ _).1 hcc) hne
  | some c =>
    have heq := (C03_some hcc).1
    have hcc' : t.circumcenter = some c := by rw [Tri.circumcenter, hg]; exact hcc
    refine ⟨c, hcc', heq, fun hm => hn ⟨c, hcc', ?_, hm⟩⟩
    show decide (t.encircles 0 c = .inside) = true
    rw [decide_eq_true_iff, Tri.encircles, hg]
    have hd := circleDet_eq heq c
    have h0 : dist2 c c = 0 := by simp [dist2]
    have hr : 0 < dist2 c t.v1 := by
      rcases (show 0 ≤ dist2 c t.v1 by unfold dist2; positivity).lt_or_eq with h | h
      · exact h
      · exfalso
        have z : ∀ v : Vertex K, dist2 c v = 0 → v.x = c.x ∧ v.y = c.y := by
          intro v hv
          unfold dist2 at hv
          constructor <;> nlinarith [sq_nonneg (c.x - v.x), sq_nonneg (c.y - v.y)]
        have z1 := z _ h.symm
        have z2 := z _ (heq.1 ▸ h.symm)
        apply hne
        simp only [cross, z1.1, z1.2, z2.1, z2.2]; ring
    have hpos : 0 < circleDet t.v1 t.v2 t.v3 c := by
      rw [hd, h0, sub_zero]; exact mul_pos hc hr
    show (if (!false) = true then continence 0 t.v1 t.v2 t.v3 c else _) = _
    simp only [Bool.not_false, if_true]
    rw [continence, if_neg (fun h => (ne_of_gt hpos) (approxEq_zero_eps.1 h)), if_pos hpos]

namespace RefineSample

/-- Integer square root by bisection between `lo` and `hi`. -/
def isqrt (n : Nat) : Nat → Nat → Nat → Nat
  | 0, lo, _ => lo
  | k + 1, lo, hi =>
    let mid := (lo + hi) / 2
    if mid * mid ≤ n then isqrt n k mid hi else isqrt n k lo mid

/-- Distance rounded down to six decimals. -/
def dist (a b : Vertex ℚ) : ℚ :=
  let d := distSq a b
  (isqrt (d.num.natAbs * 10 ^ 12 / d.den) 40 0 (10 ^ 9) : ℚ) / 10 ^ 6

abbrev A : Vertex ℚ := ⟨-10, 0, false⟩
abbrev B : Vertex ℚ := ⟨10, 0, false⟩
abbrev r : Vertex ℚ := ⟨66 / 65, 1459 / 130, false⟩
abbrev p : Vertex ℚ := ⟨-16 / 17, 383 / 34, false⟩
abbrev q : Vertex ℚ := ⟨-66 / 65, 1459 / 130, false⟩

/-- A domain with a short side and an almost flat corner. -/
def T : Triangulator ℚ := Triangulator.new ⟨[A, B, r, p, q], false, by decide⟩

/-- The triangles of a result. -/
def tris : Res (Triangulator ℚ) → List (Tri (Vertex ℚ))
  | .ok T => T.mesh.tris
  | _ => []

/-- The triangulator after `triangulate` and `refine`, with the quality ratio 10 and no maximal area. -/
def final : Res (Triangulator ℚ) :=
  (T.triangulate 0 100 Sched.first).bind fun T => T.refine 0 100 dist ⟨none, 10⟩ Sched.first

theorem final_tris : (⟨p, q, r⟩ : Tri (Vertex ℚ)) ∈ tris final := by decide +kernel

end RefineSample

open RefineSample in
/-- C30 is false: there is a domain of five vertices for which `triangulate` and `refine` return, with the ratio 10,
and leave a counterclockwise triangle whose quality is at least 10. The last line says the same in exact terms: some
point `c` is at equal distance from the three corners, and this distance is more than ten times the length of the
side `p q`. -/
theorem C30_false : ∃ T1 T2, T.triangulate 0 100 Sched.first = .ok T1 ∧
    T1.refine 0 100 dist ⟨none, 10⟩ Sched.first = .ok T2 ∧
    ∃ t ∈ T2.mesh.tris, PoorTriangle dist ⟨none, 10⟩ t ∧ 0 < cross t.v1 t.v2 t.v3 ∧
      ∃ c, Equidistant c t.v1 t.v2 t.v3 ∧ 10 ^ 2 * dist2 t.v1 t.v2 < dist2 c t.v1 := by
  have hmem := final_tris
  cases h1 : T.triangulate 0 100 Sched.first with
  | panic => unfold final at hmem; rw [h1] at hmem; cases hmem
  | diverged => unfold final at hmem; rw [h1] at hmem; cases hmem
  | ok T1 =>
    unfold final at hmem
    rw [h1, Res.bind_ok] at hmem
    cases h2 : T1.refine 0 100 dist ⟨none, 10⟩ Sched.first with
    | panic => rw [h2] at hmem; cases hmem
    | diverged => rw [h2] at hmem; cases hmem
    | ok T2 =>
      rw [h2] at hmem
      refine ⟨T1, T2, rfl, h2, _, hmem, ⟨rfl, Or.inl ?_⟩, by norm_num [cross],
        ⟨0, 19 / 2, false⟩, by constructor <;> norm_num [dist2], by norm_num [dist2]⟩
      have : (match (⟨p, q, r⟩ : Tri (Vertex ℚ)).quality dist with
        | some x => decide (10 ≤ x)
        | none => false) = true := by decide +kernel
      cases hq : (⟨p, q, r⟩ : Tri (Vertex ℚ)).quality dist with
      | none => rw [hq] at this; cases this
      | some x => rw [hq] at this; exact ⟨x, rfl, of_decide_eq_true this⟩

open RefineSample in
/-- The hypotheses of `C13_refine` and `C30_partial` are met by this domain, whose refined mesh has at least one
attempt. -/
example : ∃ T1 T2, T.triangulate 0 100 Sched.first = .ok T1 ∧ AdjSound T1.mesh ∧
    T1.refine 0 100 dist ⟨none, 10⟩ Sched.first = .ok T2 ∧ ∃ t ∈ T2.mesh.tris, PoorTriangle dist ⟨none, 10⟩ t := by
  obtain ⟨T1, T2, h1, h2, t, ht, hp, -⟩ := C30_false
  exact ⟨T1, T2, h1, C13_triangulate h1, h2, t, ht, hp⟩

end Verif.Props
