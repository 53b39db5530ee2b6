import Verif.Props.Encroachment
import Verif.Lemmas.RimLoop
import Verif.Props.Refinement

/-!
# C29: what happens to the segments when a circumcentre is rejected

When inserting the circumcentre of a poor triangle would encroach on segments, these segments are split instead. The
union of the segments never changes (`C29_union`), and when one segment is encroached, the pieces that replace it are
not encroached by the rejected circumcentre (`C29_rejected`).
-/

set_option linter.unusedSectionVars false

namespace Verif.Props

open Spec

variable {K : Type*} [Field K] [LinearOrder K] [IsStrictOrderedRing K]

section

variable {eps : K} {fuel : Nat} {dist : Vertex K → Vertex K → K} {params : RefineParams K}
  {boundary : Option (Polyline (Vertex K))} {holes : List (Polyline (Vertex K))}

theorem onSegment_flip {a b p : Vertex K} (h : OnSegment a b p) : OnSegment b a p := by
  obtain ⟨t, h0, h1, hx, hy⟩ := h
  exact ⟨1 - t, by linarith, by linarith, by rw [hx]; ring, by rw [hy]; ring⟩

theorem splitEncroached_cover {σ : Sched} {es : List (Edge (Vertex K))} {vs : List (Vertex K)}
    {s s' : SplitState (Vertex K)}
    (h : splitEncroached (geoRPreds eps fuel dist params boundary holes) fuel σ es vs s = .ok s') (p : Vertex K) :
    (∃ f ∈ s'.segments, OnSegment f.v1 f.v2 p) ↔
      (∃ f ∈ s.segments, OnSegment f.v1 f.v2 p) ∨ ∃ e ∈ es, OnSegment e.v1 e.v2 p := by
  induction es generalizing σ vs s with
  | nil =>
    simp only [splitEncroached, Res.ok.injEq] at h
    subst h
    simp
  | cons e es ih =>
    rw [splitEncroached, Res.bind_eq_ok] at h
    obtain ⟨r, hr, h⟩ := h
    rw [ih h]
    have hcov := C29_cover hr p
    simp only [requeue, mem_foldl_setInsert, mem_setErase]
    constructor
    · rintro (⟨f, hf | hf, hp⟩ | ⟨f, hf, hp⟩)
      · exact Or.inr ⟨e, List.mem_cons_self, hcov.2 ⟨f, hf, hp⟩⟩
      · exact Or.inl ⟨f, hf.1, hp⟩
      · exact Or.inr ⟨f, List.mem_cons_of_mem _ hf, hp⟩
    · rintro (⟨f, hf, hp⟩ | ⟨f, hf, hp⟩)
      · by_cases hfe : f = e
        · subst hfe
          obtain ⟨g, hg, hp⟩ := hcov.1 hp
          exact Or.inl ⟨g, Or.inl hg, hp⟩
        · exact Or.inl ⟨f, Or.inr ⟨hf, hfe⟩, hp⟩
      · rcases List.mem_cons.1 hf with rfl | hf
        · obtain ⟨g, hg, hp⟩ := hcov.1 hp
          exact Or.inl ⟨g, Or.inl hg, hp⟩
        · exact Or.inr ⟨f, hf, hp⟩

theorem splitStep_cover {σ : Sched} {t : Tri (Vertex K)} {s s' : SplitState (Vertex K)}
    (h : splitStep (geoRPreds eps fuel dist params boundary holes) fuel σ t s = .ok s') (p : Vertex K) :
    (∃ f ∈ s'.segments, OnSegment f.v1 f.v2 p) ↔ ∃ f ∈ s.segments, OnSegment f.v1 f.v2 p := by
  rw [splitStep, Res.bind_eq_ok] at h
  obtain ⟨o, ho, h⟩ := h
  cases o with
  | inserted m I R =>
    simp only [Res.ok.injEq] at h
    subst h
    rfl
  | rejected m enc =>
    simp only at h
    rw [Res.bind_eq_ok] at h
    obtain ⟨c, hc, h⟩ := h
    have hc' : (geoRPreds eps fuel dist params boundary holes).circumcenter t = some c := by
      cases hq : (geoRPreds eps fuel dist params boundary holes).circumcenter t with
      | none => rw [hq] at hc; cases hc
      | some d => rw [hq] at hc; simp only [Res.unwrap, Res.ok.injEq] at hc; rw [hc]
    rw [splitEncroached_cover h p]
    constructor
    · rintro (hs | ⟨e, he, hp⟩)
      · exact hs
      · rw [mem_shuffle] at he
        rcases ((C28_rejected hc' ho).2 e he).1 with k | k
        · exact ⟨e, k, hp⟩
        · exact ⟨_, k, onSegment_flip hp⟩
    · exact Or.inl

/-- The pieces and the segments they replace, as `unencroach` collects them, seen from a point `p`. -/
theorem unencroachLoop_cover {C : List (Edge (Vertex K))} (p : Vertex K) {n : Nat} {σ : Sched} {m : Mesh (Vertex K)}
    {cs : List (Edge (Vertex K) × List (Vertex K))} {split : List (Edge (Vertex K) × Edge (Vertex K))}
    {r : Mesh (Vertex K) × List (Edge (Vertex K) × Edge (Vertex K))}
    (h : unencroachLoop (geoRPreds eps fuel dist params boundary holes) C fuel n σ m cs split = .ok r)
    (hcs : ∀ q ∈ cs, q.1 ∈ C)
    (h1 : ∀ q ∈ split, OnSegment q.2.v1 q.2.v2 p → ∃ q' ∈ split, OnSegment q'.1.v1 q'.1.v2 p)
    (h2 : ∀ q ∈ split, OnSegment q.1.v1 q.1.v2 p → ∃ f ∈ C, OnSegment f.v1 f.v2 p) :
    (∀ q ∈ r.2, OnSegment q.2.v1 q.2.v2 p → ∃ q' ∈ r.2, OnSegment q'.1.v1 q'.1.v2 p) ∧
    (∀ q ∈ r.2, OnSegment q.1.v1 q.1.v2 p → ∃ f ∈ C, OnSegment f.v1 f.v2 p) := by
  induction n generalizing σ m cs split with
  | zero =>
    cases cs with
    | nil => simp only [unencroachLoop, Res.ok.injEq] at h; subst h; exact ⟨h1, h2⟩
    | cons c cs => simp [unencroachLoop] at h
  | succ n ih =>
    cases cs with
    | nil => simp only [unencroachLoop, Res.ok.injEq] at h; subst h; exact ⟨h1, h2⟩
    | cons c cs =>
      rw [unencroachLoop] at h
      cases hch : choose (σ.sub 0) (c :: cs) with
      | none => rw [hch] at h; simp at h
      | some w =>
        obtain ⟨e, vs⟩ := w
        rw [hch] at h
        simp only at h
        rw [Res.bind_eq_ok] at h
        obtain ⟨u, hu, h⟩ := h
        have heC : e ∈ C := hcs _ (choose_mem hch)
        have hcov := C29_cover hu p
        have key : ∀ x, x ∈ (u.newEdges.foldl (fun s h => mapInsert h e s) split).map (·.1) ↔
            x ∈ u.newEdges ∨ x ∈ split.map (·.1) := fun x => mem_foldl_mapInsert_fst
        refine ih h (fun q hq => hcs q (List.mem_of_mem_filter hq)) ?_ ?_
        · intro q hq hp
          have hx : ∃ x, x ∈ (u.newEdges.foldl (fun s h => mapInsert h e s) split).map (·.1) ∧ OnSegment x.v1 x.v2 p := by
            rcases of_mem_foldl_mapInsert hq with ⟨-, k⟩ | k
            · rw [k] at hp
              obtain ⟨f, hf, hp⟩ := hcov.1 hp
              exact ⟨f, (key f).2 (Or.inl hf), hp⟩
            · obtain ⟨q', hq', hp⟩ := h1 q k hp
              exact ⟨_, (key _).2 (Or.inr (List.mem_map_of_mem hq')), hp⟩
          obtain ⟨x, hx, hp⟩ := hx
          obtain ⟨q', hq', rfl⟩ := List.mem_map.1 hx
          exact ⟨q', hq', hp⟩
        · intro q hq hp
          rcases of_mem_foldl_mapInsert hq with ⟨k, -⟩ | k
          · exact ⟨e, heC, hcov.2 ⟨_, k, hp⟩⟩
          · exact h2 q k hp

/-- C29: the first phase of refining, which splits the segments that vertices of the mesh encroach on, does not change the
union of the segments. -/
theorem C29_first {σ : Sched} {C : List (Edge (Vertex K))} {m : Mesh (Vertex K)}
    {r : Mesh (Vertex K) × List (Edge (Vertex K) × Edge (Vertex K))}
    (h : unencroach (geoRPreds eps fuel dist params boundary holes) fuel σ C m = .ok r) (p : Vertex K) :
    (∃ f ∈ Triangulator.updateConstraints C r.2, OnSegment f.v1 f.v2 p) ↔ ∃ f ∈ C, OnSegment f.v1 f.v2 p := by
  obtain ⟨k1, k2⟩ := unencroachLoop_cover p h (by
    intro q hq
    unfold distributeEncroachments at hq
    obtain ⟨e, he, rfl⟩ := List.mem_map.1 (List.mem_of_mem_filter hq)
    exact he) (by simp) (by simp)
  unfold Triangulator.updateConstraints
  simp only [mem_toSet, List.mem_append, List.mem_filter, List.mem_map, Bool.and_eq_true, Bool.not_eq_true',
    decide_eq_false_iff_not]
  constructor
  · rintro ⟨f, ⟨hf, -⟩ | ⟨q, hq, rfl⟩, hp⟩
    · exact ⟨f, hf, hp⟩
    · exact k2 q hq hp
  · rintro ⟨f, hf, hp⟩
    by_cases g1 : ∃ q ∈ r.2, q.2 = f
    · obtain ⟨q, hq, rfl⟩ := g1
      obtain ⟨q', hq', hp⟩ := k1 q hq hp
      exact ⟨_, Or.inr ⟨q', hq', rfl⟩, hp⟩
    · by_cases g2 : ∃ q ∈ r.2, q.2 = f.opposite
      · obtain ⟨q, hq, hqf⟩ := g2
        obtain ⟨q', hq', hp⟩ := k1 q hq (by rw [hqf]; exact onSegment_flip hp)
        exact ⟨_, Or.inr ⟨q', hq', rfl⟩, hp⟩
      · exact ⟨f, Or.inl ⟨hf, by simpa using g1, by simpa using g2⟩, hp⟩

/-- C29: splitting the poor triangles never changes the union of the segments: when it ends, a point is on one of the
segments then kept if and only if it was on one of the segments at the start. -/
theorem C29_union {σ : Sched} {C : List (Edge (Vertex K))} {m : Mesh (Vertex K)} {s : SplitState (Vertex K)}
    (h : splitIrregular (geoRPreds eps fuel dist params boundary holes) fuel σ C m = .ok s) (p : Vertex K) :
    (∃ f ∈ s.segments, OnSegment f.v1 f.v2 p) ↔ ∃ f ∈ C, OnSegment f.v1 f.v2 p := by
  suffices H : ∀ n σ s0, splitIrregularLoop (geoRPreds eps fuel dist params boundary holes) fuel n σ s0 = .ok s →
      ((∃ f ∈ s.segments, OnSegment f.v1 f.v2 p) ↔ ∃ f ∈ s0.segments, OnSegment f.v1 f.v2 p) from H _ _ _ h
  intro n
  induction n with
  | zero =>
    intro σ s0 h
    rw [splitIrregularLoop] at h
    cases hp : popTriangle (σ.sub 0) s0 with
    | none => rw [hp] at h; simp only [Res.ok.injEq] at h; rw [h]
    | some w => rw [hp] at h; simp at h
  | succ n ih =>
    intro σ s0 h
    rw [splitIrregularLoop] at h
    cases hp : popTriangle (σ.sub 0) s0 with
    | none => rw [hp] at h; simp only [Res.ok.injEq] at h; rw [h]
    | some w =>
      obtain ⟨t, s1⟩ := w
      rw [hp] at h
      simp only at h
      rw [Res.bind_eq_ok] at h
      obtain ⟨s2, h2, h⟩ := h
      rw [ih _ _ h, splitStep_cover h2]
      have : s1.segments = s0.segments := by
        unfold popTriangle at hp
        split at hp
        · injection hp with hp; injection hp with _ hp; rw [← hp]
        · split at hp
          · injection hp with hp; injection hp with _ hp; rw [← hp]
          · cases hp
      rw [this]

/-- C29: when `refine` returns, the segments it kept in mind at the end have the same union as the sides of the boundary, the
sides of the holes and the segments it started from: no part of a constraint is forgotten, and none is added. -/
theorem C29_refine {σ : Sched} {T T' : Triangulator K} (h : T.refine eps fuel dist params σ = .ok T') :
    ∃ s : SplitState (Vertex K), s.mesh = T'.mesh ∧
      (∃ r, unencroach (geoRPreds eps fuel dist params (some T.boundary) T.holes) fuel (σ.sub 0) T.constraints
          T.mesh = .ok r ∧
        splitIrregular (geoRPreds eps fuel dist params (some T.boundary) T.holes) fuel (σ.sub 1)
          (Triangulator.updateConstraints T.constraints r.2) r.1 = .ok s) ∧
      ∀ p, (∃ f ∈ s.segments, OnSegment f.v1 f.v2 p) ↔ ∃ f ∈ T.constraints, OnSegment f.v1 f.v2 p := by
  obtain ⟨r, s, h1, h2, rfl⟩ := refine_split h
  exact ⟨s, rfl, ⟨r, h1, h2⟩, fun p => (C29_union h2 p).trans (C29_first h1 p)⟩

/-- C29: when the circumcentre `c` of a triangle is rejected because of one segment, the segment is replaced by pieces
that cover exactly it, are halves of it or smaller, and are not encroached by `c`; no other segment changes. -/
theorem C29_rejected (he : 0 ≤ eps) {σ : Sched} {t : Tri (Vertex K)} {c : Vertex K} {e : Edge (Vertex K)}
    {m : Mesh (Vertex K)} {s s' : SplitState (Vertex K)} (hc : t.circumcenter = some c)
    (ho : tryCircumcenter (geoRPreds eps fuel dist params boundary holes) fuel (σ.sub 0) s.segments s.mesh t =
      .ok (.rejected m [e]))
    (h : splitStep (geoRPreds eps fuel dist params boundary holes) fuel σ t s = .ok s') :
    ∃ pieces : List (Edge (Vertex K)),
      (∀ f, f ∈ s'.segments ↔ f ∈ pieces ∨ (f ∈ s.segments ∧ f ≠ e)) ∧
      (∀ p, OnSegment e.v1 e.v2 p ↔ ∃ f ∈ pieces, OnSegment f.v1 f.v2 p) ∧
      (∃ l1 l2, Bisects Edge.midpoint ⟨e.v1, e.midpoint⟩ l1 ∧ Bisects Edge.midpoint ⟨e.midpoint, e.v2⟩ l2 ∧
        ∀ f, f ∈ pieces ↔ f ∈ l1 ++ l2) ∧
      ∀ f ∈ pieces, encroach eps f.v1 f.v2 c ≠ .inside := by
  rw [splitStep, ho] at h
  have hc' : (geoRPreds eps fuel dist params boundary holes).circumcenter t = some c := hc
  simp only [Res.bind, hc', Res.unwrap] at h
  have hsh : shuffle (σ.sub 2) [e] = [e] := by
    simp [shuffle, shuffleAux, Nat.mod_one]
  rw [hsh, splitEncroached, Res.bind_eq_ok] at h
  obtain ⟨r, hr, h⟩ := h
  simp only [splitEncroached, Res.ok.injEq] at h
  subst h
  refine ⟨r.newEdges, fun f => ?_, C29_cover hr, C29_tiles_partial hr, C29_single he hr⟩
  simp only [requeue, mem_foldl_setInsert, mem_setErase]

end

namespace RejectSample

/-- A flat triangle with a constrained side that its circumcentre encroaches on. -/
def T : Triangulator ℚ :=
  ⟨Mesh.empty, ⟨[⟨0, 0, false⟩, ⟨8, 0, false⟩, ⟨8, 3, false⟩, ⟨0, 3, false⟩], false, by decide⟩, [], [⟨3, 1, false⟩], []⟩

def start : Mesh (Vertex ℚ) :=
  match T.triangulate 0 100 Sched.first with
  | .ok T' => T'.mesh
  | _ => Mesh.empty

abbrev P : RPreds (Vertex ℚ) :=
  geoRPreds 0 100 (fun _ _ => 1) ⟨none, 2⟩ (some T.boundary) T.holes

/-- The triangle whose circumcentre is tried: its circumcentre encroaches on the left side of the rectangle. -/
abbrev t : Tri (Vertex ℚ) := ⟨⟨0, 3, false⟩, ⟨0, 0, false⟩, ⟨3, 1, false⟩⟩

abbrev e : Edge (Vertex ℚ) := ⟨⟨0, 3, false⟩, ⟨0, 0, false⟩⟩

/-- The state in which the triangle is tried. -/
def before : SplitState (Vertex ℚ) := ⟨start, T.constraints, [], [], []⟩

/-- The segments after trying to split the triangle. -/
def after : Option (List (Edge (Vertex ℚ))) :=
  match splitStep P 100 Sched.first t before with
  | .ok s => some s.segments
  | _ => none

end RejectSample

open RejectSample in
/-- The hypotheses of `C29_rejected` are met, and its conclusion is not trivial: the left side of the rectangle is
encroached by the circumcentre, which is rejected because of it, and it is replaced by its two halves. -/
example : ∃ c m s', t.circumcenter = some c ∧ encroach 0 e.v1 e.v2 c = .inside ∧
    tryCircumcenter P 100 (Sched.first.sub 0) before.segments before.mesh t = .ok (.rejected m [e]) ∧
    splitStep P 100 Sched.first t before = .ok s' ∧ e ∈ before.segments ∧ e ∉ s'.segments ∧
    (⟨⟨0, 3, false⟩, ⟨0, 3 / 2, false⟩⟩ : Edge (Vertex ℚ)) ∈ s'.segments := by
  have h1 : t.circumcenter = some ⟨7 / 6, 3 / 2, false⟩ := by decide +kernel
  have h2 : (match tryCircumcenter P 100 (Sched.first.sub 0) before.segments before.mesh t with
      | .ok (.rejected _ enc) => decide (enc = [e])
      | _ => false) = true := by decide +kernel
  have h3 : (match splitStep P 100 Sched.first t before with
      | .ok s => decide (e ∈ before.segments ∧ e ∉ s.segments ∧
        (⟨⟨0, 3, false⟩, ⟨0, 3 / 2, false⟩⟩ : Edge (Vertex ℚ)) ∈ s.segments)
      | _ => false) = true := by decide +kernel
  split at h2
  · rename_i m enc heq
    have h2 := of_decide_eq_true h2
    subst h2
    split at h3
    · rename_i s' heq'
      have h3 := of_decide_eq_true h3
      exact ⟨_, m, s', h1, by decide +kernel, heq, heq', h3⟩
    · cases h3
  · cases h2

open RejectSample in
/-- The hypothesis of `C29_refine` is met, with segments that are split in the first phase: refining the rectangle, with no
bound on the area and the trivial quality test, returns. -/
example : ∃ T1 T2, T.triangulate 0 100 Sched.first = .ok T1 ∧
    T1.refine 0 100 (fun _ _ => 1) ⟨none, 2⟩ Sched.first = .ok T2 ∧ T1.mesh.tris.length < T2.mesh.tris.length := by
  have h : (match T.triangulate 0 100 Sched.first with
      | .ok T1 => (match T1.refine 0 100 (fun _ _ => 1) ⟨none, 2⟩ Sched.first with
        | .ok T2 => decide (T1.mesh.tris.length < T2.mesh.tris.length)
        | _ => false)
      | _ => false) = true := by decide +kernel
  split at h
  · rename_i T1 h1
    split at h
    · rename_i T2 h2
      exact ⟨T1, T2, h1, h2, of_decide_eq_true h⟩
    · cases h
  · cases h

end Verif.Props
