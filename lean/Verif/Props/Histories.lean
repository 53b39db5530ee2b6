import Verif.Lemmas.Histories
import Verif.Props.Continence
import Verif.Props.RefineSafe
import Verif.Lemmas.Pieces

/-!
# What holds after any sequence of calls

C63: nothing that was accepted is lost, whatever is called afterwards. C64: everything stored lies in the domain.
-/

namespace Verif.Props

open Verif.Spec Triangulator

set_option linter.unusedSectionVars false

section any

variable {K : Type*} [Field K] [LinearOrder K]

/-- A refused call changes nothing. -/
theorem perform_refused {eps : K} {fuel : Nat} {dist : Vertex K → Vertex K → K} {σ : Sched} {T T' : Triangulator K}
    {q : Request K} (h : T.perform eps fuel dist σ q = .ok (T', false)) : T' = T := by
  cases q with
  | vertices vs =>
    simp only [Triangulator.perform] at h
    split at h
    · simp at h
    · rename_i t bad hv
      simp only [Res.ok.injEq, Prod.mk.injEq, and_true] at h
      rw [← h]
      exact (C22_err hv).1
  | segments ss =>
    simp only [Triangulator.perform, Res.bind_eq_ok] at h
    obtain ⟨r, hr, h⟩ := h
    cases r with
    | ok t => simp at h
    | err t bad =>
      simp only [Res.ok.injEq, Prod.mk.injEq, and_true] at h
      rw [← h]
      exact (C23_err hr).1
  | hole p =>
    simp only [Triangulator.perform, Res.bind_eq_ok] at h
    obtain ⟨r, hr, h⟩ := h
    cases r with
    | ok t => simp at h
    | err t bad =>
      simp only [Res.ok.injEq, Prod.mk.injEq, and_true] at h
      rw [← h]
      exact (C24_err hr).1
  | triangulate =>
    simp only [Triangulator.perform, Res.bind_eq_ok] at h
    obtain ⟨r, hr, h⟩ := h
    simp at h
  | refine p =>
    simp only [Triangulator.perform, Res.bind_eq_ok] at h
    obtain ⟨r, hr, h⟩ := h
    simp at h

/-- The calls that are accepted. -/
theorem perform_accepted {eps : K} {fuel : Nat} {dist : Vertex K → Vertex K → K} {σ : Sched} {T T' : Triangulator K}
    {q : Request K} (h : T.perform eps fuel dist σ q = .ok (T', true)) :
    (∃ vs, q = .vertices vs ∧ insertVertices eps σ T vs = .ok T') ∨
    (∃ ss, q = .segments ss ∧ insertSegments eps fuel σ T ss = .ok (.ok T')) ∨
    (∃ p, q = .hole p ∧ insertHole eps fuel T p = .ok (.ok T')) ∨
    (q = .triangulate ∧ T.triangulate eps fuel σ = .ok T') ∨
    ∃ p, q = .refine p ∧ T.refine eps fuel dist p σ = .ok T' := by
  cases q with
  | vertices vs =>
    simp only [Triangulator.perform] at h
    split at h
    · rename_i t hv
      simp only [Res.ok.injEq, Prod.mk.injEq, and_true] at h
      exact Or.inl ⟨vs, rfl, h ▸ hv⟩
    · simp at h
  | segments ss =>
    simp only [Triangulator.perform, Res.bind_eq_ok] at h
    obtain ⟨r, hr, h⟩ := h
    cases r with
    | ok t =>
      simp only [Res.ok.injEq, Prod.mk.injEq, and_true] at h
      exact Or.inr (Or.inl ⟨ss, rfl, h ▸ hr⟩)
    | err t bad => simp at h
  | hole p =>
    simp only [Triangulator.perform, Res.bind_eq_ok] at h
    obtain ⟨r, hr, h⟩ := h
    cases r with
    | ok t =>
      simp only [Res.ok.injEq, Prod.mk.injEq, and_true] at h
      exact Or.inr (Or.inr (Or.inl ⟨p, rfl, h ▸ hr⟩))
    | err t bad => simp at h
  | triangulate =>
    simp only [Triangulator.perform, Res.bind_eq_ok] at h
    obtain ⟨r, hr, h⟩ := h
    simp only [Res.ok.injEq, Prod.mk.injEq, and_true] at h
    exact Or.inr (Or.inr (Or.inr (Or.inl ⟨rfl, h ▸ hr⟩)))
  | refine p =>
    simp only [Triangulator.perform, Res.bind_eq_ok] at h
    obtain ⟨r, hr, h⟩ := h
    simp only [Res.ok.injEq, Prod.mk.injEq, and_true] at h
    exact Or.inr (Or.inr (Or.inr (Or.inr ⟨p, rfl, h ▸ hr⟩)))

/-- `triangulate` changes the mesh only. -/
theorem triangulate_only_mesh {eps : K} {fuel : Nat} {σ : Sched} {T T' : Triangulator K}
    (h : T.triangulate eps fuel σ = .ok T') : ∃ m, T' = { T with mesh := m } := by
  unfold Triangulator.triangulate at h
  split at h
  · simp only [Res.bind_eq_ok] at h
    obtain ⟨m0, -, r1, -, r2, -, st, -, h⟩ := h
    injection h with h
    exact ⟨_, h.symm⟩
  · simp at h

/-- `refine` changes the mesh only. -/
theorem refine_only_mesh {eps : K} {fuel : Nat} {dist : Vertex K → Vertex K → K} {p : RefineParams K} {σ : Sched}
    {T T' : Triangulator K} (h : T.refine eps fuel dist p σ = .ok T') : ∃ m, T' = { T with mesh := m } := by
  unfold Triangulator.refine at h
  simp only [Res.bind_eq_ok] at h
  obtain ⟨r, -, s, -, h⟩ := h
  injection h with h
  exact ⟨_, h.symm⟩

/-- Inserting vertices does not touch the mesh, the boundary and the holes. -/
theorem insertVertices_mesh {eps : K} {σ : Sched} {T T' : Triangulator K} {vs : List (Vertex K)}
    (h : insertVertices eps σ T vs = .ok T') : T'.mesh = T.mesh := by
  unfold insertVertices at h
  simp only [] at h
  split_ifs at h with hb
  injection h with h
  have := insertVerticesLoop_induct (eps := eps) (fun X => X.mesh = T.mesh) (vs := vs) (fun _ _ _ h _ => h)
    (fun _ _ _ _ _ h _ _ _ => h) (σ := σ.sub 1) (l := shuffle (σ.sub 0) vs) (fun v hv => mem_shuffle.1 hv) (T := T) rfl
  rwa [h] at this

/-- C13: after any sequence of calls, with any tolerance, every entry of the adjacency of the mesh refers to a triangle of
the mesh that has this side. -/
theorem C13_session [IsStrictOrderedRing K] {eps : K} (he : 0 ≤ eps) {dist : Vertex K → Vertex K → K}
    {b : Polyline (Vertex K)} {l : List (Request K)} {T : Triangulator K}
    (h : Session eps dist (Triangulator.new b) l T) : AdjSound T.mesh := by
  induction h with
  | start => exact adjSound_empty
  | refused h hq ih => rw [perform_refused hq]; exact ih
  | @accepted l T1 T2 fuel σ q h hq ih =>
    rcases perform_accepted hq with ⟨vs, rfl, h1⟩ | ⟨ss, rfl, h1⟩ | ⟨p, rfl, h1⟩ | ⟨rfl, h1⟩ | ⟨p, rfl, h1⟩
    · rw [insertVertices_mesh h1]; exact ih
    · rw [(C23_ok h1).2.2.1]; exact ih
    · rw [(C24_ok h1).2.1]; exact ih
    · exact C13_triangulate h1
    · exact C13_refine he ih h1

end any

section exact

variable {K : Type*} [Field K] [LinearOrder K] [IsStrictOrderedRing K]

/-- The invariant behind C63. -/
theorem history_invariant {dist : Vertex K → Vertex K → K} {b : Polyline (Vertex K)} {l : List (Request K)}
    {T : Triangulator K} (h : Session 0 dist (Triangulator.new b) l T)
    (hv : ∀ vs, .vertices vs ∈ l → ∀ v ∈ vs, v.isGhost = false)
    (hs : ∀ ss, .segments ss ∈ l → ∀ s ∈ ss, s.v1.isGhost = false ∧ s.v2.isGhost = false) :
    (T.boundary = b ∧ ∀ p, p ∈ T.holes ↔ .hole p ∈ l) ∧ Orderly T.segments T.vertices ∧
      (∀ vs, .vertices vs ∈ l → ∀ v ∈ vs, v ∈ T.vertices ∨ EndOf T.segments v) ∧
      (∀ v ∈ T.vertices, ∃ vs, .vertices vs ∈ l ∧ v ∈ vs) ∧
      (∀ q, (∃ s ∈ T.segments, OnSegment s.v1 s.v2 q) ↔ ∃ ss, .segments ss ∈ l ∧ ∃ s ∈ ss, OnSegment s.v1 s.v2 q) ∧
      ∀ ss, .segments ss ∈ l → ∀ w, EndOf ss w → EndOf T.segments w := by
  induction h with
  | start =>
    refine ⟨⟨rfl, by simp [Triangulator.new]⟩, ⟨?_, ?_, ?_, ?_⟩, ?_, ?_, ?_, ?_⟩ <;> simp [Triangulator.new]
  | refused h hq ih =>
    rw [perform_refused hq]
    exact ih hv hs
  | @accepted l T1 T2 fuel σ q h hq ih =>
    obtain ⟨⟨k0, k1⟩, k2, k3, k4, k5, k6⟩ := ih (fun vs hm => hv vs (by simp [hm])) (fun ss hm => hs ss (by simp [hm]))
    rcases perform_accepted hq with ⟨vs, rfl, h1⟩ | ⟨ss, rfl, h1⟩ | ⟨p, rfl, h1⟩ | ⟨rfl, h1⟩ | ⟨p, rfl, h1⟩
    · have hg : ∀ v ∈ vs, v.isGhost = false := hv vs (by simp)
      obtain ⟨t1, t2, t3⟩ := insertVertices_tidy hg k2 h1
      obtain ⟨c1, c2, -, c4, c5, c6, -⟩ := C22_ok le_rfl hg h1
      refine ⟨⟨c1.trans k0, fun p => ?_⟩, t1, fun us hus v hm => ?_, fun v hm => ?_, fun q => ?_, fun ss hss w hw => ?_⟩
      · rw [c2, k1]; simp
      · simp only [List.mem_append, List.mem_cons, List.not_mem_nil, or_false] at hus
        rcases hus with hus | hus
        · rcases k3 us hus v hm with h | h
          · exact Or.inl (c5 v h)
          · exact Or.inr (t3 v h)
        · injection hus with hus
          subst hus
          rcases c4 v hm with h | ⟨s, hs', h⟩
          · exact Or.inl h
          · have hso := t1.solid s hs'
            exact Or.inr ⟨s, hs', h.imp (fun h => (eqv_zero hso.1 (hg v hm)).1 h) (fun h => (eqv_zero hso.2 (hg v hm)).1 h)⟩
      · rcases c6 v hm with h | h
        · obtain ⟨us, h1, h2⟩ := k4 v h
          exact ⟨us, by simp [h1], h2⟩
        · exact ⟨vs, by simp, h⟩
      · rw [t2, k5]; simp
      · exact t3 w (k6 ss (by simpa using hss) w hw)
    · have hg : ∀ s ∈ ss, s.v1.isGhost = false ∧ s.v2.isGhost = false := hs ss (by simp)
      obtain ⟨t1, t2, t3, t4, t5⟩ := insertSegments_tidy hg k2 h1
      obtain ⟨c1, c2, -⟩ := C23_ok h1
      refine ⟨⟨c1.trans k0, fun p => ?_⟩, t1, fun us hus v hm => ?_, fun v hm => ?_, fun q => ?_, fun us hus w hw => ?_⟩
      · rw [c2, k1]; simp
      · rcases k3 us (by simpa using hus) v hm with h | h
        · exact t4 v h
        · exact Or.inr (t3 v (Or.inl h))
      · obtain ⟨us, h1, h2⟩ := k4 v (t5 v hm)
        exact ⟨us, by simp [h1], h2⟩
      · rw [t2, k5]
        constructor
        · rintro (⟨us, hus, h⟩ | h)
          · exact ⟨us, by simp [hus], h⟩
          · exact ⟨ss, by simp, h⟩
        · rintro ⟨us, hus, h⟩
          simp only [List.mem_append, List.mem_cons, List.not_mem_nil, or_false] at hus
          rcases hus with hus | hus
          · exact Or.inl ⟨us, hus, h⟩
          · injection hus with hus
            subst hus
            exact Or.inr h
      · simp only [List.mem_append, List.mem_cons, List.not_mem_nil, or_false] at hus
        rcases hus with hus | hus
        · exact t3 w (Or.inl (k6 us hus w hw))
        · injection hus with hus
          subst hus
          exact t3 w (Or.inr hw)
    · obtain ⟨c1, -, c3, c4, c5, -⟩ := C24_ok h1
      rw [c1, c3, c4]
      refine ⟨⟨k0, fun p' => ?_⟩, k2, fun us hus => k3 us (by simpa using hus), fun v hm => ?_, fun q => ?_,
        fun us hus => k6 us (by simpa using hus)⟩
      · rw [c5, k1]
        simp only [List.mem_append, List.mem_cons, List.not_mem_nil, or_false, Request.hole.injEq]
        tauto
      · obtain ⟨us, h1, h2⟩ := k4 v hm
        exact ⟨us, by simp [h1], h2⟩
      · rw [k5]; simp
    · obtain ⟨m, rfl⟩ := triangulate_only_mesh h1
      refine ⟨⟨k0, fun p' => ?_⟩, k2, fun us hus => k3 us (by simpa using hus), fun v hm => ?_, fun q => ?_,
        fun us hus => k6 us (by simpa using hus)⟩
      · rw [k1]; simp
      · obtain ⟨us, h1, h2⟩ := k4 v hm
        exact ⟨us, by simp [h1], h2⟩
      · rw [k5]; simp
    · obtain ⟨m, rfl⟩ := refine_only_mesh h1
      refine ⟨⟨k0, fun p' => ?_⟩, k2, fun us hus => k3 us (by simpa using hus), fun v hm => ?_, fun q => ?_,
        fun us hus => k6 us (by simpa using hus)⟩
      · rw [k1]; simp
      · obtain ⟨us, h1, h2⟩ := k4 v hm
        exact ⟨us, by simp [h1], h2⟩
      · rw [k5]; simp

/-- C63: after any sequence of calls, in exact arithmetic: the boundary is the one given, and the holes are those
accepted; each accepted vertex is stored or is an end of a stored segment, and every stored vertex was accepted; the points
on stored segments are exactly those on accepted segments, and the ends of accepted segments are ends of stored ones;
no stored vertex is on a stored segment, and stored segments that are not parallel meet in common ends only. -/
theorem C63_kept {dist : Vertex K → Vertex K → K} {b : Polyline (Vertex K)} {l : List (Request K)} {T : Triangulator K}
    (h : Session 0 dist (Triangulator.new b) l T)
    (hv : ∀ vs, .vertices vs ∈ l → ∀ v ∈ vs, v.isGhost = false)
    (hs : ∀ ss, .segments ss ∈ l → ∀ s ∈ ss, s.v1.isGhost = false ∧ s.v2.isGhost = false) :
    (T.boundary = b ∧ ∀ p, p ∈ T.holes ↔ .hole p ∈ l) ∧
    (∀ vs, .vertices vs ∈ l → ∀ v ∈ vs,
      v ∈ T.vertices ∨ ∃ s ∈ T.segments, SamePoint s.v1 v ∨ SamePoint s.v2 v) ∧
    (∀ v ∈ T.vertices, ∃ vs, .vertices vs ∈ l ∧ v ∈ vs) ∧
    (∀ q, (∃ s ∈ T.segments, OnSegment s.v1 s.v2 q) ↔ ∃ ss, .segments ss ∈ l ∧ ∃ s ∈ ss, OnSegment s.v1 s.v2 q) ∧
    (∀ ss, .segments ss ∈ l → ∀ s ∈ ss, (∃ t ∈ T.segments, SamePoint t.v1 s.v1 ∨ SamePoint t.v2 s.v1) ∧
      ∃ t ∈ T.segments, SamePoint t.v1 s.v2 ∨ SamePoint t.v2 s.v2) ∧
    (∀ v ∈ T.vertices, ∀ s ∈ T.segments, ¬ OnSegment s.v1 s.v2 v) ∧
    ∀ s ∈ T.segments, ∀ t ∈ T.segments, ¬ Parallel s.v1 s.v2 t.v1 t.v2 →
      ∀ q, OnSegment s.v1 s.v2 q → OnSegment t.v1 t.v2 q →
        (SamePoint s.v1 q ∨ SamePoint s.v2 q) ∧ (SamePoint t.v1 q ∨ SamePoint t.v2 q) := by
  obtain ⟨k1, k2, k3, k4, k5, k6⟩ := history_invariant h hv hs
  exact ⟨k1, k3, k4, k5, fun ss hss s hm => ⟨k6 ss hss _ ⟨s, hm, Or.inl ⟨rfl, rfl⟩⟩,
    k6 ss hss _ ⟨s, hm, Or.inr ⟨rfl, rfl⟩⟩⟩, k2.off, k2.meet⟩

/-- Splitting the list of accepted calls at one of them, after one more call. -/
theorem snoc_split {α : Type*} {l l1 l2 : List α} {q r : α} (h : l ++ [q] = l1 ++ r :: l2) :
    (l = l1 ∧ q = r ∧ l2 = []) ∨ ∃ l3, l = l1 ++ r :: l3 ∧ l2 = l3 ++ [q] := by
  rcases List.eq_nil_or_concat l2 with rfl | ⟨l3, x, rfl⟩
  · left
    have := List.append_inj' h rfl
    simp only [List.cons.injEq, and_true] at this
    exact ⟨this.1, this.2, rfl⟩
  · right
    have h' : l ++ [q] = (l1 ++ r :: l3) ++ [x] := by rw [h]; simp
    have := List.append_inj' h' rfl
    simp only [List.cons.injEq, and_true] at this
    exact ⟨l3, this.1, by rw [this.2]; simp⟩

/-- C64 (part): after any sequence of calls, in exact arithmetic and with a boundary and holes that are not folded back on
themselves, everything accepted lies in the domain: every accepted vertex is strictly inside the boundary and strictly outside
every hole accepted before it; every point of a stored segment is inside or on the boundary and outside or on each of the
holes, no matter when they were accepted; and every point of a side of a hole is inside or on the boundary and
outside or on every hole accepted before it. Missing: vertices and holes inside holes that are accepted later, see
`C24_vertex_inside_false` and `C24_nested_holes`. -/
theorem C64_inside_partial {dist : Vertex K → Vertex K → K} {b : Polyline (Vertex K)} {l : List (Request K)}
    {T : Triangulator K} (h : Session 0 dist (Triangulator.new b) l T)
    (hv : ∀ vs, .vertices vs ∈ l → ∀ v ∈ vs, v.isGhost = false)
    (hs : ∀ ss, .segments ss ∈ l → ∀ s ∈ ss, s.v1.isGhost = false ∧ s.v2.isGhost = false)
    (hb : NoFold b.vertices ∧ ∀ v ∈ b.vertices, v.isGhost = false)
    (hh : ∀ p, .hole p ∈ l → NoFold p.vertices ∧ ∀ v ∈ p.vertices, v.isGhost = false) :
    (∀ l1 l2 vs, l = l1 ++ .vertices vs :: l2 → ∀ v ∈ vs, b.contains 0 v = some .inside ∧
      ∀ p, .hole p ∈ l1 → p.contains 0 v = some .outside) ∧
    (∀ s ∈ T.segments, ∀ q, OnSegment s.v1 s.v2 q →
      (b.contains 0 q = some .boundary ∨ b.contains 0 q = some .inside) ∧
      ∀ p ∈ T.holes, p.contains 0 q = some .boundary ∨ p.contains 0 q = some .outside) ∧
    ∀ l1 l2 hole, l = l1 ++ .hole hole :: l2 → ∀ s ∈ pairs hole.vertices hole.opened, ∀ q, OnSegment s.1 s.2 q →
      (b.contains 0 q = some .boundary ∨ b.contains 0 q = some .inside) ∧
      ∀ p, .hole p ∈ l1 → p.contains 0 q = some .boundary ∨ p.contains 0 q = some .outside := by
  induction h with
  | start =>
    refine ⟨?_, ?_, ?_⟩
    · intro l1 l2 vs h; simp at h
    · simp [Triangulator.new]
    · intro l1 l2 vs h; simp at h
  | refused h hq ih =>
    rw [perform_refused hq]
    exact ih hv hs hh
  | @accepted l T1 T2 fuel σ q h hq ih =>
    have hv' := fun vs (hm : .vertices vs ∈ l) => hv vs (by simp [hm])
    have hs' := fun ss (hm : .segments ss ∈ l) => hs ss (by simp [hm])
    have hh' := fun p (hm : .hole p ∈ l) => hh p (by simp [hm])
    obtain ⟨k1, k2, k3⟩ := ih hv' hs' hh'
    obtain ⟨⟨e1, e2⟩, -, -, e3, -⟩ := C63_kept h hv' hs'
    have old1 : (∀ vs, q ≠ .vertices vs) → ∀ l1 l2 vs, l ++ [q] = l1 ++ .vertices vs :: l2 → ∀ v ∈ vs,
        b.contains 0 v = some .inside ∧ ∀ p, .hole p ∈ l1 → p.contains 0 v = some .outside := by
      intro hne l1 l2 vs he
      rcases snoc_split he with ⟨-, h2, -⟩ | ⟨l3, h2, -⟩
      · exact absurd h2 (hne vs)
      · exact k1 l1 l3 vs h2
    have old3 : (∀ p, q ≠ .hole p) → ∀ l1 l2 hole, l ++ [q] = l1 ++ .hole hole :: l2 →
        ∀ s ∈ pairs hole.vertices hole.opened, ∀ x, OnSegment s.1 s.2 x →
        (b.contains 0 x = some .boundary ∨ b.contains 0 x = some .inside) ∧
        ∀ p, .hole p ∈ l1 → p.contains 0 x = some .boundary ∨ p.contains 0 x = some .outside := by
      intro hne l1 l2 p he
      rcases snoc_split he with ⟨-, h2, -⟩ | ⟨l3, h2, -⟩
      · exact absurd h2 (hne p)
      · exact k3 l1 l3 p h2
    rcases perform_accepted hq with ⟨vs, rfl, h1⟩ | ⟨ss, rfl, h1⟩ | ⟨p, rfl, h1⟩ | ⟨rfl, h1⟩ | ⟨p, rfl, h1⟩
    · have hg : ∀ v ∈ vs, v.isGhost = false := hv vs (by simp)
      obtain ⟨-, c2, -⟩ := C22_ok le_rfl hg h1
      have ht := insertVertices_tidy hg (history_invariant h hv' hs').2.1 h1
      refine ⟨fun l1 l2 us he v hm => ?_, fun s hm x hx => ?_, old3 (by simp)⟩
      · rcases snoc_split he with ⟨rfl, h2, -⟩ | ⟨l3, h2, -⟩
        · injection h2 with h2
          subst h2
          obtain ⟨a1, a2⟩ := (C22_ok_iff 0 σ T1 vs).1 ⟨_, h1⟩ v hm
          exact ⟨e1 ▸ a1, fun p hp => a2 p ((e2 p).2 hp)⟩
        · exact k1 l1 l3 us h2 v hm
      · obtain ⟨s', hm', hx'⟩ := (ht.2.1 x).1 ⟨s, hm, hx⟩
        rw [c2]
        exact k2 s' hm' x hx'
    · have hg : ∀ s ∈ ss, s.v1.isGhost = false ∧ s.v2.isGhost = false := hs ss (by simp)
      obtain ⟨-, c2, -⟩ := C23_ok h1
      have ht := insertSegments_tidy hg (history_invariant h hv' hs').2.1 h1
      refine ⟨old1 (by simp), fun s hm x hx => ?_, old3 (by simp)⟩
      rw [c2]
      rcases (ht.2.1 x).1 ⟨s, hm, hx⟩ with ⟨s', hm', hx'⟩ | ⟨s', hm', hx'⟩
      · exact k2 s' hm' x hx'
      · have := C23_inside h1 hg (e1.symm ▸ hb) (fun p hp => hh' p ((e2 p).1 hp)) s' hm' x hx'
        rw [e1] at this
        exact this
    · obtain ⟨-, -, -, c4, c5, c6, c7, c8⟩ := C24_ok h1
      have hp := hh p (by simp)
      refine ⟨old1 (by simp), fun s hm x hx => ?_, fun l1 l2 p' he s hm x hx => ?_⟩
      · rw [c4] at hm
        obtain ⟨a1, a2⟩ := k2 s hm x hx
        refine ⟨a1, fun p' hp' => ?_⟩
        rcases (c5 p').1 hp' with rfl | hp'
        · have hso := (history_invariant h hv' hs').2.1.solid s hm
          exact C42_everywhere_partial hp.2 (by simp [hso.1, hso.2]) hp.1 (c8 s hm) (s.v1, s.v2)
            (by simp [pairs, consecutivePairs]) x hx
        · exact a2 p' hp'
      · rcases snoc_split he with ⟨rfl, h2, -⟩ | ⟨l3, h2, -⟩
        · injection h2 with h2
          subst h2
          rw [e1] at c6
          refine ⟨C42_everywhere_partial hb.2 hp.2 hb.1 c6 s hm x hx, fun p' hp' => ?_⟩
          exact C42_everywhere_partial (hh' p' hp').2 hp.2 (hh' p' hp').1 (c7 p' ((e2 p').2 hp')) s hm x hx
        · exact k3 l1 l3 p' h2 s hm x hx
    · obtain ⟨m, rfl⟩ := triangulate_only_mesh h1
      exact ⟨old1 (by simp), k2, old3 (by simp)⟩
    · obtain ⟨m, rfl⟩ := refine_only_mesh h1
      exact ⟨old1 (by simp), k2, old3 (by simp)⟩

end exact

namespace HistoryExample

open ValidityExample

/-- The calls one after the other, with the same iteration orders; the accepted ones are listed. -/
def play (fuel : Nat) (σ : Sched) : List (Request ℚ) → Triangulator ℚ → Res (Triangulator ℚ × List (Request ℚ))
  | [], T => .ok (T, [])
  | q :: qs, T => (T.perform 0 fuel blocks σ q).bind fun r =>
      (play fuel σ qs r.1).bind fun s => .ok (s.1, if r.2 then q :: s.2 else s.2)

theorem play_session {fuel : Nat} {σ : Sched} {T0 : Triangulator ℚ} {qs l0 l : List (Request ℚ)} {T T' : Triangulator ℚ}
    (h0 : Session 0 blocks T0 l0 T) (h : play fuel σ qs T = .ok (T', l)) : Session 0 blocks T0 (l0 ++ l) T' := by
  induction qs generalizing T l0 l with
  | nil =>
    simp only [play, Res.ok.injEq, Prod.mk.injEq] at h
    rw [← h.1, ← h.2, List.append_nil]
    exact h0
  | cons q qs ih =>
    simp only [play, Res.bind_eq_ok] at h
    obtain ⟨⟨T1, ok⟩, hq, ⟨T2, l2⟩, hr, h⟩ := h
    simp only [Res.ok.injEq, Prod.mk.injEq] at h
    obtain ⟨rfl, rfl⟩ := h
    cases ok with
    | true =>
      have := ih (h0.accepted hq) hr
      simpa using this
    | false => simpa using ih (h0.refused hq) hr

theorem play_sub {fuel : Nat} {σ : Sched} {qs l : List (Request ℚ)} {T T' : Triangulator ℚ}
    (h : play fuel σ qs T = .ok (T', l)) : ∀ q ∈ l, q ∈ qs := by
  induction qs generalizing T l with
  | nil =>
    simp only [play, Res.ok.injEq, Prod.mk.injEq] at h
    rw [← h.2]; simp
  | cons q qs ih =>
    simp only [play, Res.bind_eq_ok] at h
    obtain ⟨⟨T1, ok⟩, hq, ⟨T2, l2⟩, hr, h⟩ := h
    simp only [Res.ok.injEq, Prod.mk.injEq] at h
    obtain ⟨rfl, rfl⟩ := h
    have := ih hr
    cases ok
    · intro x hx; exact List.mem_cons_of_mem _ (this x (by simpa using hx))
    · intro x hx
      simp only [if_true, List.mem_cons] at hx ⊢
      exact hx.imp id (this x)

/-- A vertex that a segment absorbs, two segments that cross, a segment that is refused, a hole, a vertex in it that is refused,
a vertex on a stored segment and one elsewhere. -/
def calls : List (Request ℚ) :=
  [.vertices [pt 2 2, pt 6 2, pt 1 7], .triangulate,
    .segments [⟨pt 1 2, pt 3 2⟩, ⟨pt 2 1, pt 2 3⟩], .segments [⟨pt 6 1, pt 9 1⟩],
    .hole ⟨[pt 5 5, pt 7 5, pt 6 7], false, by simp⟩, .vertices [pt 6 6], .vertices [pt (5 / 2) 2, pt 5 1]]

/-- The hypotheses of `C63_kept` and `C64_inside_partial` are met by these calls: five of seven are accepted, and three vertices,
five segments and a hole are stored in the end. -/
example : ∃ l T, Session 0 blocks (Triangulator.new field) l T ∧ l.length = 5 ∧
    (∀ vs, .vertices vs ∈ l → ∀ v ∈ vs, v.isGhost = false) ∧
    (∀ ss, .segments ss ∈ l → ∀ s ∈ ss, s.v1.isGhost = false ∧ s.v2.isGhost = false) ∧
    (NoFold field.vertices ∧ ∀ v ∈ field.vertices, v.isGhost = false) ∧
    (∀ p, .hole p ∈ l → NoFold p.vertices ∧ ∀ v ∈ p.vertices, v.isGhost = false) ∧
    T.vertices = [pt 5 1, pt 6 2, pt 1 7] ∧ T.segments.length = 5 ∧ T.holes.length = 1 := by
  have key : (match play 60 (order 2) calls (Triangulator.new field) with
      | .ok r => decide (r.2.length = 5) && decide (r.1.vertices = [pt 5 1, pt 6 2, pt 1 7]) &&
          decide (r.1.segments.length = 5) && decide (r.1.holes.length = 1)
      | _ => false) = true := by decide +kernel
  match hp : play 60 (order 2) calls (Triangulator.new field) with
  | .ok (T, l) =>
    rw [hp] at key
    simp only [Bool.and_eq_true, decide_eq_true_eq] at key
    obtain ⟨⟨⟨k1, k2⟩, k3⟩, k4⟩ := key
    have hsub : ∀ q ∈ l, q ∈ calls := play_sub hp
    refine ⟨l, T, ?_, k1, fun vs hm => ?_, fun ss hm => ?_, ⟨?_, by decide⟩, fun p hm => ?_, k2, k3, k4⟩
    · simpa using play_session (Session.start (eps := 0) (dist := blocks)) hp
    · have := hsub _ hm
      simp only [calls, List.mem_cons, List.not_mem_nil, or_false, reduceCtorEq, Request.vertices.injEq, false_or] at this
      rcases this with rfl | rfl | rfl <;> decide +kernel
    · have := hsub _ hm
      simp only [calls, List.mem_cons, List.not_mem_nil, or_false, reduceCtorEq, Request.segments.injEq, false_or] at this
      rcases this with rfl | rfl <;> decide +kernel
    · exact noFold_of_check (by decide +kernel)
    · have := hsub _ hm
      simp only [calls, List.mem_cons, List.not_mem_nil, or_false, reduceCtorEq, Request.hole.injEq, false_or] at this
      subst this
      exact ⟨noFold_of_check (by decide +kernel), by decide +kernel⟩
  | .panic => rw [hp] at key; simp at key
  | .diverged => rw [hp] at key; simp at key

end HistoryExample

end Verif.Props
