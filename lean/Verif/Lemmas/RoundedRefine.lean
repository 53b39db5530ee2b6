import Verif.Model.RoundedRefine
import Verif.Lemmas.RoundedDomain

/-!
# Refining where no triangle may be given up
-/

set_option linter.unusedSectionVars false

namespace Verif

open Spec

section
variable {V : Type*} [DecidableEq V]

theorem visitNeighbours_facts {P : Preds V} {m : Mesh V} (hm : AdjSound m) (es : List (Edge V)) (pending visited : List (Tri V))
    (hp : ∀ t ∈ pending, t ∈ m.tris ∧ t.isGhost P.ghost = false) (hv : ∀ t ∈ visited, t ∈ m.tris) (hn : visited.Nodup) :
    (∀ t ∈ (visitNeighbours P m es pending visited).1, t ∈ m.tris ∧ t.isGhost P.ghost = false) ∧
    (∀ t ∈ (visitNeighbours P m es pending visited).2, t ∈ m.tris) ∧
    (visitNeighbours P m es pending visited).2.Nodup ∧
    (visitNeighbours P m es pending visited).1.length + visited.length =
      (visitNeighbours P m es pending visited).2.length + pending.length := by
  induction es generalizing pending visited with
  | nil => exact ⟨hp, hv, hn, by simp [visitNeighbours, Nat.add_comm]⟩
  | cons e es ih =>
    unfold visitNeighbours
    cases he : m.adj e with
    | none => exact ih _ _ hp hv hn
    | some t =>
      simp only
      split_ifs with hc
      · have ht := (hm e t he).1
        obtain ⟨h1, h2, h3, h4⟩ := ih (t :: pending) (t :: visited)
          (by
            intro s hs
            rcases List.mem_cons.1 hs with rfl | hs
            · exact ⟨ht, by simpa using hc.2⟩
            · exact hp s hs)
          (by
            intro s hs
            rcases List.mem_cons.1 hs with rfl | hs
            · exact ht
            · exact hv s hs)
          (List.nodup_cons.2 ⟨hc.1, hn⟩)
        refine ⟨h1, h2, h3, ?_⟩
        simp only [List.length_cons] at h4
        omega
      · exact ih _ _ hp hv hn

theorem distributeOverLoop_blocked {P : Preds V} {m : Mesh V} (hm : AdjSound m) {vs : List V}
    (h : ∀ t ∈ m.tris, t.isGhost P.ghost = false → ∀ v ∈ vs, P.mayInsert t v = .ok false) (n : Nat)
    {pending visited : List (Tri V)} {c : CMap V} (hp : ∀ t ∈ pending, t ∈ m.tris ∧ t.isGhost P.ghost = false)
    (hv : ∀ t ∈ visited, t ∈ m.tris) (hn : visited.Nodup)
    (hl : m.tris.length + pending.length ≤ n + visited.length) :
    distributeOverLoop P m n pending visited c vs = .ok (c, vs) := by
  induction n generalizing pending visited with
  | zero =>
    cases pending with
    | nil => cases vs <;> rfl
    | cons t pending =>
      have := (hn.subperm hv).length_le
      simp only [List.length_cons] at hl
      omega
  | succ n ih =>
    cases pending with
    | nil => cases vs <;> rfl
    | cons t pending =>
      cases vs with
      | nil => rfl
      | cons v vs =>
        obtain ⟨h1, h2, h3, h4⟩ := visitNeighbours_facts hm t.outerEdges pending visited
          (fun s hs => hp s (List.mem_cons_of_mem _ hs)) hv hn
        have ht := hp t List.mem_cons_self
        unfold distributeOverLoop
        simp only [distribute]
        rw [splitConflicts_blocked (h t ht.1 ht.2)]
        simp only [Res.bind, CMap.append, if_true]
        refine ih h1 h2 h3 ?_
        simp only [List.length_cons] at hl
        omega

theorem solveConflicts_nothing {P : Preds V} {C : List (Edge V)} {fuel : Nat} {σ : Sched} {m : Mesh V} {vs : List V} :
    solveConflicts P C fuel σ m [] vs = .ok ⟨m, [], vs, [], []⟩ := by
  unfold solveConflicts
  cases fuel <;> simp [solveLoop]

theorem tryCircumcenter_blocked {P : RPreds V} {m : Mesh V} (hm : AdjSound m) {C : List (Edge V)} {fuel : Nat} {σ : Sched}
    {t : Tri V} (ht : t ∈ m.tris) (hg : t.isGhost P.ghost = false) {c : V} (hc : P.circumcenter t = some c)
    (h : ∀ s ∈ m.tris, s.isGhost P.ghost = false → P.mayInsert s c = .ok false) (hf : m.tris.length ≤ fuel) :
    tryCircumcenter P fuel σ C m t = .ok (.inserted m [] []) := by
  unfold tryCircumcenter distributeOver
  rw [hc]
  simp only [Res.unwrap, Res.bind]
  rw [distributeOverLoop_blocked hm (by simpa using h) fuel (by simpa using ⟨ht, hg⟩) (by simpa using ht) (by simp)
    (by simpa using hf)]
  simp [solveConflicts_nothing, findEncroachments, Res.bind, toSet]

theorem requeue_nothing (P : RPreds V) (s : SplitState V) : requeue P [] [] s = s := by
  simp [requeue]

theorem length_setErase_lt {α : Type*} [DecidableEq α] {a : α} {l : List α} (h : a ∈ l) :
    (setErase a l).length < l.length := by
  unfold setErase
  rw [List.length_filter_lt_length_iff_exists]
  exact ⟨a, h, by simp⟩

theorem splitIrregularLoop_blocked {P : RPreds V} {m : Mesh V} (hm : AdjSound m) {fuel : Nat} (hf : m.tris.length ≤ fuel)
    (n : Nat) (σ : Sched) {s : SplitState V} (hs : s.mesh = m)
    (h : ∀ t, t ∈ s.irregulars ∨ t ∈ s.larges → t ∈ m.tris ∧ t.isGhost P.ghost = false ∧ ∃ c, P.circumcenter t = some c ∧
      ∀ r ∈ m.tris, r.isGhost P.ghost = false → P.mayInsert r c = .ok false)
    (hn : s.irregulars.length + s.larges.length ≤ n) :
    ∃ r, splitIrregularLoop P fuel n σ s = .ok r ∧ r.mesh = m := by
  induction n generalizing σ s with
  | zero =>
    have h1 : s.irregulars = [] := List.length_eq_zero_iff.1 (by omega)
    have h2 : s.larges = [] := List.length_eq_zero_iff.1 (by omega)
    refine ⟨s, ?_, hs⟩
    unfold splitIrregularLoop popTriangle
    rw [h1, h2]
    rw [choose_eq_none.2 rfl]
  | succ n ih =>
    unfold splitIrregularLoop
    cases hp : popTriangle (σ.sub 0) s with
    | none => exact ⟨s, rfl, hs⟩
    | some q =>
      obtain ⟨t, s'⟩ := q
      have key : (t ∈ s.irregulars ∨ t ∈ s.larges) ∧ s'.mesh = m ∧
          (∀ r, r ∈ s'.irregulars ∨ r ∈ s'.larges → r ∈ s.irregulars ∨ r ∈ s.larges) ∧
          s'.irregulars.length + s'.larges.length ≤ n := by
        unfold popTriangle at hp
        cases h1 : choose (σ.sub 0) s.irregulars with
        | some a =>
          rw [h1] at hp
          simp only [Option.some.injEq, Prod.mk.injEq] at hp
          obtain ⟨rfl, rfl⟩ := hp
          have ha := choose_mem h1
          have := length_setErase_lt ha
          refine ⟨Or.inl ha, hs, ?_, by simp only; omega⟩
          rintro r (hr | hr)
          · exact Or.inl (mem_setErase.1 hr).1
          · exact Or.inr hr
        | none =>
          rw [h1] at hp
          simp only at hp
          cases h2 : choose (σ.sub 0) s.larges with
          | some a =>
            rw [h2] at hp
            simp only [Option.some.injEq, Prod.mk.injEq] at hp
            obtain ⟨rfl, rfl⟩ := hp
            have ha := choose_mem h2
            have := length_setErase_lt ha
            refine ⟨Or.inr ha, hs, ?_, by simp only; omega⟩
            rintro r (hr | hr)
            · exact Or.inl hr
            · exact Or.inr (mem_setErase.1 hr).1
          | none =>
            rw [h2] at hp
            cases hp
      obtain ⟨k1, k2, k3, k4⟩ := key
      obtain ⟨ht, hg, c, hc, hb⟩ := h t k1
      simp only
      unfold splitStep
      rw [k2, tryCircumcenter_blocked hm ht hg hc hb hf]
      simp only [Res.bind, requeue_nothing]
      exact ih (σ.sub 2) (s := { s' with mesh := m }) rfl (fun r hr => h r (k3 r hr)) k4

theorem splitIrregular_blocked {P : RPreds V} {m : Mesh V} (hm : AdjSound m) {fuel : Nat} (hf : 2 * m.tris.length ≤ fuel)
    (σ : Sched) (C : List (Edge V))
    (h : ∀ t ∈ m.tris, t.isGhost P.ghost = false → P.irregular t = true ∨ P.large t = true →
      ∃ c, P.circumcenter t = some c ∧ ∀ r ∈ m.tris, r.isGhost P.ghost = false → P.mayInsert r c = .ok false) :
    ∃ r, splitIrregular P fuel σ C m = .ok r ∧ r.mesh = m := by
  unfold splitIrregular splitInit
  refine splitIrregularLoop_blocked hm (by omega) fuel σ rfl ?_ ?_
  · rintro t (ht | ht) <;> simp only [List.mem_filter, Bool.not_eq_true'] at ht
    · exact ⟨ht.1.1, ht.1.2, h t ht.1.1 ht.1.2 (Or.inl ht.2)⟩
    · exact ⟨ht.1.1, ht.1.2, h t ht.1.1 ht.1.2 (Or.inr ht.2)⟩
  · simp only
    have h1 := List.length_filter_le (fun t : Tri V => !t.isGhost P.ghost) m.tris
    have h2 := List.length_filter_le P.irregular (m.tris.filter fun t : Tri V => !t.isGhost P.ghost)
    have h3 := List.length_filter_le P.large (m.tris.filter fun t : Tri V => !t.isGhost P.ghost)
    omega

theorem unencroach_nothing {P : RPreds V} {m : Mesh V} {C : List (Edge V)}
    (h : ∀ e ∈ C, ∀ v ∈ m.vertices P.ghost, P.encroaches e v = false) (fuel : Nat) (σ : Sched) :
    unencroach P fuel σ C m = .ok (m, []) := by
  unfold unencroach
  have : distributeEncroachments P C (m.vertices P.ghost) = [] := by
    unfold distributeEncroachments
    rw [List.filter_eq_nil_iff]
    intro p hp
    obtain ⟨e, he, rfl⟩ := List.mem_map.1 hp
    have : (m.vertices P.ghost).filter (fun v => P.encroaches e v) = [] := by
      rw [List.filter_eq_nil_iff]
      intro v hv
      simp [h e he v hv]
    simp [this]
  rw [this]
  cases fuel <;> rfl

end

theorem meshOutline_sound {K : Type*} [Field K] [LinearOrder K] {rnd : K → K} {eps : K} {fuel : Nat} {σ : Sched}
    {b : Polyline (Vertex K)} {m : Mesh (Vertex K)} (h : meshOutlineRounded rnd eps fuel σ b = .ok m) : AdjSound m := by
  unfold meshOutlineRounded at h
  split at h
  · exact includeBoundary_sound (fromInitialSegment_sound _ _ _) h
  · cases h

/-- Nothing is encroached and no triangle may be given up for a circumcentre: `refine` leaves everything as it is. -/
theorem refineWith_blocked {K : Type*} [Field K] [LinearOrder K] {P : RPreds (Vertex K)} {T : Triangulator K}
    (hm : AdjSound T.mesh) {fuel : Nat} (hf : 2 * T.mesh.tris.length ≤ fuel)
    (he : ∀ e ∈ T.constraints, ∀ v ∈ T.mesh.vertices P.ghost, P.encroaches e v = false)
    (h : ∀ t ∈ T.mesh.tris, t.isGhost P.ghost = false → P.irregular t = true ∨ P.large t = true →
      ∃ c, P.circumcenter t = some c ∧ ∀ r ∈ T.mesh.tris, r.isGhost P.ghost = false → P.mayInsert r c = .ok false)
    (σ : Sched) : T.refineWith P fuel σ = .ok T := by
  unfold Triangulator.refineWith
  rw [unencroach_nothing he]
  simp only [Res.bind]
  obtain ⟨r, hr, e⟩ := splitIrregular_blocked hm hf (σ.sub 1) (Triangulator.updateConstraints T.constraints []) h
  rw [hr]
  simp only [e]

end Verif
