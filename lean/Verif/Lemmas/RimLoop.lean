import Verif.Lemmas.RimRun
import Verif.Lemmas.Constraints
import Verif.Model.Triangulator

/-!
# The loops of the refinement on a triangulated polygon
-/

set_option linter.unusedSectionVars false

namespace Verif

open Spec Props

theorem setInsert_perm {α : Type*} [DecidableEq α] {a : α} {l : List α} (h : a ∉ l) : (setInsert a l).Perm (a :: l) := by
  unfold setInsert
  rw [if_neg h]

section generic

variable {V : Type*} [DecidableEq V]

theorem requeue_not_removed {P : RPreds V} {I R : List (Tri V)} {s : SplitState V} {t : Tri V}
    (h : t ∈ (requeue P I R s).irregulars ∨ t ∈ (requeue P I R s).larges) : t ∉ R := by
  simp only [requeue, List.mem_filter, Bool.not_eq_true', decide_eq_false_iff_not] at h
  rcases h with h | h
  · exact h.2
  · exact h.2

/-- The queues of `split_irregular` hold triangles of the mesh. -/
def Enqueued (s : SplitState V) : Prop := ∀ t, t ∈ s.irregulars ∨ t ∈ s.larges → t ∈ s.mesh.tris

theorem Enqueued.requeue {P : RPreds V} {M I R : List (Tri V)} {s : SplitState V}
    (hq : ∀ t, t ∈ s.irregulars ∨ t ∈ s.larges → t ∈ M) (hk : Retains M s.mesh.tris I R) : Enqueued (requeue P I R s) := by
  intro t ht
  show t ∈ s.mesh.tris
  rcases requeue_mem ht with k | k
  · rcases hk.rem t (hq t k) with j | j
    · exact j
    · exact absurd j (requeue_not_removed ht)
  · exact hk.inc t k

theorem mem_mapInsert_fst {α β : Type*} [DecidableEq α] {k : α} {v : β} {l : List (α × β)} {x : α} :
    x ∈ (mapInsert k v l).map Prod.fst ↔ x = k ∨ x ∈ l.map Prod.fst := by
  unfold mapInsert
  simp only [List.map_cons, List.mem_cons, List.mem_map, List.mem_filter, Bool.not_eq_true', decide_eq_false_iff_not]
  constructor
  · rintro (k | ⟨q, ⟨h1, -⟩, h3⟩)
    · exact Or.inl k
    · exact Or.inr ⟨q, h1, h3⟩
  · rintro (h | ⟨q, h1, h3⟩)
    · exact Or.inl h
    · by_cases hx : x = k
      · exact Or.inl hx
      · exact Or.inr ⟨q, ⟨h1, by rw [h3]; exact hx⟩, h3⟩

theorem of_mem_mapInsert {α β : Type*} [DecidableEq α] {k : α} {v : β} {l : List (α × β)} {q : α × β}
    (h : q ∈ mapInsert k v l) : q = (k, v) ∨ q ∈ l := by
  unfold mapInsert at h
  rcases List.mem_cons.1 h with h | h
  · exact Or.inl h
  · exact Or.inr (List.mem_of_mem_filter h)

theorem mem_foldl_mapInsert_fst {α : Type*} [DecidableEq α] {e : α} {N : List α} {l : List (α × α)} {x : α} :
    x ∈ (N.foldl (fun s h => mapInsert h e s) l).map Prod.fst ↔ x ∈ N ∨ x ∈ l.map Prod.fst := by
  induction N generalizing l with
  | nil => simp
  | cons a N ih =>
    rw [List.foldl_cons, ih, mem_mapInsert_fst, List.mem_cons]
    tauto

theorem of_mem_foldl_mapInsert {α : Type*} [DecidableEq α] {e : α} {N : List α} {l : List (α × α)} {q : α × α}
    (h : q ∈ N.foldl (fun s h => mapInsert h e s) l) : (q.1 ∈ N ∧ q.2 = e) ∨ q ∈ l := by
  induction N generalizing l with
  | nil => exact Or.inr h
  | cons a N ih =>
    rw [List.foldl_cons] at h
    rcases ih h with k | k
    · exact Or.inl ⟨List.mem_cons_of_mem _ k.1, k.2⟩
    · rcases of_mem_mapInsert k with rfl | k
      · exact Or.inl ⟨List.mem_cons_self, rfl⟩
      · exact Or.inr k

end generic

section

variable {K : Type*} [Field K] [LinearOrder K] [IsStrictOrderedRing K]

variable {b : Polyline (Vertex K)} {g : Vertex K} {T : List (Tri (Vertex K))} {f : Nat} {l : List (Vertex K)}
  {m : Mesh (Vertex K)}

/-- The sides of the polygon, as edges. -/
def wallsOf (l : List (Vertex K)) : List (Edge (Vertex K)) := (pairs l false).map fun s => ⟨s.1, s.2⟩

theorem mem_wallsOf {e : Edge (Vertex K)} : e ∈ wallsOf l ↔ Wall l e := by
  unfold wallsOf Wall
  rw [List.mem_map]
  constructor
  · rintro ⟨s, hs, rfl⟩
    exact hs
  · intro h
    exact ⟨_, h, rfl⟩

theorem nodup_wallsOf (hs : SimplePolygon l) : (wallsOf l).Nodup := by
  have h1 : ((wallsOf l).map Edge.v1).Nodup := by
    unfold wallsOf
    rw [List.map_map]
    have : ((pairs l false).map Prod.fst).Nodup := by rw [pairs_fst]; exact simplePolygon_nodup hs
    exact this
  exact h1.of_map

variable (hG : Ground g b T)

include hG

/-- One iteration of `unencroach_segment`. -/
theorem Plot.unencStep {dist : Vertex K → Vertex K → K} {p : RefineParams K} {fuel : Nat}
    {C : List (Edge (Vertex K))} (hC : ∀ c ∈ C, AlongSide b c) {r0 : List (Edge (Vertex K))} {M0 : List (Tri (Vertex K))}
    {σ : Sched} {e : Edge (Vertex K)} {B : List (Edge (Vertex K))} {s : UnencState (Vertex K)}
    {r : List (Edge (Vertex K)) × UnencState (Vertex K)} (hP : Plot g b l s.mesh)
    (hp : (wallsOf l).Perm (r0 ++ (e :: B) ++ s.newEdges)) (hk : Retains M0 s.mesh.tris s.included s.removed)
    (hstep : Verif.unencStep (geoRPreds 0 f dist p (some b) []) fuel σ C e s = .ok r) :
    ∃ l', Plot g b l' r.2.mesh ∧ (wallsOf l').Perm (r0 ++ (r.1 ++ B) ++ r.2.newEdges) ∧
      Retains M0 r.2.mesh.tris r.2.included r.2.removed := by
  unfold Verif.unencStep at hstep
  rw [Res.bind_eq_ok] at hstep
  obtain ⟨st, hsp, hstep⟩ := hstep
  have hwe : Wall l e := mem_wallsOf.1 (hp.symm.subset (by simp))
  obtain ⟨⟨l', rr, hcut, hP'⟩, hk'⟩ := hP.split hG hC hwe hsp
  simp only [Res.ok.injEq] at hstep
  have hold : (wallsOf l).Perm (e :: rr.map fun s => ⟨s.1, s.2⟩) :=
    hcut.old.map fun s : Vertex K × Vertex K => (⟨s.1, s.2⟩ : Edge (Vertex K))
  have hnew : (wallsOf l').Perm (⟨e.v1, e.midpoint⟩ :: ⟨e.midpoint, e.v2⟩ :: rr.map fun s => ⟨s.1, s.2⟩) :=
    hcut.new.map fun s : Vertex K × Vertex K => (⟨s.1, s.2⟩ : Edge (Vertex K))
  have hrr : (rr.map fun s => (⟨s.1, s.2⟩ : Edge (Vertex K))).Perm (r0 ++ B ++ s.newEdges) := by
    have h1 : (e :: rr.map fun s => (⟨s.1, s.2⟩ : Edge (Vertex K))).Perm (e :: (r0 ++ B ++ s.newEdges)) := by
      refine hold.symm.trans (hp.trans ?_)
      simp only [List.append_assoc, List.cons_append]
      exact List.perm_middle
    exact h1.cons_inv
  have hnew' : (wallsOf l').Perm (⟨e.v1, e.midpoint⟩ :: ⟨e.midpoint, e.v2⟩ :: (r0 ++ B ++ s.newEdges)) :=
    hnew.trans ((hrr.cons _).cons _)
  have hnd := hnew'.nodup_iff.1 (nodup_wallsOf hP'.fit.poly)
  rw [List.nodup_cons, List.nodup_cons] at hnd
  obtain ⟨n1, n2, -⟩ := hnd
  have q1 : (⟨e.v1, e.midpoint⟩ : Edge (Vertex K)) ∉ s.newEdges := fun hh => n1 (by simp [hh])
  have q2 : (⟨e.midpoint, e.v2⟩ : Edge (Vertex K)) ∉ s.newEdges := fun hh => n2 (by simp [hh])
  have q3 : (⟨e.midpoint, e.v2⟩ : Edge (Vertex K)) ∉ setInsert ⟨e.v1, e.midpoint⟩ s.newEdges := by
    rw [mem_setInsert]
    rintro (hh | hh)
    · exact n1 (by simp [hh])
    · exact q2 hh
  subst hstep
  refine ⟨l', hP', hnew'.trans ?_, hk.step hk'⟩
  rw [List.perm_iff_count]
  intro x
  have c1 := (setInsert_perm q1).count_eq x
  have c2 := (setInsert_perm q2).count_eq x
  have c3 := (setInsert_perm q3).count_eq x
  simp only [List.count_cons] at c1 c2 c3
  show _ = List.count x (r0 ++ (((if _ then [(⟨e.midpoint, e.v2⟩ : Edge (Vertex K))] else []) ++
    (if _ then [(⟨e.v1, e.midpoint⟩ : Edge (Vertex K))] else [])) ++ B) ++ (if _ then (if _ then s.newEdges
      else setInsert (⟨e.v1, e.midpoint⟩ : Edge (Vertex K)) s.newEdges) else
      setInsert (⟨e.midpoint, e.v2⟩ : Edge (Vertex K)) (if _ then s.newEdges
      else setInsert (⟨e.v1, e.midpoint⟩ : Edge (Vertex K)) s.newEdges)))
  split_ifs <;> simp only [List.count_append, List.count_cons, List.count_nil] <;> omega

/-- The loop of `unencroach_segment`. -/
theorem Plot.unencLoop {dist : Vertex K → Vertex K → K} {p : RefineParams K} {fuel : Nat}
    {C : List (Edge (Vertex K))} (hC : ∀ c ∈ C, AlongSide b c) {r0 : List (Edge (Vertex K))} {M0 : List (Tri (Vertex K))} :
    ∀ {n : Nat} {σ : Sched} {B : List (Edge (Vertex K))} {s s' : UnencState (Vertex K)} {l : List (Vertex K)},
      Plot g b l s.mesh → (wallsOf l).Perm (r0 ++ B ++ s.newEdges) → Retains M0 s.mesh.tris s.included s.removed →
      Verif.unencLoop (geoRPreds 0 f dist p (some b) []) C fuel n σ B s = .ok s' →
      ∃ l', Plot g b l' s'.mesh ∧ (wallsOf l').Perm (r0 ++ s'.newEdges) ∧
        Retains M0 s'.mesh.tris s'.included s'.removed := by
  intro n
  induction n with
  | zero =>
    intro σ B s s' l hP hp hk h
    cases B with
    | nil =>
      simp only [Verif.unencLoop, Res.ok.injEq] at h
      subst h
      exact ⟨l, hP, by simpa using hp, hk⟩
    | cons e B => simp [Verif.unencLoop] at h
  | succ n ih =>
    intro σ B s s' l hP hp hk h
    cases B with
    | nil =>
      simp only [Verif.unencLoop, Res.ok.injEq] at h
      subst h
      exact ⟨l, hP, by simpa using hp, hk⟩
    | cons e B =>
      rw [Verif.unencLoop, Res.bind_eq_ok] at h
      obtain ⟨r, hstep, h⟩ := h
      obtain ⟨l', k1, k2, k3⟩ := Plot.unencStep hG hC hP hp hk hstep
      exact ih (l := l') k1 k2 k3 h

/-- `unencroach_segment` on a side of the subdivided boundary. -/
theorem Plot.unencroachSegment (hP : Plot g b l m) {dist : Vertex K → Vertex K → K} {p : RefineParams K} {fuel : Nat}
    {σ : Sched} {C : List (Edge (Vertex K))} (hC : ∀ c ∈ C, AlongSide b c) {e : Edge (Vertex K)} (he : Wall l e)
    {vs : List (Vertex K)} {r : UnencState (Vertex K)}
    (h : Verif.unencroachSegment (geoRPreds 0 f dist p (some b) []) fuel σ C m e vs = .ok r) :
    ∃ l', Plot g b l' r.mesh ∧ (∀ x, Wall l' x ↔ (Wall l x ∧ x ≠ e) ∨ x ∈ r.newEdges) ∧
      Retains m.tris r.mesh.tris r.included r.removed := by
  have hperm : (wallsOf l).Perm ((wallsOf l).erase e ++ [e] ++ []) := by
    rw [List.append_nil]
    exact (List.perm_cons_erase (mem_wallsOf.2 he)).trans (List.perm_append_singleton _ _).symm
  obtain ⟨l', h1, h2, h3⟩ := Plot.unencLoop hG hC (r0 := (wallsOf l).erase e) (M0 := m.tris)
    (s := ⟨m, vs, [], [], []⟩) hP hperm (Retains.refl _) h
  refine ⟨l', h1, fun x => ?_, h3⟩
  rw [← mem_wallsOf, h2.mem_iff, List.mem_append, (nodup_wallsOf hP.fit.poly).mem_erase_iff, mem_wallsOf]
  tauto

/-- The loop of `unencroach`. -/
theorem Plot.unencroachLoop {dist : Vertex K → Vertex K → K} {p : RefineParams K} {fuel : Nat}
    {C : List (Edge (Vertex K))} (hC : ∀ c ∈ C, AlongSide b c) :
    ∀ {n : Nat} {σ : Sched} {m : Mesh (Vertex K)} {cs : List (Edge (Vertex K) × List (Vertex K))}
      {split : List (Edge (Vertex K) × Edge (Vertex K))} {r : Mesh (Vertex K) × List (Edge (Vertex K) × Edge (Vertex K))}
      {l : List (Vertex K)}, Plot g b l m → (∀ q ∈ cs, Wall l q.1 ∧ q.1 ∈ C) →
      (∀ x, Wall l x → (x ∈ C ∧ x ∉ split.map Prod.snd) ∨ x ∈ split.map Prod.fst) →
      (∀ q ∈ split, q.2 ∈ C ∧ AlongSide b q.1) →
      Verif.unencroachLoop (geoRPreds 0 f dist p (some b) []) C fuel n σ m cs split = .ok r →
      ∃ l', Plot g b l' r.1 ∧ (∀ x, Wall l' x → (x ∈ C ∧ x ∉ r.2.map Prod.snd) ∨ x ∈ r.2.map Prod.fst) ∧
        ∀ q ∈ r.2, q.2 ∈ C ∧ AlongSide b q.1 := by
  intro n
  induction n with
  | zero =>
    intro σ m cs split r l hP hcs hw hq h
    cases cs with
    | nil =>
      simp only [Verif.unencroachLoop, Res.ok.injEq] at h
      subst h
      exact ⟨l, hP, hw, hq⟩
    | cons c cs => simp [Verif.unencroachLoop] at h
  | succ n ih =>
    intro σ m cs split r l hP hcs hw hq h
    cases cs with
    | nil =>
      simp only [Verif.unencroachLoop, Res.ok.injEq] at h
      subst h
      exact ⟨l, hP, hw, hq⟩
    | cons c cs =>
      rw [Verif.unencroachLoop] at h
      cases hch : choose (σ.sub 0) (c :: cs) with
      | none => rw [hch] at h; cases h
      | some q =>
        obtain ⟨e, vs⟩ := q
        rw [hch] at h
        simp only at h
        rw [Res.bind_eq_ok] at h
        obtain ⟨u, hu, h⟩ := h
        obtain ⟨he1, he2⟩ := hcs _ (choose_mem hch)
        obtain ⟨l', h1, h2, -⟩ := hP.unencroachSegment hG hC he1 hu
        refine ih (l := l') h1 ?_ ?_ ?_ h
        · intro q hqm
          rw [List.mem_filter] at hqm
          obtain ⟨k1, k2⟩ := hcs q hqm.1
          exact ⟨(h2 _).2 (Or.inl ⟨k1, by simpa using hqm.2⟩), k2⟩
        · intro x hx
          rw [mem_foldl_mapInsert_fst]
          rcases (h2 x).1 hx with ⟨k1, k2⟩ | k
          · rcases hw x k1 with ⟨j1, j2⟩ | j
            · refine Or.inl ⟨j1, fun hm => ?_⟩
              obtain ⟨q, hqm, rfl⟩ := List.mem_map.1 hm
              rcases of_mem_foldl_mapInsert hqm with i | i
              · exact k2 i.2
              · exact j2 (List.mem_map.2 ⟨q, i, rfl⟩)
            · exact Or.inr (Or.inr j)
          · exact Or.inr (Or.inl k)
        · intro q hqm
          rcases of_mem_foldl_mapInsert hqm with i | i
          · refine ⟨i.2 ▸ he2, ?_⟩
            exact Wall.along h1.sub ((h2 _).2 (Or.inr i.1))
          · exact hq q i

/-- `unencroach` and the update of the constraints. -/
theorem Plot.unencroach (hP : Plot g b b.vertices m) {dist : Vertex K → Vertex K → K} {p : RefineParams K} {fuel : Nat}
    {σ : Sched} {C : List (Edge (Vertex K))} (hC : ∀ c, c ∈ C ↔ Wall b.vertices c)
    {r : Mesh (Vertex K) × List (Edge (Vertex K) × Edge (Vertex K))}
    (h : Verif.unencroach (geoRPreds 0 f dist p (some b) []) fuel σ C m = .ok r) :
    ∃ l', Plot g b l' r.1 ∧ (∀ x, Wall l' x → x ∈ Triangulator.updateConstraints C r.2) ∧
      ∀ c ∈ Triangulator.updateConstraints C r.2, AlongSide b c := by
  have hCA : ∀ c ∈ C, AlongSide b c := fun c hc => Wall.along (Subdivides.refl _) ((hC c).1 hc)
  obtain ⟨l', h1, h2, h3⟩ := Plot.unencroachLoop hG hCA hP (cs := distributeEncroachments _ C _) (split := []) (by
      intro q hq
      unfold distributeEncroachments at hq
      obtain ⟨x, hx, rfl⟩ := List.mem_map.1 (List.mem_of_mem_filter hq)
      exact ⟨(hC x).1 hx, hx⟩) (fun x hx => Or.inl ⟨(hC x).2 hx, by simp⟩) (by simp) h
  refine ⟨l', h1, fun x hx => ?_, fun c hc => ?_⟩
  · unfold Triangulator.updateConstraints
    rw [mem_toSet, List.mem_append, List.mem_filter]
    rcases h2 x hx with ⟨k1, k2⟩ | k
    · left
      refine ⟨k1, ?_⟩
      rw [Bool.and_eq_true]
      refine ⟨by simpa using k2, ?_⟩
      simp only [Bool.not_eq_true', decide_eq_false_iff_not]
      intro hm
      obtain ⟨q, hqm, hqe⟩ := List.mem_map.1 hm
      have := (hC _).1 (h3 q hqm).1
      rw [hqe] at this
      exact simplePolygon_back hG.poly _ ((hC x).1 k1) this
    · exact Or.inr k
  · unfold Triangulator.updateConstraints at hc
    rw [mem_toSet, List.mem_append] at hc
    rcases hc with k | k
    · exact hCA c (List.mem_of_mem_filter k)
    · obtain ⟨q, hqm, rfl⟩ := List.mem_map.1 k
      exact (h3 q hqm).2

/-- What is true between two iterations of `split_irregular`. -/
structure Estate (g : Vertex K) (b : Polyline (Vertex K)) (l : List (Vertex K)) (s : SplitState (Vertex K)) : Prop where
  plot : Plot g b l s.mesh
  walls : ∀ x, Wall l x → x ∈ s.segments
  along : ∀ c ∈ s.segments, AlongSide b c
  queued : Enqueued s

omit hG in
theorem requeue_estate {P : RPreds (Vertex K)} {I R M : List (Tri (Vertex K))} {s : SplitState (Vertex K)}
    (h1 : Plot g b l s.mesh) (h2 : ∀ x, Wall l x → x ∈ s.segments) (h3 : ∀ c ∈ s.segments, AlongSide b c)
    (hq : ∀ t, t ∈ s.irregulars ∨ t ∈ s.larges → t ∈ M) (hk : Retains M s.mesh.tris I R) :
    Estate g b l (requeue P I R s) :=
  ⟨h1, h2, h3, Enqueued.requeue hq hk⟩

theorem Estate.encroached {dist : Vertex K → Vertex K → K} {p : RefineParams K} {fuel : Nat} {es : List (Edge (Vertex K))} :
    ∀ {σ : Sched} {vs : List (Vertex K)} {s s' : SplitState (Vertex K)} {l : List (Vertex K)}, Estate g b l s →
      es.Nodup → (∀ e ∈ es, Wall l e) →
      splitEncroached (geoRPreds 0 f dist p (some b) []) fuel σ es vs s = .ok s' → ∃ l', Estate g b l' s' := by
  induction es with
  | nil =>
    intro σ vs s s' l hE _ _ h
    simp only [splitEncroached, Res.ok.injEq] at h
    subst h
    exact ⟨l, hE⟩
  | cons e es ih =>
    intro σ vs s s' l hE hn hw h
    rw [splitEncroached, Res.bind_eq_ok] at h
    obtain ⟨r, hr, h⟩ := h
    obtain ⟨l', h1, h2, h3⟩ := hE.plot.unencroachSegment hG hE.along (hw e List.mem_cons_self) hr
    rw [List.nodup_cons] at hn
    refine ih (l := l') ?_ hn.2 ?_ h
    · refine requeue_estate (M := s.mesh.tris) h1 ?_ ?_ hE.queued h3
      · intro x hx
        simp only [mem_foldl_setInsert, mem_setErase]
        rcases (h2 x).1 hx with ⟨k1, k2⟩ | k
        · have := hE.walls x k1
          tauto
        · tauto
      · intro c hc
        simp only [mem_foldl_setInsert, mem_setErase] at hc
        by_cases k : c ∈ r.newEdges
        · exact Wall.along h1.sub ((h2 c).2 (Or.inr k))
        · exact hE.along c (by tauto)
    · intro x hx
      refine (h2 x).2 (Or.inl ⟨hw x (List.mem_cons_of_mem _ hx), ?_⟩)
      rintro rfl
      exact hn.1 hx

theorem Estate.step {dist : Vertex K → Vertex K → K} {p : RefineParams K} {fuel : Nat} {σ : Sched} {t : Tri (Vertex K)}
    {s s' : SplitState (Vertex K)} (hE : Estate g b l s) (ht : t ∈ s.mesh.tris)
    (h : splitStep (geoRPreds 0 f dist p (some b) []) fuel σ t s = .ok s') : ∃ l', Estate g b l' s' := by
  unfold splitStep at h
  rw [Res.bind_eq_ok] at h
  obtain ⟨r, hr, h⟩ := h
  have htry := hE.plot.try hG hE.along hE.walls ht hr
  cases htry with
  | inserted hP hk =>
    simp only [Res.ok.injEq] at h
    subst h
    exact ⟨l, requeue_estate (M := s.mesh.tris) hP hE.walls hE.along hE.queued hk⟩
  | rejected hP hp hn he =>
    simp only at h
    rw [Res.bind_eq_ok] at h
    obtain ⟨c, -, h⟩ := h
    refine Estate.encroached hG (l := l) ?_ (nodup_shuffle.2 hn) (fun e hm => he e (mem_shuffle.1 hm)) h
    exact ⟨hP, hE.walls, hE.along, fun x hx => hp.symm.subset (hE.queued x hx)⟩

omit hG in
theorem Estate.pop {σ : Sched} {s s' : SplitState (Vertex K)} {t : Tri (Vertex K)} (hE : Estate g b l s)
    (h : popTriangle σ s = some (t, s')) : Estate g b l s' ∧ t ∈ s'.mesh.tris := by
  unfold popTriangle at h
  cases h1 : choose σ s.irregulars with
  | some u =>
    rw [h1] at h
    simp only [Option.some.injEq, Prod.mk.injEq] at h
    obtain ⟨rfl, rfl⟩ := h
    refine ⟨⟨hE.plot, hE.walls, hE.along, fun x hx => hE.queued x ?_⟩, hE.queued _ (Or.inl (choose_mem h1))⟩
    exact hx.imp_left fun hh => (mem_setErase.1 hh).1
  | none =>
    rw [h1] at h
    simp only at h
    cases h2 : choose σ s.larges with
    | some u =>
      rw [h2] at h
      simp only [Option.some.injEq, Prod.mk.injEq] at h
      obtain ⟨rfl, rfl⟩ := h
      refine ⟨⟨hE.plot, hE.walls, hE.along, fun x hx => hE.queued x ?_⟩, hE.queued _ (Or.inr (choose_mem h2))⟩
      exact hx.imp_right fun hh => (mem_setErase.1 hh).1
    | none =>
      rw [h2] at h
      simp at h

theorem Estate.loop {dist : Vertex K → Vertex K → K} {p : RefineParams K} {fuel : Nat} :
    ∀ {n : Nat} {σ : Sched} {s s' : SplitState (Vertex K)} {l : List (Vertex K)}, Estate g b l s →
      splitIrregularLoop (geoRPreds 0 f dist p (some b) []) fuel n σ s = .ok s' → ∃ l', Estate g b l' s' := by
  intro n
  induction n with
  | zero =>
    intro σ s s' l hE h
    rw [splitIrregularLoop] at h
    cases hp : popTriangle (σ.sub 0) s with
    | none =>
      rw [hp] at h
      simp only [Res.ok.injEq] at h
      subst h
      exact ⟨l, hE⟩
    | some q => rw [hp] at h; cases h
  | succ n ih =>
    intro σ s s' l hE h
    rw [splitIrregularLoop] at h
    cases hp : popTriangle (σ.sub 0) s with
    | none =>
      rw [hp] at h
      simp only [Res.ok.injEq] at h
      subst h
      exact ⟨l, hE⟩
    | some q =>
      obtain ⟨t, s1⟩ := q
      rw [hp] at h
      simp only at h
      rw [Res.bind_eq_ok] at h
      obtain ⟨s2, h2, h⟩ := h
      obtain ⟨hE1, ht⟩ := hE.pop hp
      obtain ⟨l', hE2⟩ := hE1.step hG ht h2
      exact ih hE2 h

/-- Refining a triangulated polygon gives a triangulation of the same polygon, with vertices put on its sides. -/
theorem Plot.refine {dist : Vertex K → Vertex K → K} {p : RefineParams K} {fuel : Nat} {σ : Sched} {C : List (Edge (Vertex K))}
    (hP : Plot g b b.vertices m) (hC : ∀ c, c ∈ C ↔ Wall b.vertices c)
    {r : Mesh (Vertex K) × List (Edge (Vertex K) × Edge (Vertex K))} {s : SplitState (Vertex K)} {τ : Sched}
    (h1 : Verif.unencroach (geoRPreds 0 f dist p (some b) []) fuel σ C m = .ok r)
    (h2 : splitIrregular (geoRPreds 0 f dist p (some b) []) fuel τ (Triangulator.updateConstraints C r.2) r.1 = .ok s) :
    ∃ l', Estate g b l' s := by
  obtain ⟨l', k1, k2, k3⟩ := hP.unencroach hG hC h1
  refine Estate.loop hG (l := l') ⟨k1, k2, k3, fun t ht => ?_⟩ h2
  simp only [splitInit] at ht
  rcases ht with ht | ht
  · exact List.mem_of_mem_filter (List.mem_of_mem_filter ht)
  · exact List.mem_of_mem_filter (List.mem_of_mem_filter ht)

end

end Verif
