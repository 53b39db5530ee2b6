import Verif.Model.Triangulator
import Verif.Lemmas.Sets
import Verif.Lemmas.ContinenceGeo

/-!
# Lemmas on the insertion methods of the triangulator
-/

set_option linter.unusedSectionVars false

namespace Verif

open Spec

theorem filterRes_ok {α : Type*} {p : α → Res Bool} {l r : List α} (h : filterRes p l = .ok r) :
    (∀ a ∈ l, ∃ b, p a = .ok b) ∧ ∀ a, a ∈ r ↔ a ∈ l ∧ p a = .ok true := by
  induction l generalizing r with
  | nil =>
    simp only [filterRes] at h
    injection h with h
    subst h
    simp
  | cons x l ih =>
    simp only [filterRes, Res.bind_eq_ok] at h
    obtain ⟨b, hb, r', hr', h⟩ := h
    injection h with h
    obtain ⟨i1, i2⟩ := ih hr'
    refine ⟨?_, fun a => ?_⟩
    · intro a ha
      rcases List.mem_cons.1 ha with rfl | ha
      · exact ⟨b, hb⟩
      · exact i1 a ha
    · subst h
      cases b with
      | true =>
        simp only [if_true, List.mem_cons, i2]
        constructor
        · rintro (rfl | h)
          · exact ⟨Or.inl rfl, hb⟩
          · exact ⟨Or.inr h.1, h.2⟩
        · rintro ⟨rfl | h, h'⟩
          · exact Or.inl rfl
          · exact Or.inr ⟨h, h'⟩
      | false =>
        simp only [Bool.false_eq_true, if_false, List.mem_cons, i2]
        constructor
        · exact fun h => ⟨Or.inr h.1, h.2⟩
        · rintro ⟨rfl | h, h'⟩
          · rw [hb] at h'; simp at h'
          · exact ⟨h, h'⟩

theorem filterRes_total {α : Type*} {p : α → Res Bool} {l : List α} (h : ∀ a ∈ l, ∃ b, p a = .ok b) :
    ∃ r, filterRes p l = .ok r := by
  induction l with
  | nil => exact ⟨[], rfl⟩
  | cons x l ih =>
    obtain ⟨b, hb⟩ := h x (by simp)
    obtain ⟨r, hr⟩ := ih (fun a ha => h a (List.mem_cons_of_mem _ ha))
    refine ⟨if b then x :: r else r, ?_⟩
    simp only [filterRes, hb, hr, Res.bind_ok]

namespace Triangulator

section any

variable {K : Type*} [Field K] [LinearOrder K]

theorem placeVertex_ignore {eps : K} {v : Vertex K} {l : List (Edge (Vertex K))}
    (h : placeVertex eps v l = .ignore) :
    ∃ s ∈ l, Vertex.eqv eps s.v1 v = true ∨ Vertex.eqv eps s.v2 v = true := by
  induction l with
  | nil => simp [placeVertex] at h
  | cons s l ih =>
    rw [placeVertex] at h
    split_ifs at h with h1 h2
    · exact ⟨s, by simp, by simpa using h1⟩
    · obtain ⟨t, ht, h'⟩ := ih h
      exact ⟨t, List.mem_cons_of_mem _ ht, h'⟩

theorem placeVertex_split {eps : K} {v : Vertex K} {l : List (Edge (Vertex K))} {s : Edge (Vertex K)}
    (h : placeVertex eps v l = .split s) :
    s ∈ l ∧ s.contains eps v = true ∧ Vertex.eqv eps s.v1 v = false ∧ Vertex.eqv eps s.v2 v = false := by
  induction l with
  | nil => simp [placeVertex] at h
  | cons t l ih =>
    rw [placeVertex] at h
    split_ifs at h with h1 h2
    · injection h with h
      subst h
      simp only [Bool.or_eq_true, not_or, Bool.not_eq_true] at h1
      exact ⟨by simp, h2, h1.1, h1.2⟩
    · obtain ⟨ht, h'⟩ := ih h
      exact ⟨List.mem_cons_of_mem _ ht, h'⟩

theorem placeVertex_store {eps : K} {v : Vertex K} {l : List (Edge (Vertex K))}
    (h : placeVertex eps v l = .store) : ∀ s ∈ l, s.contains eps v = false := by
  induction l with
  | nil => simp
  | cons t l ih =>
    rw [placeVertex] at h
    split_ifs at h with h1 h2
    intro s hs
    rcases List.mem_cons.1 hs with rfl | hs
    · simpa using h2
    · exact ih h s hs

/-- An invariant of the insertion loop. -/
theorem insertVerticesLoop_induct {eps : K} (I : Triangulator K → Prop) {vs : List (Vertex K)}
    (store : ∀ v ∈ vs, ∀ T, I T → (∀ s ∈ T.segments, s.contains eps v = false) →
      I { T with vertices := setInsert v T.vertices })
    (split : ∀ v ∈ vs, ∀ T, ∀ s ∈ T.segments, I T → s.contains eps v = true →
      Vertex.eqv eps s.v1 v = false → Vertex.eqv eps s.v2 v = false →
      I { T with segments := setInsert ⟨v, s.v2⟩ (setInsert ⟨s.v1, v⟩ (setErase s T.segments)) })
    {σ : Sched} {l : List (Vertex K)} (hl : ∀ v ∈ l, v ∈ vs) {T : Triangulator K} (h : I T) :
    I (insertVerticesLoop eps σ l T) := by
  induction l generalizing σ T with
  | nil => exact h
  | cons v l ih =>
    rw [insertVerticesLoop]
    refine ih (fun w hw => hl w (List.mem_cons_of_mem _ hw)) ?_
    have hv := hl v (by simp)
    cases hp : placeVertex eps v (shuffle (σ.sub 0) T.segments) with
    | store =>
      refine store v hv T h fun s hs => placeVertex_store hp s (mem_shuffle.2 hs)
    | ignore => exact h
    | split s =>
      obtain ⟨h1, h2, h3, h4⟩ := placeVertex_split hp
      exact split v hv T s (mem_shuffle.1 h1) h h2 h3 h4

/-- The vertex is stored, or it is (up to the tolerance) an end of a stored segment. -/
def Present (eps : K) (T : Triangulator K) (v : Vertex K) : Prop :=
  v ∈ T.vertices ∨ ∃ s ∈ T.segments, Vertex.eqv eps s.v1 v = true ∨ Vertex.eqv eps s.v2 v = true ∨
    s.v1 = v ∨ s.v2 = v

theorem present_store {eps : K} {T : Triangulator K} {u v : Vertex K} (h : Present eps T u) :
    Present eps { T with vertices := setInsert v T.vertices } u := by
  rcases h with h | h
  · exact Or.inl (mem_setInsert.2 (Or.inr h))
  · exact Or.inr h

theorem present_split {eps : K} {T : Triangulator K} {u v : Vertex K} {s : Edge (Vertex K)}
    (h : Present eps T u) :
    Present eps { T with segments := setInsert ⟨v, s.v2⟩ (setInsert ⟨s.v1, v⟩ (setErase s T.segments)) }
      u := by
  rcases h with h | ⟨t, ht, h⟩
  · exact Or.inl h
  · right
    by_cases hts : t = s
    · subst hts
      rcases h with h | h | h | h
      · exact ⟨⟨t.v1, v⟩, by simp, Or.inl h⟩
      · exact ⟨⟨v, t.v2⟩, by simp, Or.inr (Or.inl h)⟩
      · exact ⟨⟨t.v1, v⟩, by simp, Or.inr (Or.inr (Or.inl h))⟩
      · exact ⟨⟨v, t.v2⟩, by simp, Or.inr (Or.inr (Or.inr h))⟩
    · exact ⟨t, by simp [ht, hts], h⟩

theorem insertVerticesLoop_present {eps : K} {σ : Sched} {l : List (Vertex K)} {T : Triangulator K} :
    ∀ v, (v ∈ l ∨ Present eps T v) → Present eps (insertVerticesLoop eps σ l T) v := by
  induction l generalizing σ T with
  | nil =>
    intro v hv
    rcases hv with hv | hv
    · simp at hv
    · exact hv
  | cons w l ih =>
    intro v hv
    rw [insertVerticesLoop]
    refine ih v ?_
    rcases hv with hv | hv
    · rcases List.mem_cons.1 hv with rfl | hv
      · right
        cases hp : placeVertex eps v (shuffle (σ.sub 0) T.segments) with
        | store => exact Or.inl (by simp)
        | ignore =>
          obtain ⟨s, hs, h⟩ := placeVertex_ignore hp
          exact Or.inr ⟨s, mem_shuffle.1 hs, by tauto⟩
        | split s => exact Or.inr ⟨⟨s.v1, v⟩, by simp, by simp⟩
      · exact Or.inl hv
    · right
      cases hp : placeVertex eps w (shuffle (σ.sub 0) T.segments) with
      | store => exact present_store hv
      | ignore => exact hv
      | split s => exact present_split hv

/-! ### `insert_segments` -/

theorem segmentRejected_iff {eps : K} {fuel : Nat} {T : Triangulator K} {s : Edge (Vertex K)} {b : Bool}
    (h : segmentRejected eps fuel T s = .ok b) :
    b = true ↔ (Polyline.continence eps fuel T.boundary ⟨[s.v1, s.v2], true, by simp⟩ ≠
        .ok (some (.inside, .opened)) ∨
      ∃ p ∈ T.holes, Polyline.continence eps fuel p ⟨[s.v1, s.v2], true, by simp⟩ ≠
        .ok (some (.outside, .opened))) := by
  unfold segmentRejected at h
  simp only [Res.bind_eq_ok] at h
  obtain ⟨c, hc, h⟩ := h
  by_cases h1 : c ≠ some (.inside, .opened)
  · rw [if_pos h1] at h
    injection h with h
    subst h
    simp only [true_iff]
    left
    rw [hc]
    intro he
    injection he with he
    exact h1 he
  · rw [if_neg h1] at h
    rw [Res.bind_eq_ok] at h
    obtain ⟨l, hl, h⟩ := h
    injection h with h
    push Not at h1
    subst h1
    rw [hc]
    obtain ⟨i1, i2⟩ := filterRes_ok hl
    have hmem : ∀ p, p ∈ l ↔ p ∈ T.holes ∧
        Polyline.continence eps fuel p ⟨[s.v1, s.v2], true, by simp⟩ ≠ .ok (some (.outside, .opened)) := by
      intro p
      rw [i2]
      constructor
      · rintro ⟨hp, he⟩
        refine ⟨hp, fun he' => ?_⟩
        rw [he', Res.bind_ok] at he
        simp at he
      · rintro ⟨hp, he⟩
        refine ⟨hp, ?_⟩
        obtain ⟨b', hb'⟩ := i1 p hp
        rw [Res.bind_eq_ok] at hb'
        obtain ⟨c', hc', -⟩ := hb'
        rw [hc', Res.bind_ok]
        have : c' ≠ some (.outside, .opened) := by
          rintro rfl
          exact he hc'
        simp [this]
    rw [← h]
    simp only [ne_eq, not_true_eq_false, false_or, Bool.not_eq_true', List.isEmpty_eq_false_iff]
    constructor
    · intro hne
      obtain ⟨p, hp⟩ := List.exists_mem_of_ne_nil l hne
      exact ⟨p, (hmem p).1 hp⟩
    · rintro ⟨p, hp⟩ he
      have := (hmem p).2 hp
      rw [he] at this
      simp at this

theorem setErase_sublist {α : Type*} [DecidableEq α] (a : α) (l : List α) : (setErase a l).Sublist l :=
  List.filter_sublist

theorem scanVertices_spec {eps : K} {s : Edge (Vertex K)} :
    ∀ (l stored : List (Vertex K)),
      ((scanVertices eps s l stored).1).Sublist stored ∧
      (∀ v ∈ stored, v ∉ (scanVertices eps s l stored).1 →
        (Vertex.eqv eps s.v1 v = true ∨ Vertex.eqv eps s.v2 v = true) ∨
          (scanVertices eps s l stored).2 = some v) ∧
      (∀ v, (scanVertices eps s l stored).2 = some v → v ∈ l ∧ s.contains eps v = true ∧
        v ∉ (scanVertices eps s l stored).1) ∧
      ((scanVertices eps s l stored).2 = none → ∀ v ∈ l, s.contains eps v = false) := by
  intro l
  induction l with
  | nil => intro stored; simp only [scanVertices]; simp; exact fun v h1 h2 => absurd h1 h2
  | cons w l ih =>
    intro stored
    rw [scanVertices]
    by_cases hc : s.contains eps w = true
    · rw [if_pos hc]
      refine ⟨?_, ?_, ?_, by simp⟩
      · refine (setErase_sublist _ _).trans ?_
        split_ifs
        · exact setErase_sublist _ _
        · exact List.Sublist.refl _
      · intro v hv hn
        by_cases hvw : v = w
        · right; simp [hvw]
        · exfalso
          apply hn
          refine mem_setErase.2 ⟨?_, hvw⟩
          split_ifs
          · exact mem_setErase.2 ⟨hv, hvw⟩
          · exact hv
      · intro v hv
        simp only [Option.some.injEq] at hv
        subst hv
        exact ⟨by simp, hc, by simp⟩
    · rw [if_neg hc]
      by_cases he : (Vertex.eqv eps s.v1 w || Vertex.eqv eps s.v2 w) = true
      · rw [if_pos he]
        obtain ⟨i1, i2, i3, i4⟩ := ih (setErase w stored)
        refine ⟨i1.trans (setErase_sublist _ _), ?_, ?_, ?_⟩
        · intro v hv hn
          by_cases hvw : v = w
          · subst hvw
            exact Or.inl (by simpa using he)
          · exact i2 v (mem_setErase.2 ⟨hv, hvw⟩) hn
        · intro v hv
          obtain ⟨j1, j2⟩ := i3 v hv
          exact ⟨List.mem_cons_of_mem _ j1, j2⟩
        · intro hn v hv
          rcases List.mem_cons.1 hv with rfl | hv
          · simpa using hc
          · exact i4 hn v hv
      · rw [if_neg he]
        obtain ⟨i1, i2, i3, i4⟩ := ih stored
        refine ⟨i1, i2, ?_, ?_⟩
        · intro v hv
          obtain ⟨j1, j2⟩ := i3 v hv
          exact ⟨List.mem_cons_of_mem _ j1, j2⟩
        · intro hn v hv
          rcases List.mem_cons.1 hv with rfl | hv
          · simpa using hc
          · exact i4 hn v hv

/-- An invariant of the loop that moves stored vertices onto the new segments. -/
theorem absorbLoop_induct {eps : K}
    (I : List (Edge (Vertex K)) → List (Vertex K) → List (Edge (Vertex K)) → Prop)
    (cut : ∀ s aux stored stored' acc v, I (s :: aux) stored acc → stored'.Sublist stored →
      (∀ w ∈ stored, w ∉ stored' →
        (Vertex.eqv eps s.v1 w = true ∨ Vertex.eqv eps s.v2 w = true) ∨ v = w) →
      v ∈ stored → v ∉ stored' → s.contains eps v = true →
      I (⟨v, s.v2⟩ :: ⟨s.v1, v⟩ :: aux) stored' acc)
    (keep : ∀ s aux stored stored' acc, I (s :: aux) stored acc → stored'.Sublist stored →
      (∀ w ∈ stored, w ∉ stored' → Vertex.eqv eps s.v1 w = true ∨ Vertex.eqv eps s.v2 w = true) →
      (∀ v ∈ stored, s.contains eps v = false) → I aux stored' (setInsert s acc))
    {n : Nat} {σ : Sched} {aux : List (Edge (Vertex K))} {stored : List (Vertex K)}
    {acc : List (Edge (Vertex K))} {r : List (Vertex K) × List (Edge (Vertex K))}
    (h0 : I aux stored acc) (h : absorbLoop eps n σ aux stored acc = .ok r) : I [] r.1 r.2 := by
  induction n generalizing σ aux stored acc with
  | zero =>
    cases aux with
    | nil =>
      rw [absorbLoop] at h
      injection h with h
      subst h; exact h0
    | cons s aux => simp [absorbLoop] at h
  | succ n ih =>
    cases aux with
    | nil =>
      rw [absorbLoop] at h
      injection h with h
      subst h; exact h0
    | cons s aux =>
      rw [absorbLoop] at h
      obtain ⟨j1, j2, j3, j4⟩ := scanVertices_spec (eps := eps) (s := s) (shuffle (σ.sub 0) stored) stored
      cases hv : (scanVertices eps s (shuffle (σ.sub 0) stored) stored).2 with
      | some v =>
        simp only [hv] at h
        obtain ⟨k1, k2, k3⟩ := j3 v hv
        refine ih (cut s aux stored _ acc v h0 j1 ?_ (mem_shuffle.1 k1) k3 k2) h
        intro w hw hn
        rcases j2 w hw hn with h' | h'
        · exact Or.inl h'
        · rw [hv] at h'
          injection h' with h'
          exact Or.inr h'
      | none =>
        simp only [hv] at h
        refine ih (keep s aux stored _ acc h0 j1 ?_ fun w hw => j4 hv w (mem_shuffle.2 hw)) h
        intro w hw hn
        rcases j2 w hw hn with h' | h'
        · exact h'
        · rw [hv] at h'; simp at h'

theorem absorbLoop_total {eps : K} (n : Nat) (σ : Sched) (aux : List (Edge (Vertex K)))
    (stored : List (Vertex K)) (acc : List (Edge (Vertex K)))
    (hn : 2 * stored.length + aux.length ≤ n) : ∃ r, absorbLoop eps n σ aux stored acc = .ok r := by
  induction n generalizing σ aux stored acc with
  | zero =>
    cases aux with
    | nil => exact ⟨_, rfl⟩
    | cons s aux => simp at hn
  | succ n ih =>
    cases aux with
    | nil => exact ⟨_, rfl⟩
    | cons s aux =>
      rw [absorbLoop]
      obtain ⟨j1, -, j3, -⟩ := scanVertices_spec (eps := eps) (s := s) (shuffle (σ.sub 0) stored) stored
      simp only [List.length_cons] at hn
      cases hv : (scanVertices eps s (shuffle (σ.sub 0) stored) stored).2 with
      | some v =>
        simp only []
        obtain ⟨k1, -, k3⟩ := j3 v hv
        apply ih
        have hlt : (scanVertices eps s (shuffle (σ.sub 0) stored) stored).1.length < stored.length := by
          refine lt_of_le_of_ne j1.length_le fun he => k3 ?_
          rw [j1.eq_of_length he]
          exact mem_shuffle.1 k1
        simp only [List.length_cons]
        omega
      | none =>
        simp only []
        apply ih
        have := j1.length_le
        omega

end any

/-- Splitting never creates a segment whose two ends are equal up to the tolerance. -/
theorem split_nondegenerate {K : Type*} [Field K] [LinearOrder K] [IsStrictOrderedRing K] {eps : K}
    {fuel : Nat} {l r : List (Vertex K × Vertex K)}
    (h : ∀ s ∈ l, Vertex.eqv eps s.1 s.2 = false)
    (hr : splitIntersections eps fuel l = .ok r) : ∀ s ∈ r, Vertex.eqv eps s.1 s.2 = false := by
  have hsymm : ∀ a b : Vertex K, Vertex.eqv eps a b = Vertex.eqv eps b a := by
    intro a b
    simp only [Vertex.eqv, approxEq, abs_sub_comm a.x b.x, abs_sub_comm a.y b.y]
    cases a.isGhost <;> cases b.isGhost <;> rfl
  have key : ∀ a b p : Vertex K, ∀ s ∈ cutPieces eps a b p, Vertex.eqv eps s.1 s.2 = false := by
    intro a b p s hs
    simp only [cutPieces, List.mem_append] at hs
    rcases hs with hs | hs
    · split_ifs at hs with hc
      · simp at hs
      · simp only [List.mem_singleton] at hs
        subst hs
        rw [hsymm]; simpa using hc
    · split_ifs at hs with hc
      · simp at hs
      · simp only [List.mem_singleton] at hs
        subst hs
        simpa using hc
  have := splitLoop_induct (eps := eps)
    (fun aux acc => ∀ s ∈ aux ++ acc, Vertex.eqv eps s.1 s.2 = false)
    (fun s aux acc hI _ t ht => hI t (by
      simp only [List.mem_append, List.mem_cons, List.not_mem_nil, or_false] at ht ⊢; tauto))
    (fun v1 v2 v3 v4 p aux acc acc' hI _ hsub _ _ t ht => by
      simp only [List.mem_append] at ht
      rcases ht with ((ht | ht) | ht) | ht
      · exact key _ _ _ t ht
      · exact key _ _ _ t ht
      · exact hI t (by simp [ht])
      · exact hI t (by simp [hsub.subset ht]))
    (n := fuel) (aux := l.reverse) (acc := []) (r := r) (by simpa using h) hr
  simpa using this

section exact

variable {K : Type*} [Field K] [LinearOrder K] [IsStrictOrderedRing K]

/-- The end of a segment is an end of every part of the segment that contains it. -/
theorem end_of_part {a b u w : Vertex K} (hab : ¬ SamePoint a b) (hu : OnSegment a b u)
    (hw : OnSegment a b w) (h : OnSegment u w a) : SamePoint u a ∨ SamePoint w a := by
  obtain ⟨s, s0, s1, ux, uy⟩ := hu
  obtain ⟨t, t0, t1, wx, wy⟩ := hw
  obtain ⟨k, k0, k1, ax, ay⟩ := h
  rw [ux, wx] at ax
  rw [uy, wy] at ay
  have hz : (1 - k) * s + k * t = 0 := by
    by_contra hne
    apply hab
    have e1 : ((1 - k) * s + k * t) * (b.x - a.x) = 0 := by linear_combination -ax
    have e2 : ((1 - k) * s + k * t) * (b.y - a.y) = 0 := by linear_combination -ay
    have e1' := (mul_eq_zero.1 e1).resolve_left hne
    have e2' := (mul_eq_zero.1 e2).resolve_left hne
    exact ⟨by linarith, by linarith⟩
  have g1 := mul_nonneg (sub_nonneg.2 k1) s0
  have g2 := mul_nonneg k0 t0
  have z1 : (1 - k) * s = 0 := by linarith
  have z2 : k * t = 0 := by linarith
  rcases mul_eq_zero.1 z1 with h1 | h1
  · have hk : k = 1 := by linarith
    rw [hk, one_mul] at z2
    right
    rw [z2] at wx wy
    exact ⟨by linarith, by linarith⟩
  · left
    rw [h1] at ux uy
    exact ⟨by linarith, by linarith⟩

/-- In exact arithmetic every end of a given segment is an end of a segment of the result. -/
theorem split_keeps_ends {fuel : Nat} {l r : List (Vertex K × Vertex K)} (hl : ∀ s ∈ l, Solid s)
    (hr : splitIntersections 0 fuel l = .ok r) (v : Vertex K)
    (h : ∃ t ∈ l, SamePoint t.1 v ∨ SamePoint t.2 v) : ∃ s ∈ r, SamePoint s.1 v ∨ SamePoint s.2 v := by
  obtain ⟨t, ht, hv⟩ := h
  have hinv := splitIntersections_inv hl hr
  by_cases hd : SamePoint t.1 t.2
  · have hpar : ∀ a b, Parallel t.1 t.2 a b := by
      intro a b; unfold Parallel; rw [hd.1, hd.2]; ring
    have := splitLoop_induct (eps := (0 : K))
      (fun aux acc => (∀ s ∈ aux ++ acc, Solid s) ∧ t ∈ aux ++ acc)
      (fun s aux acc hI _ => ⟨fun t ht => hI.1 t (by
          simp only [List.mem_append, List.mem_cons, List.not_mem_nil, or_false] at ht ⊢; tauto), by
        have := hI.2
        simp only [List.mem_append, List.mem_cons, List.not_mem_nil, or_false] at this ⊢; tauto⟩)
      (fun v1 v2 v3 v4 p aux acc acc' hI hperm hsub hx hp => by
        have s1 : Solid (v1, v2) := hI.1 _ (by simp)
        have s2 : Solid (v3, v4) := hI.1 _ (by
          have := hperm.mem_iff.1 (List.mem_cons_self (a := (v3, v4)) (l := acc'))
          simp [this])
        have hnp := ((crosses_iff s1 s2).1 hx).2.2.2.2.2
        have hpg : p.isGhost = false := (intersection_solid hp)
        refine ⟨?_, ?_⟩
        · intro s hs
          simp only [List.mem_append] at hs
          rcases hs with ((hs | hs) | hs) | hs
          · exact cutPieces_solid s1 hpg s hs
          · exact cutPieces_solid s2 hpg s hs
          · exact hI.1 s (by simp [hs])
          · exact hI.1 s (by simp [hsub.subset hs])
        · have h2 := hI.2
          simp only [List.mem_append, List.mem_cons] at h2 ⊢
          rcases h2 with (h2 | h2) | h2
          · exfalso
            apply hnp
            have := hpar v3 v4
            rw [h2] at this
            exact this
          · tauto
          · have := hperm.mem_iff.2 h2
            rcases List.mem_cons.1 this with h3 | h3
            · exfalso
              apply hnp
              have := hpar v1 v2
              rw [h3] at this
              exact this.symm
            · tauto)
      (n := fuel) (aux := l.reverse) (acc := []) (r := r) ⟨fun s hs => hl s (by simpa using hs), by simpa using ht⟩ hr
    exact ⟨t, by simpa using this.2, hv⟩
  · rcases hv with hv | hv
    · obtain ⟨s, hs, h1, h2, h3, -⟩ := hinv.fine t ht hd t.1 (onSegment_left _ _)
      refine ⟨s, by simpa using hs, ?_⟩
      rcases end_of_part hd h1 h2 h3 with h | h
      · exact Or.inl (h.trans hv)
      · exact Or.inr (h.trans hv)
    · obtain ⟨s, hs, h1, h2, h3, -⟩ := hinv.fine t ht hd t.2 (onSegment_right _ _)
      refine ⟨s, by simpa using hs, ?_⟩
      rcases end_of_part (fun h => hd h.symm) (onSegment_symm h1) (onSegment_symm h2) h3 with h | h
      · exact Or.inl (h.trans hv)
      · exact Or.inr (h.trans hv)

end exact

end Triangulator

end Verif
