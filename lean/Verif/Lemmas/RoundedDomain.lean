import Verif.Model.RoundedContinence
import Verif.Lemmas.Sets
import Verif.Lemmas.Sound
import Verif.Lemmas.Continence
import Verif.Props.Insertion

/-!
# Steps of `may_insert_triangle` with rounding
-/

set_option linter.unusedSectionVars false

namespace Verif

open Spec

section
variable {K : Type*} [Field K] [LinearOrder K] {rnd : K → K} {eps : K}

/-- A side that holds the vertex, as computed, decides. -/
theorem containsLoopRounded_hit {v : Vertex K} {l : List (Vertex K × Vertex K)} {a b : Vertex K} (hm : (a, b) ∈ l)
    (h : (a.x = b.x ∧ a.x = v.x ∧ min a.y b.y ≤ v.y ∧ v.y ≤ max a.y b.y) ∨
      (a.x ≠ b.x ∧ min a.x b.x ≤ v.x ∧ v.x ≤ max a.x b.x ∧ orientationRounded rnd eps a b v = .colinear)) (n : Int) :
    Polyline.containsLoopRounded rnd eps v l n = .boundary := by
  induction l generalizing n with
  | nil => cases hm
  | cons s l ih =>
    obtain ⟨c, d⟩ := s
    rcases List.mem_cons.1 hm with hm | hm
    · obtain ⟨rfl, rfl⟩ := Prod.mk.inj hm
      unfold Polyline.containsLoopRounded
      rcases h with ⟨h1, h2, h3, h4⟩ | ⟨h1, h2, h3, h4⟩
      · rw [if_pos h1, if_pos]
        refine ⟨h2, ?_⟩
        rcases le_total a.y b.y with k | k
        · rw [min_eq_left k] at h3
          rw [max_eq_right k] at h4
          exact Or.inl ⟨h3, h4⟩
        · rw [min_eq_right k] at h3
          rw [max_eq_left k] at h4
          exact Or.inr ⟨h3, h4⟩
      · rw [if_neg h1, if_neg, h4]
        rintro (⟨k1, k2⟩ | ⟨k1, k2⟩)
        · exact absurd h3 (not_le.2 (max_lt k1 k2))
        · exact absurd h2 (not_le.2 (lt_min k1 k2))
    · unfold Polyline.containsLoopRounded
      cases orientationRounded rnd eps c d v <;> split_ifs <;> first | rfl | exact ih hm _

theorem splitLoopRounded_none {n : Nat} {l acc : List (Vertex K × Vertex K)} (hn : l.length ≤ n)
    (h : ∀ s ∈ l, ∀ t ∈ acc, crossesRounded rnd eps s.1 s.2 t.1 t.2 = false)
    (hl : l.Pairwise fun s t => crossesRounded rnd eps t.1 t.2 s.1 s.2 = false) :
    splitLoopRounded rnd eps n l acc = .ok (acc ++ l) := by
  induction l generalizing n acc with
  | nil => cases n <;> simp [splitLoopRounded]
  | cons s l ih =>
    obtain ⟨a, b⟩ := s
    cases n with
    | zero => simp at hn
    | succ n =>
      rw [List.pairwise_cons] at hl
      have h0 : acc.findIdx? (fun s => crossesRounded rnd eps a b s.1 s.2) = none := by
        rw [List.findIdx?_eq_none_iff]
        exact fun t ht => h (a, b) List.mem_cons_self t ht
      unfold splitLoopRounded
      rw [h0]
      simp only
      rw [ih (by simpa using hn) ?_ hl.2]
      · simp
      · intro s hs t ht
        rcases List.mem_append.1 ht with ht | ht
        · exact h s (List.mem_cons_of_mem _ hs) t ht
        · rw [List.mem_singleton] at ht
          rw [ht]
          exact hl.1 s hs

theorem continenceSplitLoopRounded_stop {p : Polyline (Vertex K)} (hp : p.opened = false) {c : Option Continence}
    (hc : c ≠ some .outside) {l : List (Edge (Vertex K))} {e : Edge (Vertex K)} (he : e ∈ l)
    (h : p.containsRounded rnd eps (e.midpointRounded rnd) = some .outside) :
    Polyline.continenceSplitLoopRounded rnd eps p c l = .ok false := by
  induction l with
  | nil => cases he
  | cons f l ih =>
    unfold Polyline.continenceSplitLoopRounded
    rcases List.mem_cons.1 he with rfl | he
    · rw [h]
      simp only
      rw [if_neg fun k => hc k.symm]
    · have := ih he
      unfold Polyline.containsRounded
      rw [hp]
      simp only [Bool.false_eq_true, if_false]
      cases Polyline.containsLoopRounded rnd eps (f.midpointRounded rnd) (pairs p.vertices false) 0 <;> simp only <;>
        first | exact this | (split_ifs <;> first | exact this | rfl)

theorem continenceSplitLoopRounded_total {p : Polyline (Vertex K)} (hp : p.opened = false) {c : Option Continence}
    (l : List (Edge (Vertex K))) : ∃ r, Polyline.continenceSplitLoopRounded rnd eps p c l = .ok r := by
  induction l with
  | nil => exact ⟨_, rfl⟩
  | cons f l ih =>
    unfold Polyline.continenceSplitLoopRounded Polyline.containsRounded
    rw [hp]
    simp only [Bool.false_eq_true, if_false]
    cases Polyline.containsLoopRounded rnd eps (f.midpointRounded rnd) (pairs p.vertices false) 0 <;> simp only <;>
      first | exact ih | (split_ifs <;> first | exact ih | exact ⟨_, rfl⟩)

theorem continenceLoopRounded_total {p : Polyline (Vertex K)} (hp : p.opened = false) (l : List (Vertex K))
    (s : Polyline.ContState) : ∃ r, Polyline.continenceLoopRounded rnd eps p l s = .ok r := by
  induction l generalizing s with
  | nil => exact ⟨_, rfl⟩
  | cons v l ih =>
    unfold Polyline.continenceLoopRounded Polyline.containsRounded
    rw [hp]
    simp only [Bool.false_eq_true, if_false]
    obtain ⟨c, d⟩ := s
    cases Polyline.containsLoopRounded rnd eps v (pairs p.vertices false) 0 <;> cases c <;> simp only
    all_goals first | exact ih _ | skip
    all_goals
      split_ifs
      · exact ih _
      · exact ⟨_, rfl⟩

/-- A boundary with a side the computed middle of which is judged outside: no polyline that cuts none of its sides is
judged inside or on the boundary. -/
theorem continenceRounded_blocked {b p : Polyline (Vertex K)} {fuel : Nat} (hb : b.opened = false)
    (hn : (pairs b.vertices false ++ pairs p.vertices p.opened).Pairwise
      fun s t => crossesRounded rnd eps s.1 s.2 t.1 t.2 = false)
    (hf : (pairs b.vertices false ++ pairs p.vertices p.opened).length ≤ fuel) {s : Vertex K × Vertex K}
    (hs : s ∈ pairs b.vertices false)
    (h : b.containsRounded rnd eps (Edge.midpointRounded rnd ⟨s.1, s.2⟩) = some .outside) :
    Polyline.continenceRounded rnd eps fuel b p = .ok none ∨
      ∃ k, Polyline.continenceRounded rnd eps fuel b p = .ok (some (.outside, k)) := by
  unfold Polyline.continenceRounded
  rw [hb]
  simp only [Bool.false_eq_true, if_false]
  obtain ⟨r, hr⟩ := continenceLoopRounded_total (rnd := rnd) (eps := eps) hb (p.criticalVerticesRounded rnd) (none, .opened)
  rw [hr]
  simp only [Res.bind]
  cases r with
  | none => exact Or.inl rfl
  | some q =>
    obtain ⟨c, k⟩ := q
    simp only
    have hsplit : splitIntersectionsRounded rnd eps fuel (pairs b.vertices false ++ pairs p.vertices p.opened) =
        .ok (pairs b.vertices false ++ pairs p.vertices p.opened).reverse := by
      unfold splitIntersectionsRounded
      rw [splitLoopRounded_none (by rw [List.length_reverse]; exact hf) (by simp) (List.pairwise_reverse.2 hn)]
      rfl
    rw [hsplit]
    simp only
    by_cases hc : c = some .outside
    · obtain ⟨r, hr⟩ := continenceSplitLoopRounded_total (rnd := rnd) (eps := eps) (c := c) hb
        (Edge.fromVertexPairs (pairs b.vertices false ++ pairs p.vertices p.opened).reverse)
      rw [hr]
      subst hc
      cases r with
      | false => exact Or.inl rfl
      | true => exact Or.inr ⟨k, by simp⟩
    · left
      rw [continenceSplitLoopRounded_stop hb hc (e := ⟨s.1, s.2⟩) ?_ h]
      · rfl
      · unfold Edge.fromVertexPairs
        rw [List.mem_map]
        exact ⟨s, by simp [hs], rfl⟩

/-! ## More steps do not change the answer -/

theorem splitLoopRounded_more {n k : Nat} {l acc r : List (Vertex K × Vertex K)}
    (h : splitLoopRounded rnd eps n l acc = .ok r) : splitLoopRounded rnd eps (n + k) l acc = .ok r := by
  induction n generalizing l acc with
  | zero =>
    cases l with
    | nil =>
      simp only [splitLoopRounded] at h ⊢
      exact h
    | cons s l => simp [splitLoopRounded] at h
  | succ n ih =>
    cases l with
    | nil =>
      simp only [splitLoopRounded] at h ⊢
      exact h
    | cons s l =>
      obtain ⟨a, b⟩ := s
      rw [Nat.succ_add]
      unfold splitLoopRounded at h ⊢
      cases h0 : acc.findIdx? (fun s => crossesRounded rnd eps a b s.1 s.2) with
      | none =>
        rw [h0] at h
        exact ih h
      | some i =>
        rw [h0] at h
        simp only at h ⊢
        cases h1 : acc[i]? with
        | none => rw [h1] at h; cases h
        | some s =>
          obtain ⟨c, d⟩ := s
          rw [h1] at h
          simp only at h ⊢
          cases h2 : intersectionRounded rnd eps a b c d with
          | none => rw [h2] at h; cases h
          | some p =>
            rw [h2] at h
            exact ih h

theorem continenceRounded_more {b p : Polyline (Vertex K)} {n k : Nat} {r : Option (Continence × BoundaryInclusion)}
    (h : Polyline.continenceRounded rnd eps n b p = .ok r) : Polyline.continenceRounded rnd eps (n + k) b p = .ok r := by
  unfold Polyline.continenceRounded at h ⊢
  split_ifs at h ⊢ with hb
  · exact h
  · rw [Res.bind_eq_ok] at h
    obtain ⟨q, hq, h⟩ := h
    rw [hq]
    simp only [Res.bind]
    cases q with
    | none => exact h
    | some q =>
      obtain ⟨c, d⟩ := q
      simp only at h ⊢
      rw [Res.bind_eq_ok] at h
      obtain ⟨l, hl, h⟩ := h
      have : splitIntersectionsRounded rnd eps (n + k) (pairs b.vertices b.opened ++ pairs p.vertices p.opened) = .ok l :=
        splitLoopRounded_more hl
      rw [this]
      exact h

theorem mayInsertRounded_more {b : Polyline (Vertex K)} {n k : Nat} {t : Tri (Vertex K)} {v : Vertex K} {r : Bool}
    (h : mayInsertTriangleRounded rnd eps n (some b) [] t v = .ok r) :
    mayInsertTriangleRounded rnd eps (n + k) (some b) [] t v = .ok r := by
  unfold mayInsertTriangleRounded at h ⊢
  simp only [outsideHolesRounded] at h ⊢
  rw [Res.bind_eq_ok] at h
  obtain ⟨q, hq, h⟩ := h
  rw [Res.bind_eq_ok] at hq
  obtain ⟨c, hc, hq⟩ := hq
  rw [continenceRounded_more hc]
  simp only [Res.bind]
  cases c with
  | none => simp only at hq ⊢; cases hq; exact h
  | some c => simp only at hq ⊢; cases hq; exact h

end

/-! ## Insertions that find no conflict -/

section
variable {V : Type*} [DecidableEq V] {P : Preds V}

theorem splitConflicts_blocked {t : Tri V} {vs : List V}
    (h : ∀ v ∈ vs, P.mayInsert t v = .ok false) : splitConflicts P t vs = .ok ([], vs) := by
  induction vs with
  | nil => rfl
  | cons v vs ih =>
    unfold splitConflicts
    rw [h v List.mem_cons_self, ih fun w hw => h w (List.mem_cons_of_mem _ hw)]
    simp [Res.bind]

theorem distributeAll_blocked {ts : List (Tri V)} {vs : List V} {c : CMap V}
    (h : ∀ t ∈ ts, ∀ v ∈ vs, P.mayInsert t v = .ok false) : distributeAll P ts c vs = .ok (c, vs) := by
  induction ts with
  | nil => rfl
  | cons t ts ih =>
    unfold distributeAll distribute
    split_ifs
    · rfl
    · rw [splitConflicts_blocked (h t List.mem_cons_self)]
      simp only [Res.bind, CMap.append, if_true]
      exact ih fun s hs => h s (List.mem_cons_of_mem _ hs)

/-- No triangle may be given up: nothing is inserted. -/
theorem includeVertices_blocked {C : List (Edge V)} {fuel : Nat} {σ : Sched} {m : Mesh V} {vs : List V}
    (h : ∀ t ∈ m.tris, ∀ v ∈ vs, P.mayInsert t v = .ok false) :
    ∃ r, includeVertices P C fuel σ m vs = .ok r ∧ r.mesh = m := by
  refine ⟨⟨m, [], vs.filter fun v => !decide (v ∈ m.vertices P.ghost), [], []⟩, ?_, rfl⟩
  unfold includeVertices
  simp only
  rw [distributeAll_blocked]
  · simp only [Res.bind, solveConflicts]
    cases fuel <;> simp [solveLoop]
  · intro t ht v hv
    exact h t (mem_shuffle.1 ht) v (List.mem_filter.1 hv).1

/-! ## Corners of an outline -/

theorem boundaryFirst_tris (S : List (Edge V)) (l : List (Edge V)) (m : Mesh V) (p : List (Edge V)) :
    ∀ t ∈ (boundaryFirst S l m p).1.tris, t ∈ m.tris := by
  induction l generalizing m p with
  | nil => exact fun t h => h
  | cons e l ih =>
    intro t h
    unfold boundaryFirst at h
    cases he : m.adj e with
    | none => rw [he] at h; exact ih _ _ t h
    | some s =>
      rw [he] at h
      exact (mem_del.1 (ih _ _ t h)).1

theorem flood_tris (S : List (Edge V)) (n : Nat) {m m' : Mesh V} {p : List (Edge V)} (h : flood S n p m = .ok m') :
    ∀ t ∈ m'.tris, t ∈ m.tris := by
  induction n generalizing m p with
  | zero =>
    cases p with
    | nil => simp only [flood, Res.ok.injEq] at h; subst h; exact fun t h => h
    | cons e p => simp [flood] at h
  | succ n ih =>
    cases p with
    | nil => simp only [flood, Res.ok.injEq] at h; subst h; exact fun t h => h
    | cons e p =>
      unfold flood at h
      cases he : m.adj e with
      | none => rw [he] at h; exact ih h
      | some s =>
        rw [he] at h
        intro t ht
        exact (mem_del.1 (ih h t ht)).1

theorem addGhosts_tris (g : V) (l : List (Edge V)) (m : Mesh V) :
    ∀ t ∈ (addGhosts g l m).tris, t ∈ m.tris ∨ ∃ e ∈ l, t = ⟨e.v1, e.v2, g⟩ := by
  induction l generalizing m with
  | nil => exact fun t h => Or.inl h
  | cons e l ih =>
    intro t h
    rcases ih (m.add ⟨e.v1, e.v2, g⟩) t h with k | ⟨f, hf, k⟩
    · rcases mem_add.1 k with rfl | k
      · exact Or.inr ⟨e, List.mem_cons_self, rfl⟩
      · exact Or.inl k
    · exact Or.inr ⟨f, List.mem_cons_of_mem _ hf, k⟩

end

/-- The corners of a triangulated outline are those of the outline, and the ghost. -/
theorem meshOutline_corners {K : Type*} [Field K] [LinearOrder K] {rnd : K → K} {eps : K} {fuel : Nat} {σ : Sched}
    {b : Polyline (Vertex K)} {m : Mesh (Vertex K)} (h : meshOutlineRounded rnd eps fuel σ b = .ok m) {x : Vertex K}
    (hx : InMesh m x) : x = Vertex.ghost ∨ x ∈ b.vertices := by
  unfold meshOutlineRounded at h
  cases hl : b.vertices with
  | nil => rw [hl] at h; cases h
  | cons v1 l =>
    cases l with
    | nil => rw [hl] at h; cases h
    | cons v2 l =>
      rw [hl] at h
      simp only at h
      unfold includeBoundary at h
      rw [Res.bind_eq_ok] at h
      obtain ⟨r, hr, h⟩ := h
      obtain ⟨ins, hp, hin⟩ := Props.C15_vertices (fromInitialSegment_sound _ _ _) hr
      have hstart : ∀ x, InMesh (Mesh.fromInitialSegment Vertex.ghost v1 v2) x → x = Vertex.ghost ∨ x ∈ v1 :: v2 :: l := by
        rintro x ⟨t, ht, hc⟩
        rcases (by simpa [Mesh.fromInitialSegment, mem_add, Mesh.empty] using ht :
          t = ⟨v2, v1, Vertex.ghost⟩ ∨ t = ⟨v1, v2, Vertex.ghost⟩) with rfl | rfl <;>
          rcases hc with h | h | h <;> simp_all
      have hins : ∀ x ∈ ins, x ∈ v1 :: v2 :: l := by
        intro x hx
        have := hp.subset (List.mem_append_left _ hx)
        rw [← hl]
        exact (List.mem_filter.1 this).1
      unfold carveBoundary at h
      simp only at h
      rw [Res.bind_eq_ok] at h
      obtain ⟨m', hm', h⟩ := h
      simp only [Res.ok.injEq] at h
      subst h
      obtain ⟨t, ht, hc⟩ := hx
      rcases addGhosts_tris _ _ _ t ht with k | ⟨e, he, rfl⟩
      · have := boundaryFirst_tris _ _ _ _ t (flood_tris _ _ hm' t k)
        rcases (hin x).1 ⟨t, this, hc⟩ with k | k
        · exact hstart x k
        · exact Or.inr (hins x k)
      · rw [mem_shuffle, reversedEdges, mem_toSet, List.mem_map] at he
        obtain ⟨f, hf, rfl⟩ := he
        obtain ⟨q, hq, rfl⟩ := List.mem_map.1 hf
        obtain ⟨m1, m2⟩ := mem_pairs hq
        rw [← hl]
        rcases hc with k | k | k
        · exact Or.inr (k ▸ m2)
        · exact Or.inr (k ▸ m1)
        · exact Or.inl k

end Verif
