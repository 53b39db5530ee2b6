import Verif.Lemmas.SplitGeo

/-!
# Lemmas on `Polyline::continence`
-/

set_option linter.unusedSectionVars false

namespace Verif

open Spec

section any

variable {K : Type*} [Field K] [LinearOrder K]

theorem contains_closed (eps : K) {p : Polyline (Vertex K)} (hp : p.opened = false) (v : Vertex K) :
    ∃ c, p.contains eps v = some c := by
  simp [Polyline.contains, hp]

/-- What the first loop has established when it ends. -/
theorem continenceLoop_ok {eps : K} {p : Polyline (Vertex K)} {l : List (Vertex K)}
    {s s' : Polyline.ContState} (h : Polyline.continenceLoop eps p l s = .ok (some s')) :
    (∀ v ∈ l, p.contains eps v = some .boundary ∨ p.contains eps v = s'.1) ∧
      (s'.2 = .opened → s.2 = .opened ∧ ∀ v ∈ l, p.contains eps v ≠ some .boundary) ∧
      (s.1 ≠ some .boundary → s'.1 ≠ some .boundary) ∧ (∀ c, s.1 = some c → s'.1 = some c) ∧
      (s'.1 = none → ∀ v ∈ l, p.contains eps v = some .boundary) ∧
      (s'.1 = none → s'.2 = .opened → l = []) := by
  induction l generalizing s with
  | nil =>
    simp only [Polyline.continenceLoop] at h
    injection h with h
    injection h with h
    subst h
    simp
  | cons v l ih =>
    rw [Polyline.continenceLoop] at h
    cases hc : p.contains eps v with
    | none => rw [hc] at h; simp at h
    | some c =>
      rw [hc] at h
      cases c with
      | boundary =>
        simp only [] at h
        obtain ⟨i1, i2, i3, i4, i5, i6⟩ := ih h
        refine ⟨?_, ?_, i3, i4, ?_, ?_⟩
        · intro w hw
          rcases List.mem_cons.1 hw with rfl | hw
          · exact Or.inl hc
          · exact i1 w hw
        · intro ho
          have := (i2 ho).1
          simp at this
        · intro hn w hw
          rcases List.mem_cons.1 hw with rfl | hw
          · exact hc
          · exact i5 hn w hw
        · intro hn ho
          have := (i2 ho).1
          simp at this
      | inside =>
        simp only [] at h
        cases h1 : s.1 with
        | none =>
          rw [h1] at h
          simp only [] at h
          obtain ⟨i1, i2, i3, i4, i5, i6⟩ := ih h
          have e := i4 .inside rfl
          refine ⟨?_, ?_, fun _ => i3 (by simp), by simp, ?_, ?_⟩
          · intro w hw
            rcases List.mem_cons.1 hw with rfl | hw
            · exact Or.inr (hc.trans e.symm)
            · exact i1 w hw
          · intro ho
            refine ⟨(i2 ho).1, fun w hw => ?_⟩
            rcases List.mem_cons.1 hw with rfl | hw
            · rw [hc]; simp
            · exact (i2 ho).2 w hw
          · intro hn; rw [e] at hn; simp at hn
          · intro hn; rw [e] at hn; simp at hn
        | some c' =>
          rw [h1] at h
          simp only [] at h
          split_ifs at h with heq
          swap
          · simp at h
          subst heq
          obtain ⟨i1, i2, i3, i4, i5, i6⟩ := ih h
          have e := i4 .inside h1
          refine ⟨?_, ?_, fun _ => i3 (by rw [h1]; simp), by simpa using e, ?_, ?_⟩
          · intro w hw
            rcases List.mem_cons.1 hw with rfl | hw
            · exact Or.inr (hc.trans e.symm)
            · exact i1 w hw
          · intro ho
            refine ⟨(i2 ho).1, fun w hw => ?_⟩
            rcases List.mem_cons.1 hw with rfl | hw
            · rw [hc]; simp
            · exact (i2 ho).2 w hw
          · intro hn; rw [e] at hn; simp at hn
          · intro hn; rw [e] at hn; simp at hn
      | outside =>
        simp only [] at h
        cases h1 : s.1 with
        | none =>
          rw [h1] at h
          simp only [] at h
          obtain ⟨i1, i2, i3, i4, i5, i6⟩ := ih h
          have e := i4 .outside rfl
          refine ⟨?_, ?_, fun _ => i3 (by simp), by simp, ?_, ?_⟩
          · intro w hw
            rcases List.mem_cons.1 hw with rfl | hw
            · exact Or.inr (hc.trans e.symm)
            · exact i1 w hw
          · intro ho
            refine ⟨(i2 ho).1, fun w hw => ?_⟩
            rcases List.mem_cons.1 hw with rfl | hw
            · rw [hc]; simp
            · exact (i2 ho).2 w hw
          · intro hn; rw [e] at hn; simp at hn
          · intro hn; rw [e] at hn; simp at hn
        | some c' =>
          rw [h1] at h
          simp only [] at h
          split_ifs at h with heq
          swap
          · simp at h
          subst heq
          obtain ⟨i1, i2, i3, i4, i5, i6⟩ := ih h
          have e := i4 .outside h1
          refine ⟨?_, ?_, fun _ => i3 (by rw [h1]; simp), by simpa using e, ?_, ?_⟩
          · intro w hw
            rcases List.mem_cons.1 hw with rfl | hw
            · exact Or.inr (hc.trans e.symm)
            · exact i1 w hw
          · intro ho
            refine ⟨(i2 ho).1, fun w hw => ?_⟩
            rcases List.mem_cons.1 hw with rfl | hw
            · rw [hc]; simp
            · exact (i2 ho).2 w hw
          · intro hn; rw [e] at hn; simp at hn
          · intro hn; rw [e] at hn; simp at hn

theorem continenceLoop_total {eps : K} {p : Polyline (Vertex K)} (hp : p.opened = false)
    (l : List (Vertex K)) (s : Polyline.ContState) :
    ∃ r, Polyline.continenceLoop eps p l s = .ok r := by
  induction l generalizing s with
  | nil => exact ⟨_, rfl⟩
  | cons v l ih =>
    rw [Polyline.continenceLoop]
    obtain ⟨c, hc⟩ := contains_closed eps hp v
    rw [hc]
    cases c <;> simp only []
    · cases s.1 with
      | none => exact ih _
      | some c' =>
        simp only []
        split_ifs
        · exact ih _
        · exact ⟨_, rfl⟩
    · cases s.1 with
      | none => exact ih _
      | some c' =>
        simp only []
        split_ifs
        · exact ih _
        · exact ⟨_, rfl⟩
    · exact ih _

theorem continenceSplitLoop_total {eps : K} {p : Polyline (Vertex K)} (hp : p.opened = false)
    (c : Option Continence) (l : List (Edge (Vertex K))) :
    ∃ r, Polyline.continenceSplitLoop eps p c l = .ok r := by
  induction l with
  | nil => exact ⟨_, rfl⟩
  | cons e l ih =>
    rw [Polyline.continenceSplitLoop]
    obtain ⟨c', hc⟩ := contains_closed eps hp e.midpoint
    rw [hc]
    cases c' <;> simp only []
    · split_ifs
      · exact ih
      · exact ⟨_, rfl⟩
    · split_ifs
      · exact ih
      · exact ⟨_, rfl⟩
    · exact ih

theorem continenceSplitLoop_true {eps : K} {p : Polyline (Vertex K)} {c : Option Continence}
    {l : List (Edge (Vertex K))} (h : Polyline.continenceSplitLoop eps p c l = .ok true) :
    ∀ e ∈ l, p.contains eps e.midpoint = some .boundary ∨ p.contains eps e.midpoint = c := by
  induction l with
  | nil => simp
  | cons e l ih =>
    rw [Polyline.continenceSplitLoop] at h
    intro f hf
    cases hc : p.contains eps e.midpoint with
    | none => rw [hc] at h; simp at h
    | some c' =>
      rw [hc] at h
      cases c' with
      | boundary =>
        simp only [] at h
        rcases List.mem_cons.1 hf with rfl | hf
        · exact Or.inl hc
        · exact ih h f hf
      | inside =>
        simp only [] at h
        split_ifs at h with he
        · rcases List.mem_cons.1 hf with rfl | hf
          · exact Or.inr (hc.trans he)
          · exact ih h f hf
        · simp at h
      | outside =>
        simp only [] at h
        split_ifs at h with he
        · rcases List.mem_cons.1 hf with rfl | hf
          · exact Or.inr (hc.trans he)
          · exact ih h f hf
        · simp at h

theorem pairs_ne_nil (p : Polyline (Vertex K)) : pairs p.vertices p.opened ≠ [] := by
  have h := p.two_le
  match hv : p.vertices with
  | [] => rw [hv] at h; simp at h
  | [a] => rw [hv] at h; simp at h
  | a :: b :: l => simp [pairs, consecutivePairs]

theorem criticalVertices_ne_nil (p : Polyline (Vertex K)) : p.criticalVertices ≠ [] := by
  have h := pairs_ne_nil p
  unfold Polyline.criticalVertices Polyline.intoEdges
  cases hq : pairs p.vertices p.opened with
  | nil => exact absurd hq h
  | cons s l => simp

/-- Everything an answer of `continence` certifies. -/
theorem continence_ok {eps : K} {fuel : Nat} {p q : Polyline (Vertex K)} {c : Continence}
    {b : BoundaryInclusion} (h : Polyline.continence eps fuel p q = .ok (some (c, b))) :
    p.opened = false ∧
      (∀ v ∈ q.criticalVertices, p.contains eps v = some .boundary ∨ p.contains eps v = some c) ∧
      (b = .opened → c ≠ .boundary ∧ ∀ v ∈ q.criticalVertices, p.contains eps v = some c) ∧
      ∃ r, splitIntersections eps fuel (pairs p.vertices p.opened ++ pairs q.vertices q.opened) = .ok r ∧
        ∀ s ∈ r, p.contains eps (Edge.midpoint ⟨s.1, s.2⟩) = some .boundary ∨
          p.contains eps (Edge.midpoint ⟨s.1, s.2⟩) = some c := by
  unfold Polyline.continence at h
  by_cases hp : p.opened = true
  · rw [if_pos hp] at h; simp at h
  · rw [if_neg hp] at h
    have hp' : p.opened = false := by simpa using hp
    rw [Res.bind_eq_ok] at h
    obtain ⟨r, hr, h⟩ := h
    cases r with
    | none => simp at h
    | some s' =>
      obtain ⟨pc, pb⟩ := s'
      simp only [] at h
      rw [Res.bind_eq_ok] at h
      obtain ⟨split, hsplit, h⟩ := h
      rw [Res.bind_eq_ok] at h
      obtain ⟨good, hgood, h⟩ := h
      cases good with
      | false => simp at h
      | true =>
        have h2 := continenceSplitLoop_true hgood
        obtain ⟨i1, i2, i3, i4, i5, i6⟩ := continenceLoop_ok hr
        simp only [Bool.not_true, Bool.false_eq_true, if_false] at h
        have h2' : ∀ s ∈ split, p.contains eps (Edge.midpoint ⟨s.1, s.2⟩) = some .boundary ∨
            p.contains eps (Edge.midpoint ⟨s.1, s.2⟩) = pc := by
          intro s hs
          exact h2 ⟨s.1, s.2⟩ (List.mem_map.2 ⟨s, hs, rfl⟩)
        by_cases hb : pb = .closed ∧ pc = none
        · rw [if_pos hb] at h
          injection h with h
          injection h with h
          injection h with hc hbb
          subst hc; subst hbb
          refine ⟨hp', fun v hv => Or.inl (i5 hb.2 v hv), by simp, split, hsplit, ?_⟩
          intro s hs
          rcases h2' s hs with h | h
          · exact Or.inl h
          · obtain ⟨c', hc'⟩ := contains_closed eps hp' (Edge.midpoint ⟨s.1, s.2⟩)
            rw [hc', hb.2] at h; simp at h
        · rw [if_neg hb] at h
          cases pc with
          | none => simp at h
          | some c' =>
            simp only [] at h
            injection h with h
            injection h with h
            injection h with hc hbb
            subst hc; subst hbb
            refine ⟨hp', i1, fun ho => ⟨?_, fun v hv => ?_⟩, split, hsplit, h2'⟩
            · intro hcb
              exact i3 (by simp) (by rw [hcb])
            · exact (i1 v hv).resolve_left ((i2 ho).2 v hv)

/-- `continence` never panics. -/
theorem continence_ne_panic (eps : K) (fuel : Nat) (p q : Polyline (Vertex K)) :
    Polyline.continence eps fuel p q ≠ .panic := by
  unfold Polyline.continence
  by_cases hp : p.opened = true
  · rw [if_pos hp]; simp
  · rw [if_neg hp]
    have hp' : p.opened = false := by simpa using hp
    obtain ⟨r, hr⟩ := continenceLoop_total (eps := eps) hp' q.criticalVertices (none, .opened)
    rw [hr, Res.bind_ok]
    cases r with
    | none => simp
    | some s' =>
      obtain ⟨pc, pb⟩ := s'
      simp only []
      cases hs : splitIntersections eps fuel (pairs p.vertices p.opened ++ pairs q.vertices q.opened) with
      | panic => exact absurd hs (splitIntersections_ne_panic _ _ _)
      | diverged => simp
      | ok split =>
        rw [Res.bind_ok]
        obtain ⟨good, hg⟩ := continenceSplitLoop_total (eps := eps) hp' pc (Edge.fromVertexPairs split)
        rw [hg, Res.bind_ok]
        cases good with
        | false => simp
        | true =>
          simp only [Bool.not_true, Bool.false_eq_true, if_false]
          obtain ⟨-, -, -, -, -, i6⟩ := continenceLoop_ok hr
          by_cases hb : pb = .closed ∧ pc = none
          · rw [if_pos hb]; simp
          · rw [if_neg hb]
            cases pc with
            | some c => simp
            | none =>
              exfalso
              cases pb with
              | closed => exact hb ⟨rfl, rfl⟩
              | opened => exact criticalVertices_ne_nil q (i6 rfl rfl)

theorem splitLoop_mono {eps : K} {n : Nat} {aux acc r : List (Vertex K × Vertex K)}
    (h : splitLoop eps n aux acc = .ok r) {m : Nat} (hm : n ≤ m) : splitLoop eps m aux acc = .ok r := by
  induction n generalizing aux acc m with
  | zero =>
    cases aux with
    | nil => rw [splitLoop] at h ⊢; exact h
    | cons s aux => simp [splitLoop] at h
  | succ n ih =>
    cases aux with
    | nil => rw [splitLoop] at h ⊢; exact h
    | cons s aux =>
      obtain ⟨v1, v2⟩ := s
      obtain ⟨m, rfl⟩ : ∃ k, m = k + 1 := ⟨m - 1, by omega⟩
      rw [splitLoop] at h ⊢
      cases hf : acc.findIdx? (fun s => crosses eps v1 v2 s.1 s.2) with
      | none =>
        rw [hf] at h
        exact ih h (by omega)
      | some i =>
        rw [hf] at h
        simp only [] at h ⊢
        cases hi : acc[i]? with
        | none => rw [hi] at h; simp at h
        | some t =>
          obtain ⟨v3, v4⟩ := t
          rw [hi] at h
          simp only [] at h ⊢
          cases hx : intersection eps v1 v2 v3 v4 with
          | none => rw [hx] at h; simp at h
          | some p =>
            rw [hx] at h
            exact ih h (by omega)

/-- More fuel does not change an answer. -/
theorem continence_mono {eps : K} {n m : Nat} {p q : Polyline (Vertex K)}
    {r : Option (Continence × BoundaryInclusion)} (h : Polyline.continence eps n p q = .ok r)
    (hm : n ≤ m) : Polyline.continence eps m p q = .ok r := by
  unfold Polyline.continence at h ⊢
  by_cases hp : p.opened = true
  · rw [if_pos hp] at h ⊢; exact h
  · rw [if_neg hp] at h ⊢
    rw [Res.bind_eq_ok] at h
    obtain ⟨s, hs, h⟩ := h
    rw [hs, Res.bind_ok]
    cases s with
    | none => exact h
    | some s' =>
      simp only [] at h ⊢
      rw [Res.bind_eq_ok] at h
      obtain ⟨sp, hsp, h⟩ := h
      unfold splitIntersections at hsp ⊢
      rw [splitLoop_mono hsp hm, Res.bind_ok]
      exact h

end any

section exact

variable {K : Type*} [Field K] [LinearOrder K] [IsStrictOrderedRing K]

theorem mem_consecutivePairs {V : Type*} {l : List V} {s : V × V} (h : s ∈ consecutivePairs l) :
    s.1 ∈ l ∧ s.2 ∈ l := by
  induction l with
  | nil => simp [consecutivePairs] at h
  | cons a l ih =>
    cases l with
    | nil => simp [consecutivePairs] at h
    | cons b l =>
      rw [consecutivePairs, List.mem_cons] at h
      rcases h with rfl | h
      · simp
      · obtain ⟨h1, h2⟩ := ih h
        exact ⟨List.mem_cons_of_mem _ h1, List.mem_cons_of_mem _ h2⟩

theorem mem_pairs {V : Type*} {l : List V} {o : Bool} {s : V × V} (h : s ∈ pairs l o) :
    s.1 ∈ l ∧ s.2 ∈ l := by
  rw [pairs, List.mem_append] at h
  rcases h with h | h
  · exact mem_consecutivePairs h
  · cases o with
    | true => simp at h
    | false =>
      cases l with
      | nil => simp at h
      | cons a l =>
        simp only [Bool.false_eq_true, if_false, List.getLast?_eq_some_getLast (List.cons_ne_nil a l),
          List.head?_cons, List.mem_singleton] at h
        subst h
        exact ⟨List.getLast_mem _, List.mem_cons_self⟩

theorem pairs_solid {p : Polyline (Vertex K)} (h : ∀ v ∈ p.vertices, v.isGhost = false) :
    ∀ s ∈ pairs p.vertices p.opened, Solid s := fun _ hs =>
  ⟨h _ (mem_pairs hs).1, h _ (mem_pairs hs).2⟩

/-- In exact arithmetic `continence` always returns. -/
theorem continence_total {p q : Polyline (Vertex K)} (hp : ∀ v ∈ p.vertices, v.isGhost = false)
    (hq : ∀ v ∈ q.vertices, v.isGhost = false) :
    ∃ n, ∀ fuel, n ≤ fuel → ∃ r, Polyline.continence 0 fuel p q = .ok r := by
  obtain ⟨n, hn⟩ := splitIntersections_total
    (l := pairs p.vertices p.opened ++ pairs q.vertices q.opened) (by
      intro s hs
      rcases List.mem_append.1 hs with hs | hs
      · exact pairs_solid hp s hs
      · exact pairs_solid hq s hs)
  refine ⟨n, fun fuel hf => ?_⟩
  cases h : Polyline.continence 0 fuel p q with
  | ok r => exact ⟨r, rfl⟩
  | panic => exact absurd h (continence_ne_panic _ _ _ _)
  | diverged =>
    exfalso
    unfold Polyline.continence at h
    by_cases hp : p.opened = true
    · rw [if_pos hp] at h; simp at h
    · rw [if_neg hp] at h
      have hp' : p.opened = false := by simpa using hp
      obtain ⟨r, hr⟩ := continenceLoop_total (eps := (0 : K)) hp' q.criticalVertices (none, .opened)
      rw [hr, Res.bind_ok] at h
      cases r with
      | none => simp at h
      | some s' =>
        obtain ⟨pc, pb⟩ := s'
        simp only [] at h
        obtain ⟨split, hs⟩ := hn fuel hf
        rw [hs, Res.bind_ok] at h
        obtain ⟨good, hg⟩ := continenceSplitLoop_total (eps := (0 : K)) hp' pc (Edge.fromVertexPairs split)
        rw [hg, Res.bind_ok] at h
        split_ifs at h
        cases pc <;> simp at h

end exact

end Verif
