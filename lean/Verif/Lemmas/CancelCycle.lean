import Verif.Lemmas.Euler

/-!
# Lemmas: runs of the loop that removes opposed segments, and runs that never end
-/

namespace Verif

variable {K : Type*} [Field K] [LinearOrder K]

namespace Polyline

/-- One turn of `cancelLoop`, without the unused segments. -/
def cancelStep (eps : K) (p1 p2 : Polyline (Vertex K)) :
    List (Seg K) × List (Seg K) → Option (List (Seg K) × List (Seg K))
  | ([], _) => none
  | (s :: stack, read) =>
    match read.findIdx? (opposed eps p1 p2 s) with
    | none => some (stack, read ++ [s])
    | some i =>
      match read[i]? with
      | none => none
      | some t => some (replacement eps p1 p2 s t ++ stack, read.eraseIdx i)

/-- Several turns. -/
def cancelRun (eps : K) (p1 p2 : Polyline (Vertex K)) : Nat → List (Seg K) × List (Seg K) →
    Option (List (Seg K) × List (Seg K))
  | 0, x => some x
  | n + 1, x => (cancelStep eps p1 p2 x).bind (cancelRun eps p1 p2 n)

variable {eps : K} {p1 p2 : Polyline (Vertex K)}

theorem cancelLoop_step {x y : List (Seg K) × List (Seg K)} (h : cancelStep eps p1 p2 x = some y) (u : List (Seg K)) :
    ∃ u', (∀ n, cancelLoop eps p1 p2 (n + 1) x.1 x.2 u = cancelLoop eps p1 p2 n y.1 y.2 u') ∧
      cancelLoop eps p1 p2 0 x.1 x.2 u = .diverged := by
  obtain ⟨stack, read⟩ := x
  cases stack with
  | nil => simp [cancelStep] at h
  | cons s stack =>
    simp only [cancelStep] at h
    simp only [cancelLoop]
    split at h
    · rename_i hf
      injection h with h
      subst h
      exact ⟨u, fun n => by rw [hf], trivial⟩
    · rename_i i hf
      split at h
      · simp at h
      · rename_i t ht
        injection h with h
        subst h
        exact ⟨_, fun n => by rw [hf]; simp only [ht]; rfl, trivial⟩

theorem cancelRun_add (a b : Nat) (x : List (Seg K) × List (Seg K)) :
    cancelRun eps p1 p2 (a + b) x = (cancelRun eps p1 p2 a x).bind (cancelRun eps p1 p2 b) := by
  induction a generalizing x with
  | zero => simp [cancelRun]
  | succ a ih =>
    rw [Nat.add_right_comm]
    simp only [cancelRun]
    cases cancelStep eps p1 p2 x with
    | none => rfl
    | some y => simp only [Option.bind_some]; exact ih y

/-- The loop goes on forever. -/
theorem cancelLoop_endless (n : Nat) : ∀ (x : List (Seg K) × List (Seg K)) (u : List (Seg K)),
    (∀ m, (cancelRun eps p1 p2 m x).isSome) → cancelLoop eps p1 p2 n x.1 x.2 u = .diverged := by
  induction n with
  | zero =>
    intro x u h
    have := h 1
    cases hs : cancelStep eps p1 p2 x with
    | none => simp [cancelRun, hs] at this
    | some y => obtain ⟨-, -, e⟩ := cancelLoop_step hs u; exact e
  | succ n ih =>
    intro x u h
    have := h 1
    cases hs : cancelStep eps p1 p2 x with
    | none => simp [cancelRun, hs] at this
    | some y =>
      obtain ⟨u', e, -⟩ := cancelLoop_step hs u
      rw [e]
      refine ih y u' fun m => ?_
      have := h (m + 1)
      rw [Nat.add_comm, cancelRun_add] at this
      simpa [cancelRun, hs] using this

/-- A run that comes back to a state it has been in never ends. -/
theorem cancelLoop_cycle {x y : List (Seg K) × List (Seg K)} {a k : Nat}
    (h1 : cancelRun eps p1 p2 a x = some y) (h2 : cancelRun eps p1 p2 (k + 1) y = some y) (n : Nat) (u : List (Seg K)) :
    cancelLoop eps p1 p2 n x.1 x.2 u = .diverged := by
  have rounds : ∀ q, cancelRun eps p1 p2 ((k + 1) * q) y = some y := by
    intro q
    induction q with
    | zero => rfl
    | succ q ih => rw [Nat.mul_succ, cancelRun_add, ih]; exact h2
  refine cancelLoop_endless n x u fun m => ?_
  have all : cancelRun eps p1 p2 (m + (a + ((k + 1) * m - m))) x = some y := by
    have : m + (a + ((k + 1) * m - m)) = a + (k + 1) * m := by
      have : m ≤ (k + 1) * m := Nat.le_mul_of_pos_left m (Nat.succ_pos k)
      omega
    rw [this, cancelRun_add, h1]
    exact rounds m
  rw [cancelRun_add] at all
  cases hm : cancelRun eps p1 p2 m x with
  | none => rw [hm] at all; simp at all
  | some z => rfl

end Polyline

section Build

namespace Polyline

variable {eps : K} {p1 p2 : Polyline (Vertex K)}

/-- The loop that removes opposed segments makes new segments only between ends of the given ones. -/
theorem cancelLoop_ends {A : Vertex K → Prop} : ∀ (n : Nat) (stack read unused : List (Seg K))
    (r : List (Seg K) × List (Seg K)), cancelLoop eps p1 p2 n stack read unused = .ok r →
    (∀ s ∈ stack, A s.1 ∧ A s.2) → (∀ s ∈ read, A s.1 ∧ A s.2) → ∀ s ∈ r.1, A s.1 ∧ A s.2 := by
  intro n
  induction n with
  | zero =>
    intro stack read unused r h h1 h2
    cases stack with
    | nil => simp only [cancelLoop] at h; injection h with h; subst h; exact h2
    | cons s stack => simp [cancelLoop] at h
  | succ n ih =>
    intro stack read unused r h h1 h2
    cases stack with
    | nil => simp only [cancelLoop] at h; injection h with h; subst h; exact h2
    | cons s stack =>
      rw [cancelLoop] at h
      have hs := h1 s (by simp)
      have hst : ∀ t ∈ stack, A t.1 ∧ A t.2 := fun t ht => h1 t (List.mem_cons_of_mem _ ht)
      split at h
      · refine ih _ _ _ _ h hst fun t ht => ?_
        rcases List.mem_append.1 ht with ht | ht
        · exact h2 t ht
        · rw [List.mem_singleton.1 ht]; exact hs
      · split at h
        · simp at h
        · rename_i i _ t ht
          have htA := h2 t (List.mem_of_getElem? ht)
          refine ih _ _ _ _ h (fun x hx => ?_) fun x hx => h2 x (List.mem_of_mem_eraseIdx hx)
          rcases List.mem_append.1 hx with hx | hx
          · unfold replacement at hx
            rcases List.mem_append.1 hx with hx | hx
            · split at hx
              · rw [List.mem_singleton.1 hx]; exact ⟨hs.1, htA.2⟩
              · simp at hx
            · split at hx
              · rw [List.mem_singleton.1 hx]; exact ⟨htA.1, hs.2⟩
              · simp at hx
          · exact hst x hx

/-- More fuel does not change the result. -/
theorem cancelLoop_mono : ∀ {n m : Nat} {stack read unused : List (Seg K)} {r : List (Seg K) × List (Seg K)},
    cancelLoop eps p1 p2 n stack read unused = .ok r → n ≤ m → cancelLoop eps p1 p2 m stack read unused = .ok r := by
  intro n
  induction n with
  | zero =>
    intro m stack read unused r h _
    cases stack with
    | nil => cases m <;> exact h
    | cons s stack => simp [cancelLoop] at h
  | succ n ih =>
    intro m stack read unused r h hm
    obtain ⟨m, rfl⟩ : ∃ k, m = k + 1 := ⟨m - 1, by omega⟩
    have hm : n ≤ m := by omega
    cases stack with
    | nil => exact h
    | cons s stack =>
      rw [cancelLoop] at h ⊢
      split at h
      · exact ih h hm
      · split at h
        · simp at h
        · exact ih h hm

variable [IsStrictOrderedRing K]

/-- Whatever the segments are, the loop that builds polygons ends; each segment becomes a side of one polygon or is put
away. -/
theorem buildAll_spec : ∀ (n : Nat) (σ : Sched) (possible : List (Seg K)) (out : List (Polyline (Vertex K)))
    (unused : List (Seg K)), possible.length ≤ n → possible.Nodup → (∀ s ∈ possible, Solid s) →
    ∃ (polys : List (Polyline (Vertex K))) (unused' gone : List (Seg K)),
      buildAll 0 n σ possible out unused = .ok (out ++ polys, unused') ∧ (∀ p ∈ polys, p.opened = false) ∧
      ((polys.flatMap fun p => pairs p.vertices false) ++ gone).Perm possible ∧
      (unused.Nodup → unused'.Nodup) ∧ ∀ s, s ∈ unused' ↔ s ∈ unused ∨ s ∈ gone := by
  intro n
  induction n with
  | zero =>
    intro σ possible out unused hl _ _
    have : possible = [] := List.length_eq_zero_iff.1 (Nat.le_zero.1 hl)
    subst this
    exact ⟨[], unused, [], by simp [buildAll], by simp, by simp, id, by simp⟩
  | succ n ih =>
    intro σ possible out unused hl hn hs
    rw [buildAll]
    cases hc : choose (σ.sub 0) possible with
    | none =>
      rw [choose_eq_none] at hc
      subst hc
      exact ⟨[], unused, [], by simp, by simp, by simp, id, by simp⟩
    | some h =>
      have hm := choose_mem hc
      obtain ⟨ext, rest, h1, h2, h3⟩ := follow_ok (eps := (0 : K)) (least := true) (σ := σ.sub 1) (h := h)
        (nodup_setErase (a := h) hn)
      have hperm := perm_unfold hn hm h2
      have hsol : ∀ s ∈ h :: ext, Solid s := fun s hs' =>
        hs s (hperm.mem_iff.1 (List.mem_append_left _ hs'))
      have hlr : rest.length ≤ n := by
        have := hperm.length_eq
        simp only [List.cons_append, List.length_cons, List.length_append] at this
        omega
      have hnr := (hperm.nodup_iff.2 hn).of_append_right
      have hsr : ∀ s ∈ rest, Solid s := fun s hs' => hs s (hperm.mem_iff.1 (List.mem_append_right _ hs'))
      simp only
      rw [h1, Res.bind_ok]
      simp only
      by_cases hcl : closes 0 (h :: ext) = true
      · obtain ⟨f1, f2⟩ := traced_facts h3 hsol hcl
        have hnc : newClosed ((h :: ext).map (·.1)) =
            some ⟨(h :: ext).map (·.1), false, by simp only [List.length_map]; omega⟩ := by
          unfold newClosed
          rw [dif_pos (by simp only [List.length_map]; omega)]
        rw [if_pos hcl, hnc]
        simp only
        obtain ⟨polys, u', gone, e1, e2, e3, e4, e5⟩ := ih (σ.sub 2) rest
          (out ++ [⟨(h :: ext).map (·.1), false, by simp only [List.length_map]; omega⟩]) unused hlr hnr hsr
        refine ⟨⟨(h :: ext).map (·.1), false, by simp only [List.length_map]; omega⟩ :: polys, u', gone, ?_, ?_, ?_,
          e4, e5⟩
        · rw [e1]; simp
        · intro p hp
          rcases List.mem_cons.1 hp with rfl | hp
          · rfl
          · exact e2 p hp
        · rw [List.flatMap_cons, List.append_assoc]
          simp only
          rw [f2]
          exact (e3.append_left _).trans hperm
      · rw [if_neg hcl]
        obtain ⟨polys, u', gone, e1, e2, e3, e4, e5⟩ := ih (σ.sub 2) rest out
          ((h :: ext).foldl (fun u s => setInsert s u) unused) hlr hnr hsr
        refine ⟨polys, u', (h :: ext) ++ gone, e1, e2, ?_, fun hu => e4 ?_, fun s => ?_⟩
        · refine List.Perm.trans ?_ ((e3.append_left _).trans hperm)
          rw [List.perm_iff_count]; intro x
          simp only [List.count_append]
          omega
        · exact nodup_foldl_setInsert _ _ hu
        · rw [e5, mem_foldl_setInsert, List.mem_append]
          tauto

/-- What `combine` returns is made of segments that pass the filter. -/
theorem combine_spec {fuel : Nat} {σ : Sched} {keep : Seg K → Bool} {segments : List (Seg K)} {A : Vertex K → Prop}
    (hsol : ∀ s ∈ segments, Solid s) (hA : ∀ s ∈ segments, A s.1 ∧ A s.2)
    {polys : List (Polyline (Vertex K))} {unused : List (Seg K)}
    (h : combine 0 fuel σ p1 p2 keep segments = .ok (polys, unused)) :
    (∀ p ∈ polys, p.opened = false) ∧ (polys.flatMap fun p => pairs p.vertices false).Nodup ∧
      ∀ p ∈ polys, ∀ s ∈ pairs p.vertices false, keep s = true ∧ A s.1 ∧ A s.2 := by
  unfold combine at h
  split at h
  · simp at h
  · rename_i s stack hrev
    obtain ⟨r, hr, h⟩ := Res.bind_eq_ok.1 h
    have hmem : ∀ t ∈ s :: stack, t ∈ segments := fun t ht => List.mem_reverse.1 (hrev ▸ ht)
    have inv := fun (B : Vertex K → Prop) (hB : ∀ s ∈ segments, B s.1 ∧ B s.2) =>
      cancelLoop_ends (A := B) _ _ _ _ _ hr (fun t ht => hB t (hmem t (List.mem_cons_of_mem _ ht)))
        fun t ht => hB t (hmem t (by rw [List.mem_singleton.1 ht]; simp))
    have i1 := inv (fun v => v.isGhost = false) hsol
    have i2 := inv A hA
    have hk := (sieve_mem (keep := keep) (l := r.1) (u := r.2)).1
    obtain ⟨polys', u', gone, e1, e2, e3, -, -⟩ := buildAll_spec _ σ (sieve keep r.1 r.2).1 [] (sieve keep r.1 r.2).2
      le_rfl (nodup_toSet _) fun t ht => i1 t ((hk t).1 ht).1
    simp only at h
    rw [e1, List.nil_append] at h
    injection h with h
    injection h with h1 h2
    subst h1
    have hnd := e3.nodup_iff.2 (nodup_toSet _)
    refine ⟨e2, hnd.of_append_left, fun p hp s hs => ?_⟩
    have := (hk s).1 (e3.mem_iff.1 (List.mem_append_left _ (List.mem_flatMap.2 ⟨p, hp, hs⟩)))
    exact ⟨this.2, i2 s this.1⟩

end Polyline

end Build

end Verif
