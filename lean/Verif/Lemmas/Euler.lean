import Verif.Lemmas.Boolean
import Verif.Lemmas.Region

/-!
# Lemmas: segments that balance at every point are used up

When as many segments arrive at every point as leave it, each chain that `intersection` and `subtraction` follow comes
back to its start, so that every segment ends up in a polygon.
-/

namespace Verif

open Spec

variable {K : Type*} [Field K] [LinearOrder K] [IsStrictOrderedRing K]

set_option linter.unusedSectionVars false

namespace Polyline

/-- As many segments arrive at every vertex as leave it. -/
def Balanced (l : List (Seg K)) : Prop :=
  ∀ b : Vertex K, l.countP (fun s => decide (s.2 = b)) = l.countP (fun s => decide (s.1 = b))

/-- None of the segments is a point or goes back along another one. -/
def Proper (l : List (Seg K)) : Prop :=
  ∀ s ∈ l, s.1 ≠ s.2 ∧ (s.2, s.1) ∉ l

theorem Balanced.perm {l m : List (Seg K)} (h : Balanced l) (hp : l.Perm m) : Balanced m := fun b => by
  rw [← hp.countP_eq, ← hp.countP_eq]; exact h b

theorem linked_counts {l : List (Seg K)} {s : Seg K} (h : Linked (s :: l)) (b : Vertex K) :
    (s :: l).countP (fun t => decide (t.1 = b)) + (if ((s :: l).getLast (by simp)).2 = b then 1 else 0) =
      (s :: l).countP (fun t => decide (t.2 = b)) + if s.1 = b then 1 else 0 := by
  induction l generalizing s with
  | nil =>
    by_cases h1 : s.1 = b <;> by_cases h2 : s.2 = b <;> simp [h1, h2]
  | cons t l ih =>
    have h2 := ih h.2
    rw [List.getLast_cons (by simp)]
    rw [List.countP_cons, List.countP_cons (a := s)]
    simp only [decide_eq_true_eq]
    rw [h.1]
    omega

theorem traced_last {least : Bool} {last : Seg K} {ext rest : List (Seg K)} (h : Traced 0 least last ext rest) :
    ∀ u ∈ rest, ¬ Follows 0 ((last :: ext).getLast (by simp)) u := by
  induction h with
  | stop h => exact h
  | step h hmin hnext ih => rw [List.getLast_cons (by simp)]; exact ih

/-- In a balanced set every chain closes, and what is left is balanced. -/
theorem traced_balanced {least : Bool} {h : Seg K} {ext rest possible : List (Seg K)}
    (ht : Traced 0 least h ext rest) (hs : ∀ s ∈ possible, Solid s) (hb : Balanced possible)
    (hk : Proper possible) (hp : ((h :: ext) ++ rest).Perm possible) :
    closes 0 (h :: ext) = true ∧ Balanced rest ∧ Proper rest := by
  have hsol : ∀ s ∈ h :: ext, Solid s := fun s hs' => hs s (hp.mem_iff.1 (List.mem_append_left _ hs'))
  have hlink := ht.linked hsol
  obtain ⟨z, hz⟩ : ∃ z, z = (h :: ext).getLast (by simp) := ⟨_, rfl⟩
  have hzm : z ∈ possible := by rw [hz]; exact hp.mem_iff.1 (List.mem_append_left _ (List.getLast_mem _))
  have hout : rest.countP (fun s => decide (s.1 = z.2)) = 0 := by
    rw [List.countP_eq_zero]
    intro u hu
    rw [decide_eq_true_eq]
    intro hu1
    have hum : u ∈ possible := hp.mem_iff.1 (List.mem_append_right _ hu)
    obtain ⟨k1, k2⟩ := hk u hum
    obtain ⟨k3, k4⟩ := hk z hzm
    refine traced_last ht u hu ⟨?_, ?_, ?_, ?_⟩
    · rw [← hz, eqv_zero (hs z hzm).2 (hs u hum).1, hu1]; exact ⟨rfl, rfl⟩
    · rw [← hz]
      by_contra hc
      rw [Bool.not_eq_false, eqv_zero (hs z hzm).1 (hs u hum).1] at hc
      exact k3 ((vertex_eq hc (hs z hzm).1 (hs u hum).1).trans hu1)
    · rw [← hz]
      by_contra hc
      rw [Bool.not_eq_false, eqv_zero (hs z hzm).1 (hs u hum).2] at hc
      have := vertex_eq hc (hs z hzm).1 (hs u hum).2
      exact k4 (by rw [this, ← hu1]; exact hum)
    · rw [← hz]
      by_contra hc
      rw [Bool.not_eq_false, eqv_zero (hs z hzm).2 (hs u hum).2] at hc
      exact k1 (hu1.trans (vertex_eq hc (hs z hzm).2 (hs u hum).2))
  have hcount : ∀ b, (h :: ext).countP (fun s => decide (s.2 = b)) + rest.countP (fun s => decide (s.2 = b)) =
      (h :: ext).countP (fun s => decide (s.1 = b)) + rest.countP (fun s => decide (s.1 = b)) := by
    intro b
    rw [← List.countP_append, ← List.countP_append]
    exact hb.perm hp.symm b
  have hclose : z.2 = h.1 := by
    have e1 := hcount z.2
    have e2 := linked_counts hlink z.2
    rw [← hz, if_pos rfl] at e2
    by_contra hne
    rw [if_neg (fun h' => hne h'.symm)] at e2
    omega
  refine ⟨(closes_iff hsol).2 ⟨?_, hz ▸ hclose⟩, fun b => ?_, fun s hs' => ?_⟩
  · have hhm : h ∈ possible := hp.mem_iff.1 (by simp)
    rcases ext with _ | ⟨t, _ | ⟨u, ext⟩⟩
    · simp only [List.getLast_singleton] at hz
      rw [hz] at hclose
      exact absurd hclose.symm (hk h hhm).1
    · rw [List.getLast_cons (by simp), List.getLast_singleton] at hz
      have htm : t ∈ possible := hp.mem_iff.1 (by simp)
      exfalso
      refine (hk h hhm).2 ?_
      have : t = (h.2, h.1) := Prod.ext hlink.1.symm (by rw [hz] at hclose; exact hclose)
      exact this ▸ htm
    · simp
  · have e1 := hcount b
    have e2 := linked_counts hlink b
    rw [← hz, hclose] at e2
    omega
  · have hsm : s ∈ possible := hp.mem_iff.1 (List.mem_append_right _ hs')
    exact ⟨(hk s hsm).1, fun hc => (hk s hsm).2 (hp.mem_iff.1 (List.mem_append_right _ hc))⟩

/-- All balanced segments become sides of polygons. -/
theorem buildAll_complete : ∀ (n : Nat) (σ : Sched) (possible : List (Seg K)) (out : List (Polyline (Vertex K)))
    (unused : List (Seg K)), possible.length ≤ n → possible.Nodup → (∀ s ∈ possible, Solid s) → Balanced possible →
    Proper possible →
    ∃ polys : List (Polyline (Vertex K)), buildAll 0 n σ possible out unused = .ok (out ++ polys, unused) ∧
      (∀ p ∈ polys, p.opened = false) ∧ (polys.flatMap fun p => pairs p.vertices false).Perm possible := by
  intro n
  induction n with
  | zero =>
    intro σ possible out unused hl _ _ _ _
    have : possible = [] := List.length_eq_zero_iff.1 (Nat.le_zero.1 hl)
    subst this
    exact ⟨[], by simp [buildAll], by simp, by simp⟩
  | succ n ih =>
    intro σ possible out unused hl hn hs hb hk
    rw [buildAll]
    cases hc : choose (σ.sub 0) possible with
    | none =>
      rw [choose_eq_none] at hc
      subst hc
      exact ⟨[], by simp, by simp, by simp⟩
    | some h =>
      have hm := choose_mem hc
      obtain ⟨ext, rest, h1, h2, h3⟩ := follow_ok (eps := (0 : K)) (least := true) (σ := σ.sub 1) (h := h)
        (nodup_setErase (a := h) hn)
      have hperm := perm_unfold hn hm h2
      obtain ⟨hcl, hbr, hkr⟩ := traced_balanced h3 hs hb hk hperm
      have hsol : ∀ s ∈ h :: ext, Solid s := fun s hs' =>
        hs s (hperm.mem_iff.1 (List.mem_append_left _ hs'))
      obtain ⟨f1, f2⟩ := traced_facts h3 hsol hcl
      have hnc : newClosed ((h :: ext).map (·.1)) =
          some ⟨(h :: ext).map (·.1), false, by simp only [List.length_map]; omega⟩ := by
        unfold newClosed
        rw [dif_pos (by simp only [List.length_map]; omega)]
      simp only
      rw [h1, Res.bind_ok]
      simp only
      rw [if_pos hcl, hnc]
      simp only
      obtain ⟨polys, e1, e2, e3⟩ := ih (σ.sub 2) rest
        (out ++ [⟨(h :: ext).map (·.1), false, by simp only [List.length_map]; omega⟩]) unused
        (by
          have := hperm.length_eq
          simp only [List.cons_append, List.length_cons, List.length_append] at this
          omega) (hperm.nodup_iff.2 hn).of_append_right
        (fun s hs' => hs s (hperm.mem_iff.1 (List.mem_append_right _ hs'))) hbr hkr
      refine ⟨⟨(h :: ext).map (·.1), false, by simp only [List.length_map]; omega⟩ :: polys, ?_, ?_, ?_⟩
      · rw [e1]; simp
      · intro p hp
        rcases List.mem_cons.1 hp with rfl | hp
        · rfl
        · exact e2 p hp
      · rw [List.flatMap_cons]
        simp only
        rw [f2]
        exact (e3.append_left _).trans hperm

/-- Without opposed segments nothing is removed. -/
theorem cancelLoop_keeps {eps : K} {p1 p2 : Polyline (Vertex K)} : ∀ (n : Nat) (stack read unused : List (Seg K)),
    stack.length ≤ n →
    (∀ s ∈ stack, ∀ t ∈ read ++ stack, opposed eps p1 p2 s t = false) →
    cancelLoop eps p1 p2 n stack read unused = .ok (read ++ stack, unused) := by
  intro n
  induction n with
  | zero =>
    intro stack read unused hl _
    have : stack = [] := List.length_eq_zero_iff.1 (Nat.le_zero.1 hl)
    subst this
    simp [cancelLoop]
  | succ n ih =>
    intro stack read unused hl h
    cases stack with
    | nil => simp [cancelLoop]
    | cons s stack =>
      rw [cancelLoop]
      have : read.findIdx? (opposed eps p1 p2 s) = none := by
        rw [List.findIdx?_eq_none_iff]
        intro t ht
        exact h s (by simp) t (List.mem_append_left _ ht)
      rw [this]
      simp only
      rw [ih _ _ _ (by simpa using hl)]
      · simp
      · intro u hu t ht
        exact h u (List.mem_cons_of_mem _ hu) t (by simpa using ht)

end Polyline

end Verif
