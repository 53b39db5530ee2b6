import Verif.Model.Cli
import Verif.Lemmas.Sets
import Mathlib.Data.Set.Finite.Lattice
import Mathlib.Data.Set.Finite.List
import Mathlib.Data.Finset.Max
import Mathlib.Data.List.Permutation

/-!
# Computations that do not depend on a small tolerance

A computation that takes a tolerance and a scheduler is *steady* when some positive bound exists such that every smaller
tolerance gives the same result as the tolerance zero, whatever the scheduler, and when the schedulers produce finitely many
results. Steadiness passes through sequencing, tests and loops; this file has the combinators.
-/

set_option linter.unusedSectionVars false

namespace Verif

variable {K : Type*} [Field K] [LinearOrder K] [IsStrictOrderedRing K]

variable {α β γ δ : Type*}

/-- See the head of the file. -/
def Steady (f : K → Sched → α) : Prop :=
  (∃ e0 : K, 0 < e0 ∧ ∀ e, 0 ≤ e → e < e0 → ∀ σ, f e σ = f 0 σ) ∧ (Set.range (f 0)).Finite

namespace Steady

theorem const (a : α) : Steady (fun (_ : K) (_ : Sched) => a) :=
  ⟨⟨1, one_pos, fun _ _ _ _ => rfl⟩, (Set.finite_singleton a).subset (by rintro x ⟨σ, rfl⟩; rfl)⟩

theorem sched {f : Sched → α} (h : (Set.range f).Finite) : Steady (fun (_ : K) σ => f σ) :=
  ⟨⟨1, one_pos, fun _ _ _ _ => rfl⟩, h⟩

/-- A finite set of positive bounds has a positive lower bound. -/
theorem bound_of_finite {s : Set α} (hs : s.Finite) {p : α → K → Prop}
    (h : ∀ a ∈ s, ∃ e0 : K, 0 < e0 ∧ ∀ e, 0 ≤ e → e < e0 → p a e) :
    ∃ e0 : K, 0 < e0 ∧ ∀ e, 0 ≤ e → e < e0 → ∀ a ∈ s, p a e := by
  induction s, hs using Set.Finite.induction_on with
  | empty => exact ⟨1, one_pos, fun _ _ _ a ha => by cases ha⟩
  | @insert a s _ _ ih =>
    obtain ⟨e1, h1, k1⟩ := h a (Set.mem_insert _ _)
    obtain ⟨e2, h2, k2⟩ := ih fun b hb => h b (Set.mem_insert_of_mem _ hb)
    refine ⟨min e1 e2, lt_min h1 h2, fun e he hlt b hb => ?_⟩
    rcases hb with rfl | hb
    · exact k1 e he (lt_of_lt_of_le hlt (min_le_left _ _))
    · exact k2 e he (lt_of_lt_of_le hlt (min_le_right _ _)) b hb

theorem seq {f : K → Sched → α} {g : α → K → Sched → β} (hf : Steady f) (hg : ∀ a, Steady (g a)) :
    Steady (fun e σ => g (f e σ) e σ) := by
  obtain ⟨⟨e1, h1, k1⟩, hfin⟩ := hf
  obtain ⟨e2, h2, k2⟩ := bound_of_finite (p := fun a e => ∀ σ, g a e σ = g a 0 σ) hfin fun a _ => (hg a).1
  refine ⟨⟨min e1 e2, lt_min h1 h2, fun e he hlt σ => ?_⟩, ?_⟩
  · show g (f e σ) e σ = g (f 0 σ) 0 σ
    rw [k1 e he (lt_of_lt_of_le hlt (min_le_left _ _)) σ]
    exact k2 e he (lt_of_lt_of_le hlt (min_le_right _ _)) _ ⟨σ, rfl⟩ σ
  · refine (hfin.biUnion fun a _ => (hg a).2).subset ?_
    rintro x ⟨σ, rfl⟩
    exact Set.mem_biUnion ⟨σ, rfl⟩ ⟨σ, rfl⟩

theorem cases {f : K → Sched → α} {F : K → Sched → β} (hf : Steady f)
    (h : ∀ a, ∃ g : K → Sched → β, (∀ e σ, f e σ = a → F e σ = g e σ) ∧ Steady g) : Steady F := by
  choose g hg hs using h
  have : F = fun e σ => g (f e σ) e σ := by funext e σ; exact hg _ e σ rfl
  rw [this]
  exact seq hf hs

theorem sub {f : K → Sched → α} (hf : Steady f) (k : Nat) : Steady (fun e σ => f e (σ.sub k)) :=
  ⟨by obtain ⟨⟨e1, h1, k1⟩, -⟩ := hf; exact ⟨e1, h1, fun e he hlt σ => k1 e he hlt _⟩,
    hf.2.subset (by rintro x ⟨σ, rfl⟩; exact ⟨_, rfl⟩)⟩

/-- Fixing the scheduler. -/
theorem fix {f : K → Sched → α} (hf : Steady f) (τ : Sched) : Steady (fun e (_ : Sched) => f e τ) :=
  ⟨by obtain ⟨⟨e1, h1, k1⟩, -⟩ := hf; exact ⟨e1, h1, fun e he hlt σ => k1 e he hlt _⟩,
    hf.2.subset (by rintro x ⟨σ, rfl⟩; exact ⟨_, rfl⟩)⟩

theorem map {f : K → Sched → α} (hf : Steady f) (h : α → β) : Steady (fun e σ => h (f e σ)) :=
  seq (g := fun a _ _ => h a) hf fun _ => const _

theorem map2 {f : K → Sched → α} {g : K → Sched → β} (hf : Steady f) (hg : Steady g) (h : α → β → γ) :
    Steady (fun e σ => h (f e σ) (g e σ)) :=
  seq (g := fun a e σ => h a (g e σ)) hf fun a => hg.map (h a)

theorem bind {f : K → Sched → Res α} {g : α → K → Sched → Res β} (hf : Steady f) (hg : ∀ a, Steady (g a)) :
    Steady (fun e σ => (f e σ).bind fun a => g a e σ) :=
  seq (g := fun r e σ => r.bind fun a => g a e σ) hf fun r => by
    cases r with
    | ok a => exact hg a
    | panic => exact const _
    | diverged => exact const _

theorem and {f g : K → Sched → Bool} (hf : Steady f) (hg : Steady g) : Steady (fun e σ => f e σ && g e σ) :=
  map2 hf hg _

theorem or {f g : K → Sched → Bool} (hf : Steady f) (hg : Steady g) : Steady (fun e σ => f e σ || g e σ) :=
  map2 hf hg _

theorem not {f : K → Sched → Bool} (hf : Steady f) : Steady (fun e σ => !f e σ) := map hf _

theorem ite {b : K → Sched → Bool} {f g : K → Sched → α} (hb : Steady b) (hf : Steady f) (hg : Steady g) :
    Steady (fun e σ => if b e σ = true then f e σ else g e σ) :=
  seq (g := fun c e σ => if c = true then f e σ else g e σ) hb fun c => by
    cases c
    · simpa using hg
    · simpa using hf

/-- A test that does not depend on the tolerance or the scheduler. -/
theorem ite' {p : Prop} [Decidable p] {f g : K → Sched → α} (hf : Steady f) (hg : Steady g) :
    Steady (fun e σ => if p then f e σ else g e σ) := by
  by_cases hp : p
  · simpa only [if_pos hp] using hf
  · simpa only [if_neg hp] using hg

theorem congr {f g : K → Sched → α} (hf : Steady f) (h : ∀ e σ, g e σ = f e σ) : Steady g := by
  have : g = f := by funext e σ; exact h e σ
  rw [this]; exact hf

theorem list_map {q : K → Sched → α → β} (l : List α) (hq : ∀ a ∈ l, Steady (fun e σ => q e σ a)) :
    Steady (fun e σ => l.map (q e σ)) := by
  induction l with
  | nil => exact const _
  | cons a l ih =>
    exact map2 (hq a List.mem_cons_self) (ih fun b hb => hq b (List.mem_cons_of_mem _ hb)) (fun x y => x :: y)

theorem finite_of_factor {h : Sched → α} {k : Sched → β} (hh : (Set.range h).Finite)
    (hk : ∀ σ τ, h σ = h τ → k σ = k τ) : (Set.range k).Finite := by
  classical
  let φ : α → β := fun y => if hy : ∃ σ, h σ = y then k hy.choose else k Sched.first
  refine (hh.image φ).subset ?_
  rintro x ⟨σ, rfl⟩
  refine ⟨h σ, ⟨σ, rfl⟩, ?_⟩
  have hy : ∃ τ, h τ = h σ := ⟨σ, rfl⟩
  show (if hy : ∃ τ, h τ = h σ then k hy.choose else k Sched.first) = k σ
  rw [dif_pos hy]
  exact hk _ _ hy.choose_spec

/-- An operation on a predicate that looks at the predicate only on the elements of a list. -/
theorem list {q : K → Sched → α → β} {G : (α → β) → γ} (l : List α)
    (hG : ∀ p p' : α → β, (∀ a ∈ l, p a = p' a) → G p = G p')
    (hq : ∀ a ∈ l, Steady (fun e σ => q e σ a)) : Steady (fun e σ => G (q e σ)) := by
  obtain ⟨⟨e1, h1, k1⟩, hfin⟩ := list_map l hq
  refine ⟨⟨e1, h1, fun e he hlt σ => hG _ _ fun a ha => ?_⟩, finite_of_factor hfin fun σ τ h => ?_⟩
  · exact List.map_inj_left.1 (k1 e he hlt σ) a ha
  · exact hG _ _ (List.map_inj_left.1 h)

theorem filter {q : K → Sched → α → Bool} (l : List α) (hq : ∀ a ∈ l, Steady (fun e σ => q e σ a)) :
    Steady (fun e σ => l.filter (q e σ)) :=
  list (G := fun p => l.filter p) l (fun _ _ h => List.filter_congr h) hq

theorem any {q : K → Sched → α → Bool} (l : List α) (hq : ∀ a ∈ l, Steady (fun e σ => q e σ a)) :
    Steady (fun e σ => l.any (q e σ)) := by
  refine list (G := fun p => l.any p) l (fun p p' h => ?_) hq
  have : ∀ l : List α, (∀ a ∈ l, p a = p' a) → l.any p = l.any p' := by
    intro l
    induction l with
    | nil => intro _; rfl
    | cons a l ih =>
      intro h
      rw [List.any_cons, List.any_cons, h a List.mem_cons_self, ih fun b hb => h b (List.mem_cons_of_mem _ hb)]
  exact this l h

theorem find {q : K → Sched → α → Bool} (l : List α) (hq : ∀ a ∈ l, Steady (fun e σ => q e σ a)) :
    Steady (fun e σ => l.find? (q e σ)) := by
  refine list (G := fun p => l.find? p) l (fun p p' h => ?_) hq
  have : ∀ l : List α, (∀ a ∈ l, p a = p' a) → l.find? p = l.find? p' := by
    intro l
    induction l with
    | nil => intro _; rfl
    | cons a l ih =>
      intro h
      rw [List.find?_cons, List.find?_cons, h a List.mem_cons_self, ih fun b hb => h b (List.mem_cons_of_mem _ hb)]
  exact this l h

theorem findIdx {q : K → Sched → α → Bool} (l : List α) (hq : ∀ a ∈ l, Steady (fun e σ => q e σ a)) :
    Steady (fun e σ => l.findIdx? (q e σ)) := by
  refine list (G := fun p => l.findIdx? p) l (fun p p' h => ?_) hq
  have : ∀ l : List α, (∀ a ∈ l, p a = p' a) → l.findIdx? p = l.findIdx? p' := by
    intro l
    induction l with
    | nil => intro _; rfl
    | cons a l ih =>
      intro h
      rw [List.findIdx?_cons, List.findIdx?_cons, h a List.mem_cons_self,
        ih fun b hb => h b (List.mem_cons_of_mem _ hb)]
  exact this l h

theorem filterRes {q : K → Sched → α → Res Bool} (l : List α) (hq : ∀ a ∈ l, Steady (fun e σ => q e σ a)) :
    Steady (fun e σ => Verif.filterRes (q e σ) l) := by
  induction l with
  | nil => exact const _
  | cons a l ih =>
    refine bind (hq a List.mem_cons_self) fun b => bind (ih fun c hc => hq c (List.mem_cons_of_mem _ hc)) fun r =>
      const _

theorem choose (l : List α) : Steady (fun (_ : K) σ => Verif.choose σ l) := by
  refine sched (((List.finite_toSet l).image some).union (Set.finite_singleton none) |>.subset ?_)
  rintro x ⟨σ, rfl⟩
  show Verif.choose σ l ∈ _
  cases h : Verif.choose σ l with
  | none => exact Or.inr rfl
  | some a => exact Or.inl ⟨a, List.mem_of_getElem? h, rfl⟩

theorem shuffle (l : List α) : Steady (fun (_ : K) σ => Verif.shuffle σ l) := by
  refine sched ((List.finite_toSet l.permutations).subset ?_)
  rintro x ⟨σ, rfl⟩
  exact List.mem_permutations.2 (shuffle_perm σ l)

theorem unwrap {f : K → Sched → Option α} (hf : Steady f) : Steady (fun e σ => Res.unwrap (f e σ)) := map hf _

end Steady

end Verif
