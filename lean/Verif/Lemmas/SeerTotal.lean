import Verif.Lemmas.SeerRun
import Verif.Props.Insertion

/-!
# Inserting vertices in a triangulated polygon returns
-/

set_option linter.unusedSectionVars false

namespace Verif

open Spec Props

variable {K : Type*} [Field K] [LinearOrder K] [IsStrictOrderedRing K]

section

variable {g : Vertex K} {l : List (Vertex K)} {M : List (Tri (Vertex K))} {v : Vertex K}

/-- Triangles that see the point are connected like a tree. -/
theorem Fit.no_loop (hF : Fit g l M) {R : List (Tri (Vertex K))} (hne : R ≠ [])
    (hR : ∀ r ∈ R, Seer l M v r) {I X : List (Edge (Vertex K))}
    (hp : (sides R).Perm (X ++ (I ++ I.map Edge.opposite))) (hlen : R.length ≤ I.length) : False := by
  classical
  have hJ : ∃ J, J = I ++ I.map Edge.opposite := ⟨_, rfl⟩
  obtain ⟨J, hJ⟩ := hJ
  rw [← hJ] at hp
  have hJopp : ∀ x, x ∈ J → x.opposite ∈ J := by
    intro x hx
    rw [hJ, List.mem_append] at hx ⊢
    rcases hx with hx | hx
    · exact Or.inr (List.mem_map_of_mem hx)
    · obtain ⟨y, hy, rfl⟩ := List.mem_map.1 hx
      left; simpa using hy
  have hJside : ∀ x, x ∈ J → ∃ r ∈ R, IsSide r x := fun x hx =>
    mem_sides.1 (hp.mem_iff.2 (List.mem_append.2 (Or.inr hx)))
  obtain ⟨σ, hσd⟩ : ∃ σ : Edge (Vertex K) → ℕ, σ = fun x => if cross x.v1 x.v2 v ≤ 0 ∧ x ∈ J then 1 else 0 := ⟨_, rfl⟩
  have hσ1 : ∀ x, σ x ≤ 1 := by intro x; rw [hσd]; simp only; split_ifs <;> omega
  have hσ : ∀ x, cross x.v1 x.v2 v ≤ 0 → x ∈ J → σ x = 1 := by
    intro x h1 h2; rw [hσd]; simp only; rw [if_pos ⟨h1, h2⟩]
  have hσ' : ∀ x, σ x = 1 → cross x.v1 x.v2 v ≤ 0 ∧ x ∈ J := by
    intro x h; rw [hσd] at h; simp only at h; by_contra hc; rw [if_neg hc] at h; omega
  have hI : ∀ z ∈ I, 1 ≤ σ z + σ z.opposite := by
    intro z hz
    have hzJ : z ∈ J := by rw [hJ]; exact List.mem_append.2 (Or.inl hz)
    rcases le_total (cross z.v1 z.v2 v) 0 with h | h
    · rw [hσ z h hzJ]; omega
    · rw [hσ z.opposite (by simp only [Edge.opposite]; rw [cross_swap]; linarith) (hJopp z hzJ)]; omega
  have hone : ∀ r ∈ R, (r.innerEdges.map σ).sum ≤ 1 := by
    intro r hr
    obtain ⟨k1, k2, k3⟩ := conf_one_special (hR r hr).solid ((conf_solid (hR r hr).solid).2 (hR r hr).conf)
    simp only [Tri.innerEdges, List.map_cons, List.map_nil, List.sum_cons, List.sum_nil]
    have a1 := hσ1 ⟨r.v1, r.v2⟩
    have a2 := hσ1 ⟨r.v2, r.v3⟩
    have a3 := hσ1 ⟨r.v3, r.v1⟩
    by_contra hc
    by_cases b1 : σ ⟨r.v1, r.v2⟩ = 1
    · by_cases b2 : σ ⟨r.v2, r.v3⟩ = 1
      · exact k1 ⟨(hσ' _ b1).1, (hσ' _ b2).1⟩
      · have b3 : σ ⟨r.v3, r.v1⟩ = 1 := by omega
        exact k3 ⟨(hσ' _ b3).1, (hσ' _ b1).1⟩
    · have b2 : σ ⟨r.v2, r.v3⟩ = 1 := by omega
      have b3 : σ ⟨r.v3, r.v1⟩ = 1 := by omega
      exact k2 ⟨(hσ' _ b2).1, (hσ' _ b3).1⟩
  have hsum : (R.map fun r => (r.innerEdges.map σ).sum).sum
      = (X.map σ).sum + (I.map fun z => σ z + σ z.opposite).sum := by
    have h1 : ((sides R).map σ).sum = (R.map fun r => (r.innerEdges.map σ).sum).sum := by
      clear hp hlen hone hI hR hne hJside
      induction R with
      | nil => simp [sides]
      | cons t l ih => rw [sides_cons, List.map_append, List.sum_append, ih]; simp
    rw [← h1, (hp.map σ).sum_eq, List.map_append, List.sum_append, hJ, List.map_append,
      List.sum_append, List.map_map]
    congr 1
    clear * -
    induction I with
    | nil => simp
    | cons z I ih => simp only [List.map_cons, List.sum_cons, Function.comp] at ih ⊢; omega
  have hu := sum_le_length hone
  have hl := length_le_sum hI
  have hR1 := all_one_of_sum hone (by omega)
  have hI1 := all_one_of_sum' hI (by omega)
  -- every triangle has an inner side that does not have the point on its left
  have hspecial : ∀ r ∈ R, ∃ e, IsSide r e ∧ cross e.v1 e.v2 v ≤ 0 ∧ e ∈ J := by
    intro r hr
    have := hR1 r hr
    simp only [Tri.innerEdges, List.map_cons, List.map_nil, List.sum_cons, List.sum_nil] at this
    by_cases b1 : σ ⟨r.v1, r.v2⟩ = 1
    · exact ⟨_, Or.inl ⟨rfl, rfl⟩, hσ' _ b1⟩
    · by_cases b2 : σ ⟨r.v2, r.v3⟩ = 1
      · exact ⟨_, Or.inr (Or.inl ⟨rfl, rfl⟩), hσ' _ b2⟩
      · have a1 := hσ1 ⟨r.v1, r.v2⟩
        have a2 := hσ1 ⟨r.v2, r.v3⟩
        exact ⟨⟨r.v3, r.v1⟩, Or.inr (Or.inr ⟨rfl, rfl⟩), hσ' _ (by omega)⟩
  -- no inner edge has the point on its line
  have hstrict : ∀ x ∈ J, cross x.v1 x.v2 v ≠ 0 := by
    intro x hx h0
    have h1 := hσ x h0.le hx
    have h2 := hσ x.opposite (by simp only [Edge.opposite]; rw [cross_swap, h0]; simp) (hJopp x hx)
    rw [hJ, List.mem_append] at hx
    rcases hx with hx | hx
    · have := hI1 x hx; omega
    · obtain ⟨y, hy, rfl⟩ := List.mem_map.1 hx
      rw [opposite_opposite] at h2
      have := hI1 y hy
      omega
  have key : ∀ r, Seer l M v r → r ∈ R → False := by
    intro r hS
    induction hS with
    | here h1 h2 h3 h4 =>
      intro hr
      obtain ⟨e, he, hle, hm⟩ := hspecial _ hr
      exact hstrict e hm (le_antisymm hle (within_iff_sides.1 h4 e he))
    | step h1 h2 h3 h4 h5 h6 h7 h8 ih =>
      intro hr
      obtain ⟨e, he, hle, hm⟩ := hspecial _ hr
      have := h2.one_special h3 he h4 hle h6.le
      subst this
      obtain ⟨r', hr', hs'⟩ := hJside _ (hJopp _ hm)
      have := hF.simple.edgeDisjoint _ (hR r' hr').mem _ h7.mem _ hs' h8
      exact ih (this ▸ hr')
  obtain ⟨r, hr⟩ := List.exists_mem_of_ne_nil _ hne
  exact key r (hR r hr) hr

variable {b : Polyline (Vertex K)} {T : List (Tri (Vertex K))} {f : Nat} {C : List (Edge (Vertex K))}
  {D : Option (Polyline (Vertex K))}

/-- The triangle behind a pending edge is always found. -/
theorem Court.adj_found (hG : Court g b D f) (hF : Fit g b.vertices M) (hv : v.isGhost = false)
    (hin : InsidePolygon b.vertices v)
    (hC : ∀ e, Constrained C e → Wall b.vertices e ∨ Wall b.vertices e.opposite) {m : Mesh (Vertex K)}
    {e : Edge (Vertex K)} {B L Z : List (Edge (Vertex K))} {O R : List (Tri (Vertex K))}
    (h : CavInv (geoPreds 0 f D []) C v M m (e :: B) L O R Z) : m.adj e.opposite ≠ none := by
  intro hnone
  have hseer : ∀ r ∈ R, Seer b.vertices M v r := fun r hr => hG.seer hF hv hin (h.mem_R hr) (h.exp r hr)
  obtain ⟨r, hr, hside⟩ := h.mem_side_old (e := e) (by simp)
  obtain ⟨t, ht, hts⟩ := hF.across (h.mem_R hr) hside
  have hRn : (sides R).Nodup := simple_iff.1 (simple_part hF.simple h.old)
  rcases List.mem_append.1 (h.old.mem_iff.1 ht) with k | k
  · have hm : e.opposite ∈ sides R := mem_sides.2 ⟨t, k, hts⟩
    have hnd := h.bdry.nodup_iff.1 hRn
    rw [List.nodup_append] at hnd
    rcases List.mem_append.1 (h.bdry.mem_iff.1 hm) with k' | k'
    · have k2 : e.opposite ∈ B := by
        rcases List.mem_append.1 k' with k' | k'
        · rcases List.mem_cons.1 k' with k' | k'
          · exfalso
            have h12 : e.v1 = e.v2 := congrArg Edge.v2 k'
            exact (hseer r hr).solid.side_ne hside (h12 ▸ ⟨rfl, rfl⟩)
          · exact k'
        · exfalso
          rcases h.links _ k' with hc | ⟨t', ht', hside', hne', -⟩
          · rcases hC _ hc with hc | hc
            · exact hF.wall_back (h.mem_R hr) (hseer r hr).solid hside hc
            · exact hF.wall_back ht (hseer t k).solid hts hc
          · rw [opposite_opposite] at hside'
            have := hF.simple.edgeDisjoint t' ht' r (h.mem_R hr) e hside' hside
            exact hne' (this ▸ h.exp r hr)
      obtain ⟨B1, B2, rfl⟩ := List.append_of_mem k2
      refine hF.no_loop (v := v) (R := R) (I := e :: Z) (X := B1 ++ B2 ++ L) ?_ hseer ?_ ?_
      · rintro rfl; simp at hr
      · refine h.bdry.trans ?_
        rw [List.perm_iff_count]
        intro x
        simp only [List.map_cons, List.count_append, List.count_cons]
        omega
      · rw [List.length_cons, h.tree]
    · exfalso
      have k2 : e ∈ Z ++ Z.map Edge.opposite := by
        rcases List.mem_append.1 k' with k' | k'
        · exact List.mem_append.2 (Or.inr (List.mem_map.2 ⟨_, k', opposite_opposite e⟩))
        · obtain ⟨z, hz, hze⟩ := List.mem_map.1 k'
          have : z = e := by rw [← opposite_opposite z, hze, opposite_opposite]
          exact List.mem_append.2 (Or.inl (this ▸ hz))
      exact hnd.2.2 e (by simp) e k2 rfl
  · rw [h.keep t k _ hts] at hnone
    simp at hnone

theorem splitConflicts_ok' {V : Type*} [DecidableEq V] {P : Preds V} {t : Tri V} {vs : List V}
    (hm : ∀ w ∈ vs, ∃ r, P.mayInsert t w = .ok r) : ∃ q, splitConflicts P t vs = .ok q := by
  induction vs with
  | nil => exact ⟨_, rfl⟩
  | cons w vs ih =>
    obtain ⟨q, hq⟩ := ih fun w hw => hm w (List.mem_cons_of_mem _ hw)
    obtain ⟨r, hr⟩ := hm w List.mem_cons_self
    simp only [splitConflicts, hr, hq, Res.bind_ok]
    split_ifs
    · exact ⟨_, rfl⟩
    · exact ⟨_, rfl⟩

theorem distribute_ok' {V : Type*} [DecidableEq V] {P : Preds V} {t : Tri V} {vs : List V}
    (hm : ∀ w ∈ vs, ∃ r, P.mayInsert t w = .ok r) (c : CMap V) : ∃ q, distribute P t c vs = .ok q := by
  obtain ⟨q, hq⟩ := splitConflicts_ok' hm
  exact ⟨_, by unfold distribute; rw [hq]; rfl⟩

/-- The triangles that can occur: their corners are in the list, or the third one is the ghost. -/
def Occurs (g : Vertex K) (V : List (Vertex K)) (t : Tri (Vertex K)) : Prop :=
  t.v1 ∈ V ∧ t.v2 ∈ V ∧ (t.v3 ∈ V ∨ t.v3 = g)

/-- All questions about triangles and vertices of the list are answered. -/
def Answers (g : Vertex K) (D : Option (Polyline (Vertex K))) (f : Nat) (V : List (Vertex K)) : Prop :=
  ∀ t, Occurs g V t → ∀ w ∈ V, ∃ r, (geoPreds 0 f D []).mayInsert t w = .ok r

theorem exists_fuel {α : Type*} (l : List α) {Q : α → Nat → Prop} (h : ∀ a ∈ l, ∃ n, ∀ m, n ≤ m → Q a m) :
    ∃ n, ∀ m, n ≤ m → ∀ a ∈ l, Q a m := by
  induction l with
  | nil => exact ⟨0, fun m _ a ha => by simp at ha⟩
  | cons a l ih =>
    obtain ⟨n1, h1⟩ := ih fun a ha => h a (List.mem_cons_of_mem _ ha)
    obtain ⟨n2, h2⟩ := h a List.mem_cons_self
    refine ⟨max n1 n2, fun m hm x hx => ?_⟩
    rcases List.mem_cons.1 hx with rfl | hx
    · exact h2 m (le_trans (le_max_right _ _) hm)
    · exact h1 m (le_trans (le_max_left _ _) hm) x hx

theorem may_total (hreal : ∀ v ∈ b.vertices, v.isGhost = false) {V : List (Vertex K)}
    (hV : ∀ v ∈ V, v.isGhost = false) : ∃ n, ∀ f, n ≤ f → Answers g (some b) f V := by
  have one : ∀ t, Occurs g V t → ∀ w ∈ V, ∃ n, ∀ f, n ≤ f → ∃ r, (geoPreds 0 f (some b) []).mayInsert t w = .ok r := by
    intro t ht w hw
    have hq : ∀ x ∈ (probe t w).vertices, x.isGhost = false := by
      unfold probe
      split_ifs with hgt
      · intro x hx
        simp only [List.mem_cons, List.not_mem_nil, or_false] at hx
        rcases hx with rfl | rfl | rfl
        · exact hV _ ht.1
        · exact hV _ ht.2.1
        · exact hV _ hw
      · intro x hx
        simp only [List.mem_cons, List.not_mem_nil, or_false] at hx
        rcases hx with rfl | rfl
        · simp only [Tri.center, Vertex.mk']
          rw [if_neg hgt]
        · exact hV _ hw
    obtain ⟨n, hn⟩ := C42_terminates hreal hq
    refine ⟨n, fun f hf => ?_⟩
    obtain ⟨c, hc⟩ := hn f hf
    simp only [geoPreds, mayInsertTriangle, outsideHoles, Res.bind_ok, hc]
    cases c with
    | none => exact ⟨_, rfl⟩
    | some c => exact ⟨_, rfl⟩
  have h4 : ∀ w ∈ V, ∃ n, ∀ f, n ≤ f → ∀ x ∈ V, ∀ y ∈ V, ∀ z ∈ g :: V,
      ∃ r, (geoPreds 0 f (some b) []).mayInsert ⟨x, y, z⟩ w = .ok r := by
    intro w hw
    refine exists_fuel V fun x hx => exists_fuel V fun y hy => exists_fuel (g :: V) fun z hz => one _ ⟨hx, hy, ?_⟩ w hw
    rcases List.mem_cons.1 hz with k | k
    · exact Or.inr k
    · exact Or.inl k
  obtain ⟨n, hn⟩ := exists_fuel V h4
  refine ⟨n, fun f hf t ht w hw => hn f hf w hw t.v1 ht.1 t.v2 ht.2.1 t.v3 ?_⟩
  rcases ht.2.2 with k | k
  · exact List.mem_cons_of_mem _ k
  · exact k ▸ List.mem_cons_self

/-- Filling one hole. -/
theorem Court.cavity_ok (hG : Court g b D f) (hF : Fit g b.vertices M) (hv : v.isGhost = false)
    (hin : InsidePolygon b.vertices v)
    (hC : ∀ e, Constrained C e → Wall b.vertices e ∨ Wall b.vertices e.opposite) (hfr : Fresh M v)
    (hS : ∀ t ∈ M, ∀ x, IsCorner t x → Usual g x) {V : List (Vertex K)} (hans : Answers g D f V) (hvV : v ∈ V)
    (hMV : ∀ t ∈ M, Occurs g V t) {n : Nat} {inc0 rem0 : List (Tri (Vertex K))} {W : List (Vertex K)}
    (hW : ∀ w ∈ W, w ∈ V) {s : SolveState (Vertex K)} {B L Z : List (Edge (Vertex K))} {O R : List (Tri (Vertex K))}
    (h : CavInv (geoPreds 0 f D []) C v M s.mesh B L O R Z)
    (hb : Book (geoPreds 0 f D []) v inc0 rem0 W s L R) (hn : 2 * O.length + B.length ≤ n) :
    ∃ s', cavityLoop (geoPreds 0 f D []) C v n B s = .ok s' := by
  induction n generalizing s B L O R Z with
  | zero =>
    have : B = [] := List.length_eq_zero_iff.1 (by omega)
    subst this
    exact ⟨s, by simp [cavityLoop]⟩
  | succ n ih =>
    cases B with
    | nil => exact ⟨s, by simp [cavityLoop]⟩
    | cons e B =>
      rw [cavityLoop]
      have hok : ∃ r, cavityStep (geoPreds 0 f D []) C v e s = .ok r := by
        unfold cavityStep
        cases hadj : s.mesh.adj e.opposite with
        | none => exact absurd hadj (hG.adj_found hF hv hin hC h)
        | some t =>
          have hedge : ∀ e' ∈ (e :: B) ++ L, e'.v1 ∈ V ∧ e'.v2 ∈ V ∧ e'.v1.isGhost = false ∧ e'.v2.isGhost = false := by
            intro e' he'
            obtain ⟨r, hr, hside⟩ := h.mem_side_old he'
            have hsr := (hG.seer hF hv hin (h.mem_R hr) (h.exp r hr)).solid
            have hrV := hMV r (h.mem_R hr)
            have hr3 : r.v3 ∈ V := by
              rcases hrV.2.2 with k | k
              · exact k
              · have := hsr.r3
                rw [k, hG.ghost] at this
                simp at this
            rcases hside with ⟨k1, k2⟩ | ⟨k1, k2⟩ | ⟨k1, k2⟩ <;> rw [k1, k2]
            · exact ⟨hrV.1, hrV.2.1, hsr.r1, hsr.r2⟩
            · exact ⟨hrV.2.1, hr3, hsr.r2, hsr.r3⟩
            · exact ⟨hr3, hrV.1, hsr.r3, hsr.r1⟩
          have heV := hedge e (by simp)
          have hnt : newTri (geoPreds (0 : K) f D []).ghost e v = ⟨e.v1, e.v2, v⟩ := newTri_real heV.2.2.1 heV.2.2.2
          have htV : Occurs g V t := by
            rcases List.mem_append.1 (h.now.mem_iff.1 (h.sound _ _ hadj).1) with k | k
            · obtain ⟨l, hl, rfl⟩ := List.mem_map.1 k
              have hlV := hedge l (List.mem_append.2 (Or.inr hl))
              have : newTri (geoPreds (0 : K) f D []).ghost l v = ⟨l.v1, l.v2, v⟩ := newTri_real hlV.2.2.1 hlV.2.2.2
              rw [this]
              exact ⟨hlV.1, hlV.2.1, Or.inl hvV⟩
            · exact hMV t (h.mem_O k)
          obtain ⟨may, hmay⟩ := hans t htV v hvV
          simp only [hmay, Res.bind_ok]
          split_ifs
          · exact ⟨_, rfl⟩
          · have hrem : ∀ w ∈ s.remaining, w ∈ V := fun w hw => hW w (hb.pend.mem_iff.1 (List.mem_append.2 (Or.inr hw)))
            obtain ⟨q, hq⟩ := distribute_ok' (P := geoPreds 0 f D []) (t := newTri (geoPreds (0 : K) f D []).ghost e v)
              (vs := s.remaining) (fun w hw => by
                rw [hnt]
                exact hans _ ⟨heV.1, heV.2.1, Or.inl hvV⟩ w (hrem w hw)) s.cmap
            rw [hq]
            exact ⟨_, rfl⟩
      obtain ⟨r, hr⟩ := hok
      rw [hr, Res.bind_ok]
      simp only [List.length_cons] at hn
      rcases cavityStep_inv h hb hF.simple hfr (usual_sep hG.ghost f) hS hr with ⟨t, ht, k1, k2, k3⟩ | ⟨k0, k1, k2⟩
      · refine ih k1 k2 ?_
        have : O.length = (O.erase t).length + 1 := by
          rw [List.length_erase_of_mem ht]
          have := List.length_pos_of_mem ht
          omega
        rw [List.length_append, k3]
        omega
      · rw [k0]
        exact ih k1 k2 (by simp; omega)

/-- One vertex. -/
theorem Court.step_ok (hG : Court g b D f)
    (hC : ∀ e, Constrained C e → Wall b.vertices e ∨ Wall b.vertices e.opposite) {V : List (Vertex K)}
    (hans : Answers g D f V) {fuel : Nat} {s : SolveState (Vertex K)} (h : Tidy g b D f s) (hne : s.cmap ≠ [])
    (hMV : ∀ t ∈ s.mesh.tris, Occurs g V t) (hpV : ∀ w ∈ s.cmap.flat ++ s.remaining, w ∈ V)
    (hf : 2 * s.mesh.tris.length + 3 ≤ fuel) (σ : Sched) :
    ∃ s', solveStep (geoPreds 0 f D []) C fuel σ s = .ok s' := by
  unfold solveStep
  cases hc : choose σ s.cmap with
  | none => exact absurd (choose_eq_none.1 hc) hne
  | some p =>
    obtain ⟨t, l⟩ := p
    simp only
    have hmem := choose_mem hc
    have hlne : l ≠ [] := h.legit.wf.2 (t, l) hmem
    obtain ⟨v, hvl⟩ : ∃ v, l.getLast? = some v := by
      cases hl : l.getLast? with
      | none => exact absurd (List.getLast?_eq_none_iff.1 hl) hlne
      | some v => exact ⟨v, rfl⟩
    rw [hvl]
    simp only
    obtain ⟨hflat, hcav, W, hW, hbook⟩ := solveStep_open h.legit h.fit.simple hmem hvl C
    have hv' : v ∈ s.cmap.flat ++ s.remaining := List.mem_append.2 (Or.inl hflat)
    refine hG.cavity_ok h.fit (h.real v hv') (h.inside v hv') hC (h.legit.pendF v hv') h.legit.meshS hans (hpV v hv') hMV
      (fun w hw => hpV w (hW.mem_iff.2 (List.mem_cons_of_mem _ hw))) hcav hbook ?_
    have : (s.mesh.tris.erase t).length ≤ s.mesh.tris.length := List.length_erase_le
    simp only [openEdges, List.length_cons, List.length_nil]
    omega

/-- New triangles have corners that occur. -/
theorem Court.occurs (hG : Court g b D f) {V : List (Vertex K)} {s s' : SolveState (Vertex K)}
    (h : Tidy g b D f s) (hMV : ∀ t ∈ s.mesh.tris, Occurs g V t) {L Z : List (Edge (Vertex K))}
    {O R : List (Tri (Vertex K))} (hv : v ∈ s.cmap.flat ++ s.remaining) (hvV : v ∈ V)
    (hi : Inserts (geoPreds 0 f D []) C s v s' L O R Z) : ∀ t ∈ s'.mesh.tris, Occurs g V t := by
  intro t ht
  rcases List.mem_append.1 (hi.cav.now.mem_iff.1 ht) with k | k
  · obtain ⟨l, hl, rfl⟩ := List.mem_map.1 k
    obtain ⟨r, hr, hside⟩ := hi.cav.mem_side_old (e := l) (by simpa using hl)
    have hsr := (hG.seer h.fit (h.real v hv) (h.inside v hv) (hi.cav.mem_R hr) (hi.cav.exp r hr)).solid
    have hrV := hMV r (hi.cav.mem_R hr)
    have hr3 : r.v3 ∈ V := by
      rcases hrV.2.2 with k | k
      · exact k
      · have := hsr.r3
        rw [k, hG.ghost] at this
        simp at this
    have : l.v1 ∈ V ∧ l.v2 ∈ V ∧ l.v1.isGhost = false ∧ l.v2.isGhost = false := by
      rcases hside with ⟨k1, k2⟩ | ⟨k1, k2⟩ | ⟨k1, k2⟩ <;> rw [k1, k2]
      · exact ⟨hrV.1, hrV.2.1, hsr.r1, hsr.r2⟩
      · exact ⟨hrV.2.1, hr3, hsr.r2, hsr.r3⟩
      · exact ⟨hr3, hrV.1, hsr.r3, hsr.r1⟩
    have e : newTri (geoPreds (0 : K) f D []).ghost l v = ⟨l.v1, l.v2, v⟩ := newTri_real this.2.2.1 this.2.2.2
    rw [e]
    exact ⟨this.1, this.2.1, Or.inl hvV⟩
  · exact hMV t (hi.cav.mem_O k)

/-- All vertices. -/
theorem Court.loop_ok (hG : Court g b D f)
    (hC : ∀ e, Constrained C e → Wall b.vertices e ∨ Wall b.vertices e.opposite) {V : List (Vertex K)}
    (hans : Answers g D f V) {fuel n : Nat} {s : SolveState (Vertex K)} (h : Tidy g b D f s)
    (hMV : ∀ t ∈ s.mesh.tris, Occurs g V t) (hpV : ∀ w ∈ s.cmap.flat ++ s.remaining, w ∈ V)
    (hf : 2 * (s.mesh.tris.length + 2 * (s.cmap.flat ++ s.remaining).length) + 3 ≤ fuel)
    (hn : (s.cmap.flat ++ s.remaining).length ≤ n) (σ : Sched) :
    ∃ s', solveLoop (geoPreds 0 f D []) C fuel n σ s = .ok s' ∧ ∀ t ∈ s'.mesh.tris, Occurs g V t := by
  induction n generalizing σ s with
  | zero =>
    have hc : s.cmap = [] := by
      by_contra hne
      obtain ⟨p, hp⟩ := List.exists_mem_of_ne_nil _ hne
      have : (s.cmap.flat ++ s.remaining) = [] := List.length_eq_zero_iff.1 (by omega)
      have : s.cmap.flat = [] := (List.append_eq_nil_iff.1 this).1
      obtain ⟨w, hw⟩ := List.exists_mem_of_ne_nil _ (h.legit.wf.2 p hp)
      have : w ∈ s.cmap.flat := List.mem_flatMap.2 ⟨p, hp, hw⟩
      simp_all
    exact ⟨s, by simp [solveLoop, hc], hMV⟩
  | succ n ih =>
    rw [solveLoop]
    split_ifs with hc
    · exact ⟨s, rfl, hMV⟩
    · obtain ⟨s1, h1⟩ := hG.step_ok hC hans h hc hMV hpV (fuel := fuel) (by omega) (σ.sub 0)
      rw [h1, Res.bind_ok]
      obtain ⟨-, v, L, O, R, Z, hv, hi⟩ := solveStep_inv (P := geoPreds 0 f D []) (usual_sep hG.ghost f)
        h.legit h.fit.simple h1
      have hv' : v ∈ s.cmap.flat ++ s.remaining := List.mem_append.2 (Or.inl hv)
      have hlen := hi.length
      have hp := hi.pend.length_eq
      simp only [List.length_cons] at hp
      exact ih (hG.step hC h h1) (hG.occurs h hMV hv' (hpV v hv') hi)
        (fun w hw => hpV w (hi.pend.mem_iff.2 (List.mem_cons_of_mem _ hw))) (by rw [hlen]; omega) (by omega) (σ.sub 1)

theorem distributeAll_ok' {V : Type*} [DecidableEq V] {P : Preds V} {vs : List V} {ts : List (Tri V)}
    (hm : ∀ t ∈ ts, ∀ w ∈ vs, ∃ r, P.mayInsert t w = .ok r) (c : CMap V) : ∃ q, distributeAll P ts c vs = .ok q := by
  induction ts generalizing c vs with
  | nil => exact ⟨_, rfl⟩
  | cons t ts ih =>
    simp only [distributeAll]
    split_ifs
    · exact ⟨_, rfl⟩
    · obtain ⟨q, hq⟩ := distribute_ok' (hm t List.mem_cons_self) c
      rw [hq, Res.bind_ok]
      refine ih (fun s hs w hw => hm s (List.mem_cons_of_mem _ hs) w ?_) _
      unfold distribute at hq
      rw [Res.bind_eq_ok] at hq
      obtain ⟨p, hp, hq⟩ := hq
      simp only [Res.ok.injEq] at hq
      rw [← hq] at hw
      exact (splitConflicts_spec hp).2.2.1.subset hw

/-- Inserting vertices inside a triangulated polygon returns. -/
theorem Court.include_ok (hG : Court g b D f)
    (hC : ∀ e, Constrained C e → Wall b.vertices e ∨ Wall b.vertices e.opposite) {V : List (Vertex K)}
    (hans : Answers g D f V) {fuel : Nat} {σ : Sched} {m : Mesh (Vertex K)} {vs : List (Vertex K)} (hs : AdjSound m)
    (hcm : AdjComplete m) (hF : Fit g b.vertices m.tris) (hn : vs.Nodup) (hreal : ∀ w ∈ vs, w.isGhost = false)
    (hin : ∀ w ∈ vs, InsidePolygon b.vertices w) (hMV : ∀ t ∈ m.tris, Occurs g V t) (hV : ∀ w ∈ vs, w ∈ V)
    (hf : 2 * (m.tris.length + 2 * vs.length) + 3 ≤ fuel) :
    ∃ r, includeVertices (geoPreds 0 f D []) C fuel σ m vs = .ok r ∧ ∀ t ∈ r.mesh.tris, Occurs g V t := by
  have hmem' : ∀ w ∈ vs.filter fun v => !decide (v ∈ m.vertices (geoPreds (0 : K) f D []).ghost), w ∈ vs :=
    fun w hw => (List.mem_filter.1 hw).1
  obtain ⟨q, hq⟩ := distributeAll_ok' (P := geoPreds 0 f D []) (ts := shuffle (σ.sub 0) m.tris)
    (vs := vs.filter fun v => !decide (v ∈ m.vertices (geoPreds (0 : K) f D []).ghost))
    (fun t ht w hw => hans t (hMV t (mem_shuffle.1 ht)) w (hV w (hmem' w hw))) []
  unfold includeVertices
  simp only [hq, Res.bind_ok, solveConflicts]
  have h0 : startState (geoPreds 0 f D []) σ m vs = .ok ⟨m, q.1, q.2, [], []⟩ := by
    unfold startState; rw [hq]; rfl
  obtain ⟨-, -, -, -, k5, -⟩ := startState_spec h0
  have hmem : ∀ w ∈ q.1.flat ++ q.2, w ∈ vs := fun w hw => (List.mem_filter.1 (k5.mem_iff.1 hw)).1
  have hlen : (q.1.flat ++ q.2).length ≤ vs.length := by
    have := k5.length_eq
    simp only at this
    rw [this]
    exact List.length_filter_le _ _
  have h1 := hG.start_tidy hs hcm hF hn hreal hin h0
  exact hG.loop_ok hC hans h1 hMV (fun w hw => hV w (hmem w hw)) (by simp only; omega) (by simp only; omega) _

theorem splitConflicts_asked {V : Type*} [DecidableEq V] {P : Preds V} {t : Tri V} {vs : List V} {q : List V × List V}
    (h : splitConflicts P t vs = .ok q) : ∀ w ∈ vs, ∃ r, P.mayInsert t w = .ok r := by
  induction vs generalizing q with
  | nil => simp
  | cons x vs ih =>
    rw [splitConflicts, Res.bind_eq_ok] at h
    obtain ⟨r, hr, h⟩ := h
    rw [Res.bind_eq_ok] at h
    obtain ⟨p, hp, h⟩ := h
    intro w hw
    rcases List.mem_cons.1 hw with rfl | hw
    · exact ⟨r, hr⟩
    · exact ih hp w hw

/-- A vertex that is left over was asked about for each triangle. -/
theorem distributeAll_asked {V : Type*} [DecidableEq V] {P : Preds V} {ts : List (Tri V)} {c : CMap V} {vs : List V}
    {q : CMap V × List V} (h : distributeAll P ts c vs = .ok q) :
    ∀ w ∈ q.2, w ∈ vs ∧ ∀ t ∈ ts, ∃ r, P.mayInsert t w = .ok r := by
  induction ts generalizing c vs with
  | nil =>
    simp only [distributeAll, Res.ok.injEq] at h
    subst h
    intro w hw
    exact ⟨hw, by simp⟩
  | cons t ts ih =>
    rw [distributeAll] at h
    split_ifs at h with hv
    · simp only [Res.ok.injEq] at h
      subst h
      intro w hw
      rw [hv] at hw
      simp at hw
    · rw [Res.bind_eq_ok] at h
      obtain ⟨p, hp, h⟩ := h
      unfold distribute at hp
      rw [Res.bind_eq_ok] at hp
      obtain ⟨k, hk, hp⟩ := hp
      simp only [Res.ok.injEq] at hp
      intro w hw
      obtain ⟨i1, i2⟩ := ih h w hw
      rw [← hp] at i1
      have i3 : w ∈ vs := (splitConflicts_spec hk).2.2.1.subset i1
      refine ⟨i3, fun s hs => ?_⟩
      rcases List.mem_cons.1 hs with rfl | hs
      · exact splitConflicts_asked hk w i3
      · exact i2 s hs

/-- At the start each vertex inside the polygon is in conflict with some triangle. -/
theorem Court.start_rest (hG : Court g b D f) {σ : Sched} {m : Mesh (Vertex K)} {vs : List (Vertex K)}
    (hF : Fit g b.vertices m.tris) (hreal : ∀ w ∈ vs, w.isGhost = false)
    (hin : ∀ w ∈ vs, InsidePolygon b.vertices w) {s0 : SolveState (Vertex K)}
    (h0 : startState (geoPreds 0 f D []) σ m vs = .ok s0) : s0.remaining = [] := by
  obtain ⟨k1, -, -, -, k5, -, k7⟩ := startState_spec h0
  by_contra hc
  obtain ⟨w, hw⟩ := List.exists_mem_of_ne_nil _ hc
  have hw' := k5.mem_iff.1 (List.mem_append.2 (Or.inr hw))
  rw [List.mem_filter] at hw'
  have hg := hreal w hw'.1
  have hnv : ¬ InMesh m w := by
    intro hv
    have : w ∈ m.vertices (geoPreds (0 : K) f D []).ghost := mem_vertices.2 ⟨hv, hg⟩
    have h2 := hw'.2
    simp only [Bool.not_eq_true', decide_eq_false_iff_not] at h2
    exact h2 this
  obtain ⟨t, ht, hng, hwt⟩ := hF.tiles.covers w (hin w hw'.1)
  have st : SolidTri t := solid_iff.1 (hF.tiles.ccw t ht hng)
  have hcw : 0 < circleDet t.v1 t.v2 t.v3 w ∧ Within t w := by
    rcases hwt with hwt | ⟨e, he, hon⟩
    · exact ⟨st.inner_circle hwt, within_of_inner hwt⟩
    · have hne : ∀ x, IsCorner t x → ¬ SamePoint x w := by
        intro x hx
        have hxr : x.isGhost = false := by
          rcases hx with rfl | rfl | rfl
          · exact st.r1
          · exact st.r2
          · exact st.r3
        refine real_ne hxr hg ?_
        rintro rfl
        exact hnv ⟨t, ht, hx⟩
      have c12 : IsCorner t e.v1 ∧ IsCorner t e.v2 := by
        rcases he with ⟨k1, k2⟩ | ⟨k1, k2⟩ | ⟨k1, k2⟩ <;> rw [k1, k2] <;> simp [IsCorner]
      obtain ⟨c1, c2⟩ := c12
      exact ⟨st.circle_side he ⟨hon, hne _ c1, hne _ c2⟩, within_side st he hon⟩
  obtain ⟨hconf, hwi⟩ := hcw
  have hS : Seer b.vertices m.tris w t := Seer.here ht st hconf hwi
  have hasked : ∃ r, (geoPreds 0 f D []).mayInsert t w = .ok r := by
    unfold startState at h0
    rw [Res.bind_eq_ok] at h0
    obtain ⟨q, hq, h0⟩ := h0
    simp only [Res.ok.injEq] at h0
    rw [← h0] at hw
    exact (distributeAll_asked hq w hw).2 t (mem_shuffle.2 ht)
  obtain ⟨r, hr⟩ := hasked
  have := hG.may hF hg (hin w hw'.1) hS hr
  subst this
  exact k7 w hw t ht ⟨(free_inside_solid f st w).2 hconf, hr⟩

/-- As long as some vertex is in conflict, a call inserts at least one. -/
theorem include_progress {V : Type*} [DecidableEq V] {P : Preds V} {C : List (Edge V)} {fuel : Nat} {σ : Sched}
    {m : Mesh V} {vs : List V} {r : SolveState V} (hs : AdjSound m) (h : includeVertices P C fuel σ m vs = .ok r)
    {s0 : SolveState V} (h0 : startState P σ m vs = .ok s0) (hne : s0.cmap.flat ≠ []) :
    ∃ u ∈ vs, u ∉ m.vertices P.ghost ∧ InMesh r.mesh u := by
  obtain ⟨s0', h0', hr, hend⟩ := include_run h
  have e0 := h0.symm.trans h0'
  simp only [Res.ok.injEq] at e0
  subst e0
  obtain ⟨k1, -, -, k4, k5, k6, k7⟩ := startState_spec h0
  obtain ⟨ins, i1, i2⟩ := C15_vertices hs h
  have hins : ins ≠ [] := by
    intro hi
    subst hi
    have key : ∀ s', Run P C fuel s0 s' → AdjSound s'.mesh ∧ s'.cmap.WF ∧
        (∀ t l, (t, l) ∈ s'.cmap → ∀ x, IsCorner t x → InMesh s'.mesh x) ∧
        (s' = s0 ∨ (s'.cmap.flat ++ s'.remaining).length < (s0.cmap.flat ++ s0.remaining).length) := by
      intro s' hr
      induction hr with
      | refl => exact ⟨k1 ▸ hs, k4, fun t l ht x hx => ⟨t, k1 ▸ (k6 t l ht).1, hx⟩, Or.inl rfl⟩
      | step τ _ _ hst ih =>
        obtain ⟨j1, j2, j3, j4⟩ := ih
        obtain ⟨v, l1, l2, l3, -, l5⟩ := solveStep_loose j1 j2 j3 hst
        refine ⟨l1, l2, l5, Or.inr ?_⟩
        have := l3.length_eq
        simp only [List.length_cons] at this
        rcases j4 with rfl | j4
        · omega
        · omega
    rcases (key r hr).2.2.2 with e | e
    · rw [e] at hend
      simp [hend, CMap.flat] at hne
    · rw [k5.length_eq, ← i1.length_eq] at e
      simp [hend, CMap.flat] at e
  obtain ⟨u, hu⟩ := List.exists_mem_of_ne_nil _ hins
  have hu' := i1.mem_iff.1 (List.mem_append.2 (Or.inl hu))
  rw [List.mem_filter] at hu'
  refine ⟨u, hu'.1, fun hm => ?_, (i2 u).2 (Or.inr hu)⟩
  have h2 := hu'.2
  simp only [Bool.not_eq_true', decide_eq_false_iff_not] at h2
  exact h2 hm

end

end Verif
