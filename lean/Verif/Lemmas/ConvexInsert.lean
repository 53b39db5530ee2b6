import Verif.Lemmas.DelaunayRun
import Verif.Spec.Convex

/-!
# Vertices in convex position are all inserted
-/

set_option linter.unusedSectionVars false

namespace Verif

open Spec

variable {K : Type*} [Field K] [LinearOrder K] [IsStrictOrderedRing K]

section order

variable {V : Type*} [DecidableEq V]

theorem sublist_pair {l : List V} {q r : V} (hr : r ∈ l) (h : l.idxOf q < l.idxOf r) : [q, r].Sublist l := by
  induction l with
  | nil => simp at hr
  | cons a l ih =>
    by_cases hq : a = q
    · subst hq
      have hne : r ≠ a := by rintro rfl; simp at h
      have : r ∈ l := by simpa [hne] using hr
      exact List.Sublist.cons_cons a (List.singleton_sublist.2 this)
    · have hra : a ≠ r := by
        rintro rfl
        simp at h
      rw [List.idxOf_cons_ne _ hq, List.idxOf_cons_ne _ hra] at h
      exact List.Sublist.cons a (ih (by simpa [hra.symm] using hr) (by omega))

theorem sublist_triple {l : List V} {p q r : V} (hr : r ∈ l) (h1 : l.idxOf p < l.idxOf q) (h2 : l.idxOf q < l.idxOf r) :
    [p, q, r].Sublist l := by
  induction l with
  | nil => simp at hr
  | cons a l ih =>
    have hq : a ≠ q := by rintro rfl; simp at h1
    have hra : a ≠ r := by rintro rfl; simp at h2
    have hr' : r ∈ l := by simpa [hra.symm] using hr
    by_cases hp : a = p
    · subst hp
      rw [List.idxOf_cons_ne _ hq, List.idxOf_cons_ne _ hra] at h2
      exact List.Sublist.cons_cons a (sublist_pair hr' (by omega))
    · rw [List.idxOf_cons_ne _ hq, List.idxOf_cons_ne _ hra] at h2
      rw [List.idxOf_cons_ne _ hq, List.idxOf_cons_ne _ hp] at h1
      exact List.Sublist.cons a (ih hr' (by omega) (by omega))

end order

/-- Three places are met in this order by someone who walks around. -/
def Cyc (i j k : ℕ) : Prop := (i < j ∧ j < k) ∨ (j < k ∧ k < i) ∨ (k < i ∧ i < j)

theorem Spec.StrictlyConvex.pos {l : List (Vertex K)} (h : StrictlyConvex l) {p q r : Vertex K} (hp : p ∈ l) (hq : q ∈ l)
    (hr : r ∈ l) (hc : Cyc (l.idxOf p) (l.idxOf q) (l.idxOf r)) : 0 < cross p q r := by
  rcases hc with ⟨a, b⟩ | ⟨a, b⟩ | ⟨a, b⟩
  · exact h p q r (sublist_triple hr a b)
  · have := h q r p (sublist_triple hp a b)
    have e : cross q r p = cross p q r := by simp only [cross]; ring
    linarith
  · have := h r p q (sublist_triple hq a b)
    have e : cross r p q = cross p q r := by simp only [cross]; ring
    linarith

theorem Spec.StrictlyConvex.pos_iff {l : List (Vertex K)} (h : StrictlyConvex l) {p q r : Vertex K} (hp : p ∈ l) (hq : q ∈ l)
    (hr : r ∈ l) : 0 < cross p q r ↔ Cyc (l.idxOf p) (l.idxOf q) (l.idxOf r) := by
  refine ⟨fun hpos => ?_, h.pos hp hq hr⟩
  by_contra hc
  by_cases h1 : p = q
  · subst h1
    have : cross p p r = 0 := by simp only [cross]; ring
    linarith
  by_cases h2 : q = r
  · subst h2
    have : cross p q q = 0 := by simp only [cross]; ring
    linarith
  by_cases h3 : p = r
  · subst h3
    have : cross p q p = 0 := by simp only [cross]; ring
    linarith
  have k1 : l.idxOf p ≠ l.idxOf q := fun e => h1 ((List.idxOf_inj hp).1 e)
  have k2 : l.idxOf q ≠ l.idxOf r := fun e => h2 ((List.idxOf_inj hq).1 e)
  have k3 : l.idxOf p ≠ l.idxOf r := fun e => h3 ((List.idxOf_inj hp).1 e)
  have : 0 < cross q p r := h.pos hq hp hr (by unfold Cyc at *; omega)
  have e : cross q p r = -cross p q r := by simp only [cross]; ring
  linarith

theorem Spec.StrictlyConvex.ne_zero {l : List (Vertex K)} (h : StrictlyConvex l) {p q r : Vertex K} (hp : p ∈ l) (hq : q ∈ l)
    (hr : r ∈ l) (h1 : p ≠ q) (h2 : q ≠ r) (h3 : p ≠ r) : cross p q r ≠ 0 := by
  have k1 : l.idxOf p ≠ l.idxOf q := fun e => h1 ((List.idxOf_inj hp).1 e)
  have k2 : l.idxOf q ≠ l.idxOf r := fun e => h2 ((List.idxOf_inj hq).1 e)
  have k3 : l.idxOf p ≠ l.idxOf r := fun e => h3 ((List.idxOf_inj hp).1 e)
  by_cases hc : Cyc (l.idxOf p) (l.idxOf q) (l.idxOf r)
  · exact (h.pos hp hq hr hc).ne'
  · have := h.pos hq hp hr (by unfold Cyc at *; omega)
    have e : cross q p r = -cross p q r := by simp only [cross]; ring
    intro e0
    rw [e, e0] at this
    simp at this

/-- What is beyond an edge is beyond one of the two edges that replace it. -/
theorem Spec.StrictlyConvex.split {l : List (Vertex K)} (h : StrictlyConvex l) {x y v w : Vertex K} (hx : x ∈ l) (hy : y ∈ l)
    (hv : v ∈ l) (hw : w ∈ l) (hvw : v ≠ w) (h2 : 0 < cross x y w) :
    0 < cross x v w ∨ 0 < cross v y w := by
  rw [h.pos_iff hx hy hw] at h2
  rw [h.pos_iff hx hv hw, h.pos_iff hv hy hw]
  have k1 : l.idxOf v ≠ l.idxOf w := fun e => hvw ((List.idxOf_inj hv).1 e)
  unfold Cyc at *
  omega

/-- A point is beyond one edge of the hull only. -/
theorem Spec.StrictlyConvex.beyond {l : List (Vertex K)} (h : StrictlyConvex l) {x y x' y' v : Vertex K} (hx : x ∈ l) (hy : y ∈ l)
    (hx' : x' ∈ l) (hy' : y' ∈ l) (hv : v ∈ l) (h1 : 0 < cross x y v) (h2 : 0 < cross x' y' v)
    (a1 : cross x y x' ≤ 0) (a2 : cross x y y' ≤ 0) (b1 : cross x' y' x ≤ 0) (b2 : cross x' y' y ≤ 0) :
    x = x' ∧ y = y' := by
  rw [h.pos_iff hx hy hv] at h1
  rw [h.pos_iff hx' hy' hv] at h2
  rw [← not_lt, h.pos_iff hx hy hx'] at a1
  rw [← not_lt, h.pos_iff hx hy hy'] at a2
  rw [← not_lt, h.pos_iff hx' hy' hx] at b1
  rw [← not_lt, h.pos_iff hx' hy' hy] at b2
  have : l.idxOf x = l.idxOf x' ∧ l.idxOf y = l.idxOf y' := by
    unfold Cyc at *
    omega
  exact ⟨(List.idxOf_inj hx).1 this.1, (List.idxOf_inj hy).1 this.2⟩

section

variable {g : Vertex K} {T : List (Tri (Vertex K))}

/-- A new point in convex position is in conflict with one hull triangle only. -/
theorem Good.sole (hT : Good g T) {l : List (Vertex K)} (hc : StrictlyConvex l) (hl : ∀ p, Vx T p → p ∈ l)
    {v : Vertex K} (hv : v ∈ l) (hvx : ¬ Vx T v) {s t : Tri (Vertex K)} (hs : s ∈ T) (ht : t ∈ T) (gs : GhostTri g s)
    (gt : GhostTri g t) (cs : Conf v s) (ct : Conf v t) : s = t := by
  have pos : ∀ r ∈ T, GhostTri g r → Conf v r → 0 < cross r.v1 r.v2 v := by
    intro r hr gr cr
    have hcor := hT.corners hr
    rcases (conf_ghost hT.ghost gr).1 cr with k | ⟨k, -⟩
    · exact k
    · refine absurd k (hc.ne_zero (hl _ hcor.1) (hl _ hcor.2) hv gr.ne ?_ ?_)
      · exact fun e => hvx (e ▸ hcor.2)
      · exact fun e => hvx (e ▸ hcor.1)
  have c1 := hT.corners hs
  have c2 := hT.corners ht
  obtain ⟨e1, e2⟩ := hc.beyond (hl _ c1.1) (hl _ c1.2) (hl _ c2.1) (hl _ c2.2) hv (pos s hs gs cs) (pos t ht gt ct)
    (hT.hull s hs gs _ c2.1).1 (hT.hull s hs gs _ c2.2).1 (hT.hull t ht gt _ c1.1).1 (hT.hull t ht gt _ c1.2).1
  obtain ⟨a, b, c⟩ := s
  obtain ⟨a', b', c'⟩ := t
  have g1 := gs.g3
  have g2 := gt.g3
  simp only at e1 e2 g1 g2
  rw [e1, e2, g1, g2]

theorem CMap.erase_of_not {V : Type*} [DecidableEq V] {c : CMap V} {t : Tri V} (h : ∀ l, (t, l) ∉ c) :
    c.erase t = c ∧ c.get t = none := by
  constructor
  · unfold CMap.erase
    rw [List.filter_eq_self]
    intro p hp
    simp only [Bool.not_eq_true', decide_eq_false_iff_not]
    rintro rfl
    exact h p.2 hp
  · unfold CMap.get
    rw [Option.map_eq_none_iff, List.find?_eq_none]
    intro p hp
    simp only [decide_eq_true_eq]
    rintro rfl
    exact h p.2 hp

/-- The rest of the cavity: no triangle with pending points is met. -/
theorem Good.cavity_rest (hT : Good g T) {f : Nat} {v : Vertex K} (hv : v.isGhost = false) (hfr : Fresh T v)
    {S : Vertex K → Prop} (hsep : SepOn (freePreds (K := K) f).veq S)
    (hS : ∀ t ∈ T, ∀ x, IsCorner t x → S x) {n : Nat} {inc0 rem0 : List (Tri (Vertex K))} {W : List (Vertex K)}
    {s s' : SolveState (Vertex K)} {B L Z : List (Edge (Vertex K))} {O R : List (Tri (Vertex K))}
    (h : CavInv (freePreds f) [] v T s.mesh B L O R Z) (hb : Book (freePreds f) v inc0 rem0 W s L R)
    (hO : ∀ t ∈ O, GhostTri g t → ¬ Conf v t) (hrem : s.remaining = []) (hk : ∀ t l, (t, l) ∈ s.cmap → GhostTri g t)
    (hr : cavityLoop (freePreds f) [] v n B s = .ok s') : s'.remaining = [] ∧ s'.cmap = s.cmap := by
  induction n generalizing s B L O R Z with
  | zero =>
    cases B with
    | nil =>
      simp only [cavityLoop, Res.ok.injEq] at hr
      subst hr
      exact ⟨hrem, rfl⟩
    | cons e B => simp [cavityLoop] at hr
  | succ n ih =>
    cases B with
    | nil =>
      simp only [cavityLoop, Res.ok.injEq] at hr
      subst hr
      exact ⟨hrem, rfl⟩
    | cons e B =>
      rw [cavityLoop, Res.bind_eq_ok] at hr
      obtain ⟨r, hstep, hr⟩ := hr
      have key : r.2.remaining = [] ∧ r.2.cmap = s.cmap := by
        have hstep' := hstep
        unfold cavityStep at hstep'
        cases hadj : s.mesh.adj e.opposite with
        | none => rw [hadj] at hstep'; cases hstep'
        | some t =>
          rw [hadj] at hstep'
          simp only [free_may, Res.bind_ok] at hstep'
          obtain ⟨-, hfound⟩ := h.found hT.simple hfr List.mem_cons_self hadj
          have htO : t ∈ O := hfound.resolve_right (by simp [Constrained])
          split_ifs at hstep' with hcond
          · simp only [Res.ok.injEq] at hstep'
            subst hstep'
            have hexp : Expandable (freePreds f) v t := by
              simp only [Bool.and_eq_true] at hcond
              exact ⟨hcond.1.1, rfl⟩
            have hcf := (hT.expandable_iff f (h.mem_O htO) hv (vx_of_fresh hfr)).1 hexp
            obtain ⟨k1, k2⟩ := CMap.erase_of_not (c := s.cmap) (t := t) fun l hl => hO t htO (hk t l hl) hcf
            simp only [k1, k2, hrem]
            exact ⟨rfl, trivial⟩
          · rw [Res.bind_eq_ok] at hstep'
            obtain ⟨q, hq, hstep'⟩ := hstep'
            simp only [Res.ok.injEq] at hstep'
            subst hstep'
            rw [hrem] at hq
            simp only [distribute, splitConflicts, Res.bind_ok, Res.ok.injEq] at hq
            subst hq
            simp [CMap.append]
      rcases cavityStep_inv h hb hT.simple hfr hsep hS hstep with ⟨t, ht, k1, k2, -⟩ | ⟨k0, k1, k2⟩
      · obtain ⟨j1, j2⟩ := ih k1 k2 (fun t' h' => hO t' (List.mem_of_mem_erase h')) key.1 (by rw [key.2]; exact hk) hr
        exact ⟨j1, j2.trans key.2⟩
      · rw [k0] at hr
        obtain ⟨j1, j2⟩ := ih k1 k2 hO key.1 (by rw [key.2]; exact hk) hr
        exact ⟨j1, j2.trans key.2⟩

/-- The step over an edge that ends in the ghost vertex. -/
theorem Good.cavity_ghost (hT : Good g T) {f : Nat} {v : Vertex K} (hv : v.isGhost = false) (hfr : Fresh T v)
    {S : Vertex K → Prop} (hsep : SepOn (freePreds (K := K) f).veq S)
    (hS : ∀ t ∈ T, ∀ x, IsCorner t x → S x) {inc0 rem0 : List (Tri (Vertex K))} {W : List (Vertex K)}
    {s : SolveState (Vertex K)} {e : Edge (Vertex K)} {B L Z : List (Edge (Vertex K))} {O R : List (Tri (Vertex K))}
    (h : CavInv (freePreds f) [] v T s.mesh (e :: B) L O R Z) (hb : Book (freePreds f) v inc0 rem0 W s L R)
    (hO : ∀ t ∈ O, GhostTri g t → ¬ Conf v t) (he : ¬ RealEdge e) {r : List (Edge (Vertex K)) × SolveState (Vertex K)}
    (hr : cavityStep (freePreds f) [] v e s = .ok r) :
    r.1 = [] ∧ CavInv (freePreds f) [] v T r.2.mesh B (e :: L) O R Z ∧ Book (freePreds f) v inc0 rem0 W r.2 (e :: L) R ∧
      distribute (freePreds f) (newTri Vertex.isGhost e v) s.cmap s.remaining = .ok (r.2.cmap, r.2.remaining) := by
  have hdist : r.1 = [] ∧
      distribute (freePreds f) (newTri Vertex.isGhost e v) s.cmap s.remaining = .ok (r.2.cmap, r.2.remaining) := by
    have hstep' := hr
    unfold cavityStep at hstep'
    cases hadj : s.mesh.adj e.opposite with
    | none => rw [hadj] at hstep'; cases hstep'
    | some t =>
      rw [hadj] at hstep'
      simp only [free_may, Res.bind_ok] at hstep'
      obtain ⟨hside, hfound⟩ := h.found hT.simple hfr List.mem_cons_self hadj
      have htO : t ∈ O := hfound.resolve_right (by simp [Constrained])
      have hre : ¬ RealEdge e.opposite := by
        simp only [RealEdge, Edge.opposite] at he ⊢
        tauto
      obtain ⟨gt, -⟩ := hT.side_ghost (h.mem_O htO) hside hre
      split_ifs at hstep' with hcond
      · exfalso
        have hexp : Expandable (freePreds f) v t := by
          simp only [Bool.and_eq_true] at hcond
          exact ⟨hcond.1.1, rfl⟩
        exact hO t htO gt ((hT.expandable_iff f (h.mem_O htO) hv (vx_of_fresh hfr)).1 hexp)
      · rw [Res.bind_eq_ok] at hstep'
        obtain ⟨q, hq, hstep'⟩ := hstep'
        simp only [Res.ok.injEq] at hstep'
        subst hstep'
        exact ⟨rfl, hq⟩
  rcases cavityStep_inv h hb hT.simple hfr hsep hS hr with ⟨t, ht, -, -, k3⟩ | ⟨k0, k1, k2⟩
  · rw [hdist.1] at k3
    simp at k3
  · exact ⟨k0, k1, k2, hdist.2⟩

/-- The invariant of the outer loop for points in convex position: all pending points wait beyond a hull edge. -/
structure Hoard (g : Vertex K) (f : Nat) (l : List (Vertex K)) (s : SolveState (Vertex K)) : Prop where
  nice : Nice g f s
  keys : ∀ t k, (t, k) ∈ s.cmap → GhostTri g t
  none : s.remaining = []
  mesh : ∀ p, Vx s.mesh.tris p → p ∈ l
  pend : ∀ w ∈ s.cmap.flat, w ∈ l

theorem Hoard.step {f fuel : Nat} {l : List (Vertex K)} (hc : StrictlyConvex l) {s : SolveState (Vertex K)}
    (h : Hoard g f l s) (hne : s.cmap ≠ []) (hf : 2 * s.mesh.tris.length + 3 ≤ fuel) (σ : Sched) :
    ∃ s', solveStep (freePreds f) [] fuel σ s = .ok s' ∧ Hoard g f l s' ∧ 
      ∃ v L O R Z, v ∈ s.cmap.flat ∧ Inserts (freePreds f) [] s v s' L O R Z := by
  obtain ⟨s', hs', hN', -, v0, L0, O0, R0, Z0, hv0, hI⟩ := h.nice.step hne hf σ
  have hT := h.nice.good
  have hsep := usual_sep hT.ghost f
  have hleg := h.nice.legit
  have hmesh' : ∀ p, Vx s'.mesh.tris p → p ∈ l := by
    rintro p ⟨⟨t, ht, hcor⟩, hp⟩
    rcases (hI.cav.corner_now hI.nonempty p).1 ⟨t, ht, hcor⟩ with k | k
    · exact h.pend p (k ▸ hv0)
    · exact h.mesh p ⟨k, hp⟩
  have hpend' : ∀ w ∈ s'.cmap.flat, w ∈ l := by
    intro w hw
    have := hI.pend.mem_iff.2 (List.mem_cons_of_mem _ (List.mem_append.2 (Or.inl hw)))
    rw [h.none, List.append_nil] at this
    exact h.pend w this
  suffices hkey : (∀ t k, (t, k) ∈ s'.cmap → GhostTri g t) ∧ s'.remaining = [] from
    ⟨s', hs', ⟨hN', hkey.1, hkey.2, hmesh', hpend'⟩, v0, L0, O0, R0, Z0, hv0, hI⟩
  unfold solveStep at hs'
  cases hch : choose σ s.cmap with
  | none => exact absurd (choose_eq_none.1 hch) hne
  | some p =>
    obtain ⟨t0, k0⟩ := p
    rw [hch] at hs'
    simp only at hs'
    have hmem := choose_mem hch
    cases hvl : k0.getLast? with
    | none => rw [hvl] at hs'; cases hs'
    | some v =>
      rw [hvl] at hs'
      simp only at hs'
      obtain ⟨hflat, hcav, W, hW, hbook⟩ := solveStep_open hleg hT.simple hmem hvl []
      have hfr := hleg.pendF v (List.mem_append.2 (Or.inl hflat))
      have hvx := vx_of_fresh hfr
      have hv := h.nice.real v (List.mem_append.2 (Or.inl hflat))
      have hvl' := h.pend v hflat
      have ht0 := hleg.keys t0 k0 hmem
      have gt0 := h.keys t0 k0 hmem
      have hin0 : ∀ w ∈ k0, 0 < cross t0.v1 t0.v2 w := fun w hw =>
        (free_inside_ghost f hT.ghost gt0 w).1 (hleg.bucket t0 k0 hmem w hw).1
      have hvk : v ∈ k0 := List.mem_of_getLast? hvl
      have hcf0 : Conf v t0 := (conf_ghost hT.ghost gt0).2 (Or.inl (hin0 v hvk))
      have hO : ∀ t ∈ s.mesh.tris.erase t0, GhostTri g t → ¬ Conf v t := by
        intro t ht gt ct
        have := hT.sole hc h.mesh hvl' hvx (List.mem_of_mem_erase ht) ht0 gt gt0 ct hcf0
        subst this
        exact (hT.simple.nodup.mem_erase_iff.1 ht).1 rfl
      have hcor := hT.corners ht0
      have g3 := gt0.g3
      have hgg : t0.v3.isGhost = true := by rw [g3]; exact hT.ghost
      have e1 : ¬ RealEdge (⟨t0.v3, t0.v1⟩ : Edge (Vertex K)) := fun k => by
        have := k.1
        rw [hgg] at this; simp at this
      have e2 : ¬ RealEdge (⟨t0.v2, t0.v3⟩ : Edge (Vertex K)) := fun k => by
        have := k.2
        rw [hgg] at this; simp at this
      -- the first two steps
      have hfuel : ∃ n, fuel = n + 1 + 1 := ⟨fuel - 2, by omega⟩
      obtain ⟨n, rfl⟩ := hfuel
      rw [openEdges, cavityLoop, Res.bind_eq_ok] at hs'
      obtain ⟨r1, hr1, hs'⟩ := hs'
      obtain ⟨q0, q1, q2, q3⟩ := hT.cavity_ghost hv hfr hsep hleg.meshS hcav hbook hO e1 hr1
      rw [q0, List.nil_append, cavityLoop, Res.bind_eq_ok] at hs'
      obtain ⟨r2, hr2, hs'⟩ := hs'
      obtain ⟨p0, p1, p2, p3⟩ := hT.cavity_ghost hv hfr hsep hleg.meshS q1 q2 hO e2 hr2
      rw [p0, List.nil_append] at hs'
      have n1 : newTri Vertex.isGhost (⟨t0.v3, t0.v1⟩ : Edge (Vertex K)) v = ⟨t0.v1, v, g⟩ := by
        simp [newTri, g3, hT.ghost]
      have n2 : newTri Vertex.isGhost (⟨t0.v2, t0.v3⟩ : Edge (Vertex K)) v = ⟨v, t0.v2, g⟩ := by
        simp [newTri, gt0.r2, g3, hT.ghost]
      rw [n1] at q3
      rw [n2] at p3
      have gA : GhostTri g (⟨t0.v1, v, g⟩ : Tri (Vertex K)) := ⟨gt0.r1, hv, fun e => hvx (by rw [← (show t0.v1 = v from e)]; exact hcor.1), rfl⟩
      have gB : GhostTri g (⟨v, t0.v2, g⟩ : Tri (Vertex K)) := ⟨hv, gt0.r2, fun e => hvx (by rw [(show v = t0.v2 from e)]; exact hcor.2), rfl⟩
      obtain ⟨-, -, d3, d4, d5⟩ := distribute_spec hbook.wf q3
      obtain ⟨-, -, c3, c4, c5⟩ := distribute_spec q2.wf p3
      simp only at d3 d4 d5 c3 c4 c5
      have hrem : r2.2.remaining = [] := by
        rw [List.eq_nil_iff_forall_not_mem]
        intro w hw
        have hw1 : w ∈ r1.2.remaining := c3.subset hw
        have hw0 : w ∈ (openCavity t0 k0 s).remaining := d3.subset hw1
        simp only [openCavity, h.none, List.nil_append] at hw0
        have hwk : w ∈ k0 := List.mem_of_mem_dropLast hw0
        have hnd : k0.Nodup := by
          have := hleg.pendN
          rw [h.none, List.append_nil] at this
          exact (List.nodup_flatMap.1 this).1 _ hmem
        have hwv : v ≠ w := by
          rintro rfl
          obtain ⟨k', rfl⟩ := List.getLast?_eq_some_iff.1 hvl
          rw [List.dropLast_concat] at hw0
          rw [List.nodup_append] at hnd
          exact hnd.2.2 _ hw0 _ (by simp) rfl
        have hwl : w ∈ l := h.pend w (List.mem_flatMap.2 ⟨(t0, k0), hmem, hwk⟩)
        rcases hc.split (h.mesh _ hcor.1) (h.mesh _ hcor.2) hvl' hwl hwv (hin0 w hwk) with k | k
        · exact d4 w hw1 ⟨(free_inside_ghost f hT.ghost gA w).2 k, rfl⟩
        · exact c4 w hw ⟨(free_inside_ghost f hT.ghost gB w).2 k, rfl⟩
      have hk1 : ∀ t k, (t, k) ∈ r1.2.cmap → GhostTri g t := by
        intro t k hk
        rcases d5 t k hk with ⟨-, k⟩ | ⟨rfl, -⟩
        · simp only [openCavity] at k
          exact h.keys _ _ (CMap.mem_erase.1 k).1
        · exact gA
      have hk2 : ∀ t k, (t, k) ∈ r2.2.cmap → GhostTri g t := by
        intro t k hk
        rcases c5 t k hk with ⟨-, k⟩ | ⟨rfl, -⟩
        · exact hk1 _ _ k
        · exact gB
      obtain ⟨j1, j2⟩ := hT.cavity_rest hv hfr hsep hleg.meshS p1 p2 hO hrem hk2 hs'
      exact ⟨by rw [j2]; exact hk2, j1⟩

theorem Hoard.loop {f fuel n : Nat} {l : List (Vertex K)} (hc : StrictlyConvex l) {s : SolveState (Vertex K)}
    (h : Hoard g f l s) (hf : 2 * (s.mesh.tris.length + 2 * (s.cmap.flat ++ s.remaining).length) + 3 ≤ fuel)
    (hn : (s.cmap.flat ++ s.remaining).length ≤ n) (σ : Sched) :
    ∃ s', solveLoop (freePreds f) [] fuel n σ s = .ok s' ∧ s'.cmap = [] ∧ s'.remaining = [] := by
  induction n generalizing σ s with
  | zero =>
    have hc : s.cmap = [] := by
      by_contra hne
      obtain ⟨p, hp⟩ := List.exists_mem_of_ne_nil _ hne
      have : (s.cmap.flat ++ s.remaining) = [] := List.length_eq_zero_iff.1 (by omega)
      have : s.cmap.flat = [] := (List.append_eq_nil_iff.1 this).1
      obtain ⟨w, hw⟩ := List.exists_mem_of_ne_nil _ (h.nice.legit.wf.2 p hp)
      have : w ∈ s.cmap.flat := List.mem_flatMap.2 ⟨p, hp, hw⟩
      simp_all
    exact ⟨s, by simp [solveLoop, hc], hc, h.none⟩
  | succ n ih =>
    rw [solveLoop]
    split_ifs with hcm
    · exact ⟨s, rfl, hcm, h.none⟩
    · obtain ⟨s1, h1, n1, v, L, O, R, Z, hv, hi⟩ := h.step hc hcm (fuel := fuel) (by omega) (σ.sub 0)
      rw [h1, Res.bind_ok]
      have hlen := hi.length
      have hp := hi.pend.length_eq
      simp only [List.length_cons] at hp
      exact ih n1 (by rw [hlen]; omega) (by omega) (σ.sub 1)

end

end Verif
