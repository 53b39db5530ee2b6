import Verif.Lemmas.DelaunayStep
import Verif.Lemmas.Run
import Verif.Lemmas.SplitGeo
import Verif.Spec.Delaunay
import Verif.Props.Boxes
import Verif.Props.Predicates

/-!
# The insertion loop on Delaunay meshes
-/

set_option linter.unusedSectionVars false

namespace Verif

open Spec

variable {K : Type*} [Field K] [LinearOrder K] [IsStrictOrderedRing K]

theorem strictlyOn_iff {a b p : Vertex K} (hab : ¬ SamePoint a b) :
    StrictlyOn a b p ↔ cross a b p = 0 ∧ btw a b p < 0 := by
  have hd := dist2_pos hab
  constructor
  · rintro ⟨⟨k, k0, k1, kx, ky⟩, ha, hb⟩
    have e : btw a b p = k * (k - 1) * dist2 a b := by simp only [btw, dist2, kx, ky]; ring
    refine ⟨by simp only [cross, kx, ky]; ring, ?_⟩
    have h0 : 0 < k := by
      refine lt_of_le_of_ne k0 fun h => ha ?_
      rw [← h] at kx ky
      exact ⟨by rw [kx]; ring, by rw [ky]; ring⟩
    have h1 : k < 1 := by
      refine lt_of_le_of_ne k1 fun h => hb ?_
      rw [h] at kx ky
      exact ⟨by rw [kx]; ring, by rw [ky]; ring⟩
    rw [e]
    have : k * (k - 1) < 0 := by nlinarith
    nlinarith
  · rintro ⟨h0, h1⟩
    obtain ⟨k, kx, ky⟩ := line_param h0 hab
    have e : btw a b p = k * (k - 1) * dist2 a b := by simp only [btw, dist2, kx, ky]; ring
    have hk : k * (k - 1) < 0 := by
      by_contra hc
      push Not at hc
      rw [e] at h1
      nlinarith
    refine ⟨⟨k, by nlinarith, by nlinarith, kx, ky⟩, fun h => ?_, fun h => ?_⟩
    · have : btw a b p = 0 := by simp only [btw, ← h.1, ← h.2]; ring
      linarith
    · have : btw a b p = 0 := by simp only [btw, ← h.1, ← h.2]; ring
      linarith

section

variable {g : Vertex K} {T : List (Tri (Vertex K))}

theorem solid_iff {t : Tri (Vertex K)} : Face t ↔ SolidTri t :=
  ⟨fun h => ⟨h.1, h.2.1, h.2.2.1, h.2.2.2⟩, fun h => ⟨h.r1, h.r2, h.r3, h.ccw⟩⟩

theorem outer_iff {t : Tri (Vertex K)} : Outer g t ↔ GhostTri g t :=
  ⟨fun h => ⟨h.1, h.2.1, h.2.2.1, h.2.2.2⟩, fun h => ⟨h.r1, h.r2, h.ne, h.g3⟩⟩

/-- The mesh of a single segment. -/
def Segm (g : Vertex K) (T : List (Tri (Vertex K))) : Prop := ∃ a b, T.Perm [⟨a, b, g⟩, ⟨b, a, g⟩]

theorem Spec.Delaunay.good (h : Delaunay g T) : Good g T := by
  refine ⟨h.ghost, h.simple, h.closed, ?_, ?_, ?_⟩
  · intro t ht
    rcases h.shape t ht with k | k
    · exact Or.inl (solid_iff.1 k)
    · exact Or.inr (outer_iff.1 k)
  · intro t ht hs p hp
    cases hc : circumcenter t.v1 t.v2 t.v3 with
    | none =>
      have := (Props.C03_none_iff _ _ _).1 hc
      have := hs.ccw
      linarith
    | some o =>
      have he := (Props.C03_some hc).1
      rw [circleDet_eq he]
      have := h.emptyCircle t ht (solid_iff.2 hs) o he p hp
      have := hs.ccw
      nlinarith
  · intro t ht hg p hp
    have hne := real_ne hg.r1 hg.r2 hg.ne
    refine ⟨h.convex t ht (outer_iff.2 hg) p hp, fun h0 => ?_⟩
    by_contra hn
    push Not at hn
    exact h.elementary t ht (outer_iff.2 hg) p hp ((strictlyOn_iff hne).2 ⟨h0, hn⟩)

theorem Good.delaunay (h : Good g T) (hst : (∃ t ∈ T, SolidTri t) ∨ Segm g T) : Delaunay g T where
  ghost := h.ghost
  simple := h.simple
  closed := h.closed
  shape t ht := (h.shape t ht).imp solid_iff.2 outer_iff.2
  emptyCircle t ht hs o ho p hp := by
    have := h.empty t ht (solid_iff.1 hs) p hp
    rw [circleDet_eq ho] at this
    have h2 := hs.2.2.2
    by_contra hc
    push Not at hc
    nlinarith
  convex t ht hg p hp := (h.hull t ht (outer_iff.1 hg) p hp).1
  elementary t ht hg p hp hs := by
    have hg' := outer_iff.1 hg
    have := (strictlyOn_iff (real_ne hg'.r1 hg'.r2 hg'.ne)).1 hs
    have := (h.hull t ht hg' p hp).2 this.1
    linarith
  start := hst.imp (fun ⟨t, h1, h2⟩ => ⟨t, h1, solid_iff.2 h2⟩) id

/-- The predicates without boundary and holes, computed exactly. -/
abbrev freePreds (f : Nat) : Preds (Vertex K) := geoPreds (0 : K) f none []

theorem free_may (f : Nat) (t : Tri (Vertex K)) (w : Vertex K) : (freePreds f).mayInsert t w = .ok true := rfl

theorem solid_notGhost {t : Tri (Vertex K)} (h : SolidTri t) : t.isGhost Vertex.isGhost = false := by
  simp [Tri.isGhost, h.r1, h.r2, h.r3]

theorem ghost_isGhost (hg : g.isGhost = true) {t : Tri (Vertex K)} (h : GhostTri g t) :
    t.isGhost Vertex.isGhost = true := by
  simp [Tri.isGhost, h.g3, hg]

theorem free_inside_solid (f : Nat) {t : Tri (Vertex K)} (h : SolidTri t) (w : Vertex K) :
    (freePreds f).inside t w = true ↔ 0 < circleDet t.v1 t.v2 t.v3 w := by
  show decide (t.encircles 0 w = .inside) = true ↔ _
  rw [decide_eq_true_iff, Tri.encircles, solid_notGhost h]
  simp only [Bool.not_false, if_true, continence]
  by_cases h1 : circleDet t.v1 t.v2 t.v3 w = 0
  · rw [if_pos (approxEq_zero_eps.2 h1), h1]; simp
  · rw [if_neg (fun h => h1 (approxEq_zero_eps.1 h))]
    split_ifs with h2 <;> simp <;> linarith

theorem free_inside_ghost (f : Nat) (hg : g.isGhost = true) {t : Tri (Vertex K)} (h : GhostTri g t) (w : Vertex K) :
    (freePreds f).inside t w = true ↔ 0 < cross t.v1 t.v2 w := by
  show decide (t.encircles 0 w = .inside) = true ↔ _
  rw [decide_eq_true_iff, Tri.encircles, ghost_isGhost hg h]
  simp only [Bool.not_true, Bool.false_eq_true, if_false]
  rw [← Props.C01_counterclockwise_iff le_rfl]
  cases orientation 0 t.v1 t.v2 w <;> simp

theorem Good.expandable_iff (hT : Good g T) (f : Nat) {t : Tri (Vertex K)} (ht : t ∈ T) {v : Vertex K}
    (hv : v.isGhost = false) (hvx : ¬ Vx T v) : Expandable (freePreds f) v t ↔ Conf v t := by
  unfold Expandable conflicting
  rw [free_may]
  simp only [Bool.or_eq_true, Bool.and_eq_true, and_true]
  rcases hT.shape t ht with h | h
  · rw [free_inside_solid f h, conf_solid h]
    have := solid_notGhost h
    constructor
    · rintro (k | ⟨k, -⟩)
      · exact k
      · exact absurd (this.symm.trans k) (by simp)
    · exact Or.inl
  · rw [free_inside_ghost f hT.ghost h, conf_ghost hT.ghost h]
    have hc := hT.corners ht
    have hne := real_ne h.r1 h.r2 h.ne
    have n1 : ¬ SamePoint t.v1 v := real_ne h.r1 hv fun e => hvx (e ▸ hc.1)
    have n2 : ¬ SamePoint t.v2 v := real_ne h.r2 hv fun e => hvx (e ▸ hc.2)
    rw [← strictlyOn_iff hne]
    have e : (freePreds f).onEdge ⟨t.v1, t.v2⟩ v = true ↔ OnSegment t.v1 t.v2 v := Props.C07_exact _ _
    rw [e]
    have := ghost_isGhost hT.ghost h
    simp only [StrictlyOn, n1, n2, not_false_eq_true, and_true]
    show _ ∨ (t.isGhost Vertex.isGhost = true ∧ _) ↔ _
    rw [this]; simp

/-- What is needed of a point to be inserted: it is strictly inside some triangle. -/
theorem Good.ready (hT : Good g T) (hst : (∃ t ∈ T, SolidTri t) ∨ Segm g T) (f : Nat) {v : Vertex K}
    (hv : v.isGhost = false) (hvx : ¬ Vx T v) {t0 : Tri (Vertex K)} (ht0 : t0 ∈ T)
    (hin : (freePreds f).inside t0 v = true) :
    Tangents g T v ∧ ∀ R, Patch T v R → ∀ t ∈ T, Conf v t → t ∈ R := by
  rcases hst with ⟨s, hs, hsol⟩ | ⟨a, b, hp⟩
  · refine ⟨⟨fun t ht hg _ => Or.inr (hT.off hs hsol ht hg), ?_, ?_, ?_⟩,
      fun R hR => hT.patch_all hv hvx hs hsol hR⟩
    · intro t ht s' hs' hg hg' he hc hn p hp
      obtain ⟨q, hq, hqc⟩ := hT.off hs hsol ht hg
      exact hT.tan_end ht hg hs' hg' he hc hn hq hqc hp
    · intro t ht s' hs' hg hg' he hc hn p hp
      obtain ⟨q, hq, hqc⟩ := hT.off hs hsol ht hg
      exact hT.tan_start ht hg hs' hg' he hc hn hq hqc hp
    · intro t ht s1 hs1 t' ht' s1' hs1' hg hg1 he hc hn hg' hg1' he' hc' hn'
      obtain ⟨q, hq, hqc⟩ := hT.off hs hsol ht hg
      obtain ⟨q', hq', hqc'⟩ := hT.off hs hsol ht' hg'
      exact hT.tan_unique hv hvx ht hg hs1 hg1 he hc hn ht' hg' hs1' hg1' he' hc' hn' hq hqc hq' hqc'
  · have hm : ∀ t, t ∈ T ↔ t = ⟨a, b, g⟩ ∨ t = ⟨b, a, g⟩ := by
      intro t; rw [hp.mem_iff]; simp
    have hgh : ∀ t ∈ T, GhostTri g t := by
      intro t ht
      rcases hT.shape t ht with h | h
      · exfalso
        rcases (hm t).1 ht with rfl | rfl
        · exact ghost_ne h.r3 hT.ghost rfl
        · exact ghost_ne h.r3 hT.ghost rfl
      · exact h
    have hoff : cross a b v ≠ 0 := by
      rw [free_inside_ghost f hT.ghost (hgh t0 ht0)] at hin
      rcases (hm t0).1 ht0 with rfl | rfl
      · exact hin.ne'
      · simp only at hin
        rw [cross_swap] at hin
        intro h0
        rw [h0] at hin; simp at hin
    have hpos : ∀ t ∈ T, Conf v t → 0 < cross t.v1 t.v2 v := by
      intro t ht hc
      have h1 := conf_ghost_nonneg hT.ghost (hgh t ht) hc
      refine lt_of_le_of_ne h1 ?_
      rcases (hm t).1 ht with rfl | rfl
      · exact hoff.symm
      · simp only
        rw [cross_swap]
        exact fun h => hoff (by linarith)
    have huniq : ∀ t ∈ T, ∀ t' ∈ T, Conf v t → Conf v t' → t = t' := by
      intro t ht t' ht' hc hc'
      have h1 := hpos t ht hc
      have h2 := hpos t' ht' hc'
      rcases (hm t).1 ht with rfl | rfl <;> rcases (hm t').1 ht' with rfl | rfl
      · rfl
      · simp only at h1 h2
        rw [cross_swap] at h2; linarith
      · simp only at h1 h2
        rw [cross_swap] at h1; linarith
      · rfl
    have hvx' : ∀ t ∈ T, ∀ p, Vx T p → p = t.v1 ∨ p = t.v2 := by
      intro t ht p hp
      obtain ⟨⟨s, hs, hc⟩, hpg⟩ := hp
      have hpne : p ≠ g := ghost_ne hpg hT.ghost
      rcases (hm t).1 ht with rfl | rfl <;> rcases (hm s).1 hs with rfl | rfl <;>
        rcases hc with rfl | rfl | rfl <;> simp_all
    refine ⟨⟨fun t ht hg hc => Or.inl (hpos t ht hc), ?_, ?_, ?_⟩, ?_⟩
    · intro t ht s hs hg hg' he hc hn p hp
      have h1 := hpos t ht hc
      rcases hvx' t ht p hp with rfl | rfl
      · have : cross t.v2 v t.v1 = cross t.v1 t.v2 v := by simp only [cross]; ring
        linarith
      · apply le_of_eq; simp only [cross]; ring
    · intro t ht s hs hg hg' he hc hn p hp
      have h1 := hpos t ht hc
      rcases hvx' t ht p hp with rfl | rfl
      · apply le_of_eq; simp only [cross]; ring
      · have : cross t.v1 v t.v2 = -cross t.v1 t.v2 v := by simp only [cross]; ring
        linarith
    · intro t ht s1 hs1 t' ht' s1' hs1' hg hg1 he hc hn hg' hg1' he' hc' hn'
      exact huniq t ht t' ht' hc hc'
    · intro R hR t ht hc
      obtain ⟨r, hr⟩ := List.exists_mem_of_ne_nil _ hR.ne
      have := huniq t ht r (hR.sub r hr).1 hc (hR.sub r hr).2
      exact this ▸ hr

theorem vx_of_fresh {v : Vertex K} (h : Fresh T v) : ¬ Vx T v := by
  rintro ⟨⟨t, ht, hc⟩, -⟩
  exact h t ht hc

/-- The triangle behind a pending edge is always found. -/
theorem Good.adj_found (hT : Good g T) {f : Nat} {v : Vertex K} (hv : v.isGhost = false) (hfr : Fresh T v)
    (htan : Tangents g T v) {m : Mesh (Vertex K)} {e : Edge (Vertex K)} {B L Z : List (Edge (Vertex K))}
    {O R : List (Tri (Vertex K))} (h : CavInv (freePreds f) [] v T m (e :: B) L O R Z) :
    m.adj e.opposite ≠ none := by
  intro hnone
  have hvx := vx_of_fresh hfr
  obtain ⟨r, hr, hside⟩ := h.mem_side_old (e := e) (by simp)
  obtain ⟨t, ht, hts⟩ := hT.across (h.mem_R hr) hside
  have hRn : (sides R).Nodup := simple_iff.1 (simple_part hT.simple h.old)
  rcases List.mem_append.1 (h.old.mem_iff.1 ht) with k | k
  · have hm : e.opposite ∈ sides R := mem_sides.2 ⟨t, k, hts⟩
    have hnd := h.bdry.nodup_iff.1 hRn
    rw [List.nodup_append] at hnd
    rcases List.mem_append.1 (h.bdry.mem_iff.1 hm) with k' | k'
    · have k2 : e.opposite ∈ B := by
        rcases List.mem_append.1 k' with k' | k'
        · rcases List.mem_cons.1 k' with k' | k'
          · exfalso
            -- an edge is not its own opposite
            have h12 : e.v1 = e.v2 := congrArg Edge.v2 k'
            by_cases hre : RealEdge e
            · rcases hT.side_real (h.mem_R hr) hside hre with ⟨-, c, -, hc, -⟩ | ⟨hg, h1, h2⟩
              · rw [h12] at hc
                simp only [cross] at hc
                ring_nf at hc
                simp at hc
              · exact hg.ne (h1 ▸ h2 ▸ h12)
            · obtain ⟨hg, hc⟩ := hT.side_ghost (h.mem_R hr) hside hre
              rcases hc with ⟨c1, c2⟩ | ⟨c1, c2⟩
              · exact ghost_ne hg.r2 hT.ghost (c1 ▸ c2 ▸ h12)
              · exact ghost_ne hg.r1 hT.ghost (c2 ▸ c1 ▸ h12.symm)
          · exact k'
        · exfalso
          rcases h.links _ k' with hc | ⟨t', ht', hside', hne', -⟩
          · simp [Constrained] at hc
          · rw [opposite_opposite] at hside'
            have := hT.simple.edgeDisjoint t' ht' r (h.mem_R hr) e hside' hside
            exact hne' (this ▸ h.exp r hr)
      obtain ⟨B1, B2, rfl⟩ := List.append_of_mem k2
      refine hT.no_loop (v := v) (R := R) (I := e :: Z) (X := B1 ++ B2 ++ L) ?_ ?_ ?_ ?_ hRn ?_ ?_
      · exact (List.nodup_append.1 (h.old.nodup_iff.1 hT.simple.nodup)).1
      · rintro rfl; simp at hr
      · intro x hx
        exact ⟨h.mem_R hx, (hT.expandable_iff f (h.mem_R hx) hv hvx).1 (h.exp x hx)⟩
      · intro x hx hg
        exact htan.off x (h.mem_R hx) hg ((hT.expandable_iff f (h.mem_R hx) hv hvx).1 (h.exp x hx))
      · refine h.bdry.trans ?_
        rw [List.perm_iff_count]
        intro x
        simp only [List.map_cons, List.count_append, List.count_cons]
        omega
      · rw [List.length_cons, h.tree]
    · exfalso
      have k2 : e ∈ Z ++ Z.map Edge.opposite := by
        rcases List.mem_append.1 k' with k' | k'
        · exact List.mem_append.2 (Or.inr (List.mem_map.2 ⟨_, k', opposite_opposite e⟩))
        · obtain ⟨z, hz, hze⟩ := List.mem_map.1 k'
          have : z = e := by rw [← opposite_opposite z, hze, opposite_opposite]
          exact List.mem_append.2 (Or.inl (this ▸ hz))
      exact hnd.2.2 e (by simp) e k2 rfl
  · rw [h.keep t k _ hts] at hnone
    simp at hnone

theorem splitConflicts_ok {V : Type*} [DecidableEq V] {P : Preds V} (hm : ∀ t w, P.mayInsert t w = .ok true)
    (t : Tri V) (vs : List V) : ∃ q, splitConflicts P t vs = .ok q := by
  induction vs with
  | nil => exact ⟨_, rfl⟩
  | cons w vs ih =>
    obtain ⟨q, hq⟩ := ih
    simp only [splitConflicts, hm, hq, Res.bind_ok]
    split_ifs
    · exact ⟨_, rfl⟩
    · exact ⟨_, rfl⟩

theorem distribute_ok {V : Type*} [DecidableEq V] {P : Preds V} (hm : ∀ t w, P.mayInsert t w = .ok true)
    (t : Tri V) (c : CMap V) (vs : List V) : ∃ q, distribute P t c vs = .ok q := by
  obtain ⟨q, hq⟩ := splitConflicts_ok hm t vs
  exact ⟨_, by unfold distribute; rw [hq]; rfl⟩

theorem distributeAll_ok {V : Type*} [DecidableEq V] {P : Preds V} (hm : ∀ t w, P.mayInsert t w = .ok true)
    (ts : List (Tri V)) (c : CMap V) (vs : List V) : ∃ q, distributeAll P ts c vs = .ok q := by
  induction ts generalizing c vs with
  | nil => exact ⟨_, rfl⟩
  | cons t ts ih =>
    simp only [distributeAll]
    split_ifs
    · exact ⟨_, rfl⟩
    · obtain ⟨q, hq⟩ := distribute_ok hm t c vs
      rw [hq]
      exact ih _ _

theorem Good.cavity_ok (hT : Good g T) {f : Nat} {v : Vertex K} (hv : v.isGhost = false) (hfr : Fresh T v)
    (htan : Tangents g T v) {S : Vertex K → Prop} (hsep : SepOn (freePreds (K := K) f).veq S)
    (hS : ∀ t ∈ T, ∀ x, IsCorner t x → S x) {n : Nat} {inc0 rem0 : List (Tri (Vertex K))} {W : List (Vertex K)}
    {s : SolveState (Vertex K)} {B L Z : List (Edge (Vertex K))} {O R : List (Tri (Vertex K))}
    (h : CavInv (freePreds f) [] v T s.mesh B L O R Z) (hb : Book (freePreds f) v inc0 rem0 W s L R)
    (hn : 2 * O.length + B.length ≤ n) : ∃ s', cavityLoop (freePreds f) [] v n B s = .ok s' := by
  induction n generalizing s B L O R Z with
  | zero =>
    have : B = [] := List.length_eq_zero_iff.1 (by omega)
    subst this
    exact ⟨s, by simp [cavityLoop]⟩
  | succ n ih =>
    cases B with
    | nil => exact ⟨s, by simp [cavityLoop]⟩
    | cons e B =>
      rw [cavityLoop]
      have hok : ∃ r, cavityStep (freePreds f) [] v e s = .ok r := by
        unfold cavityStep
        cases hadj : s.mesh.adj e.opposite with
        | none => exact absurd hadj (hT.adj_found hv hfr htan h)
        | some t =>
          simp only [free_may, Res.bind_ok]
          split_ifs
          · exact ⟨_, rfl⟩
          · obtain ⟨q, hq⟩ := distribute_ok (free_may f) (newTri (freePreds (K := K) f).ghost e v) s.cmap s.remaining
            rw [hq]
            exact ⟨_, rfl⟩
      obtain ⟨r, hr⟩ := hok
      rw [hr, Res.bind_ok]
      simp only [List.length_cons] at hn
      rcases cavityStep_inv h hb hT.simple hfr hsep hS hr with ⟨t, ht, k1, k2, k3⟩ | ⟨k0, k1, k2⟩
      · refine ih k1 k2 ?_
        have : O.length = (O.erase t).length + 1 := by
          rw [List.length_erase_of_mem ht]
          have := List.length_pos_of_mem ht
          omega
        rw [List.length_append, k3]
        omega
      · rw [k0]
        exact ih k1 k2 (by simp; omega)

/-- The vertices that occur: ordinary ones and one ghost. -/
def Usual (g : Vertex K) (x : Vertex K) : Prop := x.isGhost = false ∨ x = g

theorem usual_sep (hg : g.isGhost = true) (f : Nat) : SepOn (freePreds (K := K) f).veq (Usual g) := by
  intro a b ha hb
  show Vertex.eqv 0 a b = true ↔ a = b
  rcases ha with ha | rfl <;> rcases hb with hb | rfl
  · rw [eqv_zero ha hb]
    constructor
    · intro h
      by_contra hne
      exact real_ne ha hb hne h
    · rintro rfl; exact ⟨rfl, rfl⟩
  · simp only [Vertex.eqv, ha, hg]
    simp
    exact ghost_ne ha hg
  · simp only [Vertex.eqv, hb, hg]
    simp
    exact (ghost_ne hb hg).symm
  · simp [Vertex.eqv, hg]

/-- The invariant of the outer loop. -/
structure Nice (g : Vertex K) (f : Nat) (s : SolveState (Vertex K)) : Prop where
  legit : Legit (freePreds f) (Usual g) s
  good : Good g s.mesh.tris
  start : (∃ t ∈ s.mesh.tris, SolidTri t) ∨ Segm g s.mesh.tris
  real : ∀ w ∈ s.cmap.flat ++ s.remaining, w.isGhost = false

theorem Good.hollow (hT : Good g T) {f : Nat} {v : Vertex K} (hv : v.isGhost = false) (hfr : Fresh T v)
    (hall : ∀ R, Patch T v R → ∀ t ∈ T, Conf v t → t ∈ R) {m : Mesh (Vertex K)}
    {L Z : List (Edge (Vertex K))} {O R : List (Tri (Vertex K))}
    (h : CavInv (freePreds f) [] v T m [] L O R Z) (hne : R ≠ []) : Hollow T v R O L Z := by
  have hvx := vx_of_fresh hfr
  have hnd := h.old.nodup_iff.1 hT.simple.nodup
  rw [List.nodup_append] at hnd
  have hb : (sides R).Perm (L ++ (Z ++ Z.map Edge.opposite)) := h.bdry
  have hconf : ∀ r ∈ R, Conf v r := fun r hr => (hT.expandable_iff f (h.mem_R hr) hv hvx).1 (h.exp r hr)
  have hlink : ∀ l ∈ L, ∃ t ∈ T, IsSide t l.opposite ∧ ¬ Conf v t := by
    intro l hl
    rcases h.links l hl with hc | ⟨t, ht, hs, hn, -⟩
    · simp [Constrained] at hc
    · exact ⟨t, ht, hs, fun hc => hn ((hT.expandable_iff f ht hv hvx).2 hc)⟩
  refine ⟨h.old, hb, hne, hconf, hlink, ?_⟩
  intro t ht hc
  have hp : Patch T v R := by
    refine ⟨fun r hr => ⟨h.mem_R hr, hconf r hr⟩, hnd.1, hne, ?_⟩
    intro r hr e he t ht hte htc
    have hm : e ∈ sides R := mem_sides.2 ⟨r, hr, he⟩
    rcases List.mem_append.1 (hb.mem_iff.1 hm) with k | k
    · obtain ⟨t', ht', hs', hn'⟩ := hlink e k
      have := hT.simple.edgeDisjoint t ht t' ht' _ hte hs'
      exact absurd (this ▸ htc) hn'
    · have : e.opposite ∈ sides R := by
        refine hb.mem_iff.2 (List.mem_append.2 (Or.inr ?_))
        rcases List.mem_append.1 k with k | k
        · exact List.mem_append.2 (Or.inr (List.mem_map_of_mem k))
        · obtain ⟨z, hz, hze⟩ := List.mem_map.1 k
          rw [← hze, opposite_opposite]
          exact List.mem_append.2 (Or.inl hz)
      obtain ⟨t', ht', hs'⟩ := mem_sides.1 this
      have := hT.simple.edgeDisjoint t ht t' (h.mem_R ht') _ hte hs'
      exact this ▸ ht'
  exact hnd.2.2 t (hall R hp t (h.mem_O ht) hc) t ht rfl

/-- One iteration of the outer loop, in a Delaunay mesh. -/
theorem Nice.step {f fuel : Nat} {s : SolveState (Vertex K)} (h : Nice g f s) (hne : s.cmap ≠ [])
    (hf : 2 * s.mesh.tris.length + 3 ≤ fuel) (σ : Sched) :
    ∃ s', solveStep (freePreds f) [] fuel σ s = .ok s' ∧ Nice g f s' ∧ (∃ t ∈ s'.mesh.tris, SolidTri t) ∧
      ∃ v L O R Z, v ∈ s.cmap.flat ∧ Inserts (freePreds f) [] s v s' L O R Z := by
  have hsep := usual_sep h.good.ghost f
  -- the step runs
  have hrun : ∃ s', solveStep (freePreds f) [] fuel σ s = .ok s' := by
    unfold solveStep
    cases hc : choose σ s.cmap with
    | none => exact absurd (choose_eq_none.1 hc) hne
    | some p =>
      obtain ⟨t, l⟩ := p
      simp only
      have hmem := choose_mem hc
      have hlne : l ≠ [] := h.legit.wf.2 (t, l) hmem
      obtain ⟨v, hvl⟩ : ∃ v, l.getLast? = some v := by
        cases hl : l.getLast? with
        | none => exact absurd (List.getLast?_eq_none_iff.1 hl) hlne
        | some v => exact ⟨v, rfl⟩
      rw [hvl]
      simp only
      obtain ⟨hflat, hcav, W, hW, hbook⟩ := solveStep_open h.legit h.good.simple hmem hvl []
      have hfr := h.legit.pendF v (List.mem_append.2 (Or.inl hflat))
      have hv := h.real v (List.mem_append.2 (Or.inl hflat))
      obtain ⟨htan, -⟩ := h.good.ready h.start f hv (vx_of_fresh hfr) (h.legit.keys t l hmem)
        (h.legit.bucket t l hmem v (List.mem_of_getLast? hvl)).1
      refine h.good.cavity_ok hv hfr htan hsep h.legit.meshS hcav hbook ?_
      have : (s.mesh.tris.erase t).length ≤ s.mesh.tris.length := List.length_erase_le
      simp only [openEdges, List.length_cons, List.length_nil]
      omega
  obtain ⟨s', hs'⟩ := hrun
  obtain ⟨hl', v, L, O, R, Z, hflat, hi⟩ := solveStep_inv hsep h.legit h.good.simple hs'
  have hv := h.real v (List.mem_append.2 (Or.inl hflat))
  have hvx := vx_of_fresh hi.fresh
  obtain ⟨p, hp, hvp⟩ := List.mem_flatMap.1 hflat
  obtain ⟨t, l⟩ := p
  obtain ⟨htan, hall⟩ := h.good.ready h.start f hv hvx (h.legit.keys t l hp) (h.legit.bucket t l hp v hvp).1
  have hh := h.good.hollow hv hi.fresh hall hi.cav hi.nonempty
  obtain ⟨hg', hsol⟩ := hh.good h.good htan hv hvx hi.cav.now (hi.cav.watertight hi.fresh h.good.closed)
  refine ⟨s', hs', ⟨hl', hg', Or.inl hsol, ?_⟩, hsol, v, L, O, R, Z, hflat, hi⟩
  intro w hw
  exact h.real w (hi.pend.mem_iff.2 (List.mem_cons_of_mem _ hw))

/-- The outer loop, in a Delaunay mesh. -/
theorem Nice.loop {f fuel n : Nat} {s : SolveState (Vertex K)} (h : Nice g f s)
    (hf : 2 * (s.mesh.tris.length + 2 * (s.cmap.flat ++ s.remaining).length) + 3 ≤ fuel)
    (hn : (s.cmap.flat ++ s.remaining).length ≤ n) (σ : Sched) :
    ∃ s', solveLoop (freePreds f) [] fuel n σ s = .ok s' ∧ Nice g f s' ∧ s'.cmap = [] ∧
      (s.cmap ≠ [] ∨ (∃ t ∈ s.mesh.tris, SolidTri t) → ∃ t ∈ s'.mesh.tris, SolidTri t) := by
  induction n generalizing σ s with
  | zero =>
    have hc : s.cmap = [] := by
      by_contra hne
      obtain ⟨p, hp⟩ := List.exists_mem_of_ne_nil _ hne
      have : (s.cmap.flat ++ s.remaining) = [] := List.length_eq_zero_iff.1 (by omega)
      have : s.cmap.flat = [] := (List.append_eq_nil_iff.1 this).1
      obtain ⟨w, hw⟩ := List.exists_mem_of_ne_nil _ (h.legit.wf.2 p hp)
      have : w ∈ s.cmap.flat := List.mem_flatMap.2 ⟨p, hp, hw⟩
      simp_all
    exact ⟨s, by simp [solveLoop, hc], h, hc, fun k => k.resolve_left (fun k => k hc)⟩
  | succ n ih =>
    rw [solveLoop]
    split_ifs with hc
    · exact ⟨s, rfl, h, hc, fun k => k.resolve_left (fun k => k hc)⟩
    · obtain ⟨s1, h1, n1, hsol, v, L, O, R, Z, hv, hi⟩ := h.step hc (fuel := fuel) (by omega) (σ.sub 0)
      rw [h1, Res.bind_ok]
      have hlen := hi.length
      have hp := hi.pend.length_eq
      simp only [List.length_cons] at hp
      obtain ⟨s2, k1, k2, k3, k4⟩ := ih n1 (by rw [hlen]; omega) (by omega) (σ.sub 1)
      exact ⟨s2, k1, k2, k3, fun _ => k4 (Or.inr hsol)⟩

/-- Every point of the plane that is not outside the hull is in a triangle. -/
theorem Good.covered (hT : Good g T) {s : Tri (Vertex K)} (hs : s ∈ T) (hsol : SolidTri s) {w : Vertex K}
    (hw : ∀ t ∈ T, GhostTri g t → cross t.v1 t.v2 w ≤ 0) :
    ∃ t ∈ T, SolidTri t ∧ 0 ≤ cross t.v2 t.v3 w ∧ 0 ≤ cross t.v3 t.v1 w ∧ 0 ≤ cross t.v1 t.v2 w := by
  -- some hull edge has the point strictly on its right
  have hex : ∃ t ∈ T, GhostTri g t ∧ cross t.v1 t.v2 w < 0 := by
    by_contra hc
    push Not at hc
    let φ : Edge (Vertex K) → K := fun e => if RealEdge e then cross e.v1 e.v2 w else 0
    have hφ : ∀ e, φ e.opposite = -φ e := by
      intro e
      have hr : RealEdge e.opposite ↔ RealEdge e := by simp [RealEdge, Edge.opposite, and_comm]
      simp only [φ, hr]
      split_ifs
      · simp only [Edge.opposite]; rw [cross_swap]
      · simp
    have h0 := (balanced_of_watertight hT.closed).sum_zero (f := φ) hφ
    rw [sum_sides'] at h0
    have hnn : ∀ t ∈ T, 0 ≤ (t.innerEdges.map φ).sum ∧ (SolidTri t → (t.innerEdges.map φ).sum = cross t.v1 t.v2 t.v3) := by
      intro t ht
      have key : SolidTri t → (t.innerEdges.map φ).sum = cross t.v1 t.v2 t.v3 := by
        intro h
        simp only [Tri.innerEdges, List.map_cons, List.map_nil, List.sum_cons, List.sum_nil, φ]
        rw [if_pos (show RealEdge ⟨t.v1, t.v2⟩ from ⟨h.r1, h.r2⟩), if_pos (show RealEdge ⟨t.v2, t.v3⟩ from ⟨h.r2, h.r3⟩),
          if_pos (show RealEdge ⟨t.v3, t.v1⟩ from ⟨h.r3, h.r1⟩)]
        simp only [cross]; ring
      refine ⟨?_, key⟩
      rcases hT.shape t ht with h | h
      · rw [key h]; exact h.ccw.le
      · have hz : cross t.v1 t.v2 w = 0 := le_antisymm (hw t ht h) (hc t ht h)
        simp only [Tri.innerEdges, List.map_cons, List.map_nil, List.sum_cons, List.sum_nil, φ]
        rw [if_neg (show ¬ RealEdge ⟨t.v2, t.v3⟩ from fun k => ghost_ne k.2 hT.ghost h.g3),
          if_neg (show ¬ RealEdge ⟨t.v3, t.v1⟩ from fun k => ghost_ne k.1 hT.ghost h.g3)]
        simp [hz]
    have := sum_nonneg_eq (fun t ht => (hnn t ht).1) h0 s hs
    rw [(hnn s hs).2 hsol] at this
    have := hsol.ccw
    linarith
  obtain ⟨t0, ht0, hg0, hlt⟩ := hex
  set ux := t0.v2.x - w.x with hux
  set uy := t0.v2.y - w.y with huy
  have c0 : crs w ux uy ⟨t0.v1, t0.v2⟩ = -1 := by
    have := crs_start (v := w) (e := ⟨t0.v2, t0.v1⟩) ⟨hg0.r2, hg0.r1⟩ (by simp only; rw [cross_swap]; linarith)
    have h2 := crs_opposite w ux uy ⟨t0.v2, t0.v1⟩
    simp only [Edge.opposite] at h2
    rw [h2]
    simp only at this
    rw [this]
  by_contra hc
  push Not at hc
  have h0 := hT.sum_wnd w ux uy
  have hle : ∀ t ∈ T, 0 ≤ -wnd w ux uy t := by
    intro t ht
    rcases hT.shape t ht with h | h
    · by_contra hn
      push Not at hn
      obtain ⟨k1, k2, k3⟩ := wnd_pos h (by omega : 0 < wnd w ux uy t)
      have := hc t ht h k1 k2
      linarith
    · rw [wnd_ghost hT.ghost h]
      have h1 := crs_opposite w ux uy ⟨t.v1, t.v2⟩
      have h2 := crs_nonneg (v := w) (ux := ux) (uy := uy) (e := Edge.opposite ⟨t.v1, t.v2⟩) (by
        simp only [Edge.opposite]; rw [cross_swap]; have := hw t ht h; linarith)
      omega
  have hz : (T.map fun t => -wnd w ux uy t).sum = 0 := by rw [sum_map_neg', h0]; rfl
  have := sum_nonneg_eq hle hz t0 ht0
  rw [wnd_ghost hT.ghost hg0, c0] at this
  omega

/-- A new point is strictly inside some triangle, by the test of the code. -/
theorem Good.exists_inside (hT : Good g T) {s : Tri (Vertex K)} (hs : s ∈ T) (hsol : SolidTri s) (f : Nat) {w : Vertex K}
    (hv : w.isGhost = false) (hvx : ¬ Vx T w) : ∃ t ∈ T, (freePreds f).inside t w = true := by
  by_cases hw : ∀ t ∈ T, GhostTri g t → cross t.v1 t.v2 w ≤ 0
  · obtain ⟨t, ht, h, k1, k2, k3⟩ := hT.covered hs hsol hw
    refine ⟨t, ht, (free_inside_solid f h w).2 (circleDet_inside h.ccw k3 k1 k2 ?_ ?_ ?_)⟩
    · exact real_ne hv h.r1 fun e => hvx (e ▸ ⟨⟨t, ht, Or.inl rfl⟩, h.r1⟩)
    · exact real_ne hv h.r2 fun e => hvx (e ▸ ⟨⟨t, ht, Or.inr (Or.inl rfl)⟩, h.r2⟩)
    · exact real_ne hv h.r3 fun e => hvx (e ▸ ⟨⟨t, ht, Or.inr (Or.inr rfl)⟩, h.r3⟩)
  · push Not at hw
    obtain ⟨t, ht, h, hc⟩ := hw
    exact ⟨t, ht, (free_inside_ghost f hT.ghost h w).2 hc⟩

end

end Verif
