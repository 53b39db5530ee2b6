import Verif.Lemmas.DelaunayRun

/-!
# Two tables of predicates that agree where the insertion asks

The insertion of vertices in a Delaunay mesh asks only about triangles that are counterclockwise or over a hull edge, and
only about vertices that are not corners of the triangle. Tables that agree on these questions lead to the same run.
-/

set_option linter.unusedSectionVars false

namespace Verif

open Spec

variable {K : Type*} [Field K] [LinearOrder K] [IsStrictOrderedRing K]

/-- The vertices of `D` and the ghost. -/
def Among (D : Vertex K → Prop) (g x : Vertex K) : Prop := (x.isGhost = false ∧ D x) ∨ x = g

/-- `Q` answers as the exact tests do, for vertices of `D` (and the ghost), wherever the insertion asks. -/
structure Same (Q : Preds (Vertex K)) (g : Vertex K) (D : Vertex K → Prop) : Prop where
  ghost : Q.ghost = Vertex.isGhost
  may : ∀ t w, Q.mayInsert t w = .ok true
  veq : ∀ a b, Among D g a → Among D g b → Q.veq a b = Vertex.eqv 0 a b
  inside : ∀ (f : Nat) (t : Tri (Vertex K)) (v : Vertex K), SolidTri t ∨ GhostTri g t →
    (∀ x, IsCorner t x → Among D g x) → v.isGhost = false → D v → ¬ IsCorner t v →
    Q.inside t v = (freePreds f).inside t v
  onEdge : ∀ (f : Nat) (t : Tri (Vertex K)) (v : Vertex K), GhostTri g t →
    (∀ x, IsCorner t x → Among D g x) → v.isGhost = false → D v → ¬ IsCorner t v →
    Q.onEdge ⟨t.v1, t.v2⟩ v = (freePreds f).onEdge ⟨t.v1, t.v2⟩ v

section

variable {g : Vertex K} {T : List (Tri (Vertex K))} {Q : Preds (Vertex K)} {D : Vertex K → Prop} {f : Nat}

theorem among_sep (hg : g.isGhost = true) (D : Vertex K → Prop) (f : Nat) :
    SepOn (freePreds (K := K) f).veq (Among D g) := by
  have hu : ∀ a, Among D g a → Usual g a := fun a h => h.imp And.left id
  exact fun a b ha hb => usual_sep hg f a b (hu a ha) (hu b hb)

theorem splitConflicts_same {P Q : Preds (Vertex K)} {t : Tri (Vertex K)} {vs : List (Vertex K)}
    (hm : ∀ w ∈ vs, Q.mayInsert t w = P.mayInsert t w) (hi : ∀ w ∈ vs, Q.inside t w = P.inside t w) :
    splitConflicts Q t vs = splitConflicts P t vs := by
  induction vs with
  | nil => rfl
  | cons w vs ih =>
    simp only [splitConflicts]
    rw [hm w (by simp), hi w (by simp), ih (fun x hx => hm x (by simp [hx])) fun x hx => hi x (by simp [hx])]

theorem Same.distribute (h : Same Q g D) {t : Tri (Vertex K)} {vs : List (Vertex K)} (c : CMap (Vertex K))
    (hs : SolidTri t ∨ GhostTri g t) (hc : ∀ x, IsCorner t x → Among D g x)
    (hv : ∀ w ∈ vs, w.isGhost = false ∧ D w ∧ ¬ IsCorner t w) :
    Verif.distribute Q t c vs = Verif.distribute (freePreds f) t c vs := by
  unfold Verif.distribute
  rw [splitConflicts_same (fun w _ => h.may t w) fun w hw =>
    h.inside f t w hs hc (hv w hw).1 (hv w hw).2.1 (hv w hw).2.2]

theorem Same.pushes (h : Same Q g D) {t : Tri (Vertex K)} {e : Edge (Vertex K)} (hc : ∀ x, IsCorner t x → Among D g x)
    (he : Among D g e.v1 ∧ Among D g e.v2) :
    cavityPushes Q.veq t e = cavityPushes (freePreds (K := K) f).veq t e := by
  have h1 := hc t.v1 (Or.inl rfl)
  have h2 := hc t.v2 (Or.inr (Or.inl rfl))
  have h3 := hc t.v3 (Or.inr (Or.inr rfl))
  have k : ∀ a b : Vertex K, Among D g a → Among D g b → Q.veq a b = (freePreds (K := K) f).veq a b :=
    fun a b ha hb => h.veq a b ha hb
  unfold cavityPushes Edge.eqv
  simp only [k _ _ he.1 h1, k _ _ he.1 h2, k _ _ he.2 h2, k _ _ he.2 h3]

/-- The triangle over a pending edge whose far side is not in conflict. -/
theorem Good.new_shape (hT : Good g T) {v : Vertex K} (hv : v.isGhost = false) (hfr : Fresh T v) {r t : Tri (Vertex K)}
    {e : Edge (Vertex K)} (hr : r ∈ T) (hre : IsSide r e) (hrc : Conf v r) (ht : t ∈ T) (hte : IsSide t e.opposite)
    (hn : ¬ Conf v t) : SolidTri (newTri Vertex.isGhost e v) ∨ GhostTri g (newTri Vertex.isGhost e v) := by
  have hne := hfr.ends (mem_sides.2 ⟨r, hr, hre⟩)
  by_cases hreal : RealEdge e
  · left
    have hc : 0 < cross e.v1 e.v2 v := by
      by_contra hle
      push Not at hle
      exact hn (hT.pencil hr ht hreal hre hte hrc hle)
    unfold newTri
    rw [if_neg (by simp [hreal.1]), if_neg (by simp [hreal.2])]
    exact ⟨hreal.1, hreal.2, hv, hc⟩
  · right
    obtain ⟨hg, hc⟩ := hT.side_ghost hr hre hreal
    unfold newTri
    rcases hc with ⟨c1, c2⟩ | ⟨c1, c2⟩
    · rw [if_neg (by rw [c1, hg.r2]; simp), if_pos (by rw [c2]; exact hT.ghost)]
      exact ⟨hv, by rw [c1]; exact hg.r2, hne.1.symm, c2⟩
    · rw [if_pos (by rw [c1]; exact hT.ghost)]
      exact ⟨by rw [c2]; exact hg.r1, hv, hne.2, c1⟩

theorem Good.cavity_same (hQ : Same Q g D) (hT : Good g T) {v : Vertex K} (hv : v.isGhost = false) (hD : D v)
    (hfr : Fresh T v) (hS : ∀ t ∈ T, ∀ x, IsCorner t x → Among D g x) {W : List (Vertex K)}
    (hW : ∀ w ∈ W, w.isGhost = false ∧ D w ∧ w ≠ v ∧ Fresh T w) {n : Nat} {inc0 rem0 : List (Tri (Vertex K))}
    {s : SolveState (Vertex K)} {B L Z : List (Edge (Vertex K))} {O R : List (Tri (Vertex K))}
    (h : CavInv (freePreds f) [] v T s.mesh B L O R Z) (hb : Book (freePreds f) v inc0 rem0 W s L R) :
    cavityLoop Q [] v n B s = cavityLoop (freePreds f) [] v n B s := by
  have hvx := vx_of_fresh hfr
  induction n generalizing s B L O R Z with
  | zero => cases B <;> simp [cavityLoop]
  | succ n ih =>
    cases B with
    | nil => simp [cavityLoop]
    | cons e B =>
      have hstep : cavityStep Q [] v e s = cavityStep (freePreds f) [] v e s := by
        unfold cavityStep
        cases hadj : s.mesh.adj e.opposite with
        | none => rfl
        | some t =>
          obtain ⟨hside, hfound⟩ := h.found hT.simple hfr List.mem_cons_self hadj
          have htT : t ∈ T := h.mem_O (hfound.resolve_right (by simp [Constrained]))
          have hct := hS t htT
          have hvt : ¬ IsCorner t v := fun k => hfr t htT k
          have hconf : conflicting Q t v = conflicting (freePreds f) t v := by
            unfold conflicting
            rw [hQ.inside f t v (hT.shape t htT) hct hv hD hvt, hQ.ghost]
            rcases hT.shape t htT with k | k
            · show _ = (_ || (t.isGhost Vertex.isGhost && _))
              rw [solid_notGhost k]; simp
            · rw [hQ.onEdge f t v k hct hv hD hvt]; rfl
          obtain ⟨r, hr, hre⟩ := h.mem_side_old (e := e) (by simp)
          have hrT := h.mem_R hr
          have hrc := (hT.expandable_iff f hrT hv hvx).1 (h.exp r hr)
          have hce : Among D g e.v1 ∧ Among D g e.v2 := by
            have := hS r hrT
            rcases hre with ⟨e1, e2⟩ | ⟨e1, e2⟩ | ⟨e1, e2⟩ <;> rw [e1, e2]
            · exact ⟨this _ (Or.inl rfl), this _ (Or.inr (Or.inl rfl))⟩
            · exact ⟨this _ (Or.inr (Or.inl rfl)), this _ (Or.inr (Or.inr rfl))⟩
            · exact ⟨this _ (Or.inr (Or.inr rfl)), this _ (Or.inl rfl)⟩
          simp only [hQ.may, free_may, Res.bind_ok]
          rw [hconf]
          split_ifs with hcond
          · rw [hQ.pushes (f := f) hct (e := e.opposite) ⟨hce.2, hce.1⟩]
          · have hn : ¬ Conf v t := by
              intro hc
              have := (hT.expandable_iff f htT hv hvx).2 hc
              apply hcond
              simp [this.1]
            have hshape := hT.new_shape hv hfr hrT hre hrc htT hside hn
            have hcor : ∀ x, IsCorner (newTri Vertex.isGhost e v) x → x = e.v1 ∨ x = e.v2 ∨ x = v := by
              intro x hx
              unfold newTri at hx
              split_ifs at hx <;> rcases hx with hx | hx | hx <;> simp_all
            have hA : ∀ x, IsCorner (newTri Vertex.isGhost e v) x → Among D g x := by
              intro x hx
              rcases hcor x hx with rfl | rfl | rfl
              · exact hce.1
              · exact hce.2
              · exact Or.inl ⟨hv, hD⟩
            rw [hQ.ghost]
            have hd := hQ.distribute (f := f) (vs := s.remaining) s.cmap hshape hA (by
              intro w hw
              obtain ⟨w1, w2, w3, w4⟩ := hW w (hb.pend.mem_iff.1 (List.mem_append.2 (Or.inr hw)))
              refine ⟨w1, w2, fun hc => ?_⟩
              have := w4.ends (mem_sides.2 ⟨r, hrT, hre⟩)
              rcases hcor w hc with k | k | k
              · exact this.1 k.symm
              · exact this.2 k.symm
              · exact w3 k)
            rw [hd]
            rfl
      rw [cavityLoop, cavityLoop, hstep]
      cases hr : cavityStep (freePreds f) [] v e s with
      | ok r =>
        rw [Res.bind_ok, Res.bind_ok]
        rcases cavityStep_inv h hb hT.simple hfr (among_sep hT.ghost D f) hS hr with ⟨t, ht, k1, k2, k3⟩ | ⟨k0, k1, k2⟩
        · exact ih k1 k2
        · rw [k0]
          exact ih k1 k2
      | panic => rfl
      | diverged => rfl

/-- One iteration of the outer loop. -/
theorem Nice.step_same (hQ : Same Q g D) {fuel : Nat} {s : SolveState (Vertex K)} (h : Nice g f s)
    (hl : Legit (freePreds f) (Among D g) s) (σ : Sched) :
    solveStep Q [] fuel σ s = solveStep (freePreds f) [] fuel σ s := by
  unfold solveStep
  cases hc : choose σ s.cmap with
  | none => rfl
  | some p =>
    obtain ⟨t, l⟩ := p
    simp only
    cases hvl : l.getLast? with
    | none => rfl
    | some v =>
      simp only
      have hmem := choose_mem hc
      obtain ⟨hflat, hcav, W, hW, hbook⟩ := solveStep_open hl h.good.simple hmem hvl []
      have hfr := hl.pendF v (List.mem_append.2 (Or.inl hflat))
      have hreal : ∀ w ∈ s.cmap.flat ++ s.remaining, w.isGhost = false ∧ D w := by
        intro w hw
        rcases hl.pendS w hw with k | k
        · exact k
        · exact absurd (h.real w hw) (by rw [k, h.good.ghost]; simp)
      have hv := hreal v (List.mem_append.2 (Or.inl hflat))
      refine h.good.cavity_same hQ hv.1 hv.2 hfr hl.meshS ?_ hcav hbook
      intro w hw
      have hw' := hW.mem_iff.2 (List.mem_cons_of_mem v hw)
      refine ⟨(hreal w hw').1, (hreal w hw').2, ?_, hl.pendF w hw'⟩
      have hnd := hW.nodup_iff.1 hl.pendN
      rintro rfl
      exact (List.nodup_cons.1 hnd).1 hw

theorem Nice.loop_same (hQ : Same Q g D) {fuel n : Nat} {s : SolveState (Vertex K)} (h : Nice g f s)
    (hl : Legit (freePreds f) (Among D g) s)
    (hf : 2 * (s.mesh.tris.length + 2 * (s.cmap.flat ++ s.remaining).length) + 3 ≤ fuel) (σ : Sched) :
    solveLoop Q [] fuel n σ s = solveLoop (freePreds f) [] fuel n σ s := by
  induction n generalizing σ s with
  | zero => rfl
  | succ n ih =>
    rw [solveLoop, solveLoop]
    split_ifs with hc
    · rfl
    · obtain ⟨s1, h1, n1, hsol, v, L, O, R, Z, hv, hi⟩ := h.step hc (fuel := fuel) (by omega) (σ.sub 0)
      obtain ⟨l1, -⟩ := solveStep_inv (among_sep h.good.ghost D f) hl h.good.simple h1
      rw [h.step_same hQ hl, h1, Res.bind_ok, Res.bind_ok]
      have hlen := hi.length
      have hp := hi.pend.length_eq
      simp only [List.length_cons] at hp
      exact ih n1 l1 (by rw [hlen]; omega) (σ.sub 1)

theorem distributeAll_same {P Q : Preds (Vertex K)} {ts : List (Tri (Vertex K))} {c : CMap (Vertex K)} {vs : List (Vertex K)}
    (h : ∀ t ∈ ts, ∀ w ∈ vs, Q.mayInsert t w = P.mayInsert t w ∧ Q.inside t w = P.inside t w) :
    distributeAll Q ts c vs = distributeAll P ts c vs := by
  induction ts generalizing c vs with
  | nil => rfl
  | cons t ts ih =>
    have e : Verif.distribute Q t c vs = Verif.distribute P t c vs := by
      unfold Verif.distribute
      rw [splitConflicts_same (fun w hw => (h t (by simp) w hw).1) fun w hw => (h t (by simp) w hw).2]
    simp only [distributeAll, e]
    split_ifs
    · rfl
    · cases hd : Verif.distribute P t c vs with
      | ok q =>
        rw [Res.bind_ok, Res.bind_ok]
        refine ih fun t' ht' w hw => h t' (by simp [ht']) w ?_
        unfold Verif.distribute at hd
        rw [Res.bind_eq_ok] at hd
        obtain ⟨r, hr, hd⟩ := hd
        simp only [Res.ok.injEq] at hd
        subst hd
        exact (splitConflicts_spec hr).1.mem_iff.1 (List.mem_append.2 (Or.inr hw))
      | panic => rfl
      | diverged => rfl

end

end Verif
