import Verif.Lemmas.RimSafeLoop

/-!
# Inserting vertices in a triangulated polygon does not panic
-/

set_option linter.unusedSectionVars false

namespace Verif

open Spec Props

variable {K : Type*} [Field K] [LinearOrder K] [IsStrictOrderedRing K]

variable {g : Vertex K} {b : Polyline (Vertex K)} {M : List (Tri (Vertex K))} {v : Vertex K} {f : Nat}
  {C : List (Edge (Vertex K))} {D : Option (Polyline (Vertex K))}

theorem Court.cavity_safe (hG : Court g b D f) (hF : Fit g b.vertices M) (hv : v.isGhost = false)
    (hin : InsidePolygon b.vertices v)
    (hC : ∀ e, Constrained C e → Wall b.vertices e ∨ Wall b.vertices e.opposite) (hfr : Fresh M v)
    (hS : ∀ t ∈ M, ∀ x, IsCorner t x → Usual g x) {n : Nat} {inc0 rem0 : List (Tri (Vertex K))} {W : List (Vertex K)}
    {s : SolveState (Vertex K)} {B L Z : List (Edge (Vertex K))} {O R : List (Tri (Vertex K))}
    (h : CavInv (geoPreds 0 f D []) C v M s.mesh B L O R Z)
    (hb : Book (geoPreds 0 f D []) v inc0 rem0 W s L R) : cavityLoop (geoPreds 0 f D []) C v n B s ≠ .panic := by
  induction n generalizing s B L O R Z with
  | zero => cases B <;> (rw [cavityLoop]; intro h; cases h)
  | succ n ih =>
    cases B with
    | nil => rw [cavityLoop]; intro h; cases h
    | cons e B =>
      rw [cavityLoop]
      refine Res.bind_safe (cavityStep_safe (fun t x => mayInsert_safe 0 f D [] t x) (hG.adj_found hF hv hin hC h))
        fun r hr => ?_
      rcases cavityStep_inv h hb hF.simple hfr (usual_sep hG.ghost f) hS hr with ⟨t, -, k1, k2, -⟩ | ⟨k0, k1, k2⟩
      · exact ih k1 k2
      · rw [k0]
        exact ih k1 k2

theorem Court.loop_safe (hG : Court g b D f)
    (hC : ∀ e, Constrained C e → Wall b.vertices e ∨ Wall b.vertices e.opposite) {fuel n : Nat}
    {s : SolveState (Vertex K)} (h : Tidy g b D f s) (σ : Sched) :
    solveLoop (geoPreds 0 f D []) C fuel n σ s ≠ .panic := by
  induction n generalizing σ s with
  | zero => rw [solveLoop]; split_ifs <;> (intro h; cases h)
  | succ n ih =>
    rw [solveLoop]
    split_ifs with hc
    · intro h; cases h
    · refine Res.bind_safe ?_ fun s' hs' => ih (hG.step hC h hs') (σ.sub 1)
      unfold solveStep
      cases hch : choose (σ.sub 0) s.cmap with
      | none => exact absurd (choose_eq_none.1 hch) hc
      | some q =>
        obtain ⟨t, k⟩ := q
        simp only
        have hmem := choose_mem hch
        cases hvl : k.getLast? with
        | none => exact absurd (List.getLast?_eq_none_iff.1 hvl) (h.legit.wf.2 (t, k) hmem)
        | some v =>
          simp only
          obtain ⟨hflat, hcav, W, hW, hbook⟩ := solveStep_open h.legit h.fit.simple hmem hvl C
          have hv' : v ∈ s.cmap.flat ++ s.remaining := List.mem_append.2 (Or.inl hflat)
          exact hG.cavity_safe h.fit (h.real v hv') (h.inside v hv') hC (h.legit.pendF v hv') h.legit.meshS hcav hbook

/-- Inserting vertices inside a triangulated polygon does not panic. -/
theorem Court.include_safe (hG : Court g b D f)
    (hC : ∀ e, Constrained C e → Wall b.vertices e ∨ Wall b.vertices e.opposite) {fuel : Nat} {σ : Sched}
    {m : Mesh (Vertex K)} {vs : List (Vertex K)} (hs : AdjSound m) (hcm : AdjComplete m) (hF : Fit g b.vertices m.tris)
    (hn : vs.Nodup) (hreal : ∀ w ∈ vs, w.isGhost = false) (hin : ∀ w ∈ vs, InsidePolygon b.vertices w) :
    includeVertices (geoPreds 0 f D []) C fuel σ m vs ≠ .panic := by
  unfold includeVertices
  refine Res.bind_safe (distributeAll_safe (fun t x => mayInsert_safe 0 f D [] t x) _ _ _) fun q hq => ?_
  have h0 : startState (geoPreds 0 f D []) σ m vs = .ok ⟨m, q.1, q.2, [], []⟩ := by
    unfold startState; rw [hq]; rfl
  exact hG.loop_safe hC (hG.start_tidy hs hcm hF hn hreal hin h0) _

end Verif
