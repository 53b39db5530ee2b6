import Verif.Lemmas.WallSplit
import Verif.Lemmas.PocketRim
import Verif.Lemmas.ContinenceRim

/-!
# Inserting a vertex on a side of a triangulated polygon
-/

set_option linter.unusedSectionVars false

namespace Verif

open Spec Props

variable {K : Type*} [Field K] [LinearOrder K] [IsStrictOrderedRing K]

section

variable {g : Vertex K} {l l' : List (Vertex K)} {M : List (Tri (Vertex K))}

/-- The outline of a mesh whose ghost triangles are those over the sides of the polygon. -/
theorem rim_outline_perm (hg : g.isGhost = true) (hs : SimplePolygon l) (hreal : ∀ v ∈ l, v.isGhost = false) (hn : M.Nodup)
    (shape : ∀ t ∈ M, SolidTri t ∨ ∃ s ∈ pairs l false, t = ⟨s.2, s.1, g⟩)
    (border : ∀ s ∈ pairs l false, (⟨s.2, s.1, g⟩ : Tri (Vertex K)) ∈ M) : (outline M).Perm (pairs l false) := by
  have hpn : (pairs l false).Nodup := by
    have : ((pairs l false).map Prod.fst).Nodup := by rw [pairs_fst]; exact simplePolygon_nodup hs
    exact this.of_map
  have h1 : (M.filter fun t => decide (HasGhost t)).Perm
      ((pairs l false).map fun s => (⟨s.2, s.1, g⟩ : Tri (Vertex K))) := by
    refine (List.perm_ext_iff_of_nodup (hn.filter _) (hpn.map fun s t h => ?_)).2 fun t => ?_
    · cases s; cases t
      simp only [Tri.mk.injEq] at h
      rw [h.1, h.2.1]
    · rw [List.mem_filter, decide_eq_true_iff, List.mem_map]
      constructor
      · rintro ⟨ht, hgt⟩
        rcases shape t ht with st | ⟨s, hm, rfl⟩
        · exact absurd hgt st.noGhost
        · exact ⟨s, hm, rfl⟩
      · rintro ⟨s, hm, rfl⟩
        exact ⟨border s hm, hasGhost_last hg⟩
  unfold outline
  refine (h1.flatMap_right _).trans ?_
  rw [List.flatMap_map]
  have : (pairs l false).flatMap (fun s => [(s.1, s.2), (g, s.1), (s.2, g)].filter fun s : Vertex K × Vertex K =>
      !s.1.isGhost && !s.2.isGhost) = (pairs l false).flatMap fun s => [s] := by
    refine List.flatMap_congr fun s hm => ?_
    obtain ⟨m1, m2⟩ := mem_pairs hm
    simp [hreal _ m1, hreal _ m2, hg]
  rw [this]
  simp

/-- The ghost triangle over a side of the polygon. -/
abbrev overSide (g : Vertex K) (s : Vertex K × Vertex K) : Tri (Vertex K) := ⟨s.2, s.1, g⟩

/-- Putting a vertex on a side of the polygon: the hole contains the ghost triangle over the side and triangles that see the
vertex. -/
theorem Fit.rim (hF : Fit g l M) {P : Preds (Vertex K)} {C L Z : List (Edge (Vertex K))} {v : Vertex K}
    {m : Mesh (Vertex K)} {O R : List (Tri (Vertex K))} (hP : P.ghost = Vertex.isGhost)
    (hc : CavInv P C v M m [] L O R Z) (hfr : Fresh M v) (hv : v.isGhost = false) {s : Vertex K × Vertex K}
    {r : List (Vertex K × Vertex K)} (hvs : StrictlyOn s.1 s.2 v) (hcut : Cut l s v l' r)
    (hR : ∀ t ∈ R, Seer l M v t ∨ t = overSide g s) (hG : overSide g s ∈ R) (hn1 : (⟨s.2, s.1⟩ : Edge (Vertex K)) ∉ L)
    (hn2 : (⟨s.1, s.2⟩ : Edge (Vertex K)) ∉ L)
    (hout : ∀ e ∈ L, ∀ t ∈ R, Seer l M v t → IsSide t e →
      Wall l e ∨ ∃ t ∈ M, SolidTri t ∧ IsSide t e.opposite ∧ circleDet t.v1 t.v2 t.v3 v ≤ 0) : Fit g l' m.tris := by
  have hsm := hcut.mem
  obtain ⟨m1, m2⟩ := mem_pairs hsm
  have hg := hF.lot.ghost
  have r1 := hF.lot.real _ m1
  have r2 := hF.lot.real _ m2
  have hne : s.2 ≠ s.1 := fun e => hF.poly.proper s hsm (by rw [e]; exact ⟨rfl, rfl⟩)
  have hng : ∀ {x : Vertex K}, x.isGhost = false → x ≠ g := by
    rintro x hx rfl
    rw [hg] at hx; simp at hx
  have hs' := hcut.simple hF.poly hvs
  have hsub := hcut.subdivides hvs.1
  have hw' := hsub.windsOnce hF.winds
  have hreal' : ∀ x ∈ l', x.isGhost = false := by
    intro x hx
    rcases List.mem_cons.1 (hcut.verts.mem_iff.1 hx) with rfl | hx
    · exact hv
    · exact hF.lot.real x hx
  have hpn : (s :: r).Nodup := by
    have : ((pairs l false).map Prod.fst).Nodup := by rw [pairs_fst]; exact simplePolygon_nodup hF.poly
    exact hcut.old.nodup_iff.1 this.of_map
  -- the edges of the border
  have hLcases : ∀ e ∈ L, e = ⟨s.1, g⟩ ∨ e = ⟨g, s.2⟩ ∨ Brim l M v e := by
    intro e he
    obtain ⟨t, ht, hte⟩ := hc.mem_side_old (by simpa using he : e ∈ [] ++ L)
    rcases hR t ht with hS | rfl
    · refine Or.inr (Or.inr ⟨⟨t, hS, hte⟩, hout e he t ht hS hte, fun hw ho => ?_⟩)
      have := hF.poly.only hsm hw hvs ho
      apply hn2
      obtain ⟨e1, e2⟩ := e
      simp only [Prod.ext_iff] at this
      rw [← this.1, ← this.2]
      exact he
    · obtain ⟨e1, e2⟩ := e
      rcases hte with ⟨k1, k2⟩ | ⟨k1, k2⟩ | ⟨k1, k2⟩ <;> simp only at k1 k2 <;> subst k1 <;> subst k2
      · exact absurd he hn1
      · exact Or.inl rfl
      · exact Or.inr (Or.inl rfl)
  have hback : ∀ t ∈ R, ¬ IsSide t (⟨g, s.1⟩ : Edge (Vertex K)) ∧ ¬ IsSide t (⟨s.2, g⟩ : Edge (Vertex K)) := by
    intro t ht
    rcases hR t ht with hS | rfl
    · constructor <;> intro h
      · obtain ⟨c, -, q1, q2, -⟩ := hS.solid.side h
        exact hng q1 rfl
      · obtain ⟨c, -, q1, q2, -⟩ := hS.solid.side h
        exact hng q2 rfl
    · constructor
      · rintro (⟨k1, k2⟩ | ⟨k1, k2⟩ | ⟨k1, k2⟩) <;> simp only at k1 k2
        · exact hng r2 k1.symm
        · exact hng r1 k1.symm
        · exact hne k2.symm
      · rintro (⟨k1, k2⟩ | ⟨k1, k2⟩ | ⟨k1, k2⟩) <;> simp only at k1 k2
        · exact hng r1 k2.symm
        · exact hne k1
        · exact hng r2 k1
  have hin : ∀ e, IsSide (overSide g s) e → (∀ t ∈ R, ¬ IsSide t e.opposite) → e ∈ L := by
    intro e he hno
    have h1 : e ∈ sides R := mem_sides.2 ⟨_, hG, he⟩
    rw [hc.bdry.mem_iff, List.nil_append, List.mem_append, List.mem_append] at h1
    rcases h1 with h1 | h1 | h1
    · exact h1
    · exfalso
      have : e.opposite ∈ sides R := by
        rw [hc.bdry.mem_iff]
        simp only [List.mem_append, List.mem_map]
        exact Or.inr (Or.inr ⟨e, h1, rfl⟩)
      obtain ⟨t, ht, hte⟩ := mem_sides.1 this
      exact hno t ht hte
    · exfalso
      obtain ⟨f, hf, rfl⟩ := List.mem_map.1 h1
      have : f ∈ sides R := by
        rw [hc.bdry.mem_iff]
        simp only [List.mem_append]
        exact Or.inr (Or.inl hf)
      obtain ⟨t, ht, hte⟩ := mem_sides.1 this
      exact hno t ht (by rw [opposite_opposite]; exact hte)
  have hL1 : (⟨s.1, g⟩ : Edge (Vertex K)) ∈ L := hin _ (Or.inr (Or.inl ⟨rfl, rfl⟩)) fun t ht => (hback t ht).1
  have hL2 : (⟨g, s.2⟩ : Edge (Vertex K)) ∈ L := hin _ (Or.inr (Or.inr ⟨rfl, rfl⟩)) fun t ht => (hback t ht).2
  have hn := hc.nodup_now hF.simple hfr
  have hGO : overSide g s ∉ O := by
    intro h
    have := hc.old.nodup_iff.1 hF.simple.nodup
    exact (List.nodup_append'.1 this).2.2 hG h
  have t1 : newTri P.ghost (⟨s.1, g⟩ : Edge (Vertex K)) v = overSide g (s.1, v) := by
    rw [hP]; simp [newTri, r1, hg]
  have t2 : newTri P.ghost (⟨g, s.2⟩ : Edge (Vertex K)) v = overSide g (v, s.2) := by
    rw [hP]; simp [newTri, hg]
  have shape : ∀ t ∈ m.tris, SolidTri t ∨ ∃ p ∈ pairs l' false, t = ⟨p.2, p.1, g⟩ := by
    intro t ht
    rw [hc.now.mem_iff, List.mem_append, List.mem_map] at ht
    rcases ht with ⟨e, he, rfl⟩ | ht
    · rcases hLcases e he with rfl | rfl | k
      · exact Or.inr ⟨(s.1, v), hcut.new.mem_iff.2 (by simp), t1⟩
      · exact Or.inr ⟨(v, s.2), hcut.new.mem_iff.2 (by simp), t2⟩
      · have := k.solid hF hv
        rw [hP, newTri_real this.r1 this.r2]
        exact Or.inl this
    · rcases hF.lot.shape t (hc.mem_O ht) with k | ⟨p, hp, rfl⟩
      · exact Or.inl k
      · refine Or.inr ⟨p, ?_, rfl⟩
        rcases List.mem_cons.1 (hcut.old.mem_iff.1 hp) with rfl | hp
        · exact absurd ht hGO
        · exact hcut.new.mem_iff.2 (by simp [hp])
  have border : ∀ p ∈ pairs l' false, (⟨p.2, p.1, g⟩ : Tri (Vertex K)) ∈ m.tris := by
    intro p hp
    rw [hc.now.mem_iff, List.mem_append, List.mem_map]
    rw [hcut.new.mem_iff, List.mem_cons, List.mem_cons] at hp
    rcases hp with rfl | rfl | hp
    · exact Or.inl ⟨_, hL1, t1⟩
    · exact Or.inl ⟨_, hL2, t2⟩
    · right
      have := hF.lot.border p (hcut.old.mem_iff.2 (by simp [hp]))
      rcases List.mem_append.1 (hc.old.mem_iff.1 this) with k | k
      · exfalso
        rcases hR _ k with hS | e
        · exact hS.solid.noGhost (hasGhost_last hg)
        · simp only [overSide, Tri.mk.injEq] at e
          have : p = s := Prod.ext e.2.1 e.1
          subst this
          exact (List.nodup_cons.1 hpn).1 hp
      · exact k
  have hlot : Lot g l' m.tris := by
    refine ⟨hg, hreal', hc.watertight hfr hF.lot.closed, shape, border, fun w => ?_⟩
    unfold windingNumber
    rw [((rim_outline_perm hg hs' hreal' hn shape border).map _).sum_eq]
  refine hF.refill hP hc hfr hv hs' hw' hlot (fun z hz => (hsub.beyond z).2 hz) fun e he => ?_
  rcases hLcases e he with rfl | rfl | k
  · exact Or.inr (Or.inl hg)
  · exact Or.inl hg
  · exact Or.inr (Or.inr k)

end

end Verif
