import Verif.Lemmas.Run
import Verif.Model.Refine

/-!
# Rolling an insertion back
-/

set_option linter.unusedSectionVars false

namespace Verif

open Spec

variable {V : Type*} [DecidableEq V]

theorem foldl_del_spec (I : List (Tri V)) {m : Mesh V} (hn : m.tris.Nodup) (hs : AdjSound m) :
    (I.foldl Mesh.del m).tris.Nodup ∧ AdjSound (I.foldl Mesh.del m) ∧
      (∀ t, t ∈ (I.foldl Mesh.del m).tris ↔ t ∈ m.tris ∧ t ∉ I) ∧
      (∀ e t, m.adj e = some t → (∀ u ∈ I, ¬ IsSide u e) → (I.foldl Mesh.del m).adj e = some t) := by
  induction I generalizing m with
  | nil => exact ⟨hn, hs, by simp, fun e t h _ => h⟩
  | cons u I ih =>
    obtain ⟨k1, k2, k3, k4⟩ := ih (nodup_del (s := u) hn) (adjSound_del (s := u) hs)
    refine ⟨k1, k2, ?_, ?_⟩
    · intro t
      rw [List.foldl_cons, k3, mem_del, List.mem_cons]
      tauto
    · intro e t h hu
      rw [List.foldl_cons]
      refine k4 e t ?_ (fun w hw => hu w (List.mem_cons_of_mem _ hw))
      by_cases hum : u ∈ m.tris
      · rw [del_adj hum, if_neg]
        · exact h
        · exact fun hc => hu u List.mem_cons_self (mem_innerEdges.1 hc)
      · rw [del_of_not_mem hum]; exact h

theorem foldl_add_spec (I : List (Tri V)) {m : Mesh V} (hn : m.tris.Nodup) (hs : AdjSound m)
    (hc : AdjComplete m) {T : List (Tri V)} (hT : EdgeDisjoint T) (hm : ∀ t ∈ m.tris, t ∈ T)
    (hI : ∀ t ∈ I, t ∈ T) :
    (I.foldl Mesh.add m).tris.Nodup ∧ AdjSound (I.foldl Mesh.add m) ∧
      AdjComplete (I.foldl Mesh.add m) ∧
      (∀ t, t ∈ (I.foldl Mesh.add m).tris ↔ t ∈ m.tris ∨ t ∈ I) := by
  induction I generalizing m with
  | nil => exact ⟨hn, hs, hc, by simp⟩
  | cons u I ih =>
    have hsub : ∀ t ∈ (m.add u).tris, t ∈ T := by
      intro t ht
      rcases mem_add.1 ht with rfl | ht
      · exact hI _ List.mem_cons_self
      · exact hm t ht
    obtain ⟨k1, k2, k3, k4⟩ := ih (nodup_add (s := u) hn) (adjSound_add (s := u) hs)
      (adjComplete_add hc (edgeDisjoint_mono hT hsub)) hsub (fun t ht => hI t (List.mem_cons_of_mem _ ht))
    refine ⟨k1, k2, k3, ?_⟩
    intro t
    rw [List.foldl_cons, k4, mem_add, List.mem_cons]
    tauto

/-- Undoing one insertion gives back the triangles and the adjacency. -/
theorem rollback_spec {P : Preds V} {C : List (Edge V)} {v : V} {m m' : Mesh V}
    {L : List (Edge V)} {O R : List (Tri V)} {Z : List (Edge V)} (hsim : Simple m.tris)
    (hs : AdjSound m) (hc : AdjComplete m) (hv : Fresh m.tris v)
    (h : CavInv P C v m.tris m' [] L O R Z) {inc rem : List (Tri V)}
    (hinc : ∀ t, t ∈ inc ↔ ∃ l ∈ L, t = newTri P.ghost l v) (hrem : ∀ t, t ∈ rem ↔ t ∈ R) :
    (rollback m' inc rem).tris.Perm m.tris ∧ (rollback m' inc rem).adj = m.adj := by
  have hOm : ∀ t ∈ O, t ∉ inc := by
    intro t ht hti
    obtain ⟨l, -, rfl⟩ := (hinc t).1 hti
    exact hv _ (h.mem_O ht) (newTri_isCorner.2 (Or.inr (Or.inr rfl)))
  have hnd' : m'.tris.Nodup := by
    rw [h.now.nodup_iff, List.nodup_append]
    refine ⟨?_, (List.nodup_append.1 ((h.old.nodup_iff).1 hsim.nodup)).2.1, ?_⟩
    · refine List.Nodup.map_on ?_ (by simpa using h.nodup_BL hsim)
      intro a ha b hb hab
      exact newTri_inj (h.ends hv (by simpa using ha)) hab
    · intro a ha b hb hab
      subst hab
      obtain ⟨l, hl, rfl⟩ := List.mem_map.1 ha
      exact hOm _ hb ((hinc _).2 ⟨l, hl, rfl⟩)
  obtain ⟨d1, d2, d3, d4⟩ := foldl_del_spec inc hnd' h.sound
  have hmem : ∀ t, t ∈ (inc.foldl Mesh.del m').tris ↔ t ∈ O := by
    intro t
    rw [d3, h.now.mem_iff, List.mem_append, List.mem_map]
    constructor
    · rintro ⟨⟨l, hl, rfl⟩ | h1, h2⟩
      · exact absurd ((hinc _).2 ⟨l, hl, rfl⟩) h2
      · exact h1
    · exact fun ht => ⟨Or.inr ht, hOm t ht⟩
  have hcomp : AdjComplete (inc.foldl Mesh.del m') := by
    intro t ht e hte
    rw [hmem] at ht
    refine d4 e t (h.keep t ht e hte) ?_
    intro u hu hue
    obtain ⟨l, hl, rfl⟩ := (hinc u).1 hu
    have hev := hv.ends (mem_sides.2 ⟨t, h.mem_O ht, hte⟩)
    rcases newTri_isSide.1 hue with k | k | k
    · subst k
      obtain ⟨r, hr, hre⟩ := h.mem_side_old (e := e) (by simpa using hl)
      have := hsim.edgeDisjoint t (h.mem_O ht) r (h.mem_R hr) e hte hre
      subst this
      exact (List.nodup_append.1 ((h.old.nodup_iff).1 hsim.nodup)).2.2 t hr t ht rfl
    · exact hev.2 (congrArg Edge.v2 k)
    · exact hev.1 (congrArg Edge.v1 k)
  obtain ⟨a1, a2, a3, a4⟩ := foldl_add_spec rem d1 d2 hcomp hsim.edgeDisjoint
    (fun t ht => h.mem_O ((hmem t).1 ht)) (fun t ht => h.mem_R ((hrem t).1 ht))
  have hset : ∀ t, t ∈ (rollback m' inc rem).tris ↔ t ∈ m.tris := by
    intro t
    unfold rollback
    rw [a4, hmem, hrem, h.old.mem_iff, List.mem_append]
    tauto
  refine ⟨(List.perm_ext_iff_of_nodup a1 hsim.nodup).2 hset, ?_⟩
  funext e
  cases h1 : m.adj e with
  | some t =>
    obtain ⟨k1, k2⟩ := hs e t h1
    exact a3 t ((hset t).2 k1) e k2
  | none =>
    cases h2 : (rollback m' inc rem).adj e with
    | none => rfl
    | some t =>
      obtain ⟨k1, k2⟩ := a2 e t h2
      rw [hc t ((hset t).1 k1) e k2] at h1
      cases h1

/-- The walk over the mesh only meets triangles of the mesh, and the first one. -/
theorem visitNeighbours_mem {P : Preds V} {m : Mesh V} (hs : AdjSound m) {M : Tri V → Prop}
    (hM : ∀ t ∈ m.tris, M t) (es : List (Edge V))
    (pending visited : List (Tri V)) (hp : ∀ t ∈ pending, M t) :
    ∀ t ∈ (visitNeighbours P m es pending visited).1, M t := by
  induction es generalizing pending visited with
  | nil => exact hp
  | cons e es ih =>
    unfold visitNeighbours
    cases h : m.adj e with
    | none => exact ih _ _ hp
    | some t =>
      simp only
      split_ifs
      · refine ih _ _ ?_
        intro u hu
        rcases List.mem_cons.1 hu with rfl | hu
        · exact hM _ (hs _ _ h).1
        · exact hp u hu
      · exact ih _ _ hp

theorem distributeOverLoop_gen {P : Preds V} {m : Mesh V} (hs : AdjSound m) {M : Tri V → Prop}
    (hM : ∀ t ∈ m.tris, M t) {n : Nat}
    {pending visited : List (Tri V)} {c : CMap V} {vs : List V} {r : CMap V × List V}
    (hp : ∀ t ∈ pending, M t) (hw : c.WF)
    (hk : ∀ t l, (t, l) ∈ c → M t ∧ ∀ w ∈ l, P.inside t w = true ∧ P.mayInsert t w = .ok true)
    (h : distributeOverLoop P m n pending visited c vs = .ok r) :
    r.1.WF ∧ (r.1.flat ++ r.2).Perm (c.flat ++ vs) ∧
      ∀ t l, (t, l) ∈ r.1 → M t ∧ ∀ w ∈ l, P.inside t w = true ∧ P.mayInsert t w = .ok true := by
  induction n generalizing pending visited c vs with
  | zero =>
    cases pending with
    | nil =>
      simp only [distributeOverLoop, Res.ok.injEq] at h
      subst h; exact ⟨hw, List.Perm.refl _, hk⟩
    | cons t pending =>
      cases vs with
      | nil =>
        simp only [distributeOverLoop, Res.ok.injEq] at h
        subst h; exact ⟨hw, List.Perm.refl _, hk⟩
      | cons v vs => simp [distributeOverLoop] at h
  | succ n ih =>
    cases pending with
    | nil =>
      simp only [distributeOverLoop, Res.ok.injEq] at h
      subst h; exact ⟨hw, List.Perm.refl _, hk⟩
    | cons t pending =>
      cases vs with
      | nil =>
        simp only [distributeOverLoop, Res.ok.injEq] at h
        subst h; exact ⟨hw, List.Perm.refl _, hk⟩
      | cons v vs =>
        simp only [distributeOverLoop] at h
        rw [Res.bind_eq_ok] at h
        obtain ⟨q, hq, h⟩ := h
        obtain ⟨d1, d2, -, -, d5⟩ := distribute_spec hw hq
        obtain ⟨k1, k2, k3⟩ := ih
          (visitNeighbours_mem hs hM _ _ _ (fun u hu => hp u (List.mem_cons_of_mem _ hu))) d1 (by
            intro u l hu
            rcases d5 u l hu with ⟨-, k⟩ | ⟨rfl, old, new, rfl, ho, -, hn⟩
            · exact hk u l k
            · refine ⟨hp _ List.mem_cons_self, ?_⟩
              intro w hw'
              rcases List.mem_append.1 hw' with hw' | hw'
              · rcases ho with rfl | ho
                · simp at hw'
                · exact (hk _ _ ho).2 w hw'
              · exact hn w hw') h
        exact ⟨k1, k2.trans d2, k3⟩

theorem distributeOverLoop_spec {P : Preds V} {m : Mesh V} (hs : AdjSound m) {n : Nat}
    {pending visited : List (Tri V)} {c : CMap V} {vs : List V} {r : CMap V × List V}
    (hp : ∀ t ∈ pending, t ∈ m.tris) (hw : c.WF)
    (hk : ∀ t l, (t, l) ∈ c → t ∈ m.tris ∧ ∀ w ∈ l, P.inside t w = true ∧ P.mayInsert t w = .ok true)
    (h : distributeOverLoop P m n pending visited c vs = .ok r) :
    r.1.WF ∧ (r.1.flat ++ r.2).Perm (c.flat ++ vs) ∧
      ∀ t l, (t, l) ∈ r.1 → t ∈ m.tris ∧ ∀ w ∈ l, P.inside t w = true ∧ P.mayInsert t w = .ok true :=
  distributeOverLoop_gen hs (M := fun t => t ∈ m.tris) (fun _ h => h) hp hw hk h

end Verif
