import Verif.Lemmas.Count

/-!
# The corners of a simple polygon

A simple polygon with more than three corners has a diagonal, and is made of two smaller polygons. So what its corners add
to the number of triangles is the same for all polygons.
-/

set_option linter.unusedSectionVars false

namespace Verif

open Spec Props

variable {K : Type*} [Field K] [LinearOrder K] [IsStrictOrderedRing K]

/-- Only sides that end in a vertex pass through it. -/
theorem vertex_side {m : List (Vertex K)} (hs : SimplePolygon m) (hreal : ∀ v ∈ m, v.isGhost = false) {v : Vertex K}
    (hv : v ∈ m) {s : Vertex K × Vertex K} (hm : s ∈ pairs m false) (ho : OnSegment s.1 s.2 v) : s.1 = v ∨ s.2 = v := by
  by_contra hc
  push Not at hc
  obtain ⟨m1, m2⟩ := mem_pairs hm
  have hso : StrictlyOn s.1 s.2 v :=
    ⟨ho, fun e => hc.1 (vertex_eq e (hreal _ m1) (hreal _ hv)), fun e => hc.2 (vertex_eq e (hreal _ m2) (hreal _ hv))⟩
  obtain ⟨t, ht, e⟩ := List.mem_map.1 (show v ∈ (pairs m false).map Prod.fst by rw [pairs_fst]; exact hv)
  have := hs.only hm ht hso (by rw [e]; exact onSegment_left _ _)
  rw [this] at e
  exact hc.1 e

/-- A diagonal between the corners `a` and `c` of the polygon `m`. -/
structure Diagonal (m : List (Vertex K)) (a : Vertex K) (A : List (Vertex K)) (c : Vertex K) (C : List (Vertex K)) : Prop where
  simple : SimplePolygon m
  winds : WindsOnce m
  real : ∀ v ∈ m, v.isGhost = false
  verts : m.Perm (a :: (A ++ c :: C))
  sides : (pairs m false).Perm (consecutivePairs (a :: (A ++ [c])) ++ consecutivePairs (c :: (C ++ [a])))
  inside : ∀ x, StrictlyOn a c x → InsidePolygon m x

theorem pairs_piece {V : Type*} (a : V) (A : List V) (c : V) :
    pairs (a :: (A ++ [c])) false = consecutivePairs (a :: (A ++ [c])) ++ [(c, a)] := by
  rw [pairs_closed_eq]
  have := consecutivePairs_join (a :: A) c [a]
  simp only [List.cons_append, List.append_assoc] at this ⊢
  exact this.symm

theorem strictlyOn_symm {a c x : Vertex K} (h : StrictlyOn a c x) : StrictlyOn c a x :=
  ⟨onSegment_symm h.1, h.2.2, h.2.1⟩

namespace Diagonal

variable {m : List (Vertex K)} {a : Vertex K} {A : List (Vertex K)} {c : Vertex K} {C : List (Vertex K)}

theorem symm (h : Diagonal m a A c C) : Diagonal m c C a A := by
  refine ⟨h.simple, h.winds, h.real, h.verts.trans ?_, h.sides.trans List.perm_append_comm, fun x hx => h.inside x (strictlyOn_symm hx)⟩
  have : (a :: (A ++ c :: C)) = (a :: A) ++ (c :: C) := rfl
  rw [this]
  exact List.perm_append_comm

theorem nodup (h : Diagonal m a A c C) : (a :: (A ++ c :: C)).Nodup := h.verts.nodup_iff.1 (simplePolygon_nodup h.simple)

theorem mem (h : Diagonal m a A c C) {v : Vertex K} : v ∈ m ↔ v = a ∨ v ∈ A ∨ v = c ∨ v ∈ C := by
  rw [h.verts.mem_iff]; simp

theorem ne (h : Diagonal m a A c C) : a ≠ c := by
  have := h.nodup
  rintro rfl
  simp at this

theorem apart (h : Diagonal m a A c C) : ¬ SamePoint a c := fun e =>
  h.ne (vertex_eq e (h.real _ (h.mem.2 (by simp))) (h.real _ (h.mem.2 (by simp))))

theorem sub (h : Diagonal m a A c C) {s : Vertex K × Vertex K} (hs : s ∈ consecutivePairs (a :: (A ++ [c]))) : s ∈ pairs m false :=
  h.sides.mem_iff.2 (List.mem_append_left _ hs)

/-- The sides of the first piece meet the diagonal at its ends only. -/
theorem meet (h : Diagonal m a A c C) {s : Vertex K × Vertex K} (hs : s ∈ consecutivePairs (a :: (A ++ [c]))) {q : Vertex K}
    (h1 : OnSegment s.1 s.2 q) (h2 : OnSegment c a q) : (SamePoint q s.1 ∧ SamePoint q a) ∨ (SamePoint q s.2 ∧ SamePoint q c) := by
  have hsm := h.sub hs
  have hn := h.nodup
  have nfst : s.1 ≠ c := by
    have : s.1 ∈ (consecutivePairs (a :: (A ++ [c]))).map Prod.fst := List.mem_map_of_mem hs
    have e : (consecutivePairs (a :: (A ++ [c]))).map Prod.fst = a :: A := by
      have := pairs_fst (a :: (A ++ [c]))
      rw [pairs_piece, List.map_append] at this
      have e : a :: (A ++ [c]) = (a :: A) ++ [c] := rfl
      rw [e] at this
      exact List.append_inj_left' this rfl
    rw [e] at this
    rintro rfl
    rw [← List.cons_append, List.nodup_append] at hn
    exact hn.2.2 _ this _ (by simp) rfl
  have nsnd : s.2 ≠ a := by
    have hmem := (mem_consecutivePairs hs).2
    have : s.2 ∈ (consecutivePairs (a :: (A ++ [c]))).map Prod.snd := List.mem_map_of_mem hs
    have e : ((consecutivePairs (a :: (A ++ [c]))).map Prod.snd ++ [a]).Perm (A ++ [c] ++ [a]) := by
      have := pairs_snd (a :: (A ++ [c]))
      rw [pairs_piece, List.map_append] at this
      exact this.trans (List.perm_append_singleton _ _).symm
    have e := (List.perm_append_right_iff [a]).1 e
    have key := e.mem_iff.1 this
    rintro rfl
    have hn1 := (List.nodup_cons.1 hn).1
    apply hn1
    rcases List.mem_append.1 key with k | k
    · exact List.mem_append_left _ k
    · exact List.mem_append_right _ (by rw [List.mem_singleton.1 k]; simp)
  have hreal := h.real
  by_cases ea : SamePoint q a
  · left
    have ho : OnSegment s.1 s.2 a := (onSegment_congr ⟨rfl, rfl⟩ ⟨rfl, rfl⟩ ea).1 h1
    rcases vertex_side h.simple hreal (h.mem.2 (by simp)) hsm ho with k | k
    · rw [k]; exact ⟨ea, ea⟩
    · exact absurd k nsnd
  by_cases ec : SamePoint q c
  · right
    have ho : OnSegment s.1 s.2 c := (onSegment_congr ⟨rfl, rfl⟩ ⟨rfl, rfl⟩ ec).1 h1
    rcases vertex_side h.simple hreal (h.mem.2 (by simp)) hsm ho with k | k
    · exact absurd k nfst
    · rw [k]; exact ⟨ec, ec⟩
  · exact absurd h1 ((h.inside q ⟨onSegment_symm h2, fun k => ea ⟨k.1.symm, k.2.symm⟩, fun k => ec ⟨k.1.symm, k.2.symm⟩⟩).1 s hsm)

/-- The first piece is a simple polygon. -/
theorem piece (h : Diagonal m a A c C) : SimplePolygon (a :: (A ++ [c])) := by
  constructor
  · intro s hs
    rw [pairs_piece, List.mem_append] at hs
    rcases hs with hs | hs
    · exact h.simple.proper s (h.sub hs)
    · rw [List.mem_singleton] at hs
      subst hs
      exact fun e => h.apart ⟨e.1.symm, e.2.symm⟩
  · rw [pairs_piece, List.pairwise_append]
    refine ⟨?_, by simp, fun s hs t ht => ?_⟩
    · have hsym : ∀ {s t : Vertex K × Vertex K}, (∀ q, OnSegment s.1 s.2 q → OnSegment t.1 t.2 q →
          (SamePoint q s.2 ∧ SamePoint q t.1) ∨ (SamePoint q s.1 ∧ SamePoint q t.2)) → ∀ q, OnSegment t.1 t.2 q → OnSegment s.1 s.2 q →
          (SamePoint q t.2 ∧ SamePoint q s.1) ∨ (SamePoint q t.1 ∧ SamePoint q s.2) := by
        intro s t k q h1 h2
        rcases k q h2 h1 with ⟨x, y⟩ | ⟨x, y⟩
        exacts [Or.inr ⟨y, x⟩, Or.inl ⟨y, x⟩]
      have := (h.sides.pairwise_iff (@fun s t => @hsym s t)).1 h.simple.apart
      exact (List.pairwise_append.1 this).1
    · rw [List.mem_singleton] at ht
      subst ht
      intro q h1 h2
      rcases h.meet hs h1 h2 with ⟨x, y⟩ | ⟨x, y⟩
      exacts [Or.inr ⟨x, y⟩, Or.inl ⟨x, y⟩]

theorem winding (h : Diagonal m a A c C) (z : Vertex K) : windingNumber (pairs m false) z =
    windingNumber (pairs (a :: (A ++ [c])) false) z + windingNumber (pairs (c :: (C ++ [a])) false) z := by
  rw [windingNumber_perm h.sides, pairs_piece, pairs_piece, windingNumber_append, windingNumber_append, windingNumber_append]
  have e1 : windingNumber [(c, a)] z = crossingAbove z c a := by simp [windingNumber]
  have e2 : windingNumber [(a, c)] z = crossingAbove z a c := by simp [windingNumber]
  rw [e1, e2, crossingAbove_swap z a c]
  ring

/-- The pieces run counterclockwise. -/
theorem once (h : Diagonal m a A c C) {η : K} (hg : Generic η m.toFinset) : WindsOnce (a :: (A ++ [c])) := by
  have s1 := h.piece
  have s2 := h.symm.piece
  have d1 : (c, a) ∈ pairs (a :: (A ++ [c])) false := by rw [pairs_piece]; simp
  have d2 : (a, c) ∈ pairs (c :: (C ++ [a])) false := by rw [pairs_piece]; simp
  have hx := midpoint_strictlyOn h.apart
  generalize (⟨a, c⟩ : Edge (Vertex K)).midpoint = x at hx
  have hin := h.inside x hx
  have hone := (h.winds x hin.1).resolve_left hin.2
  have hne : slant η a ≠ slant η c := hg a (List.mem_toFinset.2 (h.mem.2 (by simp))) c (List.mem_toFinset.2 (h.mem.2 (by simp))) h.ne
  rcases jordan (p := ⟨a :: (A ++ [c]), false, by simp⟩) rfl s1 with w1 | w1
  · exact w1
  exfalso
  simp only at w1
  have k0 : Soon fun s => windingNumber (pairs (a :: (A ++ [c])) false) (shift η x s) + windingNumber (pairs (c :: (C ++ [a])) false) (shift η x s) = 1 ∧
      windingNumber (pairs (a :: (A ++ [c])) false) (shift η x (-s)) + windingNumber (pairs (c :: (C ++ [a])) false) (shift η x (-s)) = 1 := by
    refine (winding_shift (l := m) η hin.1).mono fun s _ k => ?_
    rw [← h.winding, ← h.winding, k.1, k.2]
    exact ⟨hone, hone⟩
  have k1 := winding_sides s1.reverse w1 (h := η) (S := (a, c)) (mem_pairs_reverse.2 d1) hne hx
  rcases jordan (p := ⟨c :: (C ++ [a]), false, by simp⟩) rfl s2 with w2 | w2
  · have k2 := winding_sides s2 w2 (h := η) (S := (a, c)) d2 hne hx
    obtain ⟨s, -, ⟨k0, k1⟩, k2⟩ := ((k0.and k1).and k2).exists
    simp only [winding_reverse] at k1 k2
    rcases lt_or_gt_of_ne hne with o | o
    · have := k1.1 o
      have := k2.1 o
      omega
    · have := k1.2 o
      have := k2.2 o
      omega
  · have k2 := winding_sides s2.reverse w2 (h := η) (S := (c, a)) (mem_pairs_reverse.2 d2) hne.symm (strictlyOn_symm hx)
    obtain ⟨s, -, ⟨k0, k1⟩, k2⟩ := ((k0.and k1).and k2).exists
    simp only [winding_reverse] at k1 k2
    rcases lt_or_gt_of_ne hne with o | o
    · have := k1.1 o
      have := k2.2 o
      omega
    · have := k1.2 o
      have := k2.1 o
      omega

theorem firsts (a : Vertex K) (A : List (Vertex K)) (c : Vertex K) :
    (consecutivePairs (a :: (A ++ [c]))).map Prod.fst = a :: A := by
  have := pairs_fst (a :: (A ++ [c]))
  rw [pairs_piece, List.map_append] at this
  have e : a :: (A ++ [c]) = (a :: A) ++ [c] := rfl
  rw [e] at this
  exact List.append_inj_left' this rfl

/-- The other corners of the first piece are outside of the second. -/
theorem far (h : Diagonal m a A c C) {η : K} (hg : Generic η m.toFinset) {u : Vertex K} (hu : u ∈ A) :
    (∀ t ∈ pairs (c :: (C ++ [a])) false, ¬ OnSegment t.1 t.2 u) ∧ windingNumber (pairs (c :: (C ++ [a])) false) u = 0 := by
  have hum : u ∈ m := h.mem.2 (by simp [hu])
  have hn := h.nodup
  have hout : u ∉ c :: (C ++ [a]) := by
    rw [List.nodup_cons, List.nodup_append] at hn
    intro k
    rw [List.mem_cons, List.mem_append, List.mem_singleton] at k
    rcases k with k | k | k
    · exact hn.2.2.2 u hu c (by simp) k
    · exact hn.2.2.2 u hu u (by simp [k]) rfl
    · exact hn.1 (by simp [← k, hu])
  have hoff : ∀ t ∈ pairs (c :: (C ++ [a])) false, ¬ OnSegment t.1 t.2 u := by
    intro t ht ho
    obtain ⟨t1, t2⟩ := mem_pairs ht
    rw [pairs_piece, List.mem_append] at ht
    rcases ht with ht | ht
    · rcases vertex_side h.simple h.real hum (h.symm.sub ht) ho with k | k
      · exact hout (k ▸ t1)
      · exact hout (k ▸ t2)
    · rw [List.mem_singleton] at ht
      subst ht
      have hso : StrictlyOn a c u := by
        refine ⟨ho, fun e => hout ?_, fun e => hout ?_⟩
        · rw [← vertex_eq e (h.real _ (h.mem.2 (by simp))) (h.real _ hum)]; simp
        · rw [← vertex_eq e (h.real _ (h.mem.2 (by simp))) (h.real _ hum)]; simp
      obtain ⟨S, hS, e⟩ := List.mem_map.1 (show u ∈ (pairs m false).map Prod.fst by rw [pairs_fst]; exact hum)
      exact (h.inside u hso).1 S hS (by rw [e]; exact onSegment_left _ _)
  refine ⟨hoff, ?_⟩
  obtain ⟨S, hS, e⟩ := List.mem_map.1 (show u ∈ (consecutivePairs (a :: (A ++ [c]))).map Prod.fst by rw [firsts]; simp [hu])
  have hSm := h.sub hS
  have hS1 : S ∈ pairs (a :: (A ++ [c])) false := by rw [pairs_piece]; exact List.mem_append_left _ hS
  obtain ⟨m1, m2⟩ := mem_pairs hSm
  have hclear : ∀ z, StrictlyOn S.1 S.2 z → ∀ t ∈ pairs (c :: (C ++ [a])) false, ¬ OnSegment t.1 t.2 z := by
    intro z hz t ht ho
    obtain ⟨t1, t2⟩ := mem_pairs ht
    rw [pairs_piece, List.mem_append] at ht
    rcases ht with ht | ht
    · have := h.simple.only hSm (h.symm.sub ht) hz ho
      subst this
      exact hout (e ▸ t1)
    · rw [List.mem_singleton] at ht
      subst ht
      rcases h.meet hS hz.1 (onSegment_symm ho) with k | k
      · exact hz.2.1 ⟨k.1.1.symm, k.1.2.symm⟩
      · exact hz.2.2 ⟨k.1.1.symm, k.1.2.symm⟩
  have hy := midpoint_strictlyOn (h.simple.proper S hSm)
  generalize hye : (⟨S.1, S.2⟩ : Edge (Vertex K)).midpoint = y at hy
  have hne : slant η S.1 ≠ slant η S.2 := by
    refine hg _ (List.mem_toFinset.2 m1) _ (List.mem_toFinset.2 m2) fun k => h.simple.proper S hSm ?_
    rw [k]
    exact ⟨rfl, rfl⟩
  have hy0 : windingNumber (pairs (c :: (C ++ [a])) false) y = 0 := by
    obtain ⟨s, -, ⟨k1, k2⟩, k3⟩ := (((winding_sides h.simple h.winds hSm hne hy).and
      (winding_sides h.piece (h.once hg) hS1 hne hy)).and (winding_shift η (hclear y hy))).exists
    have := h.winding (shift η y s)
    rcases lt_or_gt_of_ne hne with o | o
    · have := k1.1 o
      have := k2.1 o
      omega
    · have := k1.2 o
      have := k2.2 o
      omega
  rw [← hy0]
  refine winding_const _ fun t ht x hx hxp => ?_
  have hxS : OnSegment S.1 S.2 x := onSegment_trans (by rw [e]; exact onSegment_left _ _) hy.1 hxp
  by_cases e1 : SamePoint S.1 x
  · exact hoff t ht ((onSegment_congr ⟨rfl, rfl⟩ ⟨rfl, rfl⟩ (by rw [← e]; exact ⟨e1.1.symm, e1.2.symm⟩)).1 hx)
  by_cases e2 : SamePoint S.2 x
  · exfalso
    obtain ⟨k, k0, k1, kx, ky⟩ := hxp
    obtain ⟨j, j0, j1, jx, jy⟩ := hy.1
    rw [← e] at kx ky
    have hk : ∀ d : K, d = k * (j * d) → d ≠ 0 → j = 1 := by
      intro d hd hd0
      have : 1 = k * j := by
        have : d * (k * j) = d * 1 := by linear_combination -hd
        exact (mul_left_cancel₀ hd0 this).symm
      nlinarith
    have : j = 1 := by
      by_cases hx : S.2.x - S.1.x = 0
      · refine hk (S.2.y - S.1.y) ?_ ?_
        · have := e2.2
          rw [ky, jy] at this
          linear_combination this
        · intro hy'
          exact h.simple.proper S hSm ⟨by linarith, by linarith⟩
      · refine hk (S.2.x - S.1.x) ?_ hx
        have := e2.1
        rw [kx, jx] at this
        linear_combination this
    subst this
    exact hy.2.2 ⟨by rw [jx]; ring, by rw [jy]; ring⟩
  exact hclear x ⟨hxS, e1, e2⟩ t ht hx

/-- What the corners add, from the two pieces. -/
theorem cornerSum_eq (h : Diagonal m a A c C) {η : K} (hg : Generic η m.toFinset) : Soon fun s =>
    cornerSum m η s = cornerSum (a :: (A ++ [c])) η s + cornerSum (c :: (C ++ [a])) η s + 2 := by
  have k1 : Soon fun s => ∀ u ∈ A, windingNumber (pairs (c :: (C ++ [a])) false) (shift η u s) = 0 ∧
      windingNumber (pairs (c :: (C ++ [a])) false) (shift η u (-s)) = 0 := by
    refine Soon.all _ fun u hu => ?_
    obtain ⟨f1, f2⟩ := h.far hg hu
    have := winding_shift η f1
    rwa [f2] at this
  have k2 : Soon fun s => ∀ u ∈ C, windingNumber (pairs (a :: (A ++ [c])) false) (shift η u s) = 0 ∧
      windingNumber (pairs (a :: (A ++ [c])) false) (shift η u (-s)) = 0 := by
    refine Soon.all _ fun u hu => ?_
    obtain ⟨f1, f2⟩ := h.symm.far hg hu
    have := winding_shift η f1
    rwa [f2] at this
  refine (k1.and k2).mono fun s _ k => ?_
  have n0 := simplePolygon_nodup h.simple
  have n1 := simplePolygon_nodup h.piece
  have n2 := simplePolygon_nodup h.symm.piece
  unfold cornerSum
  rw [List.sum_toFinset _ n0, List.sum_toFinset _ n1, List.sum_toFinset _ n2, (h.verts.map _).sum_eq]
  simp only [List.map_cons, List.map_append, List.sum_cons, List.sum_append, List.map_nil, List.sum_nil]
  rw [List.map_congr_left (l := A) (g := fun u => windingNumber (pairs (a :: (A ++ [c])) false) (shift η u s) +
      windingNumber (pairs (a :: (A ++ [c])) false) (shift η u (-s)) - 1) fun u hu => by
        rw [h.winding, h.winding, (k.1 u hu).1, (k.1 u hu).2]; ring,
    List.map_congr_left (l := C) (g := fun u => windingNumber (pairs (c :: (C ++ [a])) false) (shift η u s) +
      windingNumber (pairs (c :: (C ++ [a])) false) (shift η u (-s)) - 1) fun u hu => by
        rw [h.winding, h.winding, (k.2 u hu).1, (k.2 u hu).2]; ring]
  simp only [h.winding]
  ring

end Diagonal

end Verif
