import Verif.Lemmas.DelaunayHull

/-!
# The cavity of a point in a Delaunay mesh
-/

set_option linter.unusedSectionVars false

namespace Verif

open Spec

variable {K : Type*} [Field K] [LinearOrder K] [IsStrictOrderedRing K]

section lists

variable {α : Type*}

theorem all_one_of_sum {f : α → ℕ} {l : List α} (h : ∀ a ∈ l, f a ≤ 1) (hs : l.length ≤ (l.map f).sum) :
    ∀ a ∈ l, f a = 1 := by
  induction l with
  | nil => simp
  | cons a l ih =>
    rw [List.map_cons, List.sum_cons, List.length_cons] at hs
    have hle : ∀ l : List α, (∀ a ∈ l, f a ≤ 1) → (l.map f).sum ≤ l.length := by
      intro l
      induction l with
      | nil => simp
      | cons b l ih =>
        intro h
        rw [List.map_cons, List.sum_cons, List.length_cons]
        have := h b List.mem_cons_self
        have := ih fun c hc => h c (List.mem_cons_of_mem _ hc)
        omega
    have h1 := h a List.mem_cons_self
    have h2 := hle l fun c hc => h c (List.mem_cons_of_mem _ hc)
    intro b hb
    rcases List.mem_cons.1 hb with rfl | hb
    · omega
    · exact ih (fun c hc => h c (List.mem_cons_of_mem _ hc)) (by omega) b hb

theorem all_one_of_sum' {f : α → ℕ} {l : List α} (h : ∀ a ∈ l, 1 ≤ f a) (hs : (l.map f).sum ≤ l.length) :
    ∀ a ∈ l, f a = 1 := by
  induction l with
  | nil => simp
  | cons a l ih =>
    rw [List.map_cons, List.sum_cons, List.length_cons] at hs
    have hle : ∀ l : List α, (∀ a ∈ l, 1 ≤ f a) → l.length ≤ (l.map f).sum := by
      intro l
      induction l with
      | nil => simp
      | cons b l ih =>
        intro h
        rw [List.map_cons, List.sum_cons, List.length_cons]
        have := h b List.mem_cons_self
        have := ih fun c hc => h c (List.mem_cons_of_mem _ hc)
        omega
    have h1 := h a List.mem_cons_self
    have h2 := hle l fun c hc => h c (List.mem_cons_of_mem _ hc)
    intro b hb
    rcases List.mem_cons.1 hb with rfl | hb
    · omega
    · exact ih (fun c hc => h c (List.mem_cons_of_mem _ hc)) (by omega) b hb

theorem sum_le_length {f : α → ℕ} {l : List α} (h : ∀ a ∈ l, f a ≤ 1) : (l.map f).sum ≤ l.length := by
  induction l with
  | nil => simp
  | cons b l ih =>
    rw [List.map_cons, List.sum_cons, List.length_cons]
    have := h b List.mem_cons_self
    have := ih fun c hc => h c (List.mem_cons_of_mem _ hc)
    omega

theorem length_le_sum {f : α → ℕ} {l : List α} (h : ∀ a ∈ l, 1 ≤ f a) : l.length ≤ (l.map f).sum := by
  induction l with
  | nil => simp
  | cons b l ih =>
    rw [List.map_cons, List.sum_cons, List.length_cons]
    have := h b List.mem_cons_self
    have := ih fun c hc => h c (List.mem_cons_of_mem _ hc)
    omega

end lists

section

variable {g : Vertex K} {T : List (Tri (Vertex K))}

theorem Good.side_ghost (hT : Good g T) {t : Tri (Vertex K)} (ht : t ∈ T) {e : Edge (Vertex K)}
    (he : IsSide t e) (hr : ¬ RealEdge e) :
    GhostTri g t ∧ ((e.v1 = t.v2 ∧ e.v2 = g) ∨ (e.v1 = g ∧ e.v2 = t.v1)) := by
  rcases hT.shape t ht with h | h
  · exfalso
    apply hr
    rcases he with ⟨h1, h2⟩ | ⟨h1, h2⟩ | ⟨h1, h2⟩ <;> unfold RealEdge <;> rw [h1, h2]
    · exact ⟨h.r1, h.r2⟩
    · exact ⟨h.r2, h.r3⟩
    · exact ⟨h.r3, h.r1⟩
  · refine ⟨h, ?_⟩
    rcases he with ⟨h1, h2⟩ | ⟨h1, h2⟩ | ⟨h1, h2⟩
    · exact absurd ⟨h1 ▸ h.r1, h2 ▸ h.r2⟩ hr
    · exact Or.inl ⟨h1, h2.trans h.g3⟩
    · exact Or.inr ⟨h1.trans h.g3, h2⟩

theorem Good.across (hT : Good g T) {t : Tri (Vertex K)} (ht : t ∈ T) {e : Edge (Vertex K)}
    (he : IsSide t e) : ∃ t' ∈ T, IsSide t' e.opposite := by
  have h := balanced_of_watertight hT.closed e
  have h1 : 0 < (sides T).count e := List.count_pos_iff.2 (mem_sides.2 ⟨t, ht, he⟩)
  rw [h] at h1
  exact mem_sides.1 (List.count_pos_iff.1 h1)

/-- Two sides of a solid triangle in conflict cannot both fail to have the point on their left. -/
theorem conf_one_special {v : Vertex K} {t : Tri (Vertex K)} (hs : SolidTri t) (hc : Conf v t) :
    ¬ (cross t.v1 t.v2 v ≤ 0 ∧ cross t.v2 t.v3 v ≤ 0) ∧
    ¬ (cross t.v2 t.v3 v ≤ 0 ∧ cross t.v3 t.v1 v ≤ 0) ∧
    ¬ (cross t.v3 t.v1 v ≤ 0 ∧ cross t.v1 t.v2 v ≤ 0) := by
  rw [conf_solid hs] at hc
  have c1 : 0 < cross t.v2 t.v3 t.v1 := by rw [cross_rotate]; exact hs.ccw
  have c2 : 0 < cross t.v3 t.v1 t.v2 := by rw [cross_rotate]; exact c1
  refine ⟨fun h => ?_, fun h => ?_, fun h => ?_⟩
  · have := circleDet_cone c1 h.2 h.1
    rw [circleDet_rotate] at this; linarith
  · have := circleDet_cone c2 h.2 h.1
    rw [circleDet_rotate, circleDet_rotate] at this; linarith
  · have := circleDet_cone hs.ccw h.2 h.1
    linarith

/-- The conflict may cross the edge towards the right of it. -/
def Special (v : Vertex K) (e : Edge (Vertex K)) : Prop :=
  if RealEdge e then cross e.v1 e.v2 v ≤ 0 else e.v1.isGhost = true

theorem special_real {v : Vertex K} {e : Edge (Vertex K)} (hr : RealEdge e) :
    Special v e ↔ cross e.v1 e.v2 v ≤ 0 := by
  unfold Special; rw [if_pos hr]

theorem special_ghost {v : Vertex K} {e : Edge (Vertex K)} (hr : ¬ RealEdge e) :
    Special v e ↔ e.v1.isGhost = true := by
  unfold Special; rw [if_neg hr]

/-- What makes ghost conflicts proper: the mesh or the point is off the hull edge. -/
def Off (T : List (Tri (Vertex K))) (v : Vertex K) (t : Tri (Vertex K)) : Prop :=
  0 < cross t.v1 t.v2 v ∨ ∃ p, Vx T p ∧ cross t.v1 t.v2 p < 0

theorem Good.ghosts_close (hT : Good g T) {v : Vertex K} {R : List (Tri (Vertex K))} (hn : R.Nodup)
    (hR : ∀ r ∈ R, r ∈ T ∧ Conf v r) (hN : ∀ r ∈ R, GhostTri g r → Off T v r)
    (h : (∀ t ∈ R, GhostTri g t → ∃ s ∈ R, GhostTri g s ∧ s.v1 = t.v2) ∨
      (∀ t ∈ R, GhostTri g t → ∃ s ∈ R, GhostTri g s ∧ s.v2 = t.v1))
    {t0 : Tri (Vertex K)} (ht0 : t0 ∈ R) (hg0 : GhostTri g t0) : False := by
  classical
  set G := R.filter fun t => decide (GhostTri g t) with hG
  have hmem : ∀ t, t ∈ G ↔ t ∈ R ∧ GhostTri g t := by
    intro t; rw [hG, List.mem_filter, decide_eq_true_iff]
  have hGn : G.Nodup := hn.filter _
  obtain ⟨n1, n2⟩ := hT.nodup_starts hGn (fun t ht => ⟨(hR t ((hmem t).1 ht).1).1, ((hmem t).1 ht).2⟩)
  refine hT.ghost_cycle (v := v) (G := G) ?_ ((hmem t0).2 ⟨ht0, hg0⟩) (hN t0 ht0 hg0) ?_
  · intro t ht
    obtain ⟨h1, h2⟩ := (hmem t).1 ht
    exact ⟨(hR t h1).1, h2, (hR t h1).2⟩
  · refine ghost_sum_of_subset n1 n2 ?_
    rcases h with h | h
    · left
      intro t ht
      obtain ⟨h1, h2⟩ := (hmem t).1 ht
      obtain ⟨s, k1, k2, k3⟩ := h t h1 h2
      exact ⟨s, (hmem s).2 ⟨k1, k2⟩, k3⟩
    · right
      intro t ht
      obtain ⟨h1, h2⟩ := (hmem t).1 ht
      obtain ⟨s, k1, k2, k3⟩ := h t h1 h2
      exact ⟨s, (hmem s).2 ⟨k1, k2⟩, k3⟩

/-- The triangles in conflict are connected like a tree: among `n` of them at most `n - 1` edges are inner. -/
theorem Good.no_loop (hT : Good g T) {v : Vertex K} {R : List (Tri (Vertex K))} (hn : R.Nodup)
    (hne : R ≠ []) (hR : ∀ r ∈ R, r ∈ T ∧ Conf v r) (hN : ∀ r ∈ R, GhostTri g r → Off T v r)
    (hsub : (sides R).Nodup) {I X : List (Edge (Vertex K))}
    (hp : (sides R).Perm (X ++ (I ++ I.map Edge.opposite))) (hlen : R.length ≤ I.length) : False := by
  classical
  set J := I ++ I.map Edge.opposite with hJ
  have hJopp : ∀ x, x ∈ J → x.opposite ∈ J := by
    intro x hx
    rw [hJ, List.mem_append] at hx ⊢
    rcases hx with hx | hx
    · exact Or.inr (List.mem_map_of_mem hx)
    · obtain ⟨y, hy, rfl⟩ := List.mem_map.1 hx
      left; simpa using hy
  have hJside : ∀ x, x ∈ J → ∃ r ∈ R, IsSide r x := fun x hx =>
    mem_sides.1 (hp.mem_iff.2 (List.mem_append.2 (Or.inr hx)))
  let σ : Edge (Vertex K) → ℕ := fun x => if Special v x ∧ x ∈ J then 1 else 0
  have hσ1 : ∀ x, σ x ≤ 1 := by intro x; simp only [σ]; split_ifs <;> omega
  have hσ : ∀ x, Special v x → x ∈ J → σ x = 1 := by
    intro x h1 h2; simp only [σ]; rw [if_pos ⟨h1, h2⟩]
  have hσ' : ∀ x, σ x = 1 → Special v x ∧ x ∈ J := by
    intro x h; simp only [σ] at h; by_contra hc; rw [if_neg hc] at h; omega
  -- each inner edge is special in one direction
  have hI : ∀ z ∈ I, 1 ≤ σ z + σ z.opposite := by
    intro z hz
    have hzJ : z ∈ J := List.mem_append.2 (Or.inl hz)
    have : Special v z ∨ Special v z.opposite := by
      unfold Special
      by_cases hr : RealEdge z
      · have hr' : RealEdge z.opposite := ⟨hr.2, hr.1⟩
        rw [if_pos hr, if_pos hr']
        simp only [Edge.opposite]
        rw [cross_swap z.v1 z.v2 v]
        rcases le_total (cross z.v1 z.v2 v) 0 with h | h
        · exact Or.inl h
        · exact Or.inr (by linarith)
      · have hr' : ¬ RealEdge z.opposite := fun h => hr ⟨h.2, h.1⟩
        rw [if_neg hr, if_neg hr']
        by_contra hc
        push Not at hc
        simp only [Edge.opposite, ne_eq, Bool.not_eq_true] at hc
        exact hr hc
    rcases this with h | h
    · rw [hσ z h hzJ]; omega
    · rw [hσ _ h (hJopp z hzJ)]; omega
  -- each triangle has at most one special inner side
  have hone : ∀ r ∈ R, (r.innerEdges.map σ).sum ≤ 1 := by
    intro r hr
    obtain ⟨hrT, hrc⟩ := hR r hr
    simp only [Tri.innerEdges, List.map_cons, List.map_nil, List.sum_cons, List.sum_nil]
    rcases hT.shape r hrT with hs | hs
    · obtain ⟨k1, k2, k3⟩ := conf_one_special hs hrc
      have sp : ∀ a b : Vertex K, a.isGhost = false → b.isGhost = false → σ ⟨a, b⟩ = 1 → cross a b v ≤ 0 := by
        intro a b ha hb h
        have := (hσ' _ h).1
        exact (special_real (e := ⟨a, b⟩) ⟨ha, hb⟩).1 this
      have a1 := hσ1 ⟨r.v1, r.v2⟩
      have a2 := hσ1 ⟨r.v2, r.v3⟩
      have a3 := hσ1 ⟨r.v3, r.v1⟩
      by_contra hc
      by_cases b1 : σ ⟨r.v1, r.v2⟩ = 1
      · by_cases b2 : σ ⟨r.v2, r.v3⟩ = 1
        · exact k1 ⟨sp _ _ hs.r1 hs.r2 b1, sp _ _ hs.r2 hs.r3 b2⟩
        · have b3 : σ ⟨r.v3, r.v1⟩ = 1 := by omega
          exact k3 ⟨sp _ _ hs.r3 hs.r1 b3, sp _ _ hs.r1 hs.r2 b1⟩
      · have b2 : σ ⟨r.v2, r.v3⟩ = 1 := by omega
        have b3 : σ ⟨r.v3, r.v1⟩ = 1 := by omega
        exact k2 ⟨sp _ _ hs.r2 hs.r3 b2, sp _ _ hs.r3 hs.r1 b3⟩
    · have a2 : σ ⟨r.v2, r.v3⟩ = 0 := by
        have : ¬ Special v (⟨r.v2, r.v3⟩ : Edge (Vertex K)) := by
          unfold Special
          rw [if_neg (by rintro ⟨-, h⟩; simp [hs.g3, hT.ghost] at h)]
          simp [hs.r2]
        simp only [σ]; rw [if_neg fun h => this h.1]
      have a1 := hσ1 ⟨r.v1, r.v2⟩
      have a3 := hσ1 ⟨r.v3, r.v1⟩
      by_contra hc
      have b1 : σ ⟨r.v1, r.v2⟩ = 1 := by omega
      have b3 : σ ⟨r.v3, r.v1⟩ = 1 := by omega
      have c1 : cross r.v1 r.v2 v ≤ 0 :=
        (special_real (e := ⟨r.v1, r.v2⟩) ⟨hs.r1, hs.r2⟩).1 (hσ' _ b1).1
      -- the previous ghost
      obtain ⟨s, hsR, hside⟩ := hJside _ (hJopp _ (hσ' _ b3).2)
      obtain ⟨hsT, hsc⟩ := hR s hsR
      obtain ⟨hsg, hcase⟩ := hT.side_ghost hsT hside (by
        rintro ⟨-, h⟩; simp [Edge.opposite, hs.g3, hT.ghost] at h)
      have hsv : s.v2 = r.v1 := by
        rcases hcase with ⟨h, -⟩ | ⟨h, -⟩
        · exact h.symm
        · exfalso
          simp only [Edge.opposite] at h
          have := hs.r1
          rw [h, hT.ghost] at this
          simp at this
      rw [conf_ghost hT.ghost hs] at hrc
      rcases hrc with hrc | ⟨hrc, hrb⟩
      · linarith
      · have hoff := hN r hr hs
        rcases hoff with hoff | ⟨q, hq, hqc⟩
        · linarith
        · have hne' := real_ne hs.r1 hs.r2 hs.ne
          obtain ⟨k, kx, ky⟩ := line_param hrc hne'
          have e1 : btw r.v1 r.v2 v = -(k * (1 - k)) * dist2 r.v1 r.v2 := by
            simp only [btw, dist2, kx, ky]; ring
          have hd := dist2_pos hne'
          have hk : 0 < k := by
            by_contra hkn
            push Not at hkn
            rw [e1] at hrb
            have : 0 ≤ -(k * (1 - k)) := by nlinarith
            nlinarith
          have hb := hT.hull s hsT hsg r.v2 (hT.corners hrT).2
          have e2 : cross s.v1 s.v2 v = k * cross s.v1 s.v2 r.v2 := by
            rw [hsv]; simp only [cross, kx, ky]; ring
          have e3 := conf_ghost_nonneg hT.ghost hsg hsc
          have z : cross s.v1 s.v2 r.v2 = 0 := by
            by_contra hz
            have : cross s.v1 s.v2 r.v2 < 0 := lt_of_le_of_ne hb.1 hz
            nlinarith
          rw [conf_ghost hT.ghost hsg] at hsc
          rw [e2, z, mul_zero] at hsc
          simp only [lt_irrefl, false_or, true_and] at hsc
          have z' : cross r.v1 r.v2 s.v1 = 0 := by rw [← z, hsv, cross_rotate]
          obtain ⟨l, lx, ly⟩ := line_param z' hne'
          rw [hsv] at hsc
          have e4 : btw s.v1 r.v1 v = (k - l) * k * dist2 r.v1 r.v2 := by
            simp only [btw, dist2, kx, ky, lx, ly]; ring
          have hl : k < l := by
            by_contra hln
            push Not at hln
            rw [e4] at hsc
            have : 0 ≤ (k - l) * k * dist2 r.v1 r.v2 := mul_nonneg (mul_nonneg (by linarith) hk.le) hd.le
            linarith
          have hq2 := (hT.hull s hsT hsg q hq).1
          have e5 : cross s.v1 s.v2 q = -l * cross r.v1 r.v2 q := by
            rw [hsv]; simp only [cross, lx, ly]; ring
          rw [e5] at hq2
          nlinarith
  -- the counts agree
  have hsum : (R.map fun r => (r.innerEdges.map σ).sum).sum
      = (X.map σ).sum + (I.map fun z => σ z + σ z.opposite).sum := by
    have h1 : ((sides R).map σ).sum = (R.map fun r => (r.innerEdges.map σ).sum).sum := by
      clear hp hlen hone hI hN hR hne hn hsub hJside
      induction R with
      | nil => simp [sides]
      | cons t l ih => rw [sides_cons, List.map_append, List.sum_append, ih]; simp
    rw [← h1, (hp.map σ).sum_eq, List.map_append, List.sum_append, hJ, List.map_append,
      List.sum_append, List.map_map]
    congr 1
    clear * -
    clear_value σ
    induction I with
    | nil => simp
    | cons z I ih => simp only [List.map_cons, List.sum_cons, Function.comp] at ih ⊢; omega
  have hu := sum_le_length hone
  have hl := length_le_sum hI
  have hR1 := all_one_of_sum hone (by omega)
  have hI1 := all_one_of_sum' hI (by omega)
  -- no inner edge has the point on its line
  have hstrict : ∀ x, σ x = 1 → RealEdge x → cross x.v1 x.v2 v < 0 := by
    intro x hx hr
    obtain ⟨h1, h2⟩ := hσ' x hx
    have h1' := h1
    unfold Special at h1
    rw [if_pos hr] at h1
    refine lt_of_le_of_ne h1 fun h0 => ?_
    have hopp : σ x.opposite = 1 := by
      refine hσ _ ?_ (hJopp x h2)
      rw [special_real (e := x.opposite) ⟨hr.2, hr.1⟩]
      simp only [Edge.opposite]
      rw [cross_swap, h0]; simp
    rw [hJ, List.mem_append] at h2
    rcases h2 with h2 | h2
    · have := hI1 x h2; omega
    · obtain ⟨y, hy, rfl⟩ := List.mem_map.1 h2
      have := hI1 y hy
      rw [opposite_opposite] at hopp
      omega
  by_cases hgh : ∃ t ∈ R, GhostTri g t
  · obtain ⟨t0, ht0, hg0⟩ := hgh
    refine hT.ghosts_close hn hR hN (Or.inr ?_) ht0 hg0
    intro t ht hgt
    have h1 := hR1 t ht
    simp only [Tri.innerEdges, List.map_cons, List.map_nil, List.sum_cons, List.sum_nil] at h1
    have a2 : σ ⟨t.v2, t.v3⟩ = 0 := by
      have : ¬ Special v (⟨t.v2, t.v3⟩ : Edge (Vertex K)) := by
        unfold Special
        rw [if_neg (by rintro ⟨-, h⟩; simp [hgt.g3, hT.ghost] at h)]
        simp [hgt.r2]
      simp only [σ]; rw [if_neg fun h => this h.1]
    have a1 : σ ⟨t.v1, t.v2⟩ = 0 := by
      by_contra hc
      have : σ ⟨t.v1, t.v2⟩ = 1 := by have := hσ1 ⟨t.v1, t.v2⟩; omega
      have h2 := hstrict _ this ⟨hgt.r1, hgt.r2⟩
      have h3 := conf_ghost_nonneg hT.ghost hgt (hR t ht).2
      simp only at h2
      linarith
    have a3 : σ ⟨t.v3, t.v1⟩ = 1 := by omega
    obtain ⟨s, hsR, hside⟩ := hJside _ (hJopp _ (hσ' _ a3).2)
    obtain ⟨hsg, hcase⟩ := hT.side_ghost (hR s hsR).1 hside (by
      rintro ⟨-, h⟩; simp [Edge.opposite, hgt.g3, hT.ghost] at h)
    refine ⟨s, hsR, hsg, ?_⟩
    rcases hcase with ⟨h, -⟩ | ⟨h, -⟩
    · exact h.symm
    · exfalso
      simp only [Edge.opposite] at h
      have := hgt.r1
      rw [h, hT.ghost] at this
      simp at this
  · have hsolid : ∀ t ∈ R, SolidTri t := by
      intro t ht
      rcases hT.shape t (hR t ht).1 with h | h
      · exact h
      · exact absurd ⟨t, ht, h⟩ hgh
    have hreal : ∀ t ∈ R, ∀ x, IsSide t x → RealEdge x := by
      intro t ht x hx
      have h := hsolid t ht
      rcases hx with ⟨h1, h2⟩ | ⟨h1, h2⟩ | ⟨h1, h2⟩ <;> unfold RealEdge <;> rw [h1, h2]
      · exact ⟨h.r1, h.r2⟩
      · exact ⟨h.r2, h.r3⟩
      · exact ⟨h.r3, h.r1⟩
    -- the special side of each triangle
    have hspec : ∀ t ∈ R, ∃ x, IsSide t x ∧ σ x = 1 := by
      intro t ht
      have h1 := hR1 t ht
      simp only [Tri.innerEdges, List.map_cons, List.map_nil, List.sum_cons, List.sum_nil] at h1
      by_contra hc
      push Not at hc
      have b1 := hc ⟨t.v1, t.v2⟩ (Or.inl ⟨rfl, rfl⟩)
      have b2 := hc ⟨t.v2, t.v3⟩ (Or.inr (Or.inl ⟨rfl, rfl⟩))
      have b3 := hc ⟨t.v3, t.v1⟩ (Or.inr (Or.inr ⟨rfl, rfl⟩))
      have a1 := hσ1 ⟨t.v1, t.v2⟩
      have a2 := hσ1 ⟨t.v2, t.v3⟩
      have a3 := hσ1 ⟨t.v3, t.v1⟩
      omega
    have hrim : Rim R X := ⟨J, balanced_pairs I, hp⟩
    have hnd := hp.nodup_iff.1 hsub
    rw [List.nodup_append] at hnd
    have hleft : ∀ e ∈ X, RealEdge e → 0 < cross e.v1 e.v2 v := by
      intro e he hr
      by_contra hle
      push Not at hle
      obtain ⟨t, ht, hside⟩ := mem_sides.1 (hp.mem_iff.2 (List.mem_append.2 (Or.inl he)))
      obtain ⟨x, hx, hxσ⟩ := hspec t ht
      have hxJ := (hσ' x hxσ).2
      have hxe : e ≠ x := fun h => hnd.2.2 e he x hxJ h
      have hxc := (hstrict x hxσ (hreal t ht x hx)).le
      obtain ⟨k1, k2, k3⟩ := conf_one_special (hsolid t ht) (hR t ht).2
      obtain ⟨ea, eb⟩ := e
      obtain ⟨xa, xb⟩ := x
      rcases hside with ⟨h1, h2⟩ | ⟨h1, h2⟩ | ⟨h1, h2⟩ <;> rcases hx with ⟨h3, h4⟩ | ⟨h3, h4⟩ | ⟨h3, h4⟩ <;>
        simp only at h1 h2 h3 h4 hle hxc <;> subst h1 h2 h3 h4 <;> first | exact hxe rfl | tauto
    have hw := (region_winds (v := v) hsolid hne hrim hleft (ux := 1) (uy := 0) (Or.inl one_ne_zero)).2
    have : (R.map (wnd v 1 0)).sum ≤ 0 := by
      have hnn : ∀ t ∈ R, 0 ≤ -wnd v 1 0 t := by
        intro t ht
        obtain ⟨x, hx, hxσ⟩ := hspec t ht
        have hxc := hstrict x hxσ (hreal t ht x hx)
        by_contra hc
        push Not at hc
        obtain ⟨k1, k2, k3⟩ := wnd_pos (hsolid t ht) (v := v) (ux := 1) (uy := 0) (by omega)
        rcases hx with ⟨h1, h2⟩ | ⟨h1, h2⟩ | ⟨h1, h2⟩ <;> rw [h1, h2] at hxc <;> linarith
      have := List.sum_nonneg (l := R.map fun t => -wnd v 1 0 t) (by
        intro x hx
        obtain ⟨e, he, rfl⟩ := List.mem_map.1 hx
        exact hnn e he)
      rw [sum_map_neg'] at this
      omega
    omega

/-- A set of triangles in conflict that contains each neighbour in conflict. -/
structure Patch (T : List (Tri (Vertex K))) (v : Vertex K) (R : List (Tri (Vertex K))) : Prop where
  sub : ∀ r ∈ R, r ∈ T ∧ Conf v r
  nodup : R.Nodup
  ne : R ≠ []
  clos : ∀ r ∈ R, ∀ e, IsSide r e → ∀ t ∈ T, IsSide t e.opposite → Conf v t → t ∈ R

theorem exists_rest {R : List (Tri (Vertex K))} (hn : R.Nodup) (hs : ∀ r ∈ R, r ∈ T) :
    ∃ O, T.Perm (R ++ O) := by
  obtain ⟨l, hl, hsub⟩ := List.subperm_of_subset hn hs
  obtain ⟨O, hO⟩ := hsub.exists_perm_append
  exact ⟨O, hO.trans (hl.append_right O)⟩

theorem simple_part {R O : List (Tri (Vertex K))} (hT : Simple T) (hp : T.Perm (R ++ O)) : Simple R := by
  rw [simple_iff] at hT ⊢
  have h : (sides T).Perm (sides R ++ sides O) := by
    rw [← sides_append]; exact sides_perm hp
  exact (List.nodup_append.1 (h.nodup_iff.1 hT)).1

/-- Some vertex of the mesh is off each hull edge, if there is a solid triangle. -/
theorem Good.off (hT : Good g T) {s : Tri (Vertex K)} (hs : s ∈ T) (hsol : SolidTri s) {t : Tri (Vertex K)}
    (ht : t ∈ T) (hg : GhostTri g t) : ∃ p, Vx T p ∧ cross t.v1 t.v2 p < 0 := by
  by_contra hc
  push Not at hc
  have key : ∀ p, Vx T p → cross t.v1 t.v2 p = 0 := fun p hp =>
    le_antisymm (hT.hull t ht hg p hp).1 (hc p hp)
  have hne := real_ne hg.r1 hg.r2 hg.ne
  have v1 : Vx T s.v1 := ⟨⟨s, hs, Or.inl rfl⟩, hsol.r1⟩
  have v2 : Vx T s.v2 := ⟨⟨s, hs, Or.inr (Or.inl rfl)⟩, hsol.r2⟩
  have v3 : Vx T s.v3 := ⟨⟨s, hs, Or.inr (Or.inr rfl)⟩, hsol.r3⟩
  obtain ⟨k, kx, ky⟩ := line_param (key _ v1) hne
  obtain ⟨l, lx, ly⟩ := line_param (key _ v2) hne
  obtain ⟨m, mx, my⟩ := line_param (key _ v3) hne
  have := hsol.ccw
  have h0 : cross s.v1 s.v2 s.v3 = 0 := by simp only [cross, kx, ky, lx, ly, mx, my]; ring
  linarith

theorem Good.next (hT : Good g T) {t : Tri (Vertex K)} (ht : t ∈ T) (hg : GhostTri g t) :
    ∃ s ∈ T, GhostTri g s ∧ s.v1 = t.v2 := by
  obtain ⟨s, hs, hside⟩ := hT.across ht (e := ⟨t.v2, t.v3⟩) (Or.inr (Or.inl ⟨rfl, rfl⟩))
  obtain ⟨hsg, hcase⟩ := hT.side_ghost hs hside (by
    rintro ⟨h, -⟩; simp [Edge.opposite, hg.g3, hT.ghost] at h)
  refine ⟨s, hs, hsg, ?_⟩
  rcases hcase with ⟨-, h⟩ | ⟨-, h⟩
  · exfalso
    simp only [Edge.opposite] at h
    have := hg.r2
    rw [h, hT.ghost] at this
    simp at this
  · exact h.symm

theorem ghost_next_side {s t : Tri (Vertex K)} (hg : GhostTri g t) (hs : GhostTri g s)
    (h : s.v1 = t.v2) : IsSide s (Edge.opposite ⟨t.v2, t.v3⟩) := by
  right; right
  simp only [Edge.opposite]
  exact ⟨by rw [hg.g3, hs.g3], h.symm⟩

/-- A conflicting hull edge next to one without conflict: a tangent through the point. -/
theorem Good.tan_end (hT : Good g T) {v : Vertex K} {t s : Tri (Vertex K)} (ht : t ∈ T)
    (hg : GhostTri g t) (hs : s ∈ T) (hsg : GhostTri g s) (h : s.v1 = t.v2) (hc : Conf v t)
    (hn : ¬ Conf v s) {q : Vertex K} (hq : Vx T q) (hqc : cross t.v1 t.v2 q < 0) {p : Vertex K}
    (hp : Vx T p) : 0 ≤ cross t.v2 v p := by
  have c1 := conf_ghost_nonneg hT.ghost hg hc
  rw [conf_ghost hT.ghost hg] at hc
  rw [conf_ghost hT.ghost hsg] at hn
  push Not at hn
  have hs2 := (hT.corners hs).2
  refine tangent_end (c := s.v2) (q := q) (real_ne hg.r1 hg.r2 hg.ne) c1 ?_ ?_ (hT.hull t ht hg _ hs2).1
    (hT.hull t ht hg p hp).1 ?_ hqc ?_ ?_
  · intro h0; rcases hc with hc | hc
    · linarith
    · exact hc.2
  · rw [← h]; exact hn.1
  · rw [← h]; exact (hT.hull s hs hsg p hp).1
  · rw [← h]; exact (hT.hull s hs hsg q hq).1
  · rw [← h]; exact real_ne hsg.r1 hsg.r2 hsg.ne

theorem Good.tan_start (hT : Good g T) {v : Vertex K} {t s : Tri (Vertex K)} (ht : t ∈ T)
    (hg : GhostTri g t) (hs : s ∈ T) (hsg : GhostTri g s) (h : s.v2 = t.v1) (hc : Conf v t)
    (hn : ¬ Conf v s) {q : Vertex K} (hq : Vx T q) (hqc : cross t.v1 t.v2 q < 0) {p : Vertex K}
    (hp : Vx T p) : cross t.v1 v p ≤ 0 := by
  have c1 := conf_ghost_nonneg hT.ghost hg hc
  rw [conf_ghost hT.ghost hg] at hc
  rw [conf_ghost hT.ghost hsg] at hn
  push Not at hn
  have hs1 := (hT.corners hs).1
  refine tangent_start (z := s.v1) (q := q) (real_ne hg.r1 hg.r2 hg.ne) c1 ?_ ?_ (hT.hull t ht hg _ hs1).1
    (hT.hull t ht hg p hp).1 ?_ hqc ?_ ?_
  · intro h0; rcases hc with hc | hc
    · linarith
    · exact hc.2
  · rw [← h]; exact hn.1
  · rw [← h]; exact (hT.hull s hs hsg p hp).1
  · rw [← h]; exact (hT.hull s hs hsg q hq).1
  · rw [← h]; exact real_ne hsg.r1 hsg.r2 hsg.ne

theorem Good.ends_inj (hT : Good g T) {s t : Tri (Vertex K)} (hs : s ∈ T) (ht : t ∈ T) (gs : GhostTri g s)
    (gt : GhostTri g t) (h : s.v2 = t.v2) : s = t :=
  hT.simple.edgeDisjoint s hs t ht ⟨s.v2, g⟩ (Or.inr (Or.inl ⟨rfl, gs.g3.symm⟩))
    (Or.inr (Or.inl ⟨h, gt.g3.symm⟩))

/-- There is one tangent of each kind. -/
theorem Good.tan_unique (hT : Good g T) {v : Vertex K} (hv : v.isGhost = false) (hvx : ¬ Vx T v)
    {t s t' s' : Tri (Vertex K)} (ht : t ∈ T)
    (hg : GhostTri g t) (hs : s ∈ T) (hsg : GhostTri g s) (h : s.v1 = t.v2) (hc : Conf v t)
    (hn : ¬ Conf v s) (ht' : t' ∈ T)
    (hg' : GhostTri g t') (hs' : s' ∈ T) (hsg' : GhostTri g s') (h' : s'.v1 = t'.v2) (hc' : Conf v t')
    (hn' : ¬ Conf v s') {q : Vertex K} (hq : Vx T q) (hqc : cross t.v1 t.v2 q < 0)
    {q' : Vertex K} (hq' : Vx T q') (hqc' : cross t'.v1 t'.v2 q' < 0) : t = t' := by
  by_contra hne
  have hb : t.v2 ≠ t'.v2 := fun h => hne (hT.ends_inj ht ht' hg hg' h)
  have w2 := (hT.corners ht).2
  have w2' := (hT.corners ht').2
  have c1 := conf_ghost_nonneg hT.ghost hg hc
  have c1' := conf_ghost_nonneg hT.ghost hg' hc'
  have hne2 : ∀ x, Vx T x → ¬ SamePoint v x := fun x hx => real_ne hv hx.2 fun h => hvx (h ▸ hx)
  refine tangent_unique (a := t.v1) (b := t.v2) (a' := t'.v1) (b' := t'.v2) (v := v) (q := q)
    (real_ne hg.r2 hg'.r2 hb) (hne2 _ w2) (hne2 _ w2') c1 ?_ c1' ?_ (hT.hull t' ht' hg' _ w2).1
    (hT.hull t' ht' hg' _ w2).2 (hT.hull t ht hg _ w2').1 (hT.hull t ht hg _ w2').2
    (hT.tan_end ht hg hs hsg h hc hn hq hqc w2')
    (hT.tan_end ht' hg' hs' hsg' h' hc' hn' hq' hqc' w2) hqc (hT.hull t' ht' hg' q hq).1
  · intro h0
    rw [conf_ghost hT.ghost hg] at hc
    rcases hc with hc | hc
    · linarith
    · exact hc.2
  · intro h0
    rw [conf_ghost hT.ghost hg'] at hc'
    rcases hc' with hc' | hc'
    · linarith
    · exact hc'.2

theorem Good.patch_left (hT : Good g T) {v : Vertex K} {R : List (Tri (Vertex K))} (hR : Patch T v R) :
    ∀ e ∈ (sides R).filter (fun e => !decide (e.opposite ∈ sides R)), RealEdge e →
      0 < cross e.v1 e.v2 v := by
  intro e he hr
  rw [List.mem_filter] at he
  obtain ⟨r, hrR, hside⟩ := mem_sides.1 he.1
  by_contra hle
  push Not at hle
  obtain ⟨t, ht, hts⟩ := hT.across (hR.sub r hrR).1 hside
  have hc := hT.pencil (hR.sub r hrR).1 ht hr hside hts (hR.sub r hrR).2 hle
  have htR := hR.clos r hrR e hside t ht hts hc
  have := he.2
  simp only [Bool.not_eq_true', decide_eq_false_iff_not] at this
  exact this (mem_sides.2 ⟨t, htR, hts⟩)

theorem Good.patch_solid (hT : Good g T) {R : List (Tri (Vertex K))} (hR : ∀ r ∈ R, r ∈ T)
    (h : ¬ ∃ t ∈ R, GhostTri g t) : ∀ t ∈ R, SolidTri t := by
  intro t ht
  rcases hT.shape t (hR t ht) with h' | h'
  · exact h'
  · exact absurd ⟨t, ht, h'⟩ h

/-- A patch with a ghost triangle has a tangent. -/
theorem Good.patch_tangent (hT : Good g T) {v : Vertex K} {R : List (Tri (Vertex K))} (hR : Patch T v R)
    (hN : ∀ r ∈ R, GhostTri g r → Off T v r)
    {t0 : Tri (Vertex K)} (ht0 : t0 ∈ R) (hg0 : GhostTri g t0) :
    ∃ t ∈ R, GhostTri g t ∧ ∃ s ∈ T, GhostTri g s ∧ s.v1 = t.v2 ∧ ¬ Conf v s := by
  by_contra hc
  push Not at hc
  refine hT.ghosts_close hR.nodup hR.sub hN (Or.inl ?_) ht0 hg0
  intro t ht hg
  obtain ⟨s, hs, hsg, hv⟩ := hT.next (hR.sub t ht).1 hg
  exact ⟨s, hR.clos t ht ⟨t.v2, t.v3⟩ (Or.inr (Or.inl ⟨rfl, rfl⟩)) s hs (ghost_next_side hg hsg hv)
    (hc t ht hg s hs hsg hv), hsg, hv⟩

/-- In a mesh with a solid triangle, the triangles in conflict are connected. -/
theorem Good.patch_unique (hT : Good g T) {v : Vertex K} (hv : v.isGhost = false) (hvx : ¬ Vx T v)
    {s0 : Tri (Vertex K)} (hs0 : s0 ∈ T) (hsol : SolidTri s0)
    {R R' : List (Tri (Vertex K))} (hR : Patch T v R) (hR' : Patch T v R') :
    ∃ t, t ∈ R ∧ t ∈ R' := by
  by_contra hd
  push Not at hd
  have hoff : ∀ r ∈ T, GhostTri g r → Off T v r := fun r hr hg => Or.inr (hT.off hs0 hsol hr hg)
  have rim := fun {R : List (Tri (Vertex K))} (hR : Patch T v R) => (by
    obtain ⟨O, hO⟩ := exists_rest hR.nodup fun r hr => (hR.sub r hr).1
    exact rim_filter (simple_part hT.simple hO) :
      Rim R ((sides R).filter fun e => !decide (e.opposite ∈ sides R)))
  have mixed : ∀ {R R' : List (Tri (Vertex K))}, Patch T v R → Patch T v R' →
      (¬ ∃ t ∈ R, GhostTri g t) → (∃ t ∈ R', GhostTri g t) → False := by
    intro R R' hR hR' h1 h2
    obtain ⟨t, ht, hg⟩ := h2
    exact hT.no_solid_region (fun t ht => (hR.sub t ht).1)
      (hT.patch_solid (fun r hr => (hR.sub r hr).1) h1) hR.ne (rim hR)
      (hT.patch_left hR) (hR'.sub t ht).1 hg (conf_ghost_nonneg hT.ghost hg (hR'.sub t ht).2)
  by_cases h1 : ∃ t ∈ R, GhostTri g t <;> by_cases h2 : ∃ t ∈ R', GhostTri g t
  · obtain ⟨t, ht, hg⟩ := h1
    obtain ⟨t', ht', hg'⟩ := h2
    obtain ⟨t, ht, hg, s, hs, hsg, hsv, hsn⟩ := hT.patch_tangent hR (fun r hr => hoff r (hR.sub r hr).1) ht hg
    obtain ⟨t', ht', hg', s', hs', hsg', hsv', hsn'⟩ :=
      hT.patch_tangent hR' (fun r hr => hoff r (hR'.sub r hr).1) ht' hg'
    obtain ⟨q, hq, hqc⟩ := hT.off hs0 hsol (hR.sub t ht).1 hg
    obtain ⟨q', hq', hqc'⟩ := hT.off hs0 hsol (hR'.sub t' ht').1 hg'
    have := hT.tan_unique hv hvx (hR.sub t ht).1 hg hs hsg hsv (hR.sub t ht).2 hsn
      (hR'.sub t' ht').1 hg' hs' hsg' hsv' (hR'.sub t' ht').2 hsn' hq hqc hq' hqc'
    exact hd t ht (this ▸ ht')
  · exact mixed hR' hR h2 h1
  · exact mixed hR hR' h1 h2
  · have w1 := (region_winds (v := v) (hT.patch_solid (fun r hr => (hR.sub r hr).1) h1) hR.ne (rim hR)
      (hT.patch_left hR) (ux := 1) (uy := 0) (Or.inl one_ne_zero)).2
    have w2 := (region_winds (v := v) (hT.patch_solid (fun r hr => (hR'.sub r hr).1) h2) hR'.ne (rim hR')
      (hT.patch_left hR') (ux := 1) (uy := 0) (Or.inl one_ne_zero)).2
    obtain ⟨O, hO⟩ := exists_rest (T := T) (R := R ++ R')
      (List.nodup_append.2 ⟨hR.nodup, hR'.nodup, fun a ha b hb h => hd a ha (h ▸ hb)⟩) (by
        intro r hr
        rcases List.mem_append.1 hr with h | h
        · exact (hR.sub r h).1
        · exact (hR'.sub r h).1)
    have := hT.part_le_one hO v 1 0
    rw [List.map_append, List.sum_append] at this
    omega

/-- The triangles in conflict are those of any patch. -/
theorem Good.patch_all (hT : Good g T) {v : Vertex K} (hv : v.isGhost = false) (hvx : ¬ Vx T v)
    {s0 : Tri (Vertex K)} (hs0 : s0 ∈ T) (hsol : SolidTri s0)
    {R : List (Tri (Vertex K))} (hR : Patch T v R) : ∀ t ∈ T, Conf v t → t ∈ R := by
  classical
  intro t ht hc
  by_contra hn
  set U := T.filter fun t => decide (Conf v t ∧ t ∉ R) with hU
  have hmem : ∀ t, t ∈ U ↔ t ∈ T ∧ Conf v t ∧ t ∉ R := by
    intro t; rw [hU, List.mem_filter, decide_eq_true_iff]
  obtain ⟨x, h1, h2⟩ := hT.patch_unique hv hvx hs0 hsol hR (R' := U) {
    sub := fun r hr => ⟨((hmem r).1 hr).1, ((hmem r).1 hr).2.1⟩
    nodup := hT.simple.nodup.filter _
    ne := by
      intro h
      have := (hmem t).2 ⟨ht, hc, hn⟩
      rw [h] at this
      simp at this
    clos := by
      intro r hr e he s hs hse hsc
      refine (hmem s).2 ⟨hs, hsc, fun hsR => ?_⟩
      obtain ⟨k1, k2, k3⟩ := (hmem r).1 hr
      exact k3 (hR.clos s hsR _ hse r k1 (by rw [opposite_opposite]; exact he) k2) }
  exact ((hmem x).1 h2).2.2 h1

end

end Verif
