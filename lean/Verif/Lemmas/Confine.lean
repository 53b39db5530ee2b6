import Verif.Lemmas.Sides

/-!
# Lemmas: the circuits made of the pieces of two simple polygons in general position
-/

namespace Verif

open Spec

variable {K : Type*} [Field K] [LinearOrder K] [IsStrictOrderedRing K]

set_option linter.unusedSectionVars false

section Circuits

variable {l m : List (Vertex K)} {r : List (Vertex K × Vertex K)}

/-- Two pieces of a simple polygon that start, or end, at the same point are the same. -/
theorem pieces_start {l : List (Vertex K)} (hl : SimplePolygon l) {r1 : List (Vertex K × Vertex K)}
    {p : Polyline (Vertex K)} (hp : p.vertices = l) (c1 : Cuts (pairs l false) r1) {s t : Vertex K × Vertex K}
    (hs : s ∈ r1) (ht : t ∈ r1) : (s.1 = t.1 → s = t) ∧ (s.2 = t.2 → s = t) := by
  subst hp
  obtain ⟨P, -, hP, hPs⟩ := refined hl c1
  have hsym : Std.Symm (Adjoin (K := K)) := ⟨fun _ _ h => h.symm⟩
  have hs' := hP.mem_iff.2 hs
  have ht' := hP.mem_iff.2 ht
  constructor
  · intro he
    by_contra hne
    rcases List.Pairwise.forall (R := Adjoin) hPs.apart hs' ht' hne s.1 (onSegment_left _ _)
      (he ▸ onSegment_left _ _) with ⟨a, -⟩ | ⟨-, b⟩
    · exact hPs.proper s hs' a
    · rw [he] at b; exact hPs.proper t ht' b
  · intro he
    by_contra hne
    rcases List.Pairwise.forall (R := Adjoin) hPs.apart hs' ht' hne s.2 (onSegment_right _ _)
      (he ▸ onSegment_right _ _) with ⟨-, b⟩ | ⟨a, -⟩
    · rw [he] at b; exact hPs.proper t ht' ⟨b.1.symm, b.2.symm⟩
    · exact hPs.proper s hs' ⟨a.1.symm, a.2.symm⟩

/-- The kept pieces form circuits that do not branch. -/
theorem Arranged.circuits {p1 p2 : Polyline (Vertex K)} (h : Arranged p1.vertices p2.vertices r)
    (hl : SimplePolygon p1.vertices) (hm : SimplePolygon p2.vertices)
    (hg : GeneralPosition p1.vertices p2.vertices) (kp : Vertex K → Bool) {α β γ : ℤ}
    (k1 : ∀ q, OnSome (pairs p1.vertices false) q → ¬ OnSome (pairs p2.vertices false) q →
      (if kp q then (1 : ℤ) else 0) = α + γ * windingNumber (pairs p2.vertices false) q)
    (k2 : ∀ q, OnSome (pairs p2.vertices false) q → ¬ OnSome (pairs p1.vertices false) q →
      (if kp q then (1 : ℤ) else 0) = β + γ * windingNumber (pairs p1.vertices false) q) (hγ : γ ≠ 0) :
    Circuits (r.filter fun s => kp (midpoint s.1 s.2)) := by
  obtain ⟨hbal, hprop, -⟩ := h.region kp k1 k2
  obtain ⟨r1, r2, hp, c1, c2⟩ := h.parts
  have hap : (r1 ++ r2).Pairwise Separate :=
    (List.Perm.pairwise_iff (fun h => Separate.symm h) hp).1 h.separate
  have hcross := (List.pairwise_append.1 hap).2.2
  have mem1 : ∀ {s}, s ∈ r1 → s ∈ r := fun hs => hp.mem_iff.2 (List.mem_append_left _ hs)
  have mem2 : ∀ {s}, s ∈ r2 → s ∈ r := fun hs => hp.mem_iff.2 (List.mem_append_right _ hs)
  have miss1 : ∀ s ∈ r1, ∀ q, StrictlyOn s.1 s.2 q → ¬ OnSome (pairs p2.vertices false) q := by
    intro s hs q hq hm
    obtain ⟨t, ht, htq⟩ := c2.onSome.2 hm
    exact (hcross s hs t ht q hq.1 htq).1 hq
  have miss2 : ∀ s ∈ r2, ∀ q, StrictlyOn s.1 s.2 q → ¬ OnSome (pairs p1.vertices false) q := by
    intro s hs q hq hm
    obtain ⟨t, ht, htq⟩ := c1.onSome.2 hm
    exact (hcross t ht s hs q htq hq.1).2 hq
  have mid : ∀ {s}, s ∈ r → StrictlyOn s.1 s.2 (midpoint s.1 s.2) := fun {s} hs => by
    rw [Polyline.midpoint_eq_edge (h.solid s hs)]
    exact midpoint_strictlyOn (h.proper s hs)
  -- no kept piece follows another one of the same polygon across the other polygon
  have alt1 : ∀ x ∈ r1, ∀ s ∈ r1, x.2 = s.1 → OnSome (pairs p2.vertices false) s.1 →
      kp (midpoint x.1 x.2) = true → kp (midpoint s.1 s.2) = true → False := by
    intro x hx s hs hxs hb kx ks
    have e1 := k1 _ (c1.onSome.1 ⟨x, hx, (mid (mem1 hx)).1⟩) (miss1 x hx _ (mid (mem1 hx)))
    have e2 := k1 _ (c1.onSome.1 ⟨s, hs, (mid (mem1 hs)).1⟩) (miss1 s hs _ (mid (mem1 hs)))
    rw [if_pos kx] at e1
    rw [if_pos ks] at e2
    refine alternate hl hm hg c1 miss1 hx hs (by rw [hxs]; exact ⟨rfl, rfl⟩) hb (mid (mem1 hx)) (mid (mem1 hs)) ?_
    apply mul_left_cancel₀ hγ
    linarith
  have alt2 : ∀ x ∈ r2, ∀ s ∈ r2, x.2 = s.1 → OnSome (pairs p1.vertices false) s.1 →
      kp (midpoint x.1 x.2) = true → kp (midpoint s.1 s.2) = true → False := by
    intro x hx s hs hxs hb kx ks
    have e1 := k2 _ (c2.onSome.1 ⟨x, hx, (mid (mem2 hx)).1⟩) (miss2 x hx _ (mid (mem2 hx)))
    have e2 := k2 _ (c2.onSome.1 ⟨s, hs, (mid (mem2 hs)).1⟩) (miss2 s hs _ (mid (mem2 hs)))
    rw [if_pos kx] at e1
    rw [if_pos ks] at e2
    refine alternate hm hl hg.symm c2 miss2 hx hs (by rw [hxs]; exact ⟨rfl, rfl⟩) hb (mid (mem2 hx)) (mid (mem2 hs)) ?_
    apply mul_left_cancel₀ hγ
    linarith
  have on1 : ∀ {s}, s ∈ r1 → OnSome (pairs p1.vertices false) s.1 ∧ OnSome (pairs p1.vertices false) s.2 :=
    fun {s} hs => ⟨c1.onSome.1 ⟨s, hs, onSegment_left _ _⟩, c1.onSome.1 ⟨s, hs, onSegment_right _ _⟩⟩
  have on2 : ∀ {s}, s ∈ r2 → OnSome (pairs p2.vertices false) s.1 ∧ OnSome (pairs p2.vertices false) s.2 :=
    fun {s} hs => ⟨c2.onSome.1 ⟨s, hs, onSegment_left _ _⟩, c2.onSome.1 ⟨s, hs, onSegment_right _ _⟩⟩
  have into : ∀ s ∈ r.filter fun s => kp (midpoint s.1 s.2), ∃ x ∈ r.filter fun s => kp (midpoint s.1 s.2),
      x.2 = s.1 := by
    intro s hs
    have := hbal s.1
    have hpos : 0 < (r.filter fun s => kp (midpoint s.1 s.2)).countP fun t => decide (t.1 = s.1) :=
      List.countP_pos_iff.2 ⟨s, hs, by simp⟩
    rw [← this] at hpos
    obtain ⟨x, hx, e⟩ := List.countP_pos_iff.1 hpos
    exact ⟨x, hx, by simpa using e⟩
  have out : ∀ s ∈ r.filter fun s => kp (midpoint s.1 s.2), ∃ x ∈ r.filter fun s => kp (midpoint s.1 s.2),
      x.1 = s.2 := by
    intro s hs
    have := hbal s.2
    have hpos : 0 < (r.filter fun s => kp (midpoint s.1 s.2)).countP fun t => decide (t.2 = s.2) :=
      List.countP_pos_iff.2 ⟨s, hs, by simp⟩
    rw [this] at hpos
    obtain ⟨x, hx, e⟩ := List.countP_pos_iff.1 hpos
    exact ⟨x, hx, by simpa using e⟩
  have which : ∀ {s}, (s ∈ r.filter fun s => kp (midpoint s.1 s.2)) →
      (s ∈ r1 ∨ s ∈ r2) ∧ kp (midpoint s.1 s.2) = true := by
    intro s hs
    obtain ⟨a, b⟩ := List.mem_filter.1 hs
    exact ⟨List.mem_append.1 (hp.mem_iff.1 a), b⟩
  have mixed : ∀ s ∈ r1, ∀ t ∈ r2, kp (midpoint s.1 s.2) = true → kp (midpoint t.1 t.2) = true →
      (s.1 = t.1 → False) ∧ (s.2 = t.2 → False) := by
    intro s hs t ht ks kt
    constructor
    · intro he
      obtain ⟨x, hx, hxs⟩ := into s (List.mem_filter.2 ⟨mem1 hs, ks⟩)
      obtain ⟨hx | hx, kx⟩ := which hx
      · exact alt1 x hx s hs hxs (he ▸ (on2 ht).1) kx ks
      · exact alt2 x hx t ht (hxs.trans he) (he ▸ (on1 hs).1) kx kt
    · intro he
      obtain ⟨x, hx, hxs⟩ := out s (List.mem_filter.2 ⟨mem1 hs, ks⟩)
      obtain ⟨hx | hx, kx⟩ := which hx
      · exact alt1 s hs x hx hxs.symm (hxs ▸ he ▸ (on2 ht).2) ks kx
      · exact alt2 t ht x hx (he.symm.trans hxs.symm) (hxs ▸ (on1 hs).2) kt kx
  refine ⟨out, fun s hs t ht he => ?_, fun s hs t ht he => ?_, fun s hs => hprop s hs⟩
  · obtain ⟨h1 | h1, ks⟩ := which hs <;> obtain ⟨h2 | h2, kt⟩ := which ht
    · exact (pieces_start hl rfl c1 h1 h2).1 he
    · exact absurd he (mixed s h1 t h2 ks kt).1
    · exact absurd he.symm (mixed t h2 s h1 kt ks).1
    · exact (pieces_start hm rfl c2 h1 h2).1 he
  · obtain ⟨h1 | h1, ks⟩ := which hs <;> obtain ⟨h2 | h2, kt⟩ := which ht
    · exact (pieces_start hl rfl c1 h1 h2).2 he
    · exact absurd he (mixed s h1 t h2 ks kt).2
    · exact absurd he.symm (mixed t h2 s h1 kt ks).2
    · exact (pieces_start hm rfl c2 h1 h2).2 he

/-- A closed polygon whose sides are in such circuits is simple. -/
theorem simple_of_circuits {k : List (Vertex K × Vertex K)} (hc : Circuits k) (hsep : k.Pairwise Separate)
    (hsolid : ∀ s ∈ k, Solid s) {c : List (Vertex K)} (hsub : ∀ s ∈ pairs c false, s ∈ k)
    (hnd : (pairs c false).Nodup) : SimplePolygon c := by
  have hsym : Std.Symm (Separate (K := K)) := ⟨fun _ _ h => h.symm⟩
  have ends : ∀ {s : Vertex K × Vertex K} {q : Vertex K}, OnSegment s.1 s.2 q → ¬ StrictlyOn s.1 s.2 q →
      SamePoint q s.1 ∨ SamePoint q s.2 := by
    intro s q h1 h2
    by_contra hn
    push Not at hn
    exact h2 ⟨h1, fun e => hn.1 ⟨e.1.symm, e.2.symm⟩, fun e => hn.2 ⟨e.1.symm, e.2.symm⟩⟩
  constructor
  · intro s hs he
    exact (hc.proper s (hsub s hs)).1 (vertex_eq he (hsolid s (hsub s hs)).1 (hsolid s (hsub s hs)).2)
  · refine List.Pairwise.imp_of_mem ?_ hnd
    intro s t hs ht hne q h1 h2
    have hs' := hsub s hs
    have ht' := hsub t ht
    obtain ⟨n1, n2⟩ := hsep.forall hs' ht' hne q h1 h2
    obtain ⟨gs1, gs2⟩ := hsolid s hs'
    obtain ⟨gt1, gt2⟩ := hsolid t ht'
    rcases ends h1 n1 with a | a <;> rcases ends h2 n2 with b | b
    · exact absurd (hc.starts s hs' t ht' (vertex_eq ⟨a.1.symm.trans b.1, a.2.symm.trans b.2⟩ gs1 gt1)) hne
    · exact Or.inr ⟨a, b⟩
    · exact Or.inl ⟨a, b⟩
    · exact absurd (hc.ends s hs' t ht' (vertex_eq ⟨a.1.symm.trans b.1, a.2.symm.trans b.2⟩ gs2 gt2)) hne

end Circuits

section Values

variable {p : Polyline (Vertex K)}

/-- The two values of the winding number of a simple polygon. -/
theorem winding_values (hs : SimplePolygon p.vertices) {c : ℤ}
    (hc : ∀ s ∈ pairs p.vertices false, rightOf (pairs p.vertices false) s = c) {v : Vertex K}
    (hv : ∀ s ∈ pairs p.vertices false, ¬ OnSegment s.1 s.2 v) :
    windingNumber (pairs p.vertices false) v = 0 ∨ windingNumber (pairs p.vertices false) v = 2 * c + 1 := by
  have h1 := own_identity hs.separate (telescopes_pairs _) hs.proper hv
  have h2 : weighted (rightOf (pairs p.vertices false)) (pairs p.vertices false) v =
      c * windingNumber (pairs p.vertices false) v := by
    unfold weighted windingNumber
    rw [← List.sum_map_mul_left]
    congr 1
    exact List.map_congr_left fun s hs => by rw [hc s hs]
  rw [h2] at h1
  have : windingNumber (pairs p.vertices false) v * (windingNumber (pairs p.vertices false) v - (2 * c + 1)) = 0 := by
    linear_combination -h1
  rcases mul_eq_zero.1 this with h | h
  · exact Or.inl h
  · right; omega

/-- Outside on the right of every side, if the polygon runs counterclockwise. -/
theorem right_outside (hp : p.opened = false) (hs : SimplePolygon p.vertices) (hw : WindsOnce p.vertices)
    {s : Vertex K × Vertex K} (hm : s ∈ pairs p.vertices false) : rightOf (pairs p.vertices false) s = 0 := by
  obtain ⟨c, hc⟩ := rightOf_const hp hs
  obtain ⟨v, v1, v2⟩ := hs.encloses hp hs.separate fun _ h => h
  have h1 := (winding_values hs hc v1).resolve_left v2
  have h2 := (hw v v1).resolve_left v2
  rw [hc s hm]
  omega

/-- A polygon with the outside on the right of one side runs counterclockwise. -/
theorem once_of_right (hp : p.opened = false) (hs : SimplePolygon p.vertices) {s : Vertex K × Vertex K}
    (hm : s ∈ pairs p.vertices false) (hr : rightOf (pairs p.vertices false) s = 0) : WindsOnce p.vertices := by
  obtain ⟨c, hc⟩ := rightOf_const hp hs
  have h0 : c = 0 := (hc s hm).symm.trans hr
  subst h0
  intro v hv
  simpa using winding_values hs hc hv

end Values

theorem sum_indicator [DecidableEq (Vertex K × Vertex K)] {c r : List (Vertex K × Vertex K)} (hc : c.Nodup)
    (hr : r.Nodup) (h : ∀ s ∈ c, s ∈ r) (g : Vertex K × Vertex K → ℤ) :
    (r.map fun s => (if s ∈ c then (1 : ℤ) else 0) * g s).sum = (c.map g).sum := by
  have hperm : (r.filter fun s => decide (s ∈ c)).Perm c := by
    rw [List.perm_ext_iff_of_nodup (hr.filter _) hc]
    intro s
    rw [List.mem_filter]
    simp only [decide_eq_true_eq]
    exact ⟨fun h => h.2, fun hs => ⟨h s hs, hs⟩⟩
  rw [← (hperm.map g).sum_eq]
  clear hperm hc h hr
  induction r with
  | nil => rfl
  | cons s r ih =>
    rw [List.map_cons, List.sum_cons, ih, List.filter_cons]
    by_cases hs : s ∈ c <;> simp [hs]

section Confine

variable {r r1 r2 : List (Vertex K × Vertex K)} {P c : Polyline (Vertex K)}

/-- A simple polygon `P` whose sides are part of an arrangement, and a closed polygon `c` made of segments of the
arrangement. The sides of `c` that are not sides of `P` all have the winding number `ω` with respect to `P`. -/
structure Confined (r r1 r2 : List (Vertex K × Vertex K)) (P c : Polyline (Vertex K)) (ω : ℤ) : Prop where
  perm : r.Perm (r1 ++ r2)
  sep : r.Pairwise Separate
  proper : ∀ s ∈ r, ¬ SamePoint s.1 s.2
  own : (pairs P.vertices false).Perm r1
  closed : P.opened = false
  simple : SimplePolygon P.vertices
  sub : ∀ s ∈ pairs c.vertices false, s ∈ r
  nodup : (pairs c.vertices false).Nodup
  side : ∀ s ∈ r2, s ∈ pairs c.vertices false → windingNumber r1 (Edge.midpoint ⟨s.1, s.2⟩) = ω

theorem Confined.all_nodup {ω : ℤ} (h : Confined r r1 r2 P c ω) : r.Nodup := by
  refine List.Pairwise.imp_of_mem ?_ h.sep
  rintro s t hs - hst rfl
  exact separate_self (h.proper s hs) hst

theorem Confined.key {ω : ℤ} (h : Confined r r1 r2 P c ω) :
    ∃ κ : ℤ, (∀ v, (∀ s ∈ r, ¬ OnSegment s.1 s.2 v) →
        (windingNumber r1 v - ω) * windingNumber (pairs c.vertices false) v = κ * windingNumber r1 v) ∧
      (∀ s ∈ r1, s ∈ pairs c.vertices false → windingNumber (pairs c.vertices false) (Edge.midpoint ⟨s.1, s.2⟩) +
        windingNumber r1 (Edge.midpoint ⟨s.1, s.2⟩) + (1 - 2 * tilt s) - ω = κ) := by
  classical
  have hr := h.all_nodup
  have hr12 := h.perm.nodup_iff.1 hr
  have hr1 := hr12.of_append_left
  have sub1 : ∀ s ∈ r1, s ∈ r := fun s hs => h.perm.mem_iff.2 (List.mem_append_left _ hs)
  obtain ⟨α, hα⟩ : ∃ α : Vertex K × Vertex K → ℤ, α = fun s => if s ∈ r1 then 1 else 0 := ⟨_, rfl⟩
  obtain ⟨β, hβ⟩ : ∃ β : Vertex K × Vertex K → ℤ, β = fun s => if s ∈ pairs c.vertices false then 1 else 0 :=
    ⟨_, rfl⟩
  have tel1 : Telescopes r1 := fun f => by
    rw [← (h.own.map _).sum_eq]
    exact telescopes_pairs _ f
  have flα : Flow α r := fun f => by
    rw [hα, sum_indicator hr1 hr sub1 fun s => f s.2 - f s.1]
    exact tel1 f
  have flβ : Flow β r := fun f => by
    rw [hβ, sum_indicator h.nodup hr h.sub fun s => f s.2 - f s.1]
    exact telescopes_pairs _ f
  have wα : ∀ v, weighted α r v = windingNumber r1 v := fun v => by
    unfold weighted
    rw [hα, sum_indicator hr1 hr sub1 fun s => crossingAbove v s.1 s.2]
    rfl
  have wβ : ∀ v, weighted β r v = windingNumber (pairs c.vertices false) v := fun v => by
    unfold weighted
    rw [hβ, sum_indicator h.nodup hr h.sub fun s => crossingAbove v s.1 s.2]
    rfl
  obtain ⟨k, hk⟩ : ∃ k : Vertex K × Vertex K → ℤ, k = fun s => duo α β r s - ω * β s := ⟨_, rfl⟩
  have kval : ∀ s, k s = α s * windingNumber (pairs c.vertices false) (Edge.midpoint ⟨s.1, s.2⟩) +
      β s * windingNumber r1 (Edge.midpoint ⟨s.1, s.2⟩) + α s * β s * (1 - 2 * tilt s) - ω * β s := by
    intro s
    rw [hk, ← wα, ← wβ]
    rfl
  have k2 : ∀ s ∈ r2, k s = 0 := by
    intro s hs
    have a0 : α s = 0 := by
      rw [hα]
      exact if_neg fun h1 => (List.nodup_append.1 hr12).2.2 s h1 s hs rfl
    rw [kval, a0]
    by_cases hb : s ∈ pairs c.vertices false
    · rw [h.side s hs hb]; ring
    · have : β s = 0 := by rw [hβ]; exact if_neg hb
      rw [this]; ring
  have split : ∀ g : Vertex K × Vertex K → ℤ, (r.map fun s => k s * g s).sum =
      ((pairs P.vertices false).map fun s => k s * g s).sum := by
    intro g
    rw [(h.perm.map _).sum_eq, List.map_append, List.sum_append, (h.own.map _).sum_eq]
    have : (r2.map fun s => k s * g s).sum = 0 := List.sum_eq_zero fun z hz => by
      obtain ⟨t, ht, rfl⟩ := List.mem_map.1 hz
      rw [k2 t ht, zero_mul]
    rw [this, add_zero]
  have diff : ∀ g : Vertex K × Vertex K → ℤ, (r.map fun s => k s * g s).sum =
      (r.map fun s => duo α β r s * g s).sum - ω * (r.map fun s => β s * g s).sum := by
    intro g
    rw [hk, ← List.sum_map_mul_left]
    have := sum_sub' r (fun s => duo α β r s * g s) (fun s => ω * (β s * g s))
      (fun s => (duo α β r s - ω * β s) * g s) fun s _ => by ring
    rw [← this]
  obtain ⟨κ, hκ⟩ := const_of_balance h.closed h.simple (k := k) fun b => by
    rw [← split fun s => at' b s.2 - at' b s.1, diff fun s => at' b s.2 - at' b s.1,
      duo_balance h.sep flα flβ h.proper b, flβ (at' b)]
    ring
  refine ⟨κ, fun v hv => ?_, fun s hs hc => ?_⟩
  · have e1 := diff fun s => crossingAbove v s.1 s.2
    rw [split] at e1
    have e2 : ((pairs P.vertices false).map fun s => k s * crossingAbove v s.1 s.2).sum = κ * windingNumber r1 v := by
      rw [← windingNumber_perm h.own]
      unfold windingNumber
      rw [← List.sum_map_mul_left]
      congr 1
      exact List.map_congr_left fun s hs => by rw [hκ s hs]
    have e3 : (r.map fun s => duo α β r s * crossingAbove v s.1 s.2).sum =
        windingNumber r1 v * windingNumber (pairs c.vertices false) v := by
      rw [← wα, ← wβ]
      exact duo_identity h.sep flα flβ h.proper hv
    have e4 : (r.map fun s => β s * crossingAbove v s.1 s.2).sum = windingNumber (pairs c.vertices false) v := wβ v
    rw [e2, e3, e4] at e1
    rw [e1]; ring
  · rw [← hκ s (h.own.mem_iff.2 hs), kval]
    have a1 : α s = 1 := by rw [hα]; exact if_pos hs
    have b1 : β s = 1 := by rw [hβ]; exact if_pos hc
    rw [a1, b1]; ring

theorem Confined.own_right {ω : ℤ} (h : Confined r r1 r2 P c ω) (hw : WindsOnce P.vertices)
    {s : Vertex K × Vertex K} (hs : s ∈ r1) : windingNumber r1 (Edge.midpoint ⟨s.1, s.2⟩) = tilt s := by
  have := right_outside h.closed h.simple hw (h.own.mem_iff.2 hs)
  unfold rightOf at this
  rw [windingNumber_perm h.own] at this
  omega

theorem Confined.inside_point {ω : ℤ} (h : Confined r r1 r2 P c ω) (hw : WindsOnce P.vertices) :
    ∃ v, (∀ s ∈ r, ¬ OnSegment s.1 s.2 v) ∧ windingNumber r1 v = 1 := by
  obtain ⟨v, v1, v2⟩ := h.simple.encloses h.closed h.sep fun s hs =>
    h.perm.mem_iff.2 (List.mem_append_left _ (h.own.mem_iff.1 hs))
  refine ⟨v, v1, ?_⟩
  rw [← windingNumber_perm h.own]
  exact (hw v fun s hs => v1 s (h.perm.mem_iff.2 (List.mem_append_left _ (h.own.mem_iff.1 hs)))).resolve_left v2

/-- A circuit whose other sides are inside `P` runs, where it follows `P`, like `P`. -/
theorem Confined.inner (h : Confined r r1 r2 P c 1) (hw : WindsOnce P.vertices) {s : Vertex K × Vertex K}
    (hs : s ∈ r1) (hc : s ∈ pairs c.vertices false) : rightOf (pairs c.vertices false) s = 0 := by
  obtain ⟨κ, h1, h2⟩ := h.key
  obtain ⟨v, v1, v2⟩ := h.inside_point hw
  have := h1 v v1
  rw [v2] at this
  have k0 : κ = 0 := by linarith
  have e := h2 s hs hc
  rw [h.own_right hw hs, k0] at e
  unfold rightOf
  linarith

/-- A circuit whose other sides are outside `P` encloses the whole inside of `P`, or nothing of it; the former if and only
if it runs like `P` where it follows it. -/
theorem Confined.outer (h : Confined r r1 r2 P c 0) (hw : WindsOnce P.vertices) :
    ∃ κ : ℤ, (∀ v, (∀ s ∈ r, ¬ OnSegment s.1 s.2 v) → windingNumber r1 v = 1 →
        windingNumber (pairs c.vertices false) v = κ) ∧
      ∀ s ∈ r1, s ∈ pairs c.vertices false → rightOf (pairs c.vertices false) s = κ - 1 := by
  obtain ⟨κ, h1, h2⟩ := h.key
  refine ⟨κ, fun v hv h0 => ?_, fun s hs hc => ?_⟩
  · have := h1 v hv
    rw [h0] at this
    linarith
  · have e := h2 s hs hc
    rw [h.own_right hw hs] at e
    unfold rightOf
    linarith

/-- A circuit made of sides of `P` only has all of them. -/
theorem Confined.whole {ω : ℤ} (h : Confined r r1 r2 P c ω) (hsub : ∀ s ∈ pairs c.vertices false, s ∈ r1)
    (hne : pairs c.vertices false ≠ []) : ∀ s ∈ r1, s ∈ pairs c.vertices false := by
  classical
  have hr1 := (h.perm.nodup_iff.1 h.all_nodup).of_append_left
  obtain ⟨κ, hκ⟩ := const_of_balance h.closed h.simple
    (k := fun s => if s ∈ pairs c.vertices false then (1 : ℤ) else 0) fun b => by
      rw [(h.own.map _).sum_eq, sum_indicator h.nodup hr1 hsub fun s => at' b s.2 - at' b s.1]
      exact telescopes_pairs _ (at' b)
  obtain ⟨t, ht⟩ := List.exists_mem_of_ne_nil _ hne
  have e1 := hκ t (h.own.mem_iff.2 (hsub t ht))
  simp only [ht, if_true] at e1
  intro s hs
  have e2 := hκ s (h.own.mem_iff.2 hs)
  by_contra hn
  simp only [hn, if_false] at e2
  omega

end Confine

end Verif
