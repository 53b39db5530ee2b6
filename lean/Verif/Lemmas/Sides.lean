import Verif.Lemmas.General

/-!
# Lemmas: the two sides of a segment of an arrangement
-/

namespace Verif

open Spec

variable {K : Type*} [Field K] [LinearOrder K] [IsStrictOrderedRing K]

set_option linter.unusedSectionVars false

/-- Along a line, there is room around a point that is not on a segment. -/
theorem room_one {S t : Vertex K × Vertex K} (hS : ¬ SamePoint S.1 S.2) {w : K} {v : Vertex K} (hv : At S w v)
    (ht : ¬ OnSegment t.1 t.2 v) :
    ∃ d, 0 < d ∧ ∀ z v', w - d ≤ z → z ≤ w + d → At S z v' → ¬ OnSegment t.1 t.2 v' := by
  have hD := dot_self_pos hS
  obtain ⟨vx, vy⟩ := hv
  by_contra hno
  push Not at hno
  -- the points of the line that are on the segment, by their parameters on the segment
  have key : ∀ d, 0 < d → ∃ z c, w - d ≤ z ∧ z ≤ w + d ∧ 0 ≤ c ∧ c ≤ 1 ∧
      S.1.x + z * (S.2.x - S.1.x) = t.1.x + c * (t.2.x - t.1.x) ∧
      S.1.y + z * (S.2.y - S.1.y) = t.1.y + c * (t.2.y - t.1.y) := by
    intro d hd
    obtain ⟨z, v', z1, z2, hz, c, c0, c1, cx, cy⟩ := hno d hd
    exact ⟨z, c, z1, z2, c0, c1, hz.1 ▸ cx, hz.2 ▸ cy⟩
  by_cases hpar : Parallel S.1 S.2 t.1 t.2
  · -- all of the segment is on the line; its ends are on the same side
    obtain ⟨z0, c0, -, -, p0, p1, ex, ey⟩ := key 1 one_pos
    obtain ⟨m, hm⟩ : ∃ m, m = Verif.dot S.1 S.2 t.1 t.2 / Verif.dot S.1 S.2 S.1 S.2 := ⟨_, rfl⟩
    have hmD : m * Verif.dot S.1 S.2 S.1 S.2 = Verif.dot S.1 S.2 t.1 t.2 := by rw [hm]; field_simp
    have tx : t.2.x - t.1.x = m * (S.2.x - S.1.x) := by
      apply mul_left_cancel₀ hD.ne'
      unfold Verif.dot Parallel at *
      linear_combination -(S.2.x - S.1.x) * hmD - (S.2.y - S.1.y) * hpar
    have ty : t.2.y - t.1.y = m * (S.2.y - S.1.y) := by
      apply mul_left_cancel₀ hD.ne'
      unfold Verif.dot Parallel at *
      linear_combination -(S.2.y - S.1.y) * hmD + (S.2.x - S.1.x) * hpar
    have f1 : At S (z0 - c0 * m) t.1 := ⟨by rw [tx] at ex; linear_combination -ex, by rw [ty] at ey; linear_combination -ey⟩
    generalize z0 - c0 * m = a at f1
    -- parameters of the points of the segment: `a + c * m`
    have par : ∀ z c, S.1.x + z * (S.2.x - S.1.x) = t.1.x + c * (t.2.x - t.1.x) →
        S.1.y + z * (S.2.y - S.1.y) = t.1.y + c * (t.2.y - t.1.y) → z = a + c * m := by
      intro z c gx gy
      refine at_unique hS (v := ⟨S.1.x + z * (S.2.x - S.1.x), S.1.y + z * (S.2.y - S.1.y), false⟩) ⟨rfl, rfl⟩ ⟨?_, ?_⟩
      · show S.1.x + z * (S.2.x - S.1.x) = _
        rw [gx, tx, f1.1]; ring
      · show S.1.y + z * (S.2.y - S.1.y) = _
        rw [gy, ty, f1.2]; ring
    have out : ∀ c, 0 ≤ c → c ≤ 1 → w ≠ a + c * m := by
      intro c q0 q1 hw
      refine ht ⟨c, q0, q1, ?_, ?_⟩
      · rw [vx, hw, tx, f1.1]; ring
      · rw [vy, hw, ty, f1.2]; ring
    have n0 := out 0 le_rfl zero_le_one
    have n1 := out 1 zero_le_one le_rfl
    rw [zero_mul, add_zero] at n0
    rw [one_mul] at n1
    have hd : 0 < min |w - a| |w - (a + m)| / 2 := by
      have := lt_min (abs_pos.2 (sub_ne_zero.2 n0)) (abs_pos.2 (sub_ne_zero.2 n1))
      linarith
    obtain ⟨z, c, z1, z2, q0, q1, gx, gy⟩ := key _ hd
    have hz := par z c gx gy
    have m1 := min_le_left |w - a| |w - (a + m)|
    have m2 := min_le_right |w - a| |w - (a + m)|
    have cases_w : (w < a ∧ w < a + m) ∨ (a < w ∧ a + m < w) := by
      rcases lt_or_gt_of_ne n0 with h | h <;> rcases lt_or_gt_of_ne n1 with h' | h'
      · exact Or.inl ⟨h, h'⟩
      · exfalso
        have hm0 : m < 0 := by linarith
        refine out ((w - a) / m) (div_nonneg_of_nonpos (by linarith) hm0.le) ?_
          (by rw [div_mul_cancel₀ _ (by intro h0; linarith)]; ring)
        rw [div_le_one_of_neg hm0]; linarith
      · exfalso
        have hm0 : 0 < m := by linarith
        refine out ((w - a) / m) (div_nonneg (by linarith) hm0.le) ?_
          (by rw [div_mul_cancel₀ _ (by intro h0; linarith)]; ring)
        rw [div_le_one hm0]; linarith
      · exact Or.inr ⟨h, h'⟩
    rcases cases_w with ⟨h, h'⟩ | ⟨h, h'⟩
    · rw [abs_of_neg (by linarith)] at m1 hd z1 z2 m2
      rw [abs_of_neg (a := w - (a + m)) (by linarith)] at m1 hd z1 z2 m2
      nlinarith
    · rw [abs_of_pos (by linarith)] at m1 hd z1 z2 m2
      rw [abs_of_pos (a := w - (a + m)) (by linarith)] at m1 hd z1 z2 m2
      nlinarith
  · -- the lines cross at one point
    have uniq : ∀ z c z' c', S.1.x + z * (S.2.x - S.1.x) = t.1.x + c * (t.2.x - t.1.x) →
        S.1.y + z * (S.2.y - S.1.y) = t.1.y + c * (t.2.y - t.1.y) →
        S.1.x + z' * (S.2.x - S.1.x) = t.1.x + c' * (t.2.x - t.1.x) →
        S.1.y + z' * (S.2.y - S.1.y) = t.1.y + c' * (t.2.y - t.1.y) → z = z' := by
      intro z c z' c' g1 g2 g3 g4
      by_contra hne
      apply hpar
      unfold Parallel
      apply mul_left_cancel₀ (sub_ne_zero.2 hne)
      linear_combination (t.2.y - t.1.y) * (g1 - g3) - (t.2.x - t.1.x) * (g2 - g4)
    obtain ⟨z0, c0, -, -, p0, p1, ex, ey⟩ := key 1 one_pos
    have hzw : w - z0 ≠ 0 := by
      intro h
      have : w = z0 := by linarith
      subst this
      exact ht ⟨c0, p0, p1, vx.trans ex, vy.trans ey⟩
    have hpos := abs_pos.2 hzw
    obtain ⟨z, c, z1, z2, q0, q1, gx, gy⟩ := key (|w - z0| / 2) (by linarith)
    have := uniq z c z0 c0 gx gy ex ey
    subst this
    rcases lt_or_gt_of_ne hzw with h | h
    · rw [abs_of_neg h] at z1 z2; linarith
    · rw [abs_of_pos h] at z1 z2; linarith

theorem room_line {S : Vertex K × Vertex K} (hS : ¬ SamePoint S.1 S.2) {w : K} {v : Vertex K} (hv : At S w v)
    {L : List (Vertex K × Vertex K)} (hL : ∀ t ∈ L, ¬ OnSegment t.1 t.2 v) :
    ∃ d, 0 < d ∧ ∀ t ∈ L, ∀ z v', w - d ≤ z → z ≤ w + d → At S z v' → ¬ OnSegment t.1 t.2 v' :=
  exists_common (P := fun (t : Vertex K × Vertex K) (d : K) => ∀ z v', w - d ≤ z → z ≤ w + d → At S z v' →
      ¬ OnSegment t.1 t.2 v')
    (fun _ _ _ hdd h z v' z1 z2 => h z v' (by linarith) (by linarith))
    _ (fun t ht => room_one hS hv (hL t ht))

/-- **The two sides of a segment.** Where only one segment passes, the winding numbers on its sides differ. -/
theorem both_sides {L M1 M2 : List (Vertex K × Vertex K)} {T : Vertex K × Vertex K}
    (hM : Telescopes (M1 ++ T :: M2)) (hT : ¬ SamePoint T.1 T.2) {b : Vertex K} (hb : StrictlyOn T.1 T.2 b)
    (hL : ∀ t ∈ L, t ≠ T → ¬ OnSegment t.1 t.2 b) (hsub : ∀ t ∈ M1 ++ M2, t ∈ L ∧ t ≠ T) :
    ∃ q q', (∀ t ∈ L, ¬ OnSegment t.1 t.2 q) ∧ (∀ t ∈ L, ¬ OnSegment t.1 t.2 q') ∧
      windingNumber (M1 ++ T :: M2) q ≠ windingNumber (M1 ++ T :: M2) q' := by
  classical
  obtain ⟨S, hS1, hS2⟩ : ∃ S : Vertex K × Vertex K, S.1 = b ∧
      S.2 = ⟨b.x - (T.2.y - T.1.y), b.y + (T.2.x - T.1.x), false⟩ := ⟨(_, _), rfl, rfl⟩
  have hdx : S.2.x - S.1.x = -(T.2.y - T.1.y) := by rw [hS1, hS2]; ring
  have hdy : S.2.y - S.1.y = T.2.x - T.1.x := by rw [hS1, hS2]; ring
  have hpar : ¬ Parallel S.1 S.2 T.1 T.2 := by
    unfold Parallel
    rw [hdx, hdy]
    intro h
    have := dot_self_pos hT
    unfold Verif.dot at this
    linarith
  have hS : ¬ SamePoint S.1 S.2 := by
    intro h
    apply hpar
    unfold Parallel
    rw [h.1, h.2]; ring
  have hv : At S 0 b := ⟨by rw [hS1]; ring, by rw [hS1]; ring⟩
  obtain ⟨d, hd, hroom⟩ := room_line hS hv (L := L.filter fun t => decide (t ≠ T)) (by
    intro t ht
    obtain ⟨h1, h2⟩ := List.mem_filter.1 ht
    exact hL t h1 (by simpa using h2))
  obtain ⟨e, e0, ed, he⟩ := cross_changes hM hpar hd hv hb (fun t ht =>
    hroom t (List.mem_filter.2 ⟨(hsub t ht).1, by simpa using (hsub t ht).2⟩))
  obtain ⟨q, hq⟩ : ∃ y : Vertex K, At S (0 - e) y := ⟨⟨_, _, false⟩, rfl, rfl⟩
  obtain ⟨q', hq'⟩ : ∃ y : Vertex K, At S (0 + e) y := ⟨⟨_, _, false⟩, rfl, rfl⟩
  have off : ∀ z y, At S z y → z ≠ 0 → 0 - d ≤ z → z ≤ 0 + d → ∀ t ∈ L, ¬ OnSegment t.1 t.2 y := by
    intro z y hy hz z1 z2 t ht hc
    by_cases htT : t = T
    · subst htT
      obtain ⟨c, -, -, cx, cy⟩ := hc
      obtain ⟨c', -, -, cx', cy'⟩ := hb.1
      apply hpar
      unfold Parallel
      apply mul_left_cancel₀ hz
      rw [hy.1, hS1] at cx
      rw [hy.2, hS1] at cy
      rw [hS1]
      linear_combination (t.2.y - t.1.y) * (cx - cx') - (t.2.x - t.1.x) * (cy - cy')
    · exact hroom t (List.mem_filter.2 ⟨ht, by simpa using htT⟩) z y z1 z2 hy hc
  exact ⟨q, q', off _ q hq (by linarith [e0] |> fun h : 0 - e < 0 => h.ne) (by linarith) (by linarith),
    off _ q' hq' (by linarith [e0] |> fun h : 0 < 0 + e => h.ne') (by linarith) (by linarith), he q q' hq hq'⟩

/-- A simple polygon encloses something. -/
theorem Spec.SimplePolygon.encloses {p : Polyline (Vertex K)} (hp : p.opened = false)
    (hs : SimplePolygon p.vertices) {L : List (Vertex K × Vertex K)} (hL : L.Pairwise Separate)
    (hsub : ∀ s ∈ pairs p.vertices false, s ∈ L) :
    ∃ v, (∀ t ∈ L, ¬ OnSegment t.1 t.2 v) ∧ windingNumber (pairs p.vertices false) v ≠ 0 := by
  have hne := pairs_ne_nil p
  rw [hp] at hne
  obtain ⟨T, hT⟩ := List.exists_mem_of_ne_nil _ hne
  have hTp := hs.proper T hT
  obtain ⟨M1, M2, hM⟩ := List.append_of_mem hT
  have hsym : Std.Symm (Separate (K := K)) := ⟨fun _ _ h => h.symm⟩
  have hnd : (pairs p.vertices false).Nodup := by
    refine List.Pairwise.imp_of_mem ?_ hs.separate
    rintro s t hs' - hst rfl
    exact separate_self (hs.proper s hs') hst
  have htel := telescopes_pairs p.vertices
  rw [hM] at htel hnd
  obtain ⟨q, q', h1, h2, h3⟩ := both_sides (L := L) htel hTp (midpoint_strictlyOn hTp) (fun t ht hne h =>
      (hL.forall (hsub T hT) ht (Ne.symm hne) _ (midpoint_strictlyOn hTp).1 h).1 (midpoint_strictlyOn hTp))
    (fun t ht => ⟨hsub t (hM ▸ List.perm_middle.mem_iff.2 (List.mem_cons_of_mem _ ht)), by
      rintro rfl
      exact (List.nodup_cons.1 (List.perm_middle.nodup_iff.1 hnd)).1 ht⟩)
  rw [← hM] at h3
  by_cases h0 : windingNumber (pairs p.vertices false) q = 0
  · exact ⟨q', h2, fun h => h3 (h0.trans h.symm)⟩
  · exact ⟨q, h1, h0⟩

/-- A simple polygon that runs once around its inside has a positive area. -/
theorem Spec.SimplePolygon.area_pos {p : Polyline (Vertex K)} (hp : p.opened = false)
    (hs : SimplePolygon p.vertices) (hw : WindsOnce p.vertices) : 0 < shoelace p.vertices := by
  obtain ⟨v, v1, v2⟩ := hs.encloses hp hs.separate fun _ h => h
  rw [Polyline.shoelace_enclosed]
  refine (enclosed_nonneg (telescopes_pairs _) fun v hv => ?_).2 ⟨v, v1, ?_⟩
  · rcases hw v hv with h | h <;> simp [h]
  · rcases hw v v1 with h | h
    · exact absurd h v2
    · rw [h]; exact one_pos

theorem shoelace_reverse' (l : List (Vertex K)) : shoelace l.reverse = - shoelace l := by
  rw [Polyline.shoelace_enclosed, Polyline.shoelace_enclosed, Polyline.enclosed_perm (pairs_reverse _)]
  unfold enclosed
  rw [List.map_map]
  generalize pairs l false = l
  induction l with
  | nil => simp
  | cons s l ih =>
    simp only [List.map_cons, List.sum_cons, ih, Function.comp, Prod.fst_swap, Prod.snd_swap]
    ring

/-- A simple polygon has an area. -/
theorem Spec.SimplePolygon.area_ne {p : Polyline (Vertex K)} (hp : p.opened = false)
    (hs : SimplePolygon p.vertices) : shoelace p.vertices ≠ 0 := by
  rcases jordan hp hs with h | h
  · exact (hs.area_pos hp h).ne'
  · have h2 : 2 ≤ p.vertices.reverse.length := by rw [List.length_reverse]; exact p.two_le
    have := Spec.SimplePolygon.area_pos (p := ⟨p.vertices.reverse, false, h2⟩) rfl hs.reverse h
    simp only at this
    rw [shoelace_reverse'] at this
    intro h0
    rw [h0] at this
    simp at this

end Verif
