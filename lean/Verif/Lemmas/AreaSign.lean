import Verif.Lemmas.Jordan
import Verif.Lemmas.Boolean

/-!
# Lemmas: what winds counterclockwise encloses a positive area

The area is summed over vertical slabs between the ends of the segments; inside a slab the segments are ordered from top
to bottom and the winding number never gets negative on the way down.
-/

namespace Verif

open Spec

variable {K : Type*} [Field K] [LinearOrder K] [IsStrictOrderedRing K]

set_option linter.unusedSectionVars false

/-- A function that increases between any two consecutive breakpoints increases. -/
theorem mono_of_slabs {F : K → K} (B : List K)
    (h : ∀ u w, u < w → (∀ b ∈ B, ¬ (u < b ∧ b < w)) → F u ≤ F w) : ∀ u w, u ≤ w → F u ≤ F w := by
  suffices ∀ u w, u < w → F u ≤ F w by
    intro u w huw
    rcases huw.lt_or_eq with h | rfl
    · exact this u w h
    · exact le_refl _
  induction B with
  | nil => intro u w huw; exact h u w huw (by simp)
  | cons b B ih =>
    refine ih fun u w huw hB => ?_
    by_cases hb : u < b ∧ b < w
    · refine (h u b hb.1 fun c hc h' => ?_).trans (h b w hb.2 fun c hc h' => ?_)
      · rcases List.mem_cons.1 hc with rfl | hc
        · exact lt_irrefl _ h'.2
        · exact hB c hc ⟨h'.1, h'.2.trans hb.2⟩
      · rcases List.mem_cons.1 hc with rfl | hc
        · exact lt_irrefl _ h'.1
        · exact hB c hc ⟨hb.1.trans h'.1, h'.2⟩
    · exact h u w huw fun c hc h' => by
        rcases List.mem_cons.1 hc with rfl | hc
        · exact hb h'
        · exact hB c hc h'

/-- … and increases strictly around a point where it does so. -/
theorem strict_of_slabs {F : K → K} (B : List K)
    (h : ∀ u w, u < w → (∀ b ∈ B, ¬ (u < b ∧ b < w)) → F u ≤ F w) {z : K} (hzB : z ∉ B)
    (hz : ∀ u w, u < w → (u + w) / 2 = z → (∀ b ∈ B, ¬ (u < b ∧ b < w)) → F u < F w) {u w : K} (hu : u < z) (hw : z < w) :
    F u < F w := by
  obtain ⟨d, hd, hB⟩ := exists_common (l := B) (P := fun (b : K) d => d ≤ |b - z|)
    (fun b d d' hd h => hd.trans h) fun b hb => ⟨|b - z|, abs_pos.2 (sub_ne_zero.2 fun h => hzB (h ▸ hb)), le_refl _⟩
  obtain ⟨e, he⟩ : ∃ e, e = min d (min (z - u) (w - z)) := ⟨_, rfl⟩
  have e1 : e ≤ d := he ▸ min_le_left _ _
  have e2 : e ≤ z - u := he ▸ (min_le_right _ _).trans (min_le_left _ _)
  have e3 : e ≤ w - z := he ▸ (min_le_right _ _).trans (min_le_right _ _)
  have e0 : 0 < e := he ▸ lt_min hd (lt_min (by linarith) (by linarith))
  have m := mono_of_slabs B h
  refine (m u (z - e) (by linarith)).trans_lt ((hz (z - e) (z + e) (by linarith) (by ring) ?_).trans_le
    (m (z + e) w (by linarith)))
  intro b hb h'
  have := hB b hb
  rcases le_abs.1 this with h | h <;> linarith [h'.1, h'.2]

theorem sum_nonneg_of {A : Type*} (l : List A) (f : A → K) (h : ∀ a ∈ l, 0 ≤ f a) : 0 ≤ (l.map f).sum :=
  List.sum_nonneg fun x hx => by obtain ⟨a, ha, rfl⟩ := List.mem_map.1 hx; exact h a ha

/-- Sums over a list of counted heights. -/
def stack {A : Type*} (l : List A) (c : A → ℤ) (h : A → K) (y : K) : K := (l.map fun a => (c a : K) * min (h a) y).sum

theorem stack_step {A : Type*} (l : List A) (c : A → ℤ) (h : A → K) {u w : K} (huw : u < w)
    (hB : ∀ a ∈ l, c a ≠ 0 → ¬ (u < h a ∧ h a < w)) :
    stack l c h w - stack l c h u = (w - u) * ((l.map fun a => if (u + w) / 2 < h a then c a else 0).sum : ℤ) := by
  unfold stack
  induction l with
  | nil => simp
  | cons a l ih =>
    have ih' := ih fun b hb => hB b (List.mem_cons_of_mem _ hb)
    have ha := hB a (by simp)
    simp only [List.map_cons, List.sum_cons, Int.cast_add, mul_add]
    rw [← ih']
    have : (c a : K) * min (h a) w - c a * min (h a) u = (w - u) * ((if (u + w) / 2 < h a then c a else 0 : ℤ) : K) := by
      by_cases c0 : c a = 0
      · simp [c0]
      rcases le_or_gt (h a) u with hu | hu
      · rw [min_eq_left (hu.trans huw.le), min_eq_left hu, if_neg (by linarith)]
        simp
      · have hw : w ≤ h a := by by_contra hc; exact ha c0 ⟨hu, not_le.1 hc⟩
        rw [min_eq_right hw, min_eq_right hu.le, if_pos (by linarith)]
        ring
    linarith

theorem stack_low {A : Type*} (l : List A) (c : A → ℤ) (h : A → K) (hc : (l.map c).sum = 0) :
    ∃ y0, ∀ y ≤ y0, stack l c h y = 0 := by
  have : ∃ y0, ∀ y ≤ y0, ∀ a ∈ l, y ≤ h a := by
    clear hc
    induction l with
    | nil => exact ⟨0, by simp⟩
    | cons a l ih =>
      obtain ⟨y0, hy⟩ := ih
      refine ⟨min y0 (h a), fun y hy' b hb => ?_⟩
      rcases List.mem_cons.1 hb with rfl | hb
      · exact hy'.trans (min_le_right _ _)
      · exact hy y (hy'.trans (min_le_left _ _)) b hb
  obtain ⟨y0, hy0⟩ := this
  refine ⟨y0, fun y hy => ?_⟩
  unfold stack
  rw [List.map_congr_left (g := fun a => (c a : K) * y) fun a ha => by rw [min_eq_right (hy0 y hy a ha)],
    List.sum_map_mul_right]
  have : (l.map fun a => (c a : K)).sum = ((l.map c).sum : ℤ) := by
    clear hc hy0
    induction l with
    | nil => simp
    | cons a l ih => simp [ih]
  rw [this, hc]
  simp

theorem stack_high {A : Type*} (l : List A) (c : A → ℤ) (h : A → K) :
    ∃ y0, ∀ y, y0 ≤ y → stack l c h y = (l.map fun a => (c a : K) * h a).sum := by
  have : ∃ y0, ∀ y, y0 ≤ y → ∀ a ∈ l, h a ≤ y := by
    induction l with
    | nil => exact ⟨0, by simp⟩
    | cons a l ih =>
      obtain ⟨y0, hy⟩ := ih
      refine ⟨max y0 (h a), fun y hy' b hb => ?_⟩
      rcases List.mem_cons.1 hb with rfl | hb
      · exact (le_max_right _ _).trans hy'
      · exact hy y ((le_max_left _ _).trans hy') b hb
  obtain ⟨y0, hy0⟩ := this
  refine ⟨y0, fun y hy => ?_⟩
  unfold stack
  rw [List.map_congr_left fun a ha => by rw [min_eq_left (hy0 y hy a ha)]]

/-- Heights counted so that from the top down the count never gets negative. -/
theorem stack_nonneg {A : Type*} (l : List A) (c : A → ℤ) (h : A → K) (hc : (l.map c).sum = 0)
    (hp : ∀ y, (∀ a ∈ l, c a ≠ 0 → h a ≠ y) → 0 ≤ (l.map fun a => if y < h a then c a else 0).sum) :
    0 ≤ (l.map fun a => (c a : K) * h a).sum ∧
    ((∃ y, (∀ a ∈ l, c a ≠ 0 → h a ≠ y) ∧ 0 < (l.map fun a => if y < h a then c a else 0).sum) →
      0 < (l.map fun a => (c a : K) * h a).sum) := by
  obtain ⟨y0, h0⟩ := stack_low l c h hc
  obtain ⟨y1, h1⟩ := stack_high l c h
  have hmem : ∀ y, y ∈ (l.filter fun a => decide (c a ≠ 0)).map h ↔ ∃ a ∈ l, c a ≠ 0 ∧ h a = y := by
    intro y
    simp [and_assoc]
  have conv : ∀ {u w : K}, (∀ b ∈ (l.filter fun a => decide (c a ≠ 0)).map h, ¬ (u < b ∧ b < w)) →
      ∀ a ∈ l, c a ≠ 0 → ¬ (u < h a ∧ h a < w) := fun hB a ha hca => hB _ ((hmem _).2 ⟨a, ha, hca, rfl⟩)
  have step : ∀ u w, u < w → (∀ b ∈ (l.filter fun a => decide (c a ≠ 0)).map h, ¬ (u < b ∧ b < w)) →
      stack l c h u ≤ stack l c h w := by
    intro u w huw hB
    have e := stack_step l c h huw (conv hB)
    have : (0 : K) ≤ ((l.map fun a => if (u + w) / 2 < h a then c a else 0).sum : ℤ) := by
      exact_mod_cast hp _ fun a ha hca hm => conv hB a ha hca ⟨by linarith, by linarith⟩
    have := mul_nonneg (by linarith : 0 ≤ w - u) this
    linarith
  constructor
  · rw [← h1 (max y0 y1) (le_max_right _ _), ← h0 y0 le_rfl]
    exact mono_of_slabs _ step _ _ (le_max_left _ _)
  · rintro ⟨y, hy, hpos⟩
    rw [← h1 (max y1 (y + 1)) (le_max_left _ _), ← h0 (min y0 (y - 1)) (min_le_left _ _)]
    refine strict_of_slabs _ step (fun hm => ?_) (fun u w huw hm hB => ?_)
      ((min_le_right _ _).trans_lt (by linarith : y - 1 < y)) (lt_of_lt_of_le (by linarith) (le_max_right _ _))
    · obtain ⟨a, ha, hca, he⟩ := (hmem _).1 hm
      exact hy a ha hca he
    have e := stack_step l c h huw (conv hB)
    rw [hm] at e
    have : (0 : K) < ((l.map fun a => if y < h a then c a else 0).sum : ℤ) := by exact_mod_cast hpos
    have := mul_pos (by linarith : 0 < w - u) this
    linarith

/-- The abscissa moved into the range of the segment. -/
def clampX (s : Vertex K × Vertex K) (x : K) : K := max (min s.1.x s.2.x) (min (max s.1.x s.2.x) x)

/-- The signed area between the part of the segment left of `x` and the axis. -/
def areaLeft (s : Vertex K × Vertex K) (x : K) : K :=
  if s.2.x < s.1.x then (clampX s x - s.2.x) * (s.2.y + heightAt s.1 s.2 (clampX s x)) / 2
  else if s.1.x < s.2.x then -((clampX s x - s.1.x) * (s.1.y + heightAt s.1 s.2 (clampX s x)) / 2)
  else 0

theorem areaLeft_step (s : Vertex K × Vertex K) {u w : K} (huw : u < w) (h1 : ¬ (u < s.1.x ∧ s.1.x < w))
    (h2 : ¬ (u < s.2.x ∧ s.2.x < w)) :
    areaLeft s w - areaLeft s u =
      (w - u) * ((span s.1 s.2 ((u + w) / 2) : ℤ) * heightAt s.1 s.2 ((u + w) / 2)) := by
  obtain ⟨a, b⟩ := s
  simp only at h1 h2
  have hmid : u < (u + w) / 2 ∧ (u + w) / 2 < w := ⟨by linarith, by linarith⟩
  unfold areaLeft clampX span
  simp only
  rcases lt_trichotomy a.x b.x with h | h | h
  · rw [if_neg h.not_gt, if_neg h.not_gt, if_pos h, if_pos h, if_neg (fun h' => by linarith [h'.1, h'.2]),
      min_eq_left h.le, max_eq_right h.le]
    have hne : b.x - a.x ≠ 0 := (sub_pos.2 h).ne'
    rcases le_or_gt w a.x with hw | hw
    · rw [min_eq_right (hw.trans h.le), max_eq_left hw, min_eq_right (huw.le.trans (hw.trans h.le)),
        max_eq_left (huw.le.trans hw), if_neg (fun h' => by linarith [h'.1])]
      simp
    · have hu : a.x ≤ u := by by_contra hc; exact h1 ⟨not_le.1 hc, hw⟩
      rcases le_or_gt b.x u with hb | hb
      · rw [min_eq_left (hb.trans huw.le), min_eq_left hb, if_neg (fun h' => by linarith [h'.2])]
        simp
      · have hw' : w ≤ b.x := by by_contra hc; exact h2 ⟨hb, not_le.1 hc⟩
        rw [min_eq_right hw', min_eq_right hb.le, max_eq_right hw.le, max_eq_right hu,
          if_pos ⟨by linarith, by linarith⟩]
        unfold heightAt
        push_cast
        field_simp
        ring
  · have e1 : ¬ b.x < a.x := by rw [h]; exact lt_irrefl _
    have e2 : ¬ a.x < b.x := by rw [h]; exact lt_irrefl _
    rw [if_neg e1, if_neg e2, if_neg e1, if_neg e2, if_neg (fun h' => e1 (h'.1.trans_lt h'.2)),
      if_neg (fun h' => e2 (h'.1.trans_lt h'.2))]
    simp
  · rw [if_pos h, if_pos h, min_eq_right h.le, max_eq_left h.le]
    have hne : b.x - a.x ≠ 0 := (sub_neg.2 h).ne
    rcases le_or_gt w b.x with hw | hw
    · rw [min_eq_right (hw.trans h.le), max_eq_left hw, min_eq_right (huw.le.trans (hw.trans h.le)),
        max_eq_left (huw.le.trans hw), if_neg (fun h' => by linarith [h'.1]), if_neg (fun h' => by linarith [h'.1])]
      simp
    · have hu : b.x ≤ u := by by_contra hc; exact h2 ⟨not_le.1 hc, hw⟩
      rcases le_or_gt a.x u with hb | hb
      · rw [min_eq_left (hb.trans huw.le), min_eq_left hb, if_neg (fun h' => by linarith [h'.2]),
          if_neg (fun h' => by linarith [h'.2])]
        simp
      · have hw' : w ≤ a.x := by by_contra hc; exact h1 ⟨hb, not_le.1 hc⟩
        rw [min_eq_right hw', min_eq_right hb.le, max_eq_right hw.le, max_eq_right hu,
          if_pos ⟨by linarith, by linarith⟩]
        unfold heightAt
        push_cast
        field_simp
        ring

theorem areaLeft_low (s : Vertex K × Vertex K) {x : K} (h1 : x ≤ s.1.x) (h2 : x ≤ s.2.x) : areaLeft s x = 0 := by
  obtain ⟨a, b⟩ := s
  simp only at h1 h2
  unfold areaLeft clampX
  simp only
  rw [min_eq_right (h1.trans (le_max_left _ _)), max_eq_left (le_min h1 h2)]
  rcases lt_trichotomy a.x b.x with h | h | h
  · rw [if_neg h.not_gt, if_pos h, min_eq_left h.le]; simp
  · rw [h]; simp
  · rw [if_pos h, min_eq_right h.le]; simp

theorem areaLeft_high (s : Vertex K × Vertex K) {x : K} (h1 : s.1.x ≤ x) (h2 : s.2.x ≤ x) :
    areaLeft s x = (s.1.x - s.2.x) * (s.1.y + s.2.y) / 2 := by
  obtain ⟨a, b⟩ := s
  simp only at h1 h2
  unfold areaLeft clampX
  simp only
  rw [min_eq_left (max_le h1 h2), max_eq_right ((min_le_left _ _).trans (le_max_left _ _))]
  rcases lt_trichotomy a.x b.x with h | h | h
  · rw [if_neg h.not_gt, if_pos h, max_eq_right h.le, heightAt_right h]; ring
  · rw [h]; simp
  · rw [if_pos h, max_eq_left h.le, heightAt_left]; ring

section Sign

variable {L : List (Vertex K × Vertex K)}

open Classical in
theorem Telescopes.perm (h : Telescopes L) : (L.map Prod.fst).Perm (L.map Prod.snd) := by
  rw [List.perm_iff_count]
  intro b
  have := h fun e => if e = b then 1 else 0
  clear h
  have key : ∀ l : List (Vertex K × Vertex K),
      (l.map fun s => (if s.2 = b then (1 : ℤ) else 0) - if s.1 = b then (1 : ℤ) else 0).sum =
        (List.count b (l.map Prod.snd) : ℤ) - List.count b (l.map Prod.fst) := by
    intro l
    induction l with
    | nil => simp
    | cons s l ih =>
      simp only [List.map_cons, List.sum_cons, List.count_cons, ih, beq_iff_eq]
      push_cast
      ring
  rw [key] at this
  omega

theorem Telescopes.sum (h : Telescopes L) (f : Vertex K → K) : (L.map fun s => f s.2 - f s.1).sum = 0 := by
  have e := (h.perm.map f).sum_eq
  rw [List.map_map, List.map_map] at e
  have : ∀ l : List (Vertex K × Vertex K), (l.map fun s => f s.2 - f s.1).sum =
      (l.map (f ∘ Prod.snd)).sum - (l.map (f ∘ Prod.fst)).sum := by
    intro l
    induction l with
    | nil => simp
    | cons s l ih => simp only [List.map_cons, List.sum_cons, ih, Function.comp]; ring
  rw [this, e, sub_self]

/-- At abscissas that are not those of ends the column is balanced. -/
theorem span_telescopes (h : Telescopes L) {x : K} : (L.map fun s => span s.1 s.2 x).sum = 0 := by
  have := h fun e => if e.x ≤ x then 1 else 0
  rw [← this]
  congr 1
  refine List.map_congr_left fun s _ => ?_
  unfold span
  by_cases hb : s.2.x ≤ x <;> by_cases ha : s.1.x ≤ x
  · simp [hb, ha, not_lt.2 ha, not_lt.2 hb]
  · simp [hb, ha, not_le.1 ha]
  · simp [hb, ha, not_le.1 hb]
  · simp [hb, ha]

theorem heightAt_on {a b : Vertex K} {x y : K} (h : OnSegment a b ⟨x, y, false⟩) (ha : a.x ≠ x) :
    y = heightAt a b x := by
  obtain ⟨t, -, -, tx, ty⟩ := h
  have tx' : x = a.x + t * (b.x - a.x) := tx
  have ty' : y = a.y + t * (b.y - a.y) := ty
  have hne : b.x - a.x ≠ 0 := fun h => ha (by rw [tx', h]; ring)
  rw [ty']
  unfold heightAt
  rw [tx']
  field_simp
  ring

/-- The column of a list that winds nonnegatively. -/
theorem column_nonneg (h : Telescopes L) (hw : ∀ v, (∀ s ∈ L, ¬ OnSegment s.1 s.2 v) → 0 ≤ windingNumber L v) {x : K}
    (hx : ∀ s ∈ L, s.1.x ≠ x ∧ s.2.x ≠ x) :
    0 ≤ (L.map fun s => ((span s.1 s.2 x : ℤ) : K) * heightAt s.1 s.2 x).sum ∧
    ((∃ v : Vertex K, v.x = x ∧ (∀ s ∈ L, ¬ OnSegment s.1 s.2 v) ∧ 0 < windingNumber L v) →
      0 < (L.map fun s => ((span s.1 s.2 x : ℤ) : K) * heightAt s.1 s.2 x).sum) := by
  have hW : ∀ y, (L.map fun s => if y < heightAt s.1 s.2 x then span s.1 s.2 x else 0).sum =
      windingNumber L ⟨x, y, false⟩ := by
    intro y
    unfold windingNumber
    congr 1
    exact List.map_congr_left fun s _ => (crossing_eq (⟨x, y, false⟩ : Vertex K) s.1 s.2).symm
  obtain ⟨h1, h2⟩ := stack_nonneg L (fun s => span s.1 s.2 x) (fun s => heightAt s.1 s.2 x) (span_telescopes h)
    fun y hy => by
      rw [hW]
      refine hw _ fun s hs hon => ?_
      by_cases hsp : span s.1 s.2 x = 0
      · obtain ⟨t, t0, t1, tx, -⟩ := hon
        have tx' : x = s.1.x + t * (s.2.x - s.1.x) := tx
        have g1 := (hx s hs).1
        have g2 := (hx s hs).2
        unfold span at hsp
        have k1 : ¬ (s.2.x ≤ x ∧ x < s.1.x) := fun h' => by rw [if_pos h'] at hsp; exact one_ne_zero hsp
        have k2 : ¬ (s.1.x ≤ x ∧ x < s.2.x) := fun h' => by rw [if_neg k1, if_pos h'] at hsp; omega
        rcases le_total s.1.x s.2.x with hab | hab
        · exact k2 ⟨by nlinarith, lt_of_le_of_ne (by nlinarith) g2.symm⟩
        · exact k1 ⟨by nlinarith, lt_of_le_of_ne (by nlinarith) g1.symm⟩
      · exact hy s hs hsp (heightAt_on hon (hx s hs).1).symm
  refine ⟨h1, fun ⟨v, vx, vy, hv⟩ => h2 ⟨v.y, fun s hs hsp he => vy s hs ?_, ?_⟩⟩
  · have := onSegment_heightAt hsp
    rw [he, ← vx] at this
    exact this
  · rw [hW, ← vx]
    have : windingNumber L ⟨v.x, v.y, false⟩ = windingNumber L v := by
      unfold windingNumber crossingAbove cross
      rfl
    rw [this]
    exact hv

theorem bounds (l : List K) : ∃ u w, ∀ b ∈ l, u < b ∧ b < w := by
  induction l with
  | nil => exact ⟨0, 0, by simp⟩
  | cons a l ih =>
    obtain ⟨u, w, h⟩ := ih
    refine ⟨min u (a - 1), max w (a + 1), fun b hb => ?_⟩
    rcases List.mem_cons.1 hb with rfl | hb
    · exact ⟨(min_le_right _ _).trans_lt (by linarith), lt_of_lt_of_le (by linarith) (le_max_right _ _)⟩
    · exact ⟨(min_le_left _ _).trans_lt (h b hb).1, (h b hb).2.trans_le (le_max_left _ _)⟩

theorem sum_diff {A : Type*} (l : List A) (f g h : A → K) (e : ∀ a ∈ l, f a - g a = h a) :
    (l.map f).sum - (l.map g).sum = (l.map h).sum := by
  induction l with
  | nil => simp
  | cons a l ih =>
    have := ih fun b hb => e b (List.mem_cons_of_mem _ hb)
    have := e a (by simp)
    simp only [List.map_cons, List.sum_cons]
    linarith

/-- **What winds counterclockwise or not at all encloses a nonnegative area, and a positive one if it winds around some
point.** -/
theorem enclosed_nonneg (h : Telescopes L) (hw : ∀ v, (∀ s ∈ L, ¬ OnSegment s.1 s.2 v) → 0 ≤ windingNumber L v) :
    0 ≤ enclosed L ∧
    ((∃ v, (∀ s ∈ L, ¬ OnSegment s.1 s.2 v) ∧ 0 < windingNumber L v) → 0 < enclosed L) := by
  obtain ⟨B, hB⟩ : ∃ B, B = (L.map fun s => s.1.x) ++ L.map fun s => s.2.x := ⟨_, rfl⟩
  have hB1 : ∀ s ∈ L, s.1.x ∈ B := fun s hs => hB ▸ List.mem_append_left _ (List.mem_map.2 ⟨s, hs, rfl⟩)
  have hB2 : ∀ s ∈ L, s.2.x ∈ B := fun s hs => hB ▸ List.mem_append_right _ (List.mem_map.2 ⟨s, hs, rfl⟩)
  have hdiff : ∀ u w, u < w → (∀ b ∈ B, ¬ (u < b ∧ b < w)) →
      (L.map fun s => areaLeft s w).sum - (L.map fun s => areaLeft s u).sum = (w - u) *
        (L.map fun s => ((span s.1 s.2 ((u + w) / 2) : ℤ) : K) * heightAt s.1 s.2 ((u + w) / 2)).sum := by
    intro u w huw hb
    rw [← List.sum_map_mul_left]
    exact sum_diff _ _ _ _ fun s hs => areaLeft_step s huw (hb _ (hB1 s hs)) (hb _ (hB2 s hs))
  have step : ∀ u w, u < w → (∀ b ∈ B, ¬ (u < b ∧ b < w)) →
      (L.map fun s => areaLeft s u).sum ≤ (L.map fun s => areaLeft s w).sum := by
    intro u w huw hb
    have e := hdiff u w huw hb
    have := (column_nonneg h hw (x := (u + w) / 2) fun s hs =>
      ⟨fun hx => hb _ (hB1 s hs) (by rw [hx]; exact ⟨by linarith, by linarith⟩),
        fun hx => hb _ (hB2 s hs) (by rw [hx]; exact ⟨by linarith, by linarith⟩)⟩).1
    have := mul_nonneg (by linarith : 0 ≤ w - u) this
    linarith
  have low : ∀ x, (∀ b ∈ B, x < b) → (L.map fun s => areaLeft s x).sum = 0 := by
    intro x hx
    refine List.sum_eq_zero fun z hz => ?_
    obtain ⟨s, hs, rfl⟩ := List.mem_map.1 hz
    exact areaLeft_low s (hx _ (hB1 s hs)).le (hx _ (hB2 s hs)).le
  have high : ∀ x, (∀ b ∈ B, b < x) → (L.map fun s => areaLeft s x).sum = enclosed L := by
    intro x hx
    have e := sum_diff L (fun s => (s.1.x * s.2.y - s.2.x * s.1.y) / 2) (fun s => areaLeft s x)
      (fun s => s.2.x * s.2.y / 2 - s.1.x * s.1.y / 2)
      fun s hs => by rw [areaLeft_high s (hx _ (hB1 s hs)).le (hx _ (hB2 s hs)).le]; ring
    rw [h.sum fun v => v.x * v.y / 2] at e
    unfold enclosed
    linarith
  obtain ⟨u, w, huw⟩ := bounds B
  constructor
  · rcases List.eq_nil_or_concat L with rfl | ⟨L', s, hL⟩
    · simp [enclosed]
    · have hs : s ∈ L := by rw [hL]; simp
      rw [← high w fun b hb => (huw b hb).2, ← low u fun b hb => (huw b hb).1]
      exact mono_of_slabs B step u w ((huw _ (hB1 s hs)).1.trans (huw _ (hB1 s hs)).2).le
  · rintro ⟨v, hv, hpos⟩
    obtain ⟨z, hz, hsame, hgen⟩ := nudge L hv
    have hzw : windingNumber L z = windingNumber L v := by
      unfold windingNumber
      congr 1
      exact List.map_congr_left hsame
    have hzB : z.x ∉ B := by
      rw [hB]
      intro hm
      rcases List.mem_append.1 hm with hm | hm
      · obtain ⟨s, hs, he⟩ := List.mem_map.1 hm
        exact (hgen s hs).1 he
      · obtain ⟨s, hs, he⟩ := List.mem_map.1 hm
        exact (hgen s hs).2 he
    rw [← high (max w (z.x + 1)) fun b hb => (huw b hb).2.trans_le (le_max_left _ _),
      ← low (min u (z.x - 1)) fun b hb => (min_le_left _ _).trans_lt (huw b hb).1]
    refine strict_of_slabs (F := fun x => (L.map fun s => areaLeft s x).sum) B step hzB (fun u w huw hm hb => ?_)
      ((min_le_right _ _).trans_lt (by linarith)) (lt_of_lt_of_le (by linarith) (le_max_right _ _))
    have e := hdiff u w huw hb
    rw [hm] at e
    have := (column_nonneg h hw hgen).2 ⟨z, rfl, hz, by rw [hzw]; exact hpos⟩
    have := mul_pos (by linarith : 0 < w - u) this
    linarith

/-- A simple polygon with positive area runs once counterclockwise around its inside. -/
theorem windsOnce {p : Polyline (Vertex K)} (hp : p.opened = false) (hs : SimplePolygon p.vertices)
    (ha : 0 < shoelace p.vertices) : WindsOnce p.vertices := by
  rcases jordan hp hs with h | h
  · exact h
  · exfalso
    have := (enclosed_nonneg (telescopes_pairs p.vertices.reverse) fun v hv => by
      rcases h v hv with h | h <;> simp [h]).1
    have e : enclosed (pairs p.vertices.reverse false) = - enclosed (pairs p.vertices false) := by
      rw [Polyline.enclosed_perm (pairs_reverse _)]
      unfold enclosed
      rw [List.map_map]
      generalize pairs p.vertices false = l
      induction l with
      | nil => simp
      | cons s l ih =>
        simp only [List.map_cons, List.sum_cons, ih, Function.comp, Prod.fst_swap, Prod.snd_swap]
        ring
    rw [e, ← Polyline.shoelace_enclosed] at this
    linarith

end Sign

end Verif
