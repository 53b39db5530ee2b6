import Verif.Props.Encroachment
import Verif.Lemmas.SplitCount
import Verif.Lemmas.F64Split

/-!
# C88: splitting segments in f64, and C29: the number of splits

`unencroachSegment` splits an encroached segment. Here the test for encroachment and the midpoint are computed with the
rounding of `f64`; the insertion of the midpoints in the mesh may be any program.
-/

set_option linter.unusedSectionVars false

namespace Verif.Props

open Spec

section exact

variable {K : Type*} [Field K] [LinearOrder K] [IsStrictOrderedRing K]

theorem countP_two {V : Type*} {p q r : V → Bool} (hpq : ∀ v, p v = true → q v = false) (hp : ∀ v, p v = true → r v = true)
    (hq : ∀ v, q v = true → r v = true) (l : List V) : l.countP p + l.countP q ≤ l.countP r := by
  induction l with
  | nil => simp
  | cons v l ih =>
    rw [List.countP_cons, List.countP_cons, List.countP_cons]
    cases h1 : p v <;> cases h2 : q v
    · simp only [Bool.false_eq_true, if_false]; omega
    · simp only [Bool.false_eq_true, if_false, if_true, hq v h2]; omega
    · simp only [Bool.false_eq_true, if_false, if_true, hp v h1]; omega
    · rw [hpq v h1] at h2; cases h2

theorem encroach_inside_lt {eps : K} {a b v : Vertex K} (he : 0 ≤ eps) :
    encroach eps a b v = .inside ↔ encroachMeasure a b v < -eps := by
  unfold encroach approxEq
  simp only [sub_zero, decide_eq_true_eq]
  constructor
  · intro h
    split_ifs at h with k1 k2
    rw [not_le] at k1
    rw [not_lt] at k2
    rw [abs_of_nonpos k2] at k1
    linarith
  · intro h
    rw [if_neg (by rw [not_le, abs_of_neg (by linarith)]; linarith), if_neg (by linarith)]

/-- A vertex that encroaches a half encroaches the segment. -/
theorem encroach_half1 {eps : K} (he : 0 ≤ eps) {e : Edge (Vertex K)} {v : Vertex K}
    (h : encroach eps e.v1 e.midpoint v = .inside) : encroach eps e.v1 e.v2 v = .inside := by
  rw [encroach_inside_lt he] at h ⊢
  simp only [encroachMeasure, Edge.midpoint, Vertex.mk'] at h ⊢
  nlinarith [sq_nonneg (v.x - e.v1.x), sq_nonneg (v.y - e.v1.y)]

theorem encroach_half2 {eps : K} (he : 0 ≤ eps) {e : Edge (Vertex K)} {v : Vertex K}
    (h : encroach eps e.midpoint e.v2 v = .inside) : encroach eps e.v1 e.v2 v = .inside := by
  rw [encroach_inside_lt he] at h ⊢
  simp only [encroachMeasure, Edge.midpoint, Vertex.mk'] at h ⊢
  nlinarith [sq_nonneg (v.x - e.v2.x), sq_nonneg (v.y - e.v2.y)]

theorem two_budgets {k c1 c2 c : Nat} (h : c1 + c2 ≤ c) :
    (if c1 = 0 then 0 else 1 + k * c1) + (if c2 = 0 then 0 else 1 + k * c2) + 1 ≤ 1 + (k + 1) * c := by
  have h1 : (if c1 = 0 then 0 else 1 + k * c1) ≤ (k + 1) * c1 := by
    split_ifs with h
    · omega
    · have : 1 ≤ c1 := by omega
      rw [add_mul]
      omega
  have h2 : (if c2 = 0 then 0 else 1 + k * c2) ≤ (k + 1) * c2 := by
    split_ifs with h
    · omega
    · have : 1 ≤ c2 := by omega
      rw [add_mul]
      omega
  have h3 : (k + 1) * (c1 + c2) ≤ (k + 1) * c := Nat.mul_le_mul_left _ h
  rw [mul_add] at h3
  omega

/-- C29: the number of splits is small. If all the given vertices are at distance at least `d` from the segment and the
segment is at most `2 ^ (k + 1) * d` long, the loop does not need more than `1 + k * n` iterations for `n` vertices; it can
only fail to end if one of the insertions of a midpoint does not end. -/
theorem C29_count {eps : K} {fuel : Nat} {dist : Vertex K → Vertex K → K} {params : RefineParams K}
    {boundary : Option (Polyline (Vertex K))} {holes : List (Polyline (Vertex K))} {σ : Sched} {C : List (Edge (Vertex K))}
    {m : Mesh (Vertex K)} {e : Edge (Vertex K)} {vs : List (Vertex K)} (he : 0 ≤ eps) {D : K} {k : Nat}
    (hD : ∀ v ∈ vs, ∀ p, OnSegment e.v1 e.v2 p → D ≤ dist2 p v)
    (hk : dist2 e.v1 e.v2 ≤ 4 ^ (k + 1) * D) (hf : 1 + k * vs.length ≤ fuel)
    (h : unencroachSegment (geoRPreds eps fuel dist params boundary holes) fuel σ C m e vs = .diverged) :
    ∃ σ' m' e', splitSegment (geoRPreds eps fuel dist params boundary holes) fuel σ' C m' e' = .diverged := by
  have h01 : (0 : K) ≤ 1 := zero_le_one
  have ha : OnSegment e.v1 e.v2 e.v1 := ⟨0, le_refl _, h01, by ring, by ring⟩
  have hb : OnSegment e.v1 e.v2 e.v2 := ⟨1, h01, le_refl _, by ring, by ring⟩
  have key : ∀ f : Edge (Vertex K), OnSegment e.v1 e.v2 f.v1 → OnSegment e.v1 e.v2 f.v2 →
      ∀ v ∈ vs, encroach eps f.v1 f.v2 v = .inside → 4 * D < dist2 f.v1 f.v2 := by
    intro f h1 h2 v hv hi
    have := C04_inside he hi
    have := hD v hv _ (onSegment_convex h1 h2)
    linarith
  let c : Edge (Vertex K) → Nat := fun g => vs.countP fun v => decide (encroach eps g.v1 g.v2 v = .inside)
  have hc : ∀ g v, v ∈ vs → (geoRPreds eps fuel dist params boundary holes).encroaches g v = true → c g ≠ 0 := by
    intro g v hv hi
    have : 0 < c g := List.countP_pos_iff.2 ⟨v, hv, by rw [decide_eq_true_iff]; exact geo_encroaches_iff.1 hi⟩
    omega
  refine unencLoop_count (W := fun v => v ∈ vs)
    (A := fun n g => OnSegment e.v1 e.v2 g.v1 ∧ OnSegment e.v1 e.v2 g.v2 ∧
      ∃ j, dist2 g.v1 g.v2 ≤ 4 ^ (j + 1) * D ∧ n = 1 + j * c g) ?_ (s := ⟨m, vs, [], [], []⟩) (fun v hv => hv)
    (ks := [1 + k * c e]) (List.Forall₂.cons ⟨ha, hb, k, hk, rfl⟩ List.Forall₂.nil) ?_ h
  · rintro n g ⟨g1, g2, j, g3, rfl⟩
    have hm : OnSegment e.v1 e.v2 g.midpoint := onSegment_convex g1 g2
    have d1 := dist2_half1 g
    have d2 := dist2_half2 g
    cases j with
    | zero =>
      refine ⟨0, 0, by omega, ?_, ?_⟩
      · rintro ⟨v, hv, hi⟩
        exfalso
        have i1 := key ⟨g.v1, g.midpoint⟩ g1 hm v hv (geo_encroaches_iff.1 hi)
        have hnn : 0 ≤ dist2 g.v1 g.midpoint := by unfold dist2; positivity
        simp only at i1
        rw [zero_add, pow_one] at g3
        linarith
      · rintro ⟨v, hv, hi⟩
        exfalso
        have i1 := key ⟨g.midpoint, g.v2⟩ hm g2 v hv (geo_encroaches_iff.1 hi)
        have hnn : 0 ≤ dist2 g.midpoint g.v2 := by unfold dist2; positivity
        simp only at i1
        rw [zero_add, pow_one] at g3
        linarith
    | succ j =>
      have hcc : c ⟨g.v1, g.midpoint⟩ + c ⟨g.midpoint, g.v2⟩ ≤ c g := by
        refine countP_two ?_ ?_ ?_ vs
        · intro v h1
          rw [decide_eq_true_iff] at h1
          rw [decide_eq_false_iff_not]
          exact encroach_halves he g v h1
        · intro v h1
          rw [decide_eq_true_iff] at h1 ⊢
          exact encroach_half1 he h1
        · intro v h1
          rw [decide_eq_true_iff] at h1 ⊢
          exact encroach_half2 he h1
      rw [pow_succ] at g3
      refine ⟨_, _, two_budgets (k := j) hcc, ?_, ?_⟩
      · rintro ⟨v, hv, hi⟩
        exact ⟨g1, hm, j, by simp only [geoRPreds]; linarith, if_neg (hc _ v hv hi)⟩
      · rintro ⟨v, hv, hi⟩
        exact ⟨hm, g2, j, by simp only [geoRPreds]; linarith, if_neg (hc _ v hv hi)⟩
  · have h1 : c e ≤ vs.length := List.countP_le_length
    have := Nat.mul_le_mul_left k h1
    simp only [List.sum_cons, List.sum_nil]
    omega

end exact

/-- Both coordinates are numbers of the format `f64`. -/
def F64Vertex (v : Vertex ℚ) : Prop := IsF64 v.x ∧ IsF64 v.y

/-- `p` is in the smallest rectangle with sides parallel to the axes that contains `a` and `b`. -/
def InBox (a b p : Vertex ℚ) : Prop :=
  (min a.x b.x ≤ p.x ∧ p.x ≤ max a.x b.x) ∧ min a.y b.y ≤ p.y ∧ p.y ≤ max a.y b.y

/-- `p` is, in each coordinate, at most `r` away from a point of the segment. -/
def NearSegment (r : ℚ) (a b p : Vertex ℚ) : Prop := ∃ q, OnSegment a b q ∧ |p.x - q.x| ≤ r ∧ |p.y - q.y| ≤ r

section rounded

variable {eps : ℚ} {fuel : Nat} {P : RPreds (Vertex ℚ)} {σ : Sched} {C : List (Edge (Vertex ℚ))} {m : Mesh (Vertex ℚ)}
  {e : Edge (Vertex ℚ)} {vs : List (Vertex ℚ)} {r : UnencState (Vertex ℚ)}

theorem rounded_encroaches_iff {f : Edge (Vertex ℚ)} {v : Vertex ℚ} :
    (splitPredsRounded roundF64 eps P).encroaches f v = true ↔ encroachRounded roundF64 eps f.v1 f.v2 v = .inside := by
  show decide _ = true ↔ _
  rw [decide_eq_true_iff]

theorem midpointRounded_f64 (g : Edge (Vertex ℚ)) : F64Vertex (g.midpointRounded roundF64) :=
  ⟨halfway_isF64 _ _, halfway_isF64 _ _⟩

/-- How often a coordinate of a given vertex is strictly between those of the ends of the segment. -/
def crossings (vs : List (Vertex ℚ)) (g : Edge (Vertex ℚ)) : Nat :=
  vs.countP (fun v => decide (min g.v1.x g.v2.x < v.x ∧ v.x < max g.v1.x g.v2.x)) +
    vs.countP fun v => decide (min g.v1.y g.v2.y < v.y ∧ v.y < max g.v1.y g.v2.y)

theorem between_halves {a b c : ℚ} (h : min a b ≤ c ∧ c ≤ max a b) (x : ℚ) :
    ((min a c < x ∧ x < max a c) → ¬ (min c b < x ∧ x < max c b)) ∧
      ((min a c < x ∧ x < max a c) → min a b < x ∧ x < max a b) ∧
      ((min c b < x ∧ x < max c b) → min a b < x ∧ x < max a b) := by
  rcases le_total a b with hab | hab
  · rw [min_eq_left hab, max_eq_right hab] at *
    rw [min_eq_left h.1, max_eq_right h.1, min_eq_left h.2, max_eq_right h.2]
    refine ⟨fun h1 h2 => ?_, fun h1 => ⟨h1.1, ?_⟩, fun h1 => ⟨?_, h1.2⟩⟩ <;> linarith [h.1, h.2, h1.1, h1.2]
  · rw [min_eq_right hab, max_eq_left hab] at *
    rw [min_eq_right h.2, max_eq_left h.2, min_eq_right h.1, max_eq_left h.1]
    refine ⟨fun h1 h2 => ?_, fun h1 => ⟨?_, h1.2⟩, fun h1 => ⟨h1.1, ?_⟩⟩ <;> linarith [h.1, h.2, h1.1, h1.2]

theorem crossings_halves (g : Edge (Vertex ℚ)) (h1 : F64Vertex g.v1) (h2 : F64Vertex g.v2) :
    crossings vs ⟨g.v1, g.midpointRounded roundF64⟩ + crossings vs ⟨g.midpointRounded roundF64, g.v2⟩ ≤ crossings vs g := by
  have bx := halfway_between h1.1 h2.1
  have by' := halfway_between h1.2 h2.2
  have kx := countP_two (l := vs) (r := fun v => decide (min g.v1.x g.v2.x < v.x ∧ v.x < max g.v1.x g.v2.x))
    (p := fun v => decide (min g.v1.x (halfway g.v1.x g.v2.x) < v.x ∧ v.x < max g.v1.x (halfway g.v1.x g.v2.x)))
    (q := fun v => decide (min (halfway g.v1.x g.v2.x) g.v2.x < v.x ∧ v.x < max (halfway g.v1.x g.v2.x) g.v2.x))
    (fun v hv => by
      rw [decide_eq_true_iff] at hv
      rw [decide_eq_false_iff_not]
      exact (between_halves bx v.x).1 hv)
    (fun v hv => by
      rw [decide_eq_true_iff] at hv ⊢
      exact (between_halves bx v.x).2.1 hv)
    (fun v hv => by
      rw [decide_eq_true_iff] at hv ⊢
      exact (between_halves bx v.x).2.2 hv)
  have ky := countP_two (l := vs) (r := fun v => decide (min g.v1.y g.v2.y < v.y ∧ v.y < max g.v1.y g.v2.y))
    (p := fun v => decide (min g.v1.y (halfway g.v1.y g.v2.y) < v.y ∧ v.y < max g.v1.y (halfway g.v1.y g.v2.y)))
    (q := fun v => decide (min (halfway g.v1.y g.v2.y) g.v2.y < v.y ∧ v.y < max (halfway g.v1.y g.v2.y) g.v2.y))
    (fun v hv => by
      rw [decide_eq_true_iff] at hv
      rw [decide_eq_false_iff_not]
      exact (between_halves by' v.y).1 hv)
    (fun v hv => by
      rw [decide_eq_true_iff] at hv ⊢
      exact (between_halves by' v.y).2.1 hv)
    (fun v hv => by
      rw [decide_eq_true_iff] at hv ⊢
      exact (between_halves by' v.y).2.2 hv)
  unfold crossings
  simp only [Edge.midpointRounded, Vertex.mk', ← halfway.eq_1] at *
  omega

theorem crossings_pos (he : 0 ≤ eps) {g : Edge (Vertex ℚ)} {v : Vertex ℚ} (hv : v ∈ vs)
    (h : encroachRounded roundF64 eps g.v1 g.v2 v = .inside) : crossings vs g ≠ 0 := by
  unfold crossings
  rcases between_of_encroaches he h with h1 | h1
  · have : 0 < vs.countP fun v => decide (min g.v1.x g.v2.x < v.x ∧ v.x < max g.v1.x g.v2.x) :=
      List.countP_pos_iff.2 ⟨v, hv, decide_eq_true h1⟩
    omega
  · have : 0 < vs.countP fun v => decide (min g.v1.y g.v2.y < v.y ∧ v.y < max g.v1.y g.v2.y) :=
      List.countP_pos_iff.2 ⟨v, hv, decide_eq_true h1⟩
    omega

/-- A segment that is encroached in `f64` can still be divided. -/
theorem depth_pos (he : 0 ≤ eps) {g : Edge (Vertex ℚ)} {v : Vertex ℚ} {j : Nat} (h1 : F64Vertex g.v1) (h2 : F64Vertex g.v2)
    (hv : F64Vertex v) (dx : Depth j g.v1.x g.v2.x) (dy : Depth j g.v1.y g.v2.y)
    (h : encroachRounded roundF64 eps g.v1 g.v2 v = .inside) : j ≠ 0 := by
  rintro rfl
  rcases between_of_encroaches he h with k | k
  · exact dx.zero h1.1 h2.1 v.x hv.1 k
  · exact dy.zero h1.2 h2.2 v.y hv.2 k

/-- Coordinates up to `2 ^ M` can be halved `4 * (M + 1075)` times. -/
theorem depth_of_le {a b : ℚ} {M : Nat} (ha : |a| ≤ 2 ^ M) (hb : |b| ≤ 2 ^ M) : Depth (4 * (M + 1075)) a b := by
  right
  have h1 : |a - b| ≤ 2 ^ (M + 1) := by
    refine le_trans (abs_sub _ _) ?_
    rw [pow_succ]
    linarith
  have h2 : (2 : ℚ) ^ (M + 1) = 2 ^ (M + 1075) * (2 : ℚ) ^ (-1074 : ℤ) := by
    have e1 : ((M + 1 : ℕ) : ℤ) = ((M + 1075 : ℕ) : ℤ) + -1074 := by omega
    rw [← zpow_natCast, ← zpow_natCast, ← zpow_add₀ (by norm_num), e1]
  have h3 : (2 : ℚ) ^ (M + 1075) ≤ (6 / 5) ^ (4 * (M + 1075)) := by
    rw [pow_mul]
    exact pow_le_pow_left₀ (by norm_num) (by norm_num) _
  rw [h2] at h1
  exact le_trans h1 (mul_le_mul_of_nonneg_right h3 (zpow_pos (by norm_num) _).le)

/-- C88: in `f64` the splitting of a segment always ends. For a segment with coordinates up to `2 ^ M` and `n` vertices the
loop does not need more than `1 + 8 * (M + 1075) * n` iterations, wherever the vertices are; it can only fail to end if one
of the insertions of a midpoint does not end. -/
theorem C88_ends (he : 0 ≤ eps) {M : Nat} (h1 : F64Vertex e.v1) (h2 : F64Vertex e.v2) (hvs : ∀ v ∈ vs, F64Vertex v)
    (hM : |e.v1.x| ≤ 2 ^ M ∧ |e.v1.y| ≤ 2 ^ M ∧ |e.v2.x| ≤ 2 ^ M ∧ |e.v2.y| ≤ 2 ^ M)
    (hf : 1 + 8 * (M + 1075) * vs.length ≤ fuel)
    (h : unencroachSegment (splitPredsRounded roundF64 eps P) fuel σ C m e vs = .diverged) :
    ∃ σ' m' e', splitSegment (splitPredsRounded roundF64 eps P) fuel σ' C m' e' = .diverged := by
  refine unencLoop_count (W := fun v => v ∈ vs)
    (A := fun n g => F64Vertex g.v1 ∧ F64Vertex g.v2 ∧ ∃ j, Depth j g.v1.x g.v2.x ∧ Depth j g.v1.y g.v2.y ∧
      n = 1 + j * crossings vs g) ?_ (s := ⟨m, vs, [], [], []⟩) (fun v hv => hv)
    (ks := [1 + 4 * (M + 1075) * crossings vs e])
    (List.Forall₂.cons ⟨h1, h2, 4 * (M + 1075), depth_of_le hM.1 hM.2.2.1, depth_of_le hM.2.1 hM.2.2.2, rfl⟩
      List.Forall₂.nil) ?_ h
  · rintro n g ⟨g1, g2, j, dx, dy, rfl⟩
    have gm := midpointRounded_f64 g
    cases j with
    | zero =>
      have ax := dx.zero g1.1 g2.1
      have ay := dy.zero g1.2 g2.2
      refine ⟨0, 0, by omega, ?_, ?_⟩
      · rintro ⟨v, hv, hi⟩
        exfalso
        rcases between_of_encroaches he (rounded_encroaches_iff.1 hi) with k | k
        · exact ax.left g1.1 g2.1 v.x (hvs v hv).1 k
        · exact ay.left g1.2 g2.2 v.y (hvs v hv).2 k
      · rintro ⟨v, hv, hi⟩
        exfalso
        rcases between_of_encroaches he (rounded_encroaches_iff.1 hi) with k | k
        · exact ax.right g1.1 g2.1 v.x (hvs v hv).1 k
        · exact ay.right g1.2 g2.2 v.y (hvs v hv).2 k
    | succ j =>
      refine ⟨_, _, two_budgets (k := j) (crossings_halves (vs := vs) g g1 g2), ?_, ?_⟩
      · rintro ⟨v, hv, hi⟩
        exact ⟨g1, gm, j, dx.left g1.1 g2.1, dy.left g1.2 g2.2,
          if_neg (crossings_pos he hv (rounded_encroaches_iff.1 hi))⟩
      · rintro ⟨v, hv, hi⟩
        exact ⟨gm, g2, j, dx.right g1.1 g2.1, dy.right g1.2 g2.2,
          if_neg (crossings_pos he hv (rounded_encroaches_iff.1 hi))⟩
  · have k1 : crossings vs e ≤ 2 * vs.length := by
      unfold crossings
      have i1 : vs.countP (fun v => decide (min e.v1.x e.v2.x < v.x ∧ v.x < max e.v1.x e.v2.x)) ≤ vs.length :=
        List.countP_le_length
      have i2 : vs.countP (fun v => decide (min e.v1.y e.v2.y < v.y ∧ v.y < max e.v1.y e.v2.y)) ≤ vs.length :=
        List.countP_le_length
      omega
    simp only [List.sum_cons, List.sum_nil]
    generalize M + 1075 = N at hf ⊢
    have k2 := Nat.mul_le_mul_left (4 * N) k1
    have k3 : 4 * N * (2 * vs.length) = 8 * N * vs.length := by ring
    omega

/-- C88: the returned subsegments are the pieces of the two halves of the segment after repeated bisection at the rounded
midpoint, so they form a chain from one end of the segment to the other. -/
theorem C88_tiles (h : unencroachSegment (splitPredsRounded roundF64 eps P) fuel σ C m e vs = .ok r) :
    ∃ l1 l2, Bisects (Edge.midpointRounded roundF64) ⟨e.v1, e.midpointRounded roundF64⟩ l1 ∧
      Bisects (Edge.midpointRounded roundF64) ⟨e.midpointRounded roundF64, e.v2⟩ l2 ∧ ∀ f, f ∈ r.newEdges ↔ f ∈ l1 ++ l2 := by
  obtain ⟨ls, k1, k2, -, -⟩ := unencLoop_tiles h
  rw [List.forall₂_cons_left_iff] at k1
  obtain ⟨l, ls', ⟨l1, l2, rfl, c1, c2⟩, k1, rfl⟩ := k1
  rw [List.forall₂_nil_left_iff] at k1
  subst k1
  exact ⟨l1, l2, c1, c2, fun f => by rw [k2]; simp⟩

/-- C88: the vertices still listed as encroaching are among the given ones and encroach none of the returned
subsegments, as far as `f64` can tell. -/
theorem C88_survivors (h : unencroachSegment (splitPredsRounded roundF64 eps P) fuel σ C m e vs = .ok r) :
    ∀ v ∈ r.vertices, v ∈ vs ∧ ∀ f ∈ r.newEdges, encroachRounded roundF64 eps f.v1 f.v2 v ≠ .inside := by
  obtain ⟨ls, -, -, k3, k4⟩ := unencLoop_tiles h
  intro v hv
  refine ⟨k3 v hv, fun f hf hi => ?_⟩
  rcases k4 f hf with k | k
  · cases k
  · have := rounded_encroaches_iff (P := P).2 hi
    rw [k v hv] at this
    cases this

theorem halfway_abs {a b : ℚ} {M : Nat} (ha : IsF64 a) (hb : IsF64 b) (h1 : |a| ≤ 2 ^ M) (h2 : |b| ≤ 2 ^ M) :
    |halfway a b - (a + b) / 2| ≤ 2 ^ M / 2 ^ 53 := by
  refine le_trans (halfway_nearest ha hb (roundF64_isF64 ((a + b) / 2))) ?_
  have hr := rounds_f64.error ((a + b) / 2)
  have hle : max |(a + b) / 2| ((2 : ℚ) ^ (-1022 : ℤ)) ≤ 2 ^ M := by
    refine max_le ?_ ?_
    · rw [abs_div, abs_of_pos (by norm_num : (0 : ℚ) < 2)]
      have := abs_add_le a b
      linarith
    · rw [← zpow_natCast]
      exact zpow_le_zpow_right₀ (by norm_num) (by omega)
  generalize max |(a + b) / 2| ((2 : ℚ) ^ (-1022 : ℤ)) = t at hr hle
  refine le_trans hr ?_
  rw [div_eq_mul_one_div (2 ^ M : ℚ), mul_comm]
  exact mul_le_mul_of_nonneg_right hle (by norm_num)

theorem InBox.le {a b p : Vertex ℚ} {B : ℚ} (h : InBox a b p) (hB : |a.x| ≤ B ∧ |a.y| ≤ B ∧ |b.x| ≤ B ∧ |b.y| ≤ B) :
    |p.x| ≤ B ∧ |p.y| ≤ B := by
  simp only [abs_le] at *
  obtain ⟨⟨a1, a2⟩, ⟨a3, a4⟩, ⟨b1, b2⟩, b3, b4⟩ := hB
  obtain ⟨⟨h1, h2⟩, h3, h4⟩ := h
  exact ⟨⟨le_trans (le_min a1 b1) h1, le_trans h2 (max_le a2 b2)⟩, le_trans (le_min a3 b3) h3, le_trans h4 (max_le a4 b4)⟩

theorem InBox.mid {a b p q : Vertex ℚ} (hp : F64Vertex p) (hq : F64Vertex q) (h1 : InBox a b p) (h2 : InBox a b q) :
    InBox a b (Edge.midpointRounded roundF64 ⟨p, q⟩) := by
  have bx := halfway_between hp.1 hq.1
  have by' := halfway_between hp.2 hq.2
  exact ⟨⟨le_trans (le_min h1.1.1 h2.1.1) bx.1, le_trans bx.2 (max_le h1.1.2 h2.1.2)⟩,
    le_trans (le_min h1.2.1 h2.2.1) by'.1, le_trans by'.2 (max_le h1.2.2 h2.2.2)⟩

theorem near_half {a b q1 q2 c R ρ : ℚ} (h1 : |a - q1| ≤ R) (h2 : |b - q2| ≤ R) (hc : |c - (a + b) / 2| ≤ ρ) :
    |c - (q1 + q2) / 2| ≤ R + ρ := by
  rw [abs_le] at *
  constructor <;> linarith [h1.1, h1.2, h2.1, h2.2, hc.1, hc.2]

theorem NearSegment.mid {a b p q : Vertex ℚ} {R : ℚ} {M : Nat} (hp : F64Vertex p) (hq : F64Vertex q)
    (bp : |p.x| ≤ 2 ^ M ∧ |p.y| ≤ 2 ^ M) (bq : |q.x| ≤ 2 ^ M ∧ |q.y| ≤ 2 ^ M) (h1 : NearSegment R a b p)
    (h2 : NearSegment R a b q) : NearSegment (R + 2 ^ M / 2 ^ 53) a b (Edge.midpointRounded roundF64 ⟨p, q⟩) := by
  obtain ⟨q1, s1, x1, y1⟩ := h1
  obtain ⟨q2, s2, x2, y2⟩ := h2
  exact ⟨centre q1 q2, onSegment_convex s1 s2, near_half x1 x2 (halfway_abs hp.1 hq.1 bp.1 bq.1),
    near_half y1 y2 (halfway_abs hp.2 hq.2 bp.2 bq.2)⟩

theorem NearSegment.mono {a b p : Vertex ℚ} {R R' : ℚ} (h : NearSegment R a b p) (hR : R ≤ R') : NearSegment R' a b p := by
  obtain ⟨q, s, x, y⟩ := h
  exact ⟨q, s, le_trans x hR, le_trans y hR⟩

/-- C88: when one of the given vertices encroaches the segment, each of the returned subsegments has `f64` coordinates, two
different ends, lies in the bounding box of the segment, and its ends are at most `4 * (M + 1075)` roundings away from the
segment. -/
theorem C88_pieces (he : 0 ≤ eps) {M : Nat} (h1 : F64Vertex e.v1) (h2 : F64Vertex e.v2) (hvs : ∀ v ∈ vs, F64Vertex v)
    (hM : |e.v1.x| ≤ 2 ^ M ∧ |e.v1.y| ≤ 2 ^ M ∧ |e.v2.x| ≤ 2 ^ M ∧ |e.v2.y| ≤ 2 ^ M)
    (hin : ∃ v ∈ vs, encroachRounded roundF64 eps e.v1 e.v2 v = .inside)
    (h : unencroachSegment (splitPredsRounded roundF64 eps P) fuel σ C m e vs = .ok r) :
    ∀ f ∈ r.newEdges, (F64Vertex f.v1 ∧ F64Vertex f.v2) ∧ ¬ (f.v1.x = f.v2.x ∧ f.v1.y = f.v2.y) ∧
      (InBox e.v1 e.v2 f.v1 ∧ InBox e.v1 e.v2 f.v2) ∧
      NearSegment ((4 * (M + 1075) : ℕ) * (2 ^ M / 2 ^ 53)) e.v1 e.v2 f.v1 ∧
      NearSegment ((4 * (M + 1075) : ℕ) * (2 ^ M / 2 ^ 53)) e.v1 e.v2 f.v2 := by
  have hρ : (0 : ℚ) ≤ 2 ^ M / 2 ^ 53 := by positivity
  have b1 : InBox e.v1 e.v2 e.v1 := ⟨⟨min_le_left _ _, le_max_left _ _⟩, min_le_left _ _, le_max_left _ _⟩
  have b2 : InBox e.v1 e.v2 e.v2 := ⟨⟨min_le_right _ _, le_max_right _ _⟩, min_le_right _ _, le_max_right _ _⟩
  have n1 : NearSegment 0 e.v1 e.v2 e.v1 := ⟨e.v1, ⟨0, le_refl _, zero_le_one, by ring, by ring⟩, by simp, by simp⟩
  have n2 : NearSegment 0 e.v1 e.v2 e.v2 := ⟨e.v2, ⟨1, zero_le_one, le_refl _, by ring, by ring⟩, by simp, by simp⟩
  have dx := depth_of_le hM.1 hM.2.2.1
  have dy := depth_of_le hM.2.1 hM.2.2.2
  generalize 4 * (M + 1075) = k at dx dy ⊢
  intro f hf
  have key := unencLoop_induct (W := fun v => v ∈ vs)
    (A := fun g => (F64Vertex g.v1 ∧ F64Vertex g.v2) ∧ (InBox e.v1 e.v2 g.v1 ∧ InBox e.v1 e.v2 g.v2) ∧
      (∃ v ∈ vs, encroachRounded roundF64 eps g.v1 g.v2 v = .inside) ∧
      ∃ i j, i + j = k ∧ Depth i g.v1.x g.v2.x ∧ Depth i g.v1.y g.v2.y ∧
        NearSegment (j * (2 ^ M / 2 ^ 53)) e.v1 e.v2 g.v1 ∧ NearSegment (j * (2 ^ M / 2 ^ 53)) e.v1 e.v2 g.v2)
    (B := fun f => (F64Vertex f.v1 ∧ F64Vertex f.v2) ∧ ¬ (f.v1.x = f.v2.x ∧ f.v1.y = f.v2.y) ∧
      (InBox e.v1 e.v2 f.v1 ∧ InBox e.v1 e.v2 f.v2) ∧
      NearSegment (k * (2 ^ M / 2 ^ 53)) e.v1 e.v2 f.v1 ∧ NearSegment (k * (2 ^ M / 2 ^ 53)) e.v1 e.v2 f.v2) ?_ ?_
    (s := ⟨m, vs, [], [], []⟩) (fun v hv => hv) (stack := [e]) (by
      intro g hg
      rw [List.mem_singleton] at hg
      subst hg
      refine ⟨⟨h1, h2⟩, ⟨b1, b2⟩, hin, k, 0, rfl, dx, dy, ?_, ?_⟩
      · rw [Nat.cast_zero, zero_mul]; exact n1
      · rw [Nat.cast_zero, zero_mul]; exact n2) h f hf
  · rcases key with key | key
    · cases key
    · exact key
  · rintro g v ⟨⟨g1, g2⟩, ⟨c1, c2⟩, ⟨w, hw, hwi⟩, i, j, rfl, gx, gy, s1, s2⟩ hv
    have gm := midpointRounded_f64 g
    have cm := InBox.mid g1 g2 c1 c2
    have sm := NearSegment.mid g1 g2 (c1.le hM) (c2.le hM) s1 s2
    have hi := depth_pos he g1 g2 (hvs w hw) gx gy hwi
    obtain ⟨i, rfl⟩ := Nat.exists_eq_succ_of_ne_zero hi
    have ej : ((j + 1 : ℕ) : ℚ) * (2 ^ M / 2 ^ 53) = j * (2 ^ M / 2 ^ 53) + 2 ^ M / 2 ^ 53 := by push_cast; ring
    have sj : (j : ℚ) * (2 ^ M / 2 ^ 53) ≤ ((j + 1 : ℕ) : ℚ) * (2 ^ M / 2 ^ 53) := by rw [ej]; linarith
    refine ⟨fun hv' => ⟨⟨g1, gm⟩, ⟨c1, cm⟩, ⟨v, hv, rounded_encroaches_iff.1 hv'⟩, i, j + 1, by omega,
      gx.left g1.1 g2.1, gy.left g1.2 g2.2, s1.mono sj, ?_⟩, fun hv' => ⟨⟨gm, g2⟩, ⟨cm, c2⟩,
      ⟨v, hv, rounded_encroaches_iff.1 hv'⟩, i, j + 1, by omega, gx.right g1.1 g2.1, gy.right g1.2 g2.2, ?_, s2.mono sj⟩⟩
    · rw [ej]; exact sm
    · rw [ej]; exact sm
  · rintro g ⟨⟨g1, g2⟩, ⟨c1, c2⟩, ⟨w, hw, hwi⟩, i, j, rfl, gx, gy, s1, s2⟩
    have gm := midpointRounded_f64 g
    have cm := InBox.mid g1 g2 c1 c2
    have sm := NearSegment.mid g1 g2 (c1.le hM) (c2.le hM) s1 s2
    have hi := depth_pos he g1 g2 (hvs w hw) gx gy hwi
    obtain ⟨i, rfl⟩ := Nat.exists_eq_succ_of_ne_zero hi
    have sk : (j : ℚ) * (2 ^ M / 2 ^ 53) + 2 ^ M / 2 ^ 53 ≤ ((i + 1 + j : ℕ) : ℚ) * (2 ^ M / 2 ^ 53) := by
      have : ((j + 1 : ℕ) : ℚ) ≤ ((i + 1 + j : ℕ) : ℚ) := by exact_mod_cast (by omega : j + 1 ≤ i + 1 + j)
      have := mul_le_mul_of_nonneg_right this hρ
      push_cast at this ⊢
      linarith
    have sj : (j : ℚ) * (2 ^ M / 2 ^ 53) ≤ ((i + 1 + j : ℕ) : ℚ) * (2 ^ M / 2 ^ 53) := by linarith
    have hne : (halfway g.v1.x g.v2.x ≠ g.v1.x ∧ halfway g.v1.x g.v2.x ≠ g.v2.x) ∨
        (halfway g.v1.y g.v2.y ≠ g.v1.y ∧ halfway g.v1.y g.v2.y ≠ g.v2.y) := by
      rcases between_of_encroaches he hwi with k | k
      · exact Or.inl (halfway_strict g1.1 g2.1 fun ha => ha _ (hvs w hw).1 k)
      · exact Or.inr (halfway_strict g1.2 g2.2 fun ha => ha _ (hvs w hw).2 k)
    refine ⟨⟨⟨g1, gm⟩, ?_, ⟨c1, cm⟩, s1.mono sj, sm.mono sk⟩, ⟨gm, g2⟩, ?_, ⟨cm, c2⟩, sm.mono sk, s2.mono sj⟩
    · rintro ⟨ex, ey⟩
      rcases hne with k | k
      · exact k.1 ex.symm
      · exact k.1 ey.symm
    · rintro ⟨ex, ey⟩
      rcases hne with k | k
      · exact k.2 ex
      · exact k.2 ey

/-- C88: in `f64` the first phase of refining, which splits the segments that vertices of the mesh encroach on, always ends:
with coordinates up to `2 ^ M` and `n` vertices in the mesh, no loop needs more than `1 + 8 * (M + 1075) * n` iterations, or
more than there are segments; it can only fail to end if one of the insertions of a midpoint does not end. -/
theorem C88_phase (he : 0 ≤ eps) {M : Nat}
    (hC : ∀ g ∈ C, (F64Vertex g.v1 ∧ F64Vertex g.v2) ∧
      |g.v1.x| ≤ 2 ^ M ∧ |g.v1.y| ≤ 2 ^ M ∧ |g.v2.x| ≤ 2 ^ M ∧ |g.v2.y| ≤ 2 ^ M)
    (hV : ∀ v ∈ m.vertices P.ghost, F64Vertex v) (hf : 1 + 8 * (M + 1075) * (m.vertices P.ghost).length ≤ fuel)
    (hl : C.length ≤ fuel) (h : unencroach (splitPredsRounded roundF64 eps P) fuel σ C m = .diverged) :
    ∃ σ' m' e', splitSegment (splitPredsRounded roundF64 eps P) fuel σ' C m' e' = .diverged := by
  suffices H : ∀ n σ m' (l : List (Edge (Vertex ℚ) × List (Vertex ℚ))) split, l.length ≤ n →
      (∀ p ∈ l, p.1 ∈ C ∧ p.2.length ≤ (m.vertices P.ghost).length ∧ ∀ v ∈ p.2, F64Vertex v) →
      unencroachLoop (splitPredsRounded roundF64 eps P) C fuel n σ m' l split = .diverged →
      ∃ σ' m' e', splitSegment (splitPredsRounded roundF64 eps P) fuel σ' C m' e' = .diverged by
    refine H fuel σ m _ [] ?_ ?_ h
    · unfold distributeEncroachments
      refine le_trans (List.length_filter_le _ _) ?_
      rw [List.length_map]
      exact hl
    · intro p hp
      obtain ⟨g, hg, rfl⟩ := List.mem_map.1 (List.mem_of_mem_filter hp)
      exact ⟨hg, List.length_filter_le _ _, fun v hv => hV v (List.mem_of_mem_filter hv)⟩
  intro n
  induction n with
  | zero =>
    intro σ m' l split hn hl h
    have : l = [] := List.length_eq_zero_iff.1 (by omega)
    subst this
    rw [unencroachLoop] at h
    cases h
  | succ n ih =>
    intro σ m' l split hn hl h
    cases l with
    | nil => rw [unencroachLoop] at h; cases h
    | cons c cs =>
      rw [unencroachLoop] at h
      cases hch : choose (σ.sub 0) (c :: cs) with
      | none => rw [hch] at h; cases h
      | some p =>
        obtain ⟨g, ws⟩ := p
        rw [hch] at h
        simp only at h
        have hmem := choose_mem hch
        obtain ⟨k1, k2, k3⟩ := hl _ hmem
        obtain ⟨⟨f1, f2⟩, hM⟩ := hC g k1
        cases hu : unencroachSegment (splitPredsRounded roundF64 eps P) fuel (σ.sub 1) C m' g ws with
        | panic => rw [hu] at h; cases h
        | diverged =>
          refine C88_ends he f1 f2 k3 hM (le_trans ?_ hf) hu
          exact Nat.add_le_add_left (Nat.mul_le_mul_left _ k2) 1
        | ok r =>
          rw [hu, Res.bind_ok] at h
          refine ih _ _ _ _ ?_ (fun p hp => hl p (List.mem_of_mem_filter hp)) h
          have : ((c :: cs).filter fun p => !decide (p.1 = g)).length < (c :: cs).length :=
            List.length_filter_lt_length_iff_exists.2 ⟨_, hmem, by simp⟩
          omega

end rounded

open BisectSample in
/-- The hypotheses of C29_count are met by the sample of C29: 5 iterations for one vertex suffice. -/
example : (∀ v ∈ [v1], ∀ p, OnSegment a b p → (1 / 4 : ℚ) ≤ dist2 p v) ∧ dist2 a b ≤ 4 ^ (4 + 1) * (1 / 4 : ℚ) ∧
    1 + 4 * [v1].length ≤ 5 := by
  refine ⟨?_, by norm_num [dist2], by decide⟩
  intro v hv p ⟨t, _, _, hx, hy⟩
  rw [List.mem_singleton] at hv
  subst hv
  simp only [dist2, hx, hy]
  nlinarith [sq_nonneg ((0 : ℚ) + t * (16 - 0) - 1)]

namespace SplitF64

/-- The left side of the triangle, whose upper end is one digit further to the right. -/
abbrev a : Vertex ℚ := ⟨1, 0, false⟩
abbrev b : Vertex ℚ := ⟨1 + 1 / 2 ^ 52, 2, false⟩
abbrev c : Vertex ℚ := ⟨5, 1, false⟩
/-- A vertex inside that encroaches the left side. -/
abbrev v : Vertex ℚ := ⟨5 / 4, 1 / 2, false⟩

abbrev eps : ℚ := 1 / 10 ^ 14

abbrev Q : RPreds (Vertex ℚ) := splitPredsRounded roundF64 eps (geoRPreds eps 50 (fun _ _ => 0) ⟨none, 1⟩ none [])

/-- The mesh of the triangle with the vertex. -/
def start : Mesh (Vertex ℚ) :=
  match includeVertices Q.toPreds [] 50 Sched.first (Mesh.fromInitialSegment Vertex.ghost a c) [b, v] with
  | .ok s => s.mesh
  | _ => Mesh.empty

/-- The pieces of the left side after splitting it. -/
def pieces : Option (List (Edge (Vertex ℚ))) :=
  match unencroachSegment Q 50 Sched.first [⟨b, a⟩] start ⟨b, a⟩ [v] with
  | .ok r => some r.newEdges
  | _ => none

theorem pieces_eq : pieces = some [⟨⟨1, 1 / 2, false⟩, a⟩, ⟨⟨1, 1, false⟩, ⟨1, 1 / 2, false⟩⟩, ⟨b, ⟨1, 1, false⟩⟩] := by
  decide +kernel

end SplitF64

theorem f64_dyadic {x : ℚ} (n e : ℤ) (hn : |n| < 2 ^ 53) (he : -1074 ≤ e) (h : x = n * (2 : ℚ) ^ e) : IsF64 x :=
  ⟨n, e, hn, he, h⟩

open SplitF64 in
/-- The hypotheses of C88_ends and C88_pieces are met: all coordinates are numbers of the format, up to `2 ^ 3`, the vertex
encroaches the side, and splitting it gives three pieces. -/
example : (F64Vertex a ∧ F64Vertex b ∧ ∀ w ∈ [v], F64Vertex w) ∧
    (|b.x| ≤ 2 ^ 3 ∧ |b.y| ≤ 2 ^ 3 ∧ |a.x| ≤ 2 ^ 3 ∧ |a.y| ≤ 2 ^ 3) ∧
    (∃ w ∈ [v], encroachRounded roundF64 eps b a w = .inside) ∧
    ∃ r, unencroachSegment Q 50 Sched.first [⟨b, a⟩] start ⟨b, a⟩ [v] = .ok r ∧ r.newEdges.length = 3 := by
  refine ⟨⟨⟨f64_dyadic 1 0 (by norm_num) (by norm_num) (by norm_num), f64_dyadic 0 0 (by norm_num) (by norm_num) (by norm_num)⟩,
    ⟨f64_dyadic (2 ^ 52 + 1) (-52) (by norm_num) (by norm_num) (by norm_num),
      f64_dyadic 2 0 (by norm_num) (by norm_num) (by norm_num)⟩, ?_⟩, ?_, ⟨v, by simp, by decide +kernel⟩, ?_⟩
  · intro w hw
    rw [List.mem_singleton] at hw
    subst hw
    exact ⟨f64_dyadic 5 (-2) (by norm_num) (by norm_num) (by norm_num), f64_dyadic 1 (-1) (by norm_num) (by norm_num) (by norm_num)⟩
  · refine ⟨?_, ?_, ?_, ?_⟩ <;> rw [abs_le] <;> constructor <;> norm_num
  · have h := pieces_eq
    unfold pieces at h
    split at h
    · rename_i r hr
      injection h with h
      exact ⟨r, hr, by rw [h]; rfl⟩
    · cases h

open SplitF64 in
/-- In `f64` the pieces need not cover the segment (compare C29_cover): a mesh of a triangle with one vertex inside; the
splitting of its left side ends, and the middle of the side is on none of the pieces; one of the pieces ends beside the
side. -/
theorem C88_cover_false : ∃ r, unencroachSegment Q 50 Sched.first [⟨b, a⟩] start ⟨b, a⟩ [v] = .ok r ∧
    (∃ p, OnSegment b a p ∧ ∀ f ∈ r.newEdges, ¬ OnSegment f.v1 f.v2 p) ∧ ∃ f ∈ r.newEdges, ¬ OnSegment b a f.v2 := by
  have h := pieces_eq
  unfold pieces at h
  split at h
  · rename_i r hr
    injection h with h
    refine ⟨r, hr, ⟨⟨1 + 1 / 2 ^ 53, 1, false⟩, ⟨1 / 2, by norm_num, by norm_num, by norm_num, by norm_num⟩, ?_⟩, ?_⟩
    · rw [h]
      intro f hf
      simp only [List.mem_cons, List.not_mem_nil, or_false] at hf
      rintro ⟨t, t0, t1, hx, hy⟩
      rcases hf with rfl | rfl | rfl
      · simp only at hx hy
        norm_num at hx
      · simp only at hx hy
        norm_num at hx
      · simp only at hx hy
        have : t = 1 := by linarith
        subst this
        norm_num at hx
    · rw [h]
      refine ⟨⟨b, ⟨1, 1, false⟩⟩, by simp, ?_⟩
      rintro ⟨t, t0, t1, hx, hy⟩
      simp only at hx hy
      have : t = 1 / 2 := by linarith
      subst this
      norm_num at hx
  · cases h

end Verif.Props
