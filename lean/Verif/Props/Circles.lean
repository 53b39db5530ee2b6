import Verif.Model.Circle
import Verif.Props.Convex
import Verif.Props.Settled
import Verif.Props.Quality

/-!
# C67: circles
-/

set_option linter.unusedSectionVars false

namespace Verif.Props

open Spec Real

/-! ## The points of a circle -/

theorem consecutivePairs_range {V : Type*} (f : Nat → V) (n k : Nat) :
    consecutivePairs ((List.range' k (n + 1)).map f) = (List.range' k n).map fun i => (f i, f (i + 1)) := by
  induction n generalizing k with
  | zero => simp [consecutivePairs]
  | succ n ih =>
    have := ih (k + 1)
    rw [List.range'_succ] at this
    rw [List.range'_succ, List.range'_succ, List.range'_succ (n := n)]
    simp only [List.map_cons, consecutivePairs] at this ⊢
    rw [this]

/-- The sides of a polygon given by a function. -/
theorem pairs_range {V : Type*} (f : Nat → V) {n : Nat} (hn : 0 < n) (hf : f n = f 0) :
    pairs ((List.range n).map f) false = (List.range n).map fun i => (f i, f (i + 1)) := by
  obtain ⟨m, rfl⟩ : ∃ m, n = m + 1 := ⟨n - 1, by omega⟩
  rw [pairs, List.range_eq_range', consecutivePairs_range]
  have h1 : ((List.range' 0 (m + 1)).map f).getLast? = some (f m) := by
    rw [List.range'_concat]; simp
  have h2 : ((List.range' 0 (m + 1)).map f).head? = some (f 0) := by
    rw [List.range'_succ]; simp
  rw [h1, h2, List.range'_concat]
  simp [hf]

variable {r : ℝ} {c : ℝ × ℝ} {n : Nat}

theorem circleAngle_full (hn : 0 < n) : circleAngle n n = 2 * π := by
  unfold circleAngle
  have : (n : ℝ) ≠ 0 := by positivity
  field_simp

theorem circlePoint_period (hn : 0 < n) : realCircle.point r c n n = realCircle.point r c n 0 := by
  simp only [realCircle, circlePoint, circleAngle_full hn]
  simp [circleAngle]

theorem triple_sine (x y : ℝ) : sin (2 * x) + sin (2 * y) - sin (2 * x + 2 * y) = 4 * sin x * sin y * sin (x + y) := by
  have hx : cos (2 * x) = 1 - 2 * sin x ^ 2 := by rw [cos_two_mul, cos_sq']; ring
  have hy : cos (2 * y) = 1 - 2 * sin y ^ 2 := by rw [cos_two_mul, cos_sq']; ring
  rw [sin_add (2 * x), sin_add x, hx, hy, sin_two_mul, sin_two_mul]
  ring

theorem circle_cross (α β γ : ℝ) : cross (circlePoint r α c) (circlePoint r β c) (circlePoint r γ c)
    = 4 * r ^ 2 * sin ((β - α) / 2) * sin ((γ - β) / 2) * sin ((γ - α) / 2) := by
  have key := triple_sine ((β - α) / 2) ((γ - β) / 2)
  have e1 : 2 * ((β - α) / 2) = β - α := by ring
  have e2 : 2 * ((γ - β) / 2) = γ - β := by ring
  have e3 : β - α + (γ - β) = γ - α := by ring
  have e4 : (β - α) / 2 + (γ - β) / 2 = (γ - α) / 2 := by ring
  rw [e1, e2, e3, e4, sin_sub, sin_sub, sin_sub] at key
  simp only [cross, circlePoint, Vertex.mk']
  linear_combination r ^ 2 * key

/-- Three points of the circle in order make a left turn. -/
theorem circle_convex (hr : r ≠ 0) : StrictlyConvex ((List.range n).map (realCircle.point r c n)) := by
  intro p q t hs
  obtain ⟨l, hl, e⟩ := List.sublist_map_iff.1 hs
  match l, e with
  | [i, j, k], e =>
    simp only [List.map_cons, List.map_nil, List.cons.injEq, and_true] at e
    obtain ⟨rfl, rfl, rfl⟩ := e
    have hp := List.pairwise_lt_range.sublist hl
    have hk : k < n := List.mem_range.1 (hl.subset (by simp))
    simp only [List.pairwise_cons, List.mem_cons, List.not_mem_nil, or_false, forall_eq_or_imp, forall_eq] at hp
    obtain ⟨⟨hij, hik⟩, hjk, -⟩ := hp
    have hn : (0 : ℝ) < n := by
      have : 0 < n := by omega
      exact_mod_cast this
    have key : ∀ a b : Nat, a < b → b < n → 0 < sin ((circleAngle n b - circleAngle n a) / 2) := by
      intro a b hab hbn
      have e : (circleAngle n b - circleAngle n a) / 2 = π * (((b : ℝ) - a) / n) := by
        unfold circleAngle
        field_simp
      have h1 : (0 : ℝ) < (b : ℝ) - a := by
        have : (a : ℝ) < b := by exact_mod_cast hab
        linarith
      have h2 : ((b : ℝ) - a) / n < 1 := by
        rw [div_lt_one hn]
        have : (b : ℝ) < n := by exact_mod_cast hbn
        have : (0 : ℝ) ≤ a := by positivity
        linarith
      rw [e]
      refine sin_pos_of_pos_of_lt_pi (mul_pos pi_pos (div_pos h1 hn)) ?_
      nlinarith [pi_pos]
    change 0 < cross (circlePoint r _ c) (circlePoint r _ c) (circlePoint r _ c)
    rw [circle_cross]
    have := key i j hij (by omega)
    have := key j k hjk hk
    have := key i k (by omega) hk
    have : 0 < r ^ 2 := by positivity
    positivity
  | [], e => simp at e
  | [_], e => simp at e
  | [_, _], e => simp at e
  | _ :: _ :: _ :: _ :: _, e => simp at e

theorem circle_real : ∀ v ∈ (List.range n).map (realCircle.point r c n), v.isGhost = false := by
  intro v hv
  obtain ⟨i, -, rfl⟩ := List.mem_map.1 hv
  rfl

/-- The position of a point with respect to a chord of the circle. -/
theorem circle_side (φ δ : ℝ) (w : Vertex ℝ) : cross (circlePoint r (φ - δ) c) (circlePoint r (φ + δ) c) w
    = 2 * sin δ * (r ^ 2 * cos δ - r * ((w.x - c.1) * cos φ + (w.y - c.2) * sin φ)) := by
  simp only [cross, circlePoint, Vertex.mk', sin_sub, sin_add, cos_sub, cos_add]
  have h1 := sin_sq_add_cos_sq φ
  linear_combination (2 * r ^ 2 * sin δ * cos δ) * h1

/-- What the sides of the polygon are. -/
theorem circle_pairs (hn : 0 < n) {s : Vertex ℝ × Vertex ℝ}
    (hs : s ∈ pairs ((List.range n).map (realCircle.point r c n)) false) :
    ∃ φ, s = (circlePoint r (φ - π / n) c, circlePoint r (φ + π / n) c) := by
  rw [pairs_range _ hn (circlePoint_period hn)] at hs
  obtain ⟨i, -, rfl⟩ := List.mem_map.1 hs
  have hn' : (n : ℝ) ≠ 0 := by positivity
  refine ⟨circleAngle n i + π / n, ?_⟩
  simp only [realCircle, Prod.mk.injEq]
  constructor
  · congr 1; ring
  · congr 1
    unfold circleAngle
    push_cast
    field_simp
    ring

theorem sin_small (h3 : 3 ≤ n) : 0 < sin (π / n) ∧ 0 < cos (π / n) := by
  have hn : (3 : ℝ) ≤ n := by exact_mod_cast h3
  have h1 : 0 < π / n := by positivity
  have h2 : π / n < π / 2 := by
    apply div_lt_div_of_pos_left pi_pos <;> linarith
  exact ⟨sin_pos_of_pos_of_lt_pi h1 (by linarith [pi_pos]), cos_pos_of_mem_Ioo ⟨by linarith, h2⟩⟩

theorem parseCircle_points {a : Action ℝ} {p : Polyline (Vertex ℝ)} (h : parseCircle realCircle a = .ok (.ok p))
    (hs : a.scalars.head? = some r) (hp : a.points = [c]) :
    p.opened = false ∧ 3 ≤ p.vertices.length ∧
      p.vertices = (List.range p.vertices.length).map (realCircle.point r c p.vertices.length) := by
  unfold parseCircle at h
  split at h
  · next rad rest c' hs' hp' =>
    rw [hs'] at hs
    rw [hp'] at hp
    simp only [List.head?_cons, Option.some.injEq, List.cons.injEq, and_true] at hs hp
    subst hs hp
    simp only [Res.bind_eq_ok, Res.ok.injEq, Parsed.ok.injEq] at h
    obtain ⟨q, hq, rfl⟩ := h
    rw [Res.unwrap_eq_ok] at hq
    unfold Polyline.newClosed at hq
    split_ifs at hq with h3
    simp only [Option.some.injEq] at hq
    rw [← hq]
    simp only [List.length_map, List.length_range] at h3 ⊢
    exact ⟨trivial, h3, trivial⟩
  · simp at h

theorem dist2_circle (α β : ℝ) :
    dist2 (circlePoint r (β - α) c) (circlePoint r (β + α) c) = (2 * r * sin α) ^ 2 := by
  simp only [dist2, circlePoint, Vertex.mk', sin_sub, sin_add, cos_sub, cos_add]
  have h1 := sin_sq_add_cos_sq β
  linear_combination (4 * r ^ 2 * sin α ^ 2) * h1

theorem circle_area (hn : 0 < n) :
    shoelace ((List.range n).map (realCircle.point r c n)) = n / 2 * r ^ 2 * sin (2 * π / n) := by
  have hn' : (n : ℝ) ≠ 0 := by positivity
  rw [shoelace_sum, pairs_range _ hn (circlePoint_period hn), List.map_map]
  let g : Nat → ℝ := fun i => (c.1 * (r * sin (circleAngle n i)) - c.2 * (r * cos (circleAngle n i))) / 2
  have hterm : ((fun s : Vertex ℝ × Vertex ℝ => (s.1.x * s.2.y - s.2.x * s.1.y) / 2) ∘ fun i =>
      (realCircle.point r c n i, realCircle.point r c n (i + 1))) =
      fun i => r ^ 2 * sin (2 * π / n) / 2 + (g (i + 1) - g i) := by
    funext i
    have e : sin (2 * π / n) = sin (circleAngle n (i + 1) - circleAngle n i) := by
      congr 1
      unfold circleAngle
      push_cast
      field_simp
      ring
    simp only [Function.comp, realCircle, circlePoint, Vertex.mk', g]
    rw [e, sin_sub]
    ring
  rw [hterm, ← List.sum_toFinset _ List.nodup_range, List.toFinset_range, Finset.sum_add_distrib, Finset.sum_range_sub]
  have h0 : g n = g 0 := by
    simp only [g, circleAngle_full hn]
    simp [circleAngle]
  rw [h0]
  simp
  ring

theorem parseCircle_ok {a : Action ℝ} (hs : a.scalars.head? = some r) (hp : a.points = [c])
    (hn : ∀ x, a.scalars[1]? = some x → 5 / 2 ≤ x) : ∃ p, parseCircle realCircle a = .ok (.ok p) := by
  unfold parseCircle
  match hsc : a.scalars, hp with
  | [], _ => rw [hsc] at hs; simp at hs
  | x :: rest, hp =>
    rw [hp]
    simp only
    have make : ∀ m : Nat, 3 ≤ m → ∃ p : Polyline (Vertex ℝ),
        ((Res.unwrap (Polyline.newClosed ((List.range m).map (realCircle.point x c m)))).bind fun p =>
          Res.ok (Parsed.ok p)) = .ok (.ok p) := by
      intro m hm
      unfold Polyline.newClosed
      rw [dif_pos (by simpa using hm)]
      exact ⟨_, rfl⟩
    cases rest with
    | nil => exact make 100 (by norm_num)
    | cons y rest =>
      refine make _ ?_
      have hy := hn y (by rw [hsc]; rfl)
      simp only [realCircle]
      have : (3 : ℤ) ≤ round y := by
        rw [round_eq, Int.le_floor]
        push_cast
        linarith
      omega

/-! ## C67 -/

/-- C67: the polygon the parser makes of a circle is the regular polygon inscribed in it. Its corners are on the circle,
its sides have equal lengths, it is strictly convex and runs counterclockwise, also for a negative radius. -/
theorem C67_regular {a : Action ℝ} {p : Polyline (Vertex ℝ)} (h : parseCircle realCircle a = .ok (.ok p))
    (hs : a.scalars.head? = some r) (hp : a.points = [c]) (hr : r ≠ 0) :
    p.opened = false ∧ StrictlyConvex p.vertices ∧
      (∀ v ∈ p.vertices, v.isGhost = false ∧ dist2 v ⟨c.1, c.2, false⟩ = r ^ 2) ∧
      (∀ s ∈ pairs p.vertices false, dist2 s.1 s.2 = (2 * r * sin (π / p.vertices.length)) ^ 2) ∧
      shoelace p.vertices = p.vertices.length / 2 * r ^ 2 * sin (2 * π / p.vertices.length) := by
  obtain ⟨ho, h3, hv⟩ := parseCircle_points h hs hp
  generalize p.vertices.length = n at *
  rw [hv]
  refine ⟨ho, circle_convex hr, fun v hm => ?_, fun s hm => ?_, circle_area (by omega)⟩
  · obtain ⟨i, -, rfl⟩ := List.mem_map.1 hm
    refine ⟨rfl, ?_⟩
    simp only [dist2, realCircle, circlePoint, Vertex.mk']
    linear_combination r ^ 2 * sin_sq_add_cos_sq (circleAngle n i)
  · obtain ⟨φ, rfl⟩ := circle_pairs (by omega) hm
    exact dist2_circle _ _

/-- C67: the number of corners is 100, or the second number rounded to the nearest integer. -/
theorem C67_resolution {a : Action ℝ} {p : Polyline (Vertex ℝ)} (h : parseCircle realCircle a = .ok (.ok p)) :
    (a.scalars.length = 1 → p.vertices.length = 100) ∧
      ∀ (x : ℝ) (n : Nat), a.scalars[1]? = some x → |x - n| < 1 / 2 → p.vertices.length = n := by
  unfold parseCircle at h
  split at h
  · next rad rest c' hs' hp' =>
    simp only [Res.bind_eq_ok, Res.ok.injEq, Parsed.ok.injEq] at h
    obtain ⟨q, hq, rfl⟩ := h
    rw [Res.unwrap_eq_ok] at hq
    unfold Polyline.newClosed at hq
    split_ifs at hq with h3
    simp only [Option.some.injEq] at hq
    rw [← hq, hs']
    simp only [List.length_map, List.length_range]
    cases rest with
    | nil => simp
    | cons y rest =>
      refine ⟨by simp, fun x n hx hn => ?_⟩
      simp only [List.getElem?_cons_succ, List.getElem?_cons_zero, Option.some.injEq] at hx
      subst hx
      have : round y = (n : ℤ) := by
        rw [round_eq, Int.floor_eq_iff]
        obtain ⟨h1, h2⟩ := abs_lt.1 hn
        push_cast
        constructor <;> linarith
      simp only [realCircle, this, Int.toNat_natCast]
  · simp at h

/-- C67: the polygon differs little from the disc. It contains the disc whose radius is smaller by the factor `cos (π / n)`,
and it is contained in the disc. -/
theorem C67_disc {a : Action ℝ} {p : Polyline (Vertex ℝ)} (h : parseCircle realCircle a = .ok (.ok p))
    (hs : a.scalars.head? = some r) (hp : a.points = [c]) (hr : r ≠ 0) (w : Vertex ℝ) :
    (dist2 w ⟨c.1, c.2, false⟩ < (r * cos (π / p.vertices.length)) ^ 2 → InsidePolygon p.vertices w) ∧
      (InsidePolygon p.vertices w → dist2 w ⟨c.1, c.2, false⟩ < r ^ 2) := by
  obtain ⟨ho, h3, hv⟩ := parseCircle_points h hs hp
  generalize p.vertices.length = n at *
  rw [hv]
  have hlen : 3 ≤ ((List.range n).map (realCircle.point r c n)).length := by simpa using h3
  obtain ⟨s0, c0⟩ := sin_small h3
  constructor
  · intro hd
    rw [inside_iff_left (circle_convex hr) hlen circle_real]
    intro s hm
    obtain ⟨φ, rfl⟩ := circle_pairs (by omega) hm
    simp only
    rw [circle_side]
    refine mul_pos (by positivity) ?_
    simp only [dist2] at hd
    set u := w.x - c.1
    set v := w.y - c.2
    set k := u * cos φ + v * sin φ with hk
    have hk2 : k ^ 2 ≤ u ^ 2 + v ^ 2 := by
      have := sin_sq_add_cos_sq φ
      have e : u ^ 2 + v ^ 2 = k ^ 2 + (u * sin φ - v * cos φ) ^ 2 := by
        rw [hk]; linear_combination -(u ^ 2 + v ^ 2) * this
      have := sq_nonneg (u * sin φ - v * cos φ)
      linarith
    have hlt : k ^ 2 < (r * cos (π / n)) ^ 2 := lt_of_le_of_lt hk2 hd
    have habs : |r * k| < r ^ 2 * cos (π / n) := by
      have h1 : |k| < |r * cos (π / n)| := sq_lt_sq.1 hlt
      rw [abs_mul, abs_of_pos c0] at h1
      rw [abs_mul, ← sq_abs r]
      have := mul_lt_mul_of_pos_left h1 (abs_pos.2 hr)
      nlinarith
    have := (abs_lt.1 habs).2
    linarith
  · intro hi
    by_contra hn
    push Not at hn
    simp only [dist2] at hn
    have hr2 : 0 < r ^ 2 := by positivity
    obtain ⟨v, hm, hlt⟩ := inside_support hi (dx := w.x - c.1) (dy := w.y - c.2) (by
      by_contra hz
      push Not at hz
      rw [hz.1, hz.2] at hn
      linarith)
    obtain ⟨i, -, rfl⟩ := List.mem_map.1 hm
    simp only [realCircle, circlePoint, Vertex.mk'] at hlt
    have h1 := sin_sq_add_cos_sq (circleAngle n i)
    nlinarith [sq_nonneg (w.x - c.1 - r * cos (circleAngle n i)), sq_nonneg (w.y - c.2 - r * sin (circleAngle n i))]

/-- C67, the program: if the domain of an input is one circle, with vertices inside, the triangles that are written are a
partition of the polygon of the circle with the Delaunay property. -/
theorem C67_program {fuel : Nat} {dist : Vertex ℝ → Vertex ℝ → ℝ} {σ : Sched} {i : Input ℝ} {out : Output (Vertex ℝ)}
    {a : Action ℝ} (hinc : i.actions.filter (fun a => decide (a.intent = "include")) = [a])
    (hrem : ∀ a ∈ i.actions, a.intent ≠ "remove") (hseg : ∀ a ∈ i.actions, a.geometry ≠ "segments")
    (hg : a.geometry = "circle") (hs : a.scalars.head? = some r) (hr : r ≠ 0) (hp : a.points = [c])
    (hn : ∀ x, a.scalars[1]? = some x → 5 / 2 ≤ x) (h : runProgram 0 fuel realCircle dist σ i = .ok out) :
    ∃ p order, parseCircle realCircle a = .ok (.ok p) ∧ order.Nodup ∧ Lists out order (fun v => ∃ t ∈ order, IsCorner t v) ∧
      (∀ t ∈ order, Face t ∧ ∀ w, Inner t w → InsidePolygon p.vertices w) ∧
      (∀ w, InsidePolygon p.vertices w → ∃ t ∈ order, InOrOn t w) ∧
      (∀ s ∈ order, ∀ t ∈ order, ∀ w, Inner s w → Inner t w → s = t) ∧
      DelaunayInside p.vertices order := by
  obtain ⟨p, hpc⟩ := parseCircle_ok hs hp hn
  obtain ⟨ho, h3, hv⟩ := parseCircle_points hpc hs hp
  obtain ⟨-, hc, hreal, -⟩ := C67_regular hpc hs hp hr
  have hpoly : (i.actions.filter fun a => decide (a.intent = "include")).filterMap (polygonOf realCircle) = [p.vertices] := by
    rw [hinc]
    simp [((parseCircle_spec hg hpc).2 p rfl).1]
  obtain ⟨order, k⟩ := C66_program hpoly hrem hseg hc h3 (fun v hv => (hreal v hv).1) h
  exact ⟨p, order, hpc, k⟩

theorem bounded_values {α : Type*} (f : α → Option ℝ) (l : List α) : ∃ M, ∀ x ∈ l, ∀ q, f x = some q → q ≤ M := by
  induction l with
  | nil => exact ⟨0, by simp⟩
  | cons a l ih =>
    obtain ⟨M, h⟩ := ih
    refine ⟨max M ((f a).getD 0), fun x hx q hq => ?_⟩
    rcases List.mem_cons.1 hx with rfl | hx
    · rw [hq]; exact le_max_right _ _
    · exact (h x hx q hq).trans (le_max_left _ _)

/-- No corner of the polygon is inside the circle over a side. -/
theorem circle_free (h3 : 3 ≤ n) (hr : r ≠ 0) {s : Vertex ℝ × Vertex ℝ}
    (hs : s ∈ pairs ((List.range n).map (realCircle.point r c n)) false) {v : Vertex ℝ}
    (hv : v ∈ (List.range n).map (realCircle.point r c n)) : dist2 s.1 s.2 ≤ 4 * dist2 (centre s.1 s.2) v := by
  have hside := (circle_convex (c := c) (n := n) hr).convex (by simpa using h3) s hs v hv
  obtain ⟨φ, rfl⟩ := circle_pairs (by omega) hs
  obtain ⟨i, -, rfl⟩ := List.mem_map.1 hv
  obtain ⟨s0, c0⟩ := sin_small h3
  simp only at hside ⊢
  rw [circle_side] at hside
  have hpos := nonneg_of_mul_nonneg_right hside (by positivity)
  simp only [realCircle, circlePoint, Vertex.mk'] at hpos
  have key : 0 ≤ r ^ 2 * (cos (π / n) - (cos (circleAngle n i) * cos φ + sin (circleAngle n i) * sin φ)) := by
    nlinarith
  have := mul_nonneg c0.le key
  simp only [dist2, centre, realCircle, circlePoint, Vertex.mk', sin_sub, sin_add, cos_sub, cos_add]
  have h1 := sin_sq_add_cos_sq φ
  have h2 := sin_sq_add_cos_sq (π / n)
  have h4 := sin_sq_add_cos_sq (circleAngle n i)
  rw [← sub_nonneg]
  refine le_of_le_of_eq (mul_nonneg (show (0 : ℝ) ≤ 8 by norm_num) this) ?_
  linear_combination -4 * r ^ 2 * ((cos (π / n) ^ 2 - sin (π / n) ^ 2) * h1 + h4 - h2)

/-- C67, the program: for a circle alone, without a bound on the area, the program returns for all sufficiently large
ratios, for every order of the hash tables. -/
theorem C67_finishes {dist : Vertex ℝ → Vertex ℝ → ℝ} {a : Action ℝ} (hi : a.intent = "include") (hg : a.geometry = "circle")
    (hs : a.scalars.head? = some r) (hr : r ≠ 0) (hp : a.points = [c]) (hn : ∀ x, a.scalars[1]? = some x → 5 / 2 ≤ x) :
    ∃ q0 N, ∀ q, q0 < q → ∀ fuel, N ≤ fuel → ∀ σ, ∃ out,
      runProgram 0 fuel realCircle dist σ ⟨[a], ⟨none, q⟩⟩ = .ok out := by
  obtain ⟨p, hpc⟩ := parseCircle_ok hs hp hn
  obtain ⟨ho, h3, hv⟩ := parseCircle_points hpc hs hp
  obtain ⟨-, hc, hreal, -⟩ := C67_regular hpc hs hp hr
  have hreal : ∀ v ∈ p.vertices, v.isGhost = false := fun v hv => (hreal v hv).1
  have hin := sidesAppear_convex ho hc h3 hreal
  have hs' := hc.simple h3
  have ha := hc.area h3
  let L : List (Tri (Vertex ℝ)) := p.vertices.flatMap fun x => p.vertices.flatMap fun y =>
    (Vertex.ghost :: p.vertices).map fun z => ⟨x, y, z⟩
  obtain ⟨q0, hq0⟩ := bounded_values (fun t : Tri (Vertex ℝ) => t.quality dist) L
  obtain ⟨N, hN⟩ := (bare_new p).returns ho hs' ha hreal hin
  refine ⟨q0, N, fun q hq fuel hf σ => ?_⟩
  have hparse : parseInput 0 fuel realCircle (σ.sub 0) ⟨[a], ⟨none, q⟩⟩ = .ok (.ok (Triangulator.new p, ⟨none, q⟩)) := by
    have h1 : parseActions 0 fuel realCircle [a] ⟨[], [], [], []⟩ = .ok (.ok ⟨[p], [], [], []⟩) := by
      simp [parseActions, parseAction, hg, hpc, Res.bind_ok, addDomain, hi]
    have h2 : buildTriangulator 0 fuel (σ.sub 0) ⟨[p], [], [], []⟩ = .ok (.ok (Triangulator.new p)) := by
      rcases C53_plain_partial (fuel := fuel) (σ := σ.sub 0) (b := p) (vs := []) (by simp) with ⟨T, hT, -⟩ | ⟨-, v, hv, -⟩
      · have := buildTriangulator_plain hT
        simp [Triangulator.insertVertices, shuffle_nil, Triangulator.insertVerticesLoop] at this
        rw [hT, this]
      · simp at hv
    unfold parseInput
    simp only [h1, Res.bind_ok, h2]
  obtain ⟨T1, hT1⟩ := hN fuel hf (σ.sub 1)
  obtain ⟨-, -, -, -, hocc, -⟩ := (bare_new p).start (σ := σ.sub 1) ho hs' ha hreal hT1 (hin _ _ _ hT1)
  obtain ⟨m, rfl⟩ := triangulate_only_mesh hT1
  have hmesh : ∀ v, InMesh m v → v.isGhost = false → v ∈ p.vertices := by
    rintro v ⟨t, ht, hcv⟩ hg
    obtain ⟨o1, o2, o3⟩ := hocc t ht
    rcases hcv with rfl | rfl | rfl
    · exact o1
    · exact o2
    · rcases o3 with k | k
      · exact k
      · rw [k] at hg; cases hg
  have hrefine : ({ Triangulator.new p with mesh := m } : Triangulator ℝ).refine 0 fuel dist ⟨none, q⟩ (σ.sub 2)
      = .ok { Triangulator.new p with mesh := m } := by
    refine C68_unchanged (fun b hb s hm v hi hg => ?_) (fun s hm => ?_) (fun t ht hpoor => ?_)
    · simp only [Triangulator.new, List.mem_cons, List.not_mem_nil, or_false] at hb
      subst hb
      rw [ho] at hm
      have hvm := hmesh v hi hg
      generalize b.vertices.length = n at *
      rw [hv] at hm hvm
      exact circle_free h3 hr hm hvm
    · simp [Triangulator.new] at hm
    · obtain ⟨-, ⟨x, hx, hle⟩ | ⟨_, _, -, k, -⟩⟩ := hpoor
      · obtain ⟨o1, o2, o3⟩ := hocc t ht
        have := hq0 t (List.mem_flatMap.2 ⟨t.v1, o1, List.mem_flatMap.2 ⟨t.v2, o2, List.mem_map.2 ⟨t.v3, by
          rcases o3 with k | k
          · exact List.mem_cons_of_mem _ k
          · rw [k]; exact List.mem_cons_self, rfl⟩⟩⟩) x hx
        simp only at hle
        linarith
      · cases k
  unfold runProgram
  rw [hparse, Res.bind_ok]
  simp only
  rw [hT1, Res.bind_ok, hrefine, Res.bind_ok]
  obtain ⟨out, -, k, -⟩ := C31_output_partial Vertex.isGhost (σ.sub 3) m
  exact ⟨out, k⟩

/-- A hexagon of radius two: the hypotheses are met, and the program writes a partition of it. -/
example : ∃ (q : ℝ) (fuel : Nat) (out : Output (Vertex ℝ)) (p : Polyline (Vertex ℝ)) (order : List (Tri (Vertex ℝ))),
    runProgram 0 fuel realCircle euclid Sched.first ⟨[⟨"include", "circle", [2, 6], [(1, 1)], []⟩], ⟨none, q⟩⟩ = .ok out ∧
      p.vertices.length = 6 ∧ Lists out order (fun v => ∃ t ∈ order, IsCorner t v) ∧
      (∀ w, InsidePolygon p.vertices w → ∃ t ∈ order, InOrOn t w) ∧
      InsidePolygon p.vertices ⟨1, 2, false⟩ := by
  let a : Action ℝ := ⟨"include", "circle", [2, 6], [(1, 1)], []⟩
  have hs : a.scalars.head? = some 2 := rfl
  have hr : (2 : ℝ) ≠ 0 := by norm_num
  have hp : a.points = [(1, 1)] := rfl
  have hn : ∀ x, a.scalars[1]? = some x → 5 / 2 ≤ x := by
    intro x hx
    simp only [a, List.getElem?_cons_succ, List.getElem?_cons_zero, Option.some.injEq] at hx
    linarith
  obtain ⟨q0, N, h⟩ := C67_finishes (dist := euclid) (a := a) rfl rfl hs hr hp hn
  obtain ⟨out, hout⟩ := h (q0 + 1) (by linarith) N le_rfl Sched.first
  obtain ⟨p, order, hpc, k1, k2, -, k4, -⟩ := C67_program (a := a) (by simp [a]) (by simp [a]) (by simp [a]) rfl hs hr hp hn hout
  have hlen : p.vertices.length = 6 := (C67_resolution hpc).2 6 6 rfl (by norm_num)
  refine ⟨_, _, out, p, order, hout, hlen, k2, k4, (C67_disc hpc hs hp hr _).1 ?_⟩
  rw [hlen]
  have e : π / ((6 : Nat) : ℝ) = π / 6 := by norm_num
  rw [e, cos_pi_div_six]
  have := Real.sq_sqrt (show (0 : ℝ) ≤ 3 by norm_num)
  simp only [dist2]
  nlinarith

end Verif.Props
