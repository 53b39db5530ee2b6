import Verif.Lemmas.SteadyCli
import Verif.Props.Circles

/-!
# C70: small tolerances

The code compares numbers up to an absolute tolerance. For every input there is a positive number such that all smaller
tolerances, zero included, give the same results, for every order of the hash tables. What is proved with the tolerance zero
therefore holds with every tolerance that is small enough for the input; with the tolerance of the code, it fails for small
domains.
-/

set_option linter.unusedSectionVars false

namespace Verif.Props

open Spec

variable {K : Type*} [Field K] [LinearOrder K] [IsStrictOrderedRing K]

/-- C70, one call: every call of a public method, on any triangulator, has the same result for all small enough
tolerances. -/
theorem C70_call (fuel : Nat) (dist : Vertex K → Vertex K → K) (T : Triangulator K) (q : Request K) :
    ∃ e0 : K, 0 < e0 ∧ ∀ eps, 0 ≤ eps → eps < e0 → ∀ σ, T.perform eps fuel dist σ q = T.perform 0 fuel dist σ q :=
  (Steady.perform fuel dist T q).1

/-- Calls one after the other, each with its own iteration orders: the triangulator at the end, and the calls that returned
`Ok`. -/
def callAll (eps : K) (fuel : Nat) (dist : Vertex K → Vertex K → K) :
    Sched → List (Request K) → Triangulator K → Res (Triangulator K × List (Request K))
  | _, [], T => .ok (T, [])
  | σ, q :: qs, T => (T.perform eps fuel dist (σ.sub 0) q).bind fun r =>
      (callAll eps fuel dist (σ.sub 1) qs r.1).bind fun s => .ok (s.1, if r.2 then q :: s.2 else s.2)

theorem callAll_session {eps : K} {fuel : Nat} {dist : Vertex K → Vertex K → K} {σ : Sched} {T0 T T' : Triangulator K}
    {qs l0 l : List (Request K)} (h0 : Session eps dist T0 l0 T) (h : callAll eps fuel dist σ qs T = .ok (T', l)) :
    Session eps dist T0 (l0 ++ l) T' ∧ l.Sublist qs := by
  induction qs generalizing σ T l0 l with
  | nil =>
    simp only [callAll, Res.ok.injEq, Prod.mk.injEq] at h
    rw [← h.1, ← h.2, List.append_nil]
    exact ⟨h0, List.Sublist.refl _⟩
  | cons q qs ih =>
    simp only [callAll, Res.bind_eq_ok] at h
    obtain ⟨⟨T1, ok⟩, hq, ⟨T2, l2⟩, hr, h⟩ := h
    simp only [Res.ok.injEq, Prod.mk.injEq] at h
    obtain ⟨rfl, rfl⟩ := h
    cases ok
    · obtain ⟨k1, k2⟩ := ih (h0.refused hq) hr
      exact ⟨k1, k2.cons q⟩
    · obtain ⟨k1, k2⟩ := ih (h0.accepted hq) hr
      exact ⟨by simpa using k1, k2.cons_cons q⟩

/-- C70, sequences of calls: one bound is good for the whole sequence. -/
theorem C70_calls (fuel : Nat) (dist : Vertex K → Vertex K → K) (qs : List (Request K)) (T : Triangulator K) :
    ∃ e0 : K, 0 < e0 ∧ ∀ eps, 0 ≤ eps → eps < e0 → ∀ σ,
      callAll eps fuel dist σ qs T = callAll 0 fuel dist σ qs T := by
  suffices h : ∀ T, Steady (fun (e : K) σ => callAll e fuel dist σ qs T) from (h T).1
  induction qs with
  | nil => exact fun T => Steady.const _
  | cons q qs ih =>
    intro T
    simp only [callAll]
    exact Steady.bind ((Steady.perform fuel dist T q).sub 0) fun r => Steady.bind ((ih r.1).sub 1) fun _ => Steady.const _

/-- C70, the program: for every input file, whatever the outcome. -/
theorem C70_program (fuel : Nat) (F : CircleFns K) (dist : Vertex K → Vertex K → K) (i : Input K) :
    ∃ e0 : K, 0 < e0 ∧ ∀ eps, 0 ≤ eps → eps < e0 → ∀ σ,
      runProgram eps fuel F dist σ i = runProgram 0 fuel F dist σ i :=
  (Steady.runProgram fuel F dist i).1

/-- C70, the operations on polylines. -/
theorem C70_polylines (fuel : Nat) (p q : Polyline (Vertex K)) :
    ∃ e0 : K, 0 < e0 ∧ ∀ eps, 0 ≤ eps → eps < e0 → ∀ σ,
      Polyline.intersection eps fuel σ p q = Polyline.intersection 0 fuel σ p q ∧
      Polyline.union eps fuel σ p q = Polyline.union 0 fuel σ p q ∧
      Polyline.subtraction eps fuel σ p q = Polyline.subtraction 0 fuel σ p q ∧
      Polyline.continence eps fuel p q = Polyline.continence 0 fuel p q := by
  obtain ⟨e1, h1, k1⟩ := (Steady.polyIntersection fuel p q).1
  obtain ⟨e2, h2, k2⟩ := (Steady.polyUnion fuel p q).1
  obtain ⟨e3, h3, k3⟩ := (Steady.polySubtraction fuel p q).1
  obtain ⟨e4, h4, k4⟩ := (Steady.continence fuel p q).1
  refine ⟨min (min e1 e2) (min e3 e4), by simp [h1, h2, h3, h4], fun eps he hlt σ => ?_⟩
  simp only [lt_min_iff] at hlt
  exact ⟨k1 eps he hlt.1.1 σ, k2 eps he hlt.1.2 σ, k3 eps he hlt.2.1 σ, k4 eps he hlt.2.2 σ⟩

/-- C70 with C66: on a strictly convex boundary, sequences of calls that insert vertices, triangulate and refine do not
panic and leave a proper mesh, for all small enough tolerances. -/
theorem C70_convex {fuel : Nat} {dist : Vertex K → Vertex K → K} {b : Polyline (Vertex K)} {qs : List (Request K)}
    (hb : b.opened = false) (hc : StrictlyConvex b.vertices) (h3 : 3 ≤ b.vertices.length)
    (hreal : ∀ v ∈ b.vertices, v.isGhost = false) (hq : PlainCalls qs) :
    ∃ e0 : K, 0 < e0 ∧ ∀ eps, 0 ≤ eps → eps < e0 → ∀ σ,
      callAll eps fuel dist σ qs (Triangulator.new b) ≠ .panic ∧
      ∀ T l, callAll eps fuel dist σ qs (Triangulator.new b) = .ok (T, l) → Request.triangulate ∈ l →
        Proper b T.mesh := by
  obtain ⟨e0, h0, k⟩ := C70_calls fuel dist qs (Triangulator.new b)
  refine ⟨e0, h0, fun eps he hlt σ => ?_⟩
  rw [k eps he hlt σ]
  constructor
  · suffices h : ∀ (qs : List (Request K)) (σ : Sched) (T : Triangulator K) (l : List (Request K)),
        Session 0 dist (Triangulator.new b) l T → PlainCalls l → PlainCalls qs → callAll 0 fuel dist σ qs T ≠ .panic from
      h qs σ _ [] .start ⟨by simp, by simp, by simp⟩ hq
    intro qs
    induction qs with
    | nil => intro σ T l _ _ _ h; cases h
    | cons q qs ih =>
      intro σ T l hS hl hqs
      have hq1 : PlainCalls [q] := by
        refine ⟨fun ss h => hqs.1 ss ?_, fun p h => hqs.2.1 p ?_, fun vs h => hqs.2.2 vs ?_⟩ <;>
          (rw [List.mem_singleton.1 h]; exact List.mem_cons_self)
      have hqs' : PlainCalls qs := ⟨fun ss h => hqs.1 ss (List.mem_cons_of_mem _ h),
        fun p h => hqs.2.1 p (List.mem_cons_of_mem _ h), fun vs h => hqs.2.2 vs (List.mem_cons_of_mem _ h)⟩
      have hl' : PlainCalls (l ++ [q]) := by
        refine ⟨fun ss h => ?_, fun p h => ?_, fun vs h => ?_⟩ <;> rcases List.mem_append.1 h with h | h
        exacts [hl.1 ss h, hq1.1 ss h, hl.2.1 p h, hq1.2.1 p h, hl.2.2 vs h, hq1.2.2 vs h]
      unfold callAll
      refine Res.bind_safe (C66_safe hb hc h3 hreal hS hl fuel _ hq1) fun r hr => Res.bind_safe ?_ fun s _ => ?_
      · obtain ⟨T1, ok⟩ := r
        cases ok
        · exact ih _ _ _ (hS.refused hr) hl hqs'
        · exact ih _ _ _ (hS.accepted hr) hl' hqs'
      · intro h; cases h
  · intro T l h ht
    obtain ⟨hS, hsub⟩ := callAll_session (.start) h
    exact C66_mesh hb hc h3 hreal hS ⟨fun ss h => hq.1 ss (hsub.subset h), fun p h => hq.2.1 p (hsub.subset h),
      fun vs h => hq.2.2 vs (hsub.subset h)⟩ ht

/-- C70 with C66: on a strictly convex boundary with inserted vertices, `triangulate` returns, and its mesh is proper, for all
small enough tolerances and all iteration orders. -/
theorem C70_returns {dist : Vertex K → Vertex K → K} {b : Polyline (Vertex K)} {T : Triangulator K} {l : List (Request K)}
    (hb : b.opened = false) (hc : StrictlyConvex b.vertices) (h3 : 3 ≤ b.vertices.length)
    (hreal : ∀ v ∈ b.vertices, v.isGhost = false) (h : Session 0 dist (Triangulator.new b) l T) (hl : PlainCalls l) :
    ∃ n, ∀ fuel, n ≤ fuel → ∃ e0 : K, 0 < e0 ∧ ∀ eps, 0 ≤ eps → eps < e0 → ∀ σ, ∃ T',
      T.triangulate eps fuel σ = .ok T' ∧ Proper b T'.mesh := by
  obtain ⟨n, hn⟩ := C66_returns hb hc h3 hreal h hl
  refine ⟨n, fun fuel hfu => ?_⟩
  obtain ⟨e0, h0, k⟩ := (Steady.triangulate fuel T).1
  refine ⟨e0, h0, fun eps he hlt σ => ?_⟩
  obtain ⟨T', hT'⟩ := hn fuel hfu σ
  refine ⟨T', (k eps he hlt σ).trans hT', ?_⟩
  refine C66_mesh (dist := dist) (l := l ++ [.triangulate]) hb hc h3 hreal
    (h.accepted (fuel := fuel) (σ := σ) (by unfold Triangulator.perform; rw [hT', Res.bind_ok])) ?_ (by simp)
  refine ⟨fun ss h => ?_, fun p h => ?_, fun vs h => ?_⟩ <;> rcases List.mem_append.1 h with h | h
  exacts [hl.1 ss h, by simp at h, hl.2.1 p h, by simp at h, hl.2.2 vs h, by simp at h]

/-- C70 with C67: for a circle and a weak enough quality demand, the program finishes with a partition of the polygon of the
circle, for all small enough tolerances and all iteration orders. -/
theorem C70_circle {dist : Vertex ℝ → Vertex ℝ → ℝ} {a : Action ℝ} {r : ℝ} {c : ℝ × ℝ} (hi : a.intent = "include")
    (hg : a.geometry = "circle") (hs : a.scalars.head? = some r) (hr : r ≠ 0) (hp : a.points = [c])
    (hn : ∀ x, a.scalars[1]? = some x → 5 / 2 ≤ x) :
    ∃ q0 N, ∀ q, q0 < q → ∀ fuel, N ≤ fuel → ∃ e0 : ℝ, 0 < e0 ∧ ∀ eps, 0 ≤ eps → eps < e0 → ∀ σ, ∃ out p order,
      runProgram eps fuel realCircle dist σ ⟨[a], ⟨none, q⟩⟩ = .ok out ∧ parseCircle realCircle a = .ok (.ok p) ∧
      order.Nodup ∧ Lists out order (fun v => ∃ t ∈ order, IsCorner t v) ∧
      (∀ t ∈ order, Face t ∧ ∀ w, Inner t w → InsidePolygon p.vertices w) ∧
      (∀ w, InsidePolygon p.vertices w → ∃ t ∈ order, InOrOn t w) ∧
      ∀ s ∈ order, ∀ t ∈ order, ∀ w, Inner s w → Inner t w → s = t := by
  obtain ⟨q0, N, h⟩ := C67_finishes (dist := dist) hi hg hs hr hp hn
  refine ⟨q0, N, fun q hq fuel hfu => ?_⟩
  obtain ⟨e0, h0, k⟩ := C70_program fuel realCircle dist ⟨[a], ⟨none, q⟩⟩
  refine ⟨e0, h0, fun eps he hlt σ => ?_⟩
  obtain ⟨out, hout⟩ := h q hq fuel hfu σ
  obtain ⟨p, order, k1, k2, k3, k4, k5, k6, -⟩ := C67_program (a := a) (by simp [hi]) (by simp [hi]) (by simp [hg])
    hg hs hr hp hn hout
  exact ⟨out, p, order, (k eps he hlt σ).trans hout, k1, k2, k3, k4, k5, k6⟩

namespace ToleranceExample

open ValidityExample HistoryExample ConvexExample

/-- The calls of the pentagon, some of which insert vertices and refine: with some positive tolerance, they do not panic
and leave a proper mesh. -/
example : ∃ eps : ℚ, 0 < eps ∧ ∀ σ, callAll eps 60 blocks σ ConvexExample.requests (Triangulator.new pentagon) ≠ .panic ∧
    ∀ T l, callAll eps 60 blocks σ ConvexExample.requests (Triangulator.new pentagon) = .ok (T, l) →
      Request.triangulate ∈ l → Proper pentagon T.mesh := by
  obtain ⟨e0, h0, k⟩ := C70_convex (fuel := 60) (dist := blocks) rfl pentagon_convex (by decide) (by decide +kernel)
    requests_plain
  exact ⟨e0 / 2, by linarith, k (e0 / 2) (by linarith) (by linarith)⟩

/-- With some positive tolerance the pentagon is meshed properly, whatever the iteration order. -/
example : ∃ (eps : ℚ) (fuel : Nat), 0 < eps ∧ ∀ σ, ∃ T', (Triangulator.new pentagon).triangulate eps fuel σ = .ok T' ∧
    Proper pentagon T'.mesh := by
  obtain ⟨n, h⟩ := C70_returns (dist := blocks) rfl pentagon_convex (by decide) (by decide +kernel) .start
    ⟨by simp, by simp, by simp⟩
  obtain ⟨e0, h0, k⟩ := h n le_rfl
  exact ⟨e0 / 2, n, by linarith, k (e0 / 2) (by linarith) (by linarith)⟩

/-- The calls return with a tolerance that is not small, with the same number of triangles as without tolerance. -/
example : (match callAll (1 / 100000) 60 blocks Sched.first (ConvexExample.requests.take 2) (Triangulator.new pentagon),
      callAll 0 60 blocks Sched.first (ConvexExample.requests.take 2) (Triangulator.new pentagon) with
    | .ok r, .ok r' => decide (r.1.mesh.tris = r'.1.mesh.tris) && decide (5 < r.1.mesh.tris.length)
    | _, _ => false) = true := by decide +kernel

end ToleranceExample

end Verif.Props
