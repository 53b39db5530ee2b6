import Verif.Lemmas.Split
import Verif.Model.Cli
import Mathlib.Logic.Relation
import Mathlib.Tactic.NormNum

/-!
# C32 (parsing), C33 (merging holes), C43 (evaluating the boundary)
-/

set_option linter.unusedSectionVars false

namespace Verif.Props

variable {K : Type*} [Field K] [LinearOrder K]

/-! ## C32 -/

/-- The polygon an action describes, for the polygonal geometries. -/
def polygonOf (F : CircleFns K) (a : Action K) : Option (List (Vertex K)) :=
  if a.geometry = "polyline" then some (a.points.map fun p => ⟨p.1, p.2, false⟩)
  else if a.geometry = "circle" then
    match a.scalars, a.points with
    | [r], [c] => some ((List.range 100).map (F.point r c 100))
    | r :: n :: _, [c] => some ((List.range (F.round n)).map (F.point r c (F.round n)))
    | _, _ => none
  else none

/-- The segment `e` is described by the action: two listed points whose indices form an entry of `assemble`, or,
without `assemble`, the points number `2k` and `2k+1`. -/
def DescribesSegment (a : Action K) (e : Edge (Vertex K)) : Prop :=
  if a.assemble = [] then
    ∃ k p q, a.points[2 * k]? = some p ∧ a.points[2 * k + 1]? = some q ∧
      e = ⟨⟨p.1, p.2, false⟩, ⟨q.1, q.2, false⟩⟩
  else
    ∃ entry ∈ a.assemble, ∃ i j p q, entry[0]? = some i ∧ entry[1]? = some j ∧
      a.points[i]? = some p ∧ a.points[j]? = some q ∧
      e = ⟨⟨p.1, p.2, false⟩, ⟨q.1, q.2, false⟩⟩

/-- Defects of an action that must be reported. -/
def Malformed (a : Action K) : Prop :=
  (a.geometry ∉ ["polyline", "circle", "segments", "vertices"]) ∨
  (a.geometry ∈ ["polyline", "circle"] ∧ a.intent ∉ ["include", "remove"]) ∨
  (a.geometry ∈ ["segments", "vertices"] ∧ a.intent ≠ "constraint") ∨
  (a.geometry = "polyline" ∧ a.points = []) ∨
  (a.geometry = "circle" ∧ (a.scalars = [] ∨ a.points.length ≠ 1)) ∨
  (a.geometry = "segments" ∧ a.assemble = [] ∧ a.points.length % 2 = 1) ∨
  (a.geometry = "segments" ∧ ∃ entry ∈ a.assemble, entry.length < 2)

/-- Defects the code turns into panics (see `C32_panics`). -/
def Harmless (F : CircleFns K) (a : Action K) : Prop :=
  (a.geometry = "polyline" → a.points = [] ∨ 3 ≤ a.points.length) ∧
  (a.geometry = "circle" → ∀ r n rest, a.scalars = r :: n :: rest → 3 ≤ F.round n) ∧
  (a.geometry = "segments" → ∀ entry ∈ a.assemble, ∀ i j rest, entry = i :: j :: rest →
    i < a.points.length ∧ j < a.points.length)

/-- C32 fails: a polyline with one point, a circle of resolution two and a segment with an index out of range
make the parser panic. -/
theorem C32_panics (fuel : Nat) :
    parseActions (0 : ℚ) (fuel + 1) ⟨fun _ => 2, fun _ _ _ _ => ⟨0, 0, false⟩⟩
        [⟨"include", "polyline", [], [(0, 0)], []⟩] ⟨[], [], [], []⟩ = .panic ∧
      parseActions (0 : ℚ) fuel ⟨fun _ => 2, fun _ _ _ _ => ⟨0, 0, false⟩⟩
        [⟨"include", "circle", [1, 2], [(0, 0)], []⟩] ⟨[], [], [], []⟩ = .panic ∧
      parseActions (0 : ℚ) fuel ⟨fun _ => 2, fun _ _ _ _ => ⟨0, 0, false⟩⟩
        [⟨"constraint", "segments", [], [(0, 0)], [[0, 5]]⟩] ⟨[], [], [], []⟩ = .panic := by
  refine ⟨?_, ?_, ?_⟩
  · simp [parseActions, parseAction, parsePolyline, vertexPairs, pairs, consecutivePairs,
      splitIntersections, splitLoop, Polyline.newClosed, Res.unwrap]
  · simp [parseActions, parseAction, parseCircle, Polyline.newClosed, Res.unwrap]
  · simp [parseActions, parseAction, parseSegments, parseAssemble]

theorem vertexPairs_ne_panic {l : List (Vertex K)} (h : l ≠ []) (o : Bool) :
    ∃ s, vertexPairs l o = .ok s := by
  cases l with
  | nil => exact absurd rfl h
  | cons a l => exact ⟨_, rfl⟩

theorem parsePolyline_spec {eps : K} {fuel : Nat} {a : Action K}
    {r : Parsed (Polyline (Vertex K))} (h : parsePolyline eps fuel a = .ok r) :
    (a.points = [] → r = .err) ∧
      ∀ p, r = .ok p → p.vertices = a.points.map (fun p => ⟨p.1, p.2, false⟩) ∧ p.opened = false := by
  unfold parsePolyline at h
  simp only [] at h
  split_ifs at h with h0
  · simp only [Res.ok.injEq] at h
    subst h
    exact ⟨fun _ => rfl, by simp⟩
  · have hne : a.points ≠ [] := by intro h'; apply h0; simp [h']
    refine ⟨fun h' => absurd h' hne, ?_⟩
    rw [Res.bind_eq_ok] at h
    obtain ⟨segs, -, h⟩ := h
    rw [Res.bind_eq_ok] at h
    obtain ⟨sp, -, h⟩ := h
    split_ifs at h with hl
    · simp only [Res.ok.injEq] at h; subst h; simp
    · rw [Res.bind_eq_ok] at h
      obtain ⟨p, hp, h⟩ := h
      simp only [Res.ok.injEq] at h; subst h
      intro q hq
      simp only [Parsed.ok.injEq] at hq; subst hq
      rw [Res.unwrap_eq_ok] at hp
      unfold Polyline.newClosed at hp
      split_ifs at hp
      simp only [Option.some.injEq] at hp
      rw [← hp]
      exact ⟨rfl, rfl⟩

theorem parseCircle_spec {F : CircleFns K} {a : Action K} (hg : a.geometry = "circle")
    {r : Parsed (Polyline (Vertex K))} (h : parseCircle F a = .ok r) :
    ((a.scalars = [] ∨ a.points.length ≠ 1) → r = .err) ∧
      ∀ p, r = .ok p → polygonOf F a = some p.vertices ∧ p.opened = false := by
  unfold parseCircle at h
  split at h
  · next rad rest c hs hp =>
    refine ⟨fun h' => by rw [hs, hp] at h'; simp at h', ?_⟩
    rw [Res.bind_eq_ok] at h
    obtain ⟨p, hp', h⟩ := h
    simp only [Res.ok.injEq] at h; subst h
    intro q hq
    simp only [Parsed.ok.injEq] at hq; subst hq
    rw [Res.unwrap_eq_ok] at hp'
    unfold Polyline.newClosed at hp'
    split_ifs at hp'
    simp only [Option.some.injEq] at hp'
    rw [← hp']
    refine ⟨?_, rfl⟩
    simp only [polygonOf, hg, if_true, hs, hp]
    cases rest <;> rfl
  · next h1 =>
    simp only [Res.ok.injEq] at h; subst h
    exact ⟨fun _ => rfl, by simp⟩

theorem parseAssemble_spec {points : List (K × K)} : ∀ (l : List (List Nat))
    (acc : List (Edge (Vertex K))) (r : Parsed (List (Edge (Vertex K)))),
    parseAssemble points l acc = .ok r →
    ((∃ entry ∈ l, entry.length < 2) → r = .err) ∧
      ∀ s, r = .ok s → ∀ e, e ∈ s ↔ e ∈ acc ∨ ∃ entry ∈ l, ∃ i j p q, entry[0]? = some i ∧
        entry[1]? = some j ∧ points[i]? = some p ∧ points[j]? = some q ∧
        e = ⟨⟨p.1, p.2, false⟩, ⟨q.1, q.2, false⟩⟩ := by
  intro l
  induction l with
  | nil =>
    intro acc r h
    simp only [parseAssemble, Res.ok.injEq] at h; subst h
    simp
  | cons entry l ih =>
    intro acc r h
    match entry, h with
    | [], h => simp only [parseAssemble, Res.ok.injEq] at h; subst h; simp
    | [i], h => simp only [parseAssemble, Res.ok.injEq] at h; subst h; simp
    | i :: j :: rest, h =>
      simp only [parseAssemble] at h
      cases hi : points[i]? with
      | none => rw [hi] at h; simp at h
      | some p =>
        cases hj : points[j]? with
        | none => rw [hi, hj] at h; simp at h
        | some q =>
          rw [hi, hj] at h
          obtain ⟨k1, k2⟩ := ih _ _ h
          constructor
          · rintro ⟨en, hen, hl⟩
            rcases List.mem_cons.1 hen with rfl | hen
            · simp only [List.length_cons] at hl; omega
            · exact k1 ⟨en, hen, hl⟩
          · intro s hs e
            rw [k2 s hs e, mem_setInsert]
            simp only [List.mem_cons, exists_eq_or_imp, List.getElem?_cons_zero,
              List.getElem?_cons_succ, Option.some.injEq]
            constructor
            · rintro ((rfl | h') | h')
              · exact Or.inr (Or.inl ⟨i, j, p, q, rfl, rfl, hi, hj, rfl⟩)
              · exact Or.inl h'
              · exact Or.inr (Or.inr h')
            · rintro (h' | ⟨i', j', p', q', rfl, rfl, hp, hq, rfl⟩ | h')
              · exact Or.inl (Or.inr h')
              · rw [hi] at hp; rw [hj] at hq; cases hp; cases hq
                exact Or.inl (Or.inl rfl)
              · exact Or.inr h'

theorem parsePairs_spec : ∀ (l : List (K × K)) (acc : List (Edge (Vertex K))), l.length % 2 = 0 →
    ∃ s, parsePairs l acc = .ok (.ok s) ∧ ∀ e, e ∈ s ↔ e ∈ acc ∨
      ∃ k p q, l[2 * k]? = some p ∧ l[2 * k + 1]? = some q ∧
        e = ⟨⟨p.1, p.2, false⟩, ⟨q.1, q.2, false⟩⟩ := by
  intro l acc hl
  induction l, acc using parsePairs.induct with
  | case1 acc => exact ⟨acc, rfl, by simp⟩
  | case2 p q rest acc ih =>
    simp only [List.length_cons] at hl
    obtain ⟨s, h1, h2⟩ := ih (by omega)
    refine ⟨s, h1, fun e => ?_⟩
    rw [h2 e, mem_setInsert]
    constructor
    · rintro ((rfl | h) | ⟨k, p', q', e1, e2, rfl⟩)
      · exact Or.inr ⟨0, p, q, rfl, rfl, rfl⟩
      · exact Or.inl h
      · exact Or.inr ⟨k + 1, p', q', by simpa [Nat.mul_add] using e1,
          by simpa [Nat.mul_add] using e2, rfl⟩
    · rintro (h | ⟨k, p', q', e1, e2, rfl⟩)
      · exact Or.inl (Or.inr h)
      · cases k with
        | zero =>
          simp at e1 e2; subst e1; subst e2
          exact Or.inl (Or.inl rfl)
        | succ k =>
          refine Or.inr ⟨k, p', q', ?_, ?_, rfl⟩
          · simpa [Nat.mul_add] using e1
          · simpa [Nat.mul_add] using e2
  | case3 acc p => simp at hl

theorem parseSegments_spec {a : Action K} {r : Parsed (List (Edge (Vertex K)))}
    (h : parseSegments a = .ok r) :
    ((a.assemble = [] ∧ a.points.length % 2 = 1) → r = .err) ∧
      ((∃ entry ∈ a.assemble, entry.length < 2) → r = .err) ∧
      ∀ s, r = .ok s → ∀ e, e ∈ s ↔ DescribesSegment a e := by
  unfold parseSegments at h
  split_ifs at h with h1 h2
  · obtain ⟨k1, k2⟩ := parseAssemble_spec _ _ _ h
    refine ⟨fun h' => absurd h'.1 h1, k1, ?_⟩
    intro s hs e
    rw [k2 s hs e, DescribesSegment, if_neg h1]; simp
  · simp only [Res.ok.injEq] at h; subst h; simp
  · rw [not_not] at h1
    have hl : a.points.length % 2 = 0 := by omega
    obtain ⟨s, k1, k2⟩ := parsePairs_spec a.points [] hl
    rw [k1] at h
    simp only [Res.ok.injEq] at h; subst h
    refine ⟨fun h' => by omega, by simp [h1], ?_⟩
    intro s' hs e
    simp only [Parsed.ok.injEq] at hs; subst hs
    rw [k2 e, DescribesSegment, if_pos h1]; simp

/-- What one action does to the accumulated domain. -/
theorem parseAction_spec {eps : K} {fuel : Nat} {F : CircleFns K} {a : Action K} {d : Domains K}
    {r : Parsed (Domains K)} (h : parseAction eps fuel F a d = .ok r) :
    (Malformed a → r = .err) ∧
      ∀ d', r = .ok d' →
        d'.includes.map (·.vertices) = d.includes.map (·.vertices) ++
          (if a.intent = "include" then (polygonOf F a).toList else []) ∧
        d'.removes.map (·.vertices) = d.removes.map (·.vertices) ++
          (if a.intent = "remove" then (polygonOf F a).toList else []) ∧
        (∀ e, e ∈ d'.segments ↔ e ∈ d.segments ∨ (a.geometry = "segments" ∧ DescribesSegment a e)) ∧
        (∀ v, v ∈ d'.vertices ↔ v ∈ d.vertices ∨
          (a.geometry = "vertices" ∧ ∃ p ∈ a.points, v = ⟨p.1, p.2, false⟩)) := by
  have hadd : ∀ p : Polyline (Vertex K), polygonOf F a = some p.vertices →
      (a.geometry = "polyline" ∨ a.geometry = "circle") →
      (a.intent ∉ ["include", "remove"] → addDomain a.intent p d = .err) ∧
      ∀ d', addDomain a.intent p d = .ok d' →
        d'.includes.map (·.vertices) = d.includes.map (·.vertices) ++
          (if a.intent = "include" then (polygonOf F a).toList else []) ∧
        d'.removes.map (·.vertices) = d.removes.map (·.vertices) ++
          (if a.intent = "remove" then (polygonOf F a).toList else []) ∧
        (∀ e, e ∈ d'.segments ↔ e ∈ d.segments ∨ (a.geometry = "segments" ∧ DescribesSegment a e)) ∧
        (∀ v, v ∈ d'.vertices ↔ v ∈ d.vertices ∨
          (a.geometry = "vertices" ∧ ∃ p ∈ a.points, v = ⟨p.1, p.2, false⟩)) := by
    intro p hp hg
    have hs : a.geometry ≠ "segments" := by rcases hg with hg | hg <;> rw [hg] <;> decide
    have hv : a.geometry ≠ "vertices" := by rcases hg with hg | hg <;> rw [hg] <;> decide
    unfold addDomain
    constructor
    · intro hi
      simp only [List.mem_cons, List.not_mem_nil, or_false, not_or] at hi
      rw [if_neg hi.1, if_neg hi.2]
    · intro d' hd
      split_ifs at hd with h1 h2
      · simp only [Parsed.ok.injEq] at hd; subst hd
        simp [h1, hp, hs, hv]
      · simp only [Parsed.ok.injEq] at hd; subst hd
        simp [h2, hp, hs, hv]
  unfold parseAction at h
  by_cases g1 : a.geometry = "polyline"
  · rw [if_pos g1, Res.bind_eq_ok] at h
    obtain ⟨q, hq, h⟩ := h
    obtain ⟨k1, k2⟩ := parsePolyline_spec hq
    cases q with
    | err =>
      simp only [Res.ok.injEq] at h; subst h
      exact ⟨fun _ => rfl, by simp⟩
    | ok p =>
      simp only [Res.ok.injEq] at h
      obtain ⟨e1, e2⟩ := hadd p (by rw [(k2 p rfl).1]; simp [polygonOf, g1]) (Or.inl g1)
      refine ⟨?_, fun d' hd => e2 d' (by rw [← hd, h])⟩
      intro hm
      simp only [Malformed, g1] at hm
      simp only [List.mem_cons, String.reduceEq, List.not_mem_nil, or_false, not_true_eq_false,
        false_or, true_and, false_and] at hm
      rcases hm with hm | hm
      · rw [← h]; exact e1 (by simpa using hm)
      · have := k1 hm; cases this
  rw [if_neg g1] at h
  by_cases g2 : a.geometry = "circle"
  · rw [if_pos g2, Res.bind_eq_ok] at h
    obtain ⟨q, hq, h⟩ := h
    obtain ⟨k1, k2⟩ := parseCircle_spec g2 hq
    cases q with
    | err =>
      simp only [Res.ok.injEq] at h; subst h
      exact ⟨fun _ => rfl, by simp⟩
    | ok p =>
      simp only [Res.ok.injEq] at h
      obtain ⟨e1, e2⟩ := hadd p (k2 p rfl).1 (Or.inr g2)
      refine ⟨?_, fun d' hd => e2 d' (by rw [← hd, h])⟩
      intro hm
      simp only [Malformed, g2] at hm
      simp only [List.mem_cons, String.reduceEq, List.not_mem_nil, or_false, not_true_eq_false,
        false_or, true_and, false_and, or_true] at hm
      rcases hm with hm | hm
      · rw [← h]; exact e1 (by simpa using hm)
      · have := k1 hm; cases this
  rw [if_neg g2] at h
  by_cases g3 : a.geometry = "segments"
  · rw [if_pos g3, Res.bind_eq_ok] at h
    obtain ⟨q, hq, h⟩ := h
    obtain ⟨k1, k2, k3⟩ := parseSegments_spec hq
    cases q with
    | err =>
      simp only [Res.ok.injEq] at h; subst h
      exact ⟨fun _ => rfl, by simp⟩
    | ok s =>
      simp only [] at h
      split_ifs at h with hi
      · simp only [Res.ok.injEq] at h; subst h
        constructor
        · intro hm
          simp only [Malformed, g3] at hm
          simp only [List.mem_cons, String.reduceEq, List.not_mem_nil, or_false, not_true_eq_false,
            false_or, true_and, false_and, or_true, hi, ne_eq] at hm
          rcases hm with hm | hm
          · have := k1 hm; cases this
          · have := k2 hm; cases this
        · intro d' hd
          simp only [Parsed.ok.injEq] at hd; subst hd
          have hp : polygonOf F a = none := by simp [polygonOf, g3]
          refine ⟨by simp [hp], by simp [hp], ?_, ?_⟩
          · intro e
            simp only [mem_setUnion, k3 s rfl e, g3, true_and]
          · intro v; simp [g3]
      · simp only [Res.ok.injEq] at h; subst h
        exact ⟨fun _ => rfl, by simp⟩
  rw [if_neg g3] at h
  split_ifs at h with g4 g5
  · simp only [Res.ok.injEq] at h; subst h
    constructor
    · intro hm
      simp only [Malformed, g4] at hm
      simp [g5] at hm
    · intro d' hd
      simp only [Parsed.ok.injEq] at hd; subst hd
      have hp : polygonOf F a = none := by simp [polygonOf, g4]
      refine ⟨by simp [hp], by simp [hp], ?_, ?_⟩
      · intro e; simp [g4]
      · intro v
        simp only [mem_setUnion, parseVertices, mem_toSet, List.mem_map, g4, true_and]
        constructor
        · rintro (h | ⟨p, hp, rfl⟩)
          · exact Or.inl h
          · exact Or.inr ⟨p, hp, rfl⟩
        · rintro (h | ⟨p, hp, rfl⟩)
          · exact Or.inl h
          · exact Or.inr ⟨p, hp, rfl⟩
  · simp only [Res.ok.injEq] at h; subst h
    exact ⟨fun _ => rfl, by simp⟩
  · simp only [Res.ok.injEq] at h; subst h
    exact ⟨fun _ => rfl, by simp⟩

/-- C32: when interpretation finishes, a malformed action anywhere makes it an error. -/
theorem C32_reports {eps : K} {fuel : Nat} {F : CircleFns K} (acts : List (Action K))
    (d : Domains K) {r : Parsed (Domains K)} (h : parseActions eps fuel F acts d = .ok r)
    (hm : ∃ a ∈ acts, Malformed a) : r = .err := by
  induction acts generalizing d with
  | nil => simp at hm
  | cons a acts ih =>
    rw [parseActions, Res.bind_eq_ok] at h
    obtain ⟨q, hq, h⟩ := h
    obtain ⟨k1, -⟩ := parseAction_spec hq
    cases q with
    | err => simp only [Res.ok.injEq] at h; exact h.symm
    | ok d' =>
      obtain ⟨b, hb, hmb⟩ := hm
      rcases List.mem_cons.1 hb with rfl | hb
      · have := k1 hmb; cases this
      · exact ih d' h ⟨b, hb, hmb⟩

/-- C32: a successful interpretation yields exactly the described polygons (in order, per intent), segments and
vertices. -/
theorem C32_content {eps : K} {fuel : Nat} {F : CircleFns K} (acts : List (Action K))
    {d : Domains K} (h : parseActions eps fuel F acts ⟨[], [], [], []⟩ = .ok (.ok d)) :
    d.includes.map (·.vertices) =
        (acts.filter fun a => decide (a.intent = "include")).filterMap (polygonOf F) ∧
      d.removes.map (·.vertices) =
        (acts.filter fun a => decide (a.intent = "remove")).filterMap (polygonOf F) ∧
      (∀ e, e ∈ d.segments ↔ ∃ a ∈ acts, a.geometry = "segments" ∧ DescribesSegment a e) ∧
      (∀ v, v ∈ d.vertices ↔ ∃ a ∈ acts, a.geometry = "vertices" ∧
        ∃ p ∈ a.points, v = ⟨p.1, p.2, false⟩) := by
  have gen : ∀ (acts : List (Action K)) (d0 d : Domains K),
      parseActions eps fuel F acts d0 = .ok (.ok d) →
      d.includes.map (·.vertices) = d0.includes.map (·.vertices) ++
          (acts.filter fun a => decide (a.intent = "include")).filterMap (polygonOf F) ∧
      d.removes.map (·.vertices) = d0.removes.map (·.vertices) ++
          (acts.filter fun a => decide (a.intent = "remove")).filterMap (polygonOf F) ∧
      (∀ e, e ∈ d.segments ↔ e ∈ d0.segments ∨
        ∃ a ∈ acts, a.geometry = "segments" ∧ DescribesSegment a e) ∧
      (∀ v, v ∈ d.vertices ↔ v ∈ d0.vertices ∨ ∃ a ∈ acts, a.geometry = "vertices" ∧
        ∃ p ∈ a.points, v = ⟨p.1, p.2, false⟩) := by
    intro acts
    induction acts with
    | nil =>
      intro d0 d h
      simp only [parseActions, Res.ok.injEq, Parsed.ok.injEq] at h
      subst h; simp
    | cons a acts ih =>
      intro d0 d h
      rw [parseActions, Res.bind_eq_ok] at h
      obtain ⟨q, hq, h⟩ := h
      obtain ⟨-, k2⟩ := parseAction_spec hq
      cases q with
      | err => simp at h
      | ok d1 =>
        obtain ⟨a1, a2, a3, a4⟩ := k2 d1 rfl
        obtain ⟨b1, b2, b3, b4⟩ := ih d1 d h
        refine ⟨?_, ?_, ?_, ?_⟩
        · rw [b1, a1, List.append_assoc]
          congr 1
          by_cases hi : a.intent = "include"
          · cases hp : polygonOf F a <;> simp [hi, hp]
          · simp [hi]
        · rw [b2, a2, List.append_assoc]
          congr 1
          by_cases hi : a.intent = "remove"
          · cases hp : polygonOf F a <;> simp [hi, hp]
          · simp [hi]
        · intro e
          rw [b3 e, a3 e]
          simp only [List.mem_cons, exists_eq_or_imp, or_assoc]
        · intro v
          rw [b4 v, a4 v]
          simp only [List.mem_cons, exists_eq_or_imp, or_assoc]
  simpa using gen acts _ _ h

theorem parseAction_ne_panic {eps : K} {fuel : Nat} {F : CircleFns K} {a : Action K}
    (hh : Harmless F a) (d : Domains K) : parseAction eps fuel F a d ≠ .panic := by
  have hpoly : a.geometry = "polyline" → parsePolyline eps fuel a ≠ .panic := by
    intro hg
    unfold parsePolyline
    simp only []
    split_ifs with h0
    · simp
    · have hl : 3 ≤ a.points.length := by
        rcases hh.1 hg with h | h
        · exact absurd (by simp [h]) h0
        · exact h
      obtain ⟨s, hs⟩ := vertexPairs_ne_panic h0 false
      rw [hs, Res.bind_ok]
      cases hsp : splitIntersections eps fuel s with
      | panic => exact absurd hsp (splitIntersections_ne_panic _ _ _)
      | diverged => simp
      | ok sp =>
        rw [Res.bind_ok]
        split_ifs
        · simp
        · simp [Polyline.newClosed, hl, Res.unwrap]
  have hcirc : a.geometry = "circle" → parseCircle F a ≠ .panic := by
    intro hg
    unfold parseCircle
    split
    · next r rest c hs hp =>
      cases rest with
      | nil => simp [Polyline.newClosed, Res.unwrap]
      | cons n rest =>
        have := hh.2.1 hg r n rest hs
        simp [Polyline.newClosed, Res.unwrap, this]
    · simp
  have hass : ∀ (l : List (List Nat)) (acc : List (Edge (Vertex K))),
      (∀ entry ∈ l, ∀ i j rest, entry = i :: j :: rest → i < a.points.length ∧ j < a.points.length) →
      parseAssemble a.points l acc ≠ .panic := by
    intro l
    induction l with
    | nil => intro acc _; simp [parseAssemble]
    | cons entry l ih =>
      intro acc hl
      match entry, hl with
      | [], _ => simp [parseAssemble]
      | [i], _ => simp [parseAssemble]
      | i :: j :: rest, hl =>
        obtain ⟨h1, h2⟩ := hl _ List.mem_cons_self i j rest rfl
        simp only [parseAssemble, List.getElem?_eq_getElem h1, List.getElem?_eq_getElem h2]
        exact ih _ fun e he => hl e (List.mem_cons_of_mem _ he)
  have hseg : a.geometry = "segments" → parseSegments a ≠ .panic := by
    intro hg
    unfold parseSegments
    split_ifs with h1 h2
    · exact hass _ _ (hh.2.2 hg)
    · simp
    · obtain ⟨s, k, -⟩ := parsePairs_spec a.points [] (by omega)
      rw [k]; simp
  unfold parseAction
  by_cases g1 : a.geometry = "polyline"
  · rw [if_pos g1]
    cases hp : parsePolyline eps fuel a with
    | panic => exact absurd hp (hpoly g1)
    | diverged => simp
    | ok q => cases q <;> simp
  rw [if_neg g1]
  by_cases g2 : a.geometry = "circle"
  · rw [if_pos g2]
    cases hp : parseCircle F a with
    | panic => exact absurd hp (hcirc g2)
    | diverged => simp
    | ok q => cases q <;> simp
  rw [if_neg g2]
  by_cases g3 : a.geometry = "segments"
  · rw [if_pos g3]
    cases hp : parseSegments a with
    | panic => exact absurd hp (hseg g3)
    | diverged => simp
    | ok q =>
      cases q
      · simp only [Res.bind_ok]; split_ifs <;> simp
      · simp
  rw [if_neg g3]
  split_ifs <;> simp

/-- C32, part that holds: if all polylines have at least three points (or none), circles at least three sides and
indices are in range, interpretation does not panic. Missing: the same without these conditions, which is false
(`C32_panics`). -/
theorem C32_no_panic_partial {eps : K} {fuel : Nat} {F : CircleFns K} (acts : List (Action K))
    (hh : ∀ a ∈ acts, Harmless F a) (d : Domains K) :
    parseActions eps fuel F acts d ≠ .panic := by
  induction acts generalizing d with
  | nil => simp [parseActions]
  | cons a acts ih =>
    rw [parseActions]
    cases hp : parseAction eps fuel F a d with
    | panic => exact absurd hp (parseAction_ne_panic (hh a List.mem_cons_self) d)
    | diverged => simp
    | ok q =>
      cases q with
      | err => simp
      | ok d' => exact ih (fun b hb => hh b (List.mem_cons_of_mem _ hb)) d'

example : Harmless (K := ℚ) ⟨fun _ => 3, fun _ _ _ _ => ⟨0, 0, false⟩⟩
    ⟨"constraint", "segments", [], [(0, 0), (1, 1)], [[0, 1]]⟩ := by
  refine ⟨by simp, by simp, ?_⟩
  intro _ entry he i j rest h
  simp at he
  subst he
  simp at h
  obtain ⟨rfl, rfl, -⟩ := h
  simp

example : Malformed (K := ℚ) ⟨"remove", "segments", [], [(0, 0), (1, 1)], [[0, 1]]⟩ := by
  simp [Malformed]

end Verif.Props
