import Verif.Spec.Json
import Verif.Props.Whole

/-!
# C79: reading the input document; C80: from the input document to the output document
-/

set_option linter.unusedSectionVars false

namespace Verif.Props

open Spec

variable {K U : Type*} [Field K] [LinearOrder K]

theorem fieldsOf_nil {k : String} {l : List (String × Json K)} : Json.fieldsOf k l = [] ↔ Absent l k := by
  unfold Json.fieldsOf Absent
  rw [List.map_eq_nil_iff, List.filter_eq_nil_iff]
  simp only [decide_eq_true_eq]

theorem fieldsOf_one {k : String} {l : List (String × Json K)} {v : Json K} :
    Json.fieldsOf k l = [v] ↔ Given l k v := by
  unfold Given
  constructor
  · intro h
    unfold Json.fieldsOf at h
    obtain ⟨q, hq, hv⟩ := List.map_eq_singleton_iff.1 h
    obtain ⟨l1, l2, rfl, h1, h2, h3⟩ := List.filter_eq_cons_iff.1 hq
    rw [List.filter_eq_nil_iff] at h3
    simp only [decide_eq_true_eq] at h1 h2 h3
    obtain ⟨k', v'⟩ := q
    simp only at h2 hv
    subst h2 hv
    refine ⟨l1, l2, rfl, fun p hp => ?_⟩
    rcases List.mem_append.1 hp with hp | hp
    · exact h1 p hp
    · exact h3 p hp
  · rintro ⟨l1, l2, rfl, h⟩
    have e1 : Json.fieldsOf k l1 = [] := fieldsOf_nil.2 fun p hp => h p (List.mem_append_left _ hp)
    have e2 : Json.fieldsOf k l2 = [] := fieldsOf_nil.2 fun p hp => h p (List.mem_append_right _ hp)
    unfold Json.fieldsOf at e1 e2 ⊢
    rw [List.filter_append, List.map_append, e1, List.filter_cons_of_pos (by simp), List.map_cons, e2]
    rfl

theorem required_iff {α : Type*} {dec : Json K → Option α} {R : Json K → α → Prop}
    (hR : ∀ v x, dec v = some x ↔ R v x) {k : String} {l : List (String × Json K)} {x : α} :
    Json.required dec k l = some x ↔ Entry l k R x := by
  unfold Json.required Entry
  constructor
  · intro h
    split at h
    · next v hv => exact ⟨v, fieldsOf_one.1 hv, (hR v x).1 h⟩
    · cases h
  · rintro ⟨v, hv, hx⟩
    rw [fieldsOf_one.2 hv]
    exact (hR v x).2 hx

theorem defaulted_iff {α : Type*} {dec : Json K → Option α} {R : Json K → α → Prop}
    (hR : ∀ v x, dec v = some x ↔ R v x) {d : α} {k : String} {l : List (String × Json K)} {x : α} :
    Json.defaulted d dec k l = some x ↔ EntryOr l k R d x := by
  unfold Json.defaulted EntryOr Entry
  constructor
  · intro h
    split at h
    · next hv => injection h with h; exact Or.inl ⟨fieldsOf_nil.1 hv, h.symm⟩
    · next v hv => exact Or.inr ⟨v, fieldsOf_one.1 hv, (hR v x).1 h⟩
    · cases h
  · rintro (⟨hv, rfl⟩ | ⟨v, hv, hx⟩)
    · rw [fieldsOf_nil.2 hv]
    · rw [fieldsOf_one.2 hv]
      exact (hR v x).2 hx

theorem positional_iff {α : Type*} {dec : Json K → Option α} {R : Json K → α → Prop}
    (hR : ∀ v x, dec v = some x ↔ R v x) {d : α} {n : Nat} {l : List (Json K)} {x : α} :
    Json.positional d dec (l.drop n) = some x ↔ ItemOr l n R d x := by
  unfold ItemOr
  have e : l[n]? = (l.drop n)[0]? := by simp
  rw [e]
  cases l.drop n with
  | nil => simp [Json.positional, eq_comm]
  | cons v r => simp [Json.positional, hR]

theorem mapM_iff {α : Type*} {dec : Json K → Option α} {R : Json K → α → Prop}
    (hR : ∀ v x, dec v = some x ↔ R v x) : ∀ (l : List (Json K)) (xs : List α),
    l.mapM dec = some xs ↔ List.Forall₂ R l xs
  | [], xs => by simp [List.mapM_nil, eq_comm]
  | v :: l, xs => by
    rw [List.mapM_cons]
    constructor
    · intro h
      obtain ⟨x, hx, h⟩ := Option.bind_eq_some_iff.1 h
      obtain ⟨ys, hy, h⟩ := Option.bind_eq_some_iff.1 h
      injection h with h
      subst h
      exact List.Forall₂.cons ((hR v x).1 hx) ((mapM_iff hR l ys).1 hy)
    · intro h
      cases h with
      | cons h1 h2 =>
        rw [(hR _ _).2 h1, (mapM_iff hR l _).2 h2]
        rfl

theorem list_iff {α : Type*} {dec : Json K → Option α} {R : Json K → α → Prop}
    (hR : ∀ v x, dec v = some x ↔ R v x) (j : Json K) (xs : List α) :
    Json.list dec j = some xs ↔ IsArray R j xs := by
  unfold IsArray
  cases j <;> simp [Json.list, mapM_iff hR]

theorem number_iff (j : Json K) (x : K) : j.number = some x ↔ IsNumber j x := by
  unfold IsNumber
  cases j <;> simp [Json.number, eq_comm]

theorem index_iff (j : Json K) (n : Nat) : j.index = some n ↔ IsIndex j n := by
  unfold IsIndex
  cases j with
  | int m =>
    cases m with
    | ofNat m => simp [Json.index]
    | negSucc m => simp [Json.index]
  | _ => simp [Json.index]

theorem text_iff (j : Json K) (s : String) : j.text = some s ↔ IsText j s := by
  unfold IsText
  cases j <;> simp [Json.text]

theorem optional_iff {α : Type*} {dec : Json K → Option α} {R : Json K → α → Prop}
    (hR : ∀ v x, dec v = some x ↔ R v x) (j : Json K) (x : Option α) :
    Json.optional dec j = some x ↔ IsNullable R j x := by
  unfold IsNullable
  cases j <;> simp [Json.optional, hR, eq_comm, and_comm]

theorem uuid_iff (L : Libs U) (j : Json K) (u : U) : Json.readUuid L j = some u ↔ IsId L j u := by
  unfold IsId
  cases j <;> simp [Json.readUuid]

theorem readPoint3_iff (j : Json K) (p : K × K × K) : Json.readPoint3 j = some p ↔ IsPoint j p := by
  obtain ⟨x, y, z⟩ := p
  unfold IsPoint
  constructor
  · intro h
    unfold Json.readPoint3 at h
    split at h
    · next l =>
      simp only [Option.bind_eq_some_iff, Option.map_eq_some_iff, required_iff number_iff, defaulted_iff number_iff,
        Prod.mk.injEq] at h
      obtain ⟨x', h1, y', h2, z', h3, rfl, rfl, rfl⟩ := h
      exact Or.inl ⟨l, rfl, h1, h2, h3⟩
    · next a b rest =>
      split at h
      · next hl =>
        rw [← List.drop_zero (l := rest)] at h
        simp only [Option.bind_eq_some_iff, Option.map_eq_some_iff, number_iff, positional_iff number_iff,
          Prod.mk.injEq] at h
        obtain ⟨x', h1, y', h2, z', h3, rfl, rfl, rfl⟩ := h
        exact Or.inr ⟨a, b, rest, rfl, hl, h1, h2, h3⟩
      · cases h
    · cases h
  · rintro (⟨l, rfl, h1, h2, h3⟩ | ⟨a, b, rest, rfl, hl, h1, h2, h3⟩)
    · simp only [Json.readPoint3, (required_iff number_iff).2 h1, (required_iff number_iff).2 h2,
        (defaulted_iff number_iff).2 h3, Option.bind_some, Option.map_some]
    · have := (positional_iff number_iff).2 h3
      rw [List.drop_zero] at this
      simp only [Json.readPoint3, if_pos hl, (number_iff _ _).2 h1, (number_iff _ _).2 h2, this, Option.bind_some,
        Option.map_some]

theorem readPoint_iff (j : Json K) (p : K × K) : Json.readPoint j = some p ↔ IsPoint2 j p := by
  unfold Json.readPoint IsPoint2
  rw [Option.map_eq_some_iff]
  constructor
  · rintro ⟨⟨x, y, z⟩, h, rfl⟩
    exact ⟨z, (readPoint3_iff _ _).1 h⟩
  · rintro ⟨z, h⟩
    exact ⟨_, (readPoint3_iff _ _).2 h, rfl⟩

theorem readAction_iff (j : Json K) (a : Action K) : Json.readAction j = some a ↔ IsAction j a := by
  obtain ⟨i, g, s, p, q⟩ := a
  unfold IsAction
  constructor
  · intro h
    unfold Json.readAction at h
    split at h
    · next l =>
      simp only [Option.bind_eq_some_iff, Option.map_eq_some_iff, required_iff text_iff,
        defaulted_iff (list_iff number_iff), defaulted_iff (list_iff readPoint_iff),
        defaulted_iff (list_iff (list_iff index_iff)), Action.mk.injEq] at h
      obtain ⟨_, h1, _, h2, _, h3, _, h4, _, h5, rfl, rfl, rfl, rfl, rfl⟩ := h
      exact Or.inl ⟨l, rfl, h1, h2, h3, h4, h5⟩
    · next a b rest =>
      split at h
      · next hl =>
        have e : Json.positional [] (Json.list Json.number) rest =
            Json.positional [] (Json.list Json.number) (rest.drop 0) := by rw [List.drop_zero]
        rw [e] at h
        simp only [Option.bind_eq_some_iff, Option.map_eq_some_iff, text_iff, positional_iff (list_iff number_iff),
          positional_iff (list_iff readPoint_iff), positional_iff (list_iff (list_iff index_iff)), Action.mk.injEq] at h
        obtain ⟨_, h1, _, h2, _, h3, _, h4, _, h5, rfl, rfl, rfl, rfl, rfl⟩ := h
        unfold IsText at h1 h2
        exact Or.inr ⟨rest, by rw [h1, h2], hl, h3, h4, h5⟩
      · cases h
    · cases h
  · rintro (⟨l, rfl, h1, h2, h3, h4, h5⟩ | ⟨rest, rfl, hl, h3, h4, h5⟩)
    · simp only [Json.readAction, (required_iff text_iff).2 h1, (required_iff text_iff).2 h2,
        (defaulted_iff (list_iff number_iff)).2 h3, (defaulted_iff (list_iff readPoint_iff)).2 h4,
        (defaulted_iff (list_iff (list_iff index_iff))).2 h5, Option.bind_some, Option.map_some]
    · have := (positional_iff (list_iff number_iff)).2 h3
      rw [List.drop_zero] at this
      simp only [Json.readAction, if_pos hl, Json.text, this, (positional_iff (list_iff readPoint_iff)).2 h4,
        (positional_iff (list_iff (list_iff index_iff))).2 h5, Option.bind_some, Option.map_some]

theorem readParams_iff (j : Json K) (p : RefineParams K) : Json.readParams j = some p ↔ IsParams j p := by
  obtain ⟨a, q⟩ := p
  unfold IsParams
  constructor
  · intro h
    unfold Json.readParams at h
    split at h
    · next l =>
      simp only [Option.bind_eq_some_iff, Option.map_eq_some_iff, required_iff number_iff,
        defaulted_iff (optional_iff number_iff), RefineParams.mk.injEq] at h
      obtain ⟨_, h1, _, h2, rfl, rfl⟩ := h
      exact Or.inl ⟨l, rfl, h1, h2⟩
    · next a b =>
      simp only [Option.bind_eq_some_iff, Option.map_eq_some_iff, number_iff, optional_iff number_iff,
        RefineParams.mk.injEq] at h
      obtain ⟨_, h1, _, h2, rfl, rfl⟩ := h
      exact Or.inr ⟨a, b, rfl, h1, h2⟩
    · cases h
  · rintro (⟨l, rfl, h1, h2⟩ | ⟨a, b, rfl, h1, h2⟩)
    · simp only [Json.readParams, (defaulted_iff (optional_iff number_iff)).2 h1, (required_iff number_iff).2 h2,
        Option.bind_some, Option.map_some]
    · simp only [Json.readParams, (optional_iff number_iff _ _).2 h1, (number_iff _ _).2 h2, Option.bind_some,
        Option.map_some]

/-- C79: a document is read as `d` exactly if it says `d` (`IsInput`); everything else is refused. -/
theorem C79_input (L : Libs U) (j : Json K) (d : Document K U) : Json.readInput L j = some d ↔ IsInput L j d := by
  obtain ⟨u, n, t, as, p⟩ := d
  unfold IsInput
  constructor
  · intro h
    unfold Json.readInput at h
    split at h
    · next l =>
      simp only [Option.bind_eq_some_iff, Option.map_eq_some_iff, required_iff text_iff, defaulted_iff text_iff,
        defaulted_iff (uuid_iff L), required_iff (list_iff readAction_iff), required_iff readParams_iff,
        Document.mk.injEq, Input.mk.injEq] at h
      obtain ⟨_, h1, _, h2, _, h3, _, h4, _, h5, rfl, rfl, rfl, rfl, rfl⟩ := h
      exact Or.inl ⟨l, rfl, h1, h2, h3, h4, h5⟩
    · next a b c e f =>
      simp only [Option.bind_eq_some_iff, Option.map_eq_some_iff, text_iff, uuid_iff, list_iff readAction_iff,
        readParams_iff, Document.mk.injEq, Input.mk.injEq] at h
      obtain ⟨_, h1, _, h2, _, h3, _, h4, _, h5, rfl, rfl, rfl, rfl, rfl⟩ := h
      unfold IsText at h2 h3
      exact Or.inr ⟨a, e, f, by rw [h2, h3], h1, h4, h5⟩
    · cases h
  · rintro (⟨l, rfl, h1, h2, h3, h4, h5⟩ | ⟨a, e, f, rfl, h1, h4, h5⟩)
    · simp only [Json.readInput, (defaulted_iff (uuid_iff L)).2 h1, (required_iff text_iff).2 h2,
        (defaulted_iff text_iff).2 h3, (required_iff (list_iff readAction_iff)).2 h4,
        (required_iff readParams_iff).2 h5, Option.bind_some, Option.map_some]
    · simp only [Json.readInput, (uuid_iff L _ _).2 h1, Json.text, (list_iff readAction_iff _ _).2 h4,
        (readParams_iff _ _).2 h5, Option.bind_some, Option.map_some]

theorem fieldsOf_perm {names : List String} {l l' : List (String × Json K)} (h : SameUpTo names l l') {k : String}
    (hk : k ∈ names) : (Json.fieldsOf k l).Perm (Json.fieldsOf k l') := by
  have e : ∀ l : List (String × Json K), Json.fieldsOf k l =
      ((l.filter fun p => decide (p.1 ∈ names)).filter fun p => decide (p.1 = k)).map (·.2) := by
    intro l
    unfold Json.fieldsOf
    rw [List.filter_filter]
    congr 1
    apply List.filter_congr
    intro p _
    by_cases hp : p.1 = k
    · simp [hp, hk]
    · simp [hp]
  rw [e, e]
  exact (h.filter _).map _

theorem required_same {α : Type*} {dec : Json K → Option α} {names : List String} {l l' : List (String × Json K)}
    (h : SameUpTo names l l') {k : String} (hk : k ∈ names) : Json.required dec k l = Json.required dec k l' := by
  have hp := fieldsOf_perm h hk
  unfold Json.required
  rcases h1 : Json.fieldsOf k l with _ | ⟨v, _ | ⟨w, r⟩⟩ <;> rw [h1] at hp
  · rw [hp.nil_eq.symm]
  · rw [List.singleton_perm.1 hp]
  · have hl := hp.length_eq
    rcases h2 : Json.fieldsOf k l' with _ | ⟨v', _ | ⟨w', r'⟩⟩ <;> rw [h2] at hl <;>
      first | rfl | simp at hl

theorem defaulted_same {α : Type*} {d : α} {dec : Json K → Option α} {names : List String}
    {l l' : List (String × Json K)} (h : SameUpTo names l l') {k : String} (hk : k ∈ names) :
    Json.defaulted d dec k l = Json.defaulted d dec k l' := by
  have hp := fieldsOf_perm h hk
  unfold Json.defaulted
  rcases h1 : Json.fieldsOf k l with _ | ⟨v, _ | ⟨w, r⟩⟩ <;> rw [h1] at hp
  · rw [hp.nil_eq.symm]
  · rw [List.singleton_perm.1 hp]
  · have hl := hp.length_eq
    rcases h2 : Json.fieldsOf k l' with _ | ⟨v', _ | ⟨w', r'⟩⟩ <;> rw [h2] at hl <;>
      first | rfl | simp at hl

/-- C79: the order of the entries, and entries with other names, do not matter for the input, its actions, its parameters
and its points. -/
theorem C79_order (L : Libs U) {l l' : List (String × Json K)} :
    (SameUpTo ["id", "name", "date", "actions", "params"] l l' →
      Json.readInput L (.obj l) = Json.readInput L (.obj l')) ∧
    (SameUpTo ["intent", "geometry", "scalars", "points", "assemble"] l l' →
      Json.readAction (.obj l) = Json.readAction (.obj l')) ∧
    (SameUpTo ["max_area", "quality"] l l' → Json.readParams (.obj l) = Json.readParams (.obj l')) ∧
    (SameUpTo ["x", "y", "z"] l l' → Json.readPoint (.obj l) = Json.readPoint (.obj l')) := by
  refine ⟨fun h => ?_, fun h => ?_, fun h => ?_, fun h => ?_⟩
  · simp only [Json.readInput]
    rw [defaulted_same h (by simp), required_same (k := "name") h (by simp), defaulted_same (k := "date") h (by simp),
      required_same (k := "actions") h (by simp), required_same (k := "params") h (by simp)]
  · simp only [Json.readAction]
    rw [required_same (k := "intent") h (by simp), required_same (k := "geometry") h (by simp),
      defaulted_same (k := "scalars") h (by simp), defaulted_same (k := "points") h (by simp),
      defaulted_same (k := "assemble") h (by simp)]
  · simp only [Json.readParams]
    rw [defaulted_same (k := "max_area") h (by simp), required_same (k := "quality") h (by simp)]
  · simp only [Json.readPoint, Json.readPoint3]
    rw [required_same (k := "x") h (by simp), required_same (k := "y") h (by simp),
      defaulted_same (k := "z") h (by simp)]

/-! ## C80 -/

theorem mapM_write {α : Type*} {w : α → Json K} {r : Json K → Option α} (h : ∀ a, r (w a) = some a) (l : List α) :
    Json.list r (.arr (l.map w)) = some l := by
  show (l.map w).mapM r = some l
  rw [mapM_iff (R := fun v x => r v = some x) (fun _ _ => Iff.rfl)]
  induction l with
  | nil => exact List.Forall₂.nil
  | cons a l ih => exact List.Forall₂.cons (h a) ih

/-- C80: a document that was written is read back as the same data, if the library for identifiers reads back what it
writes. -/
theorem C80_round {L : Libs U} (hid : ∀ u, L.readId (L.writeId u) = some u) (o : OutputDoc K U) :
    Json.readOutput L (Json.writeOutput L o) = some o := by
  have h1 : ∀ p : K × K × K, Json.readPoint3 (Json.writePoint p) = some p := fun p => by
    simp [Json.readPoint3, Json.writePoint, Json.required, Json.defaulted, Json.fieldsOf, Json.number]
  have hi : ∀ n : Nat, Json.index (.int n : Json K) = some n := fun n => (index_iff _ _).2 rfl
  have h2 : ∀ t, Json.readTriangle (Json.writeTriangle t : Json K) = some t := fun p => by
    simp [Json.readTriangle, Json.writeTriangle, Json.required, Json.fieldsOf, hi]
  have h3 : ∀ t, Json.readTetrahedron (Json.writeTetrahedron t : Json K) = some t := fun p => by
    simp [Json.readTetrahedron, Json.writeTetrahedron, Json.required, Json.fieldsOf, hi]
  simp [Json.readOutput, Json.writeOutput, Json.required, Json.defaulted, Json.fieldsOf, Json.readUuid, hid, Json.text,
    mapM_write h1, mapM_write h2, mapM_write h3]

theorem readTriangle_iff (j : Json K) (t : Nat × Nat × Nat) : Json.readTriangle j = some t ↔ IsTriangle j t := by
  obtain ⟨a, b, c⟩ := t
  unfold IsTriangle
  constructor
  · intro h
    unfold Json.readTriangle at h
    split at h
    · next l =>
      simp only [Option.bind_eq_some_iff, Option.map_eq_some_iff, required_iff index_iff, Prod.mk.injEq] at h
      obtain ⟨_, h1, _, h2, _, h3, rfl, rfl, rfl⟩ := h
      exact Or.inl ⟨l, rfl, h1, h2, h3⟩
    · next x y z =>
      simp only [Option.bind_eq_some_iff, Option.map_eq_some_iff, index_iff, Prod.mk.injEq] at h
      obtain ⟨_, h1, _, h2, _, h3, rfl, rfl, rfl⟩ := h
      unfold IsIndex at h1 h2 h3
      exact Or.inr (by rw [h1, h2, h3])
    · cases h
  · have hi : ∀ n : Nat, Json.index (.int n : Json K) = some n := fun n => (index_iff _ _).2 rfl
    rintro (⟨l, rfl, h1, h2, h3⟩ | rfl)
    · simp only [Json.readTriangle, (required_iff index_iff).2 h1, (required_iff index_iff).2 h2,
        (required_iff index_iff).2 h3, Option.bind_some, Option.map_some]
    · simp only [Json.readTriangle, hi, Option.bind_some, Option.map_some]

theorem readTetrahedron_iff (j : Json K) (t : Nat × Nat × Nat × Nat) :
    Json.readTetrahedron j = some t ↔ IsTetrahedron j t := by
  obtain ⟨a, b, c, d⟩ := t
  unfold IsTetrahedron
  constructor
  · intro h
    unfold Json.readTetrahedron at h
    split at h
    · next l =>
      simp only [Option.bind_eq_some_iff, Option.map_eq_some_iff, required_iff index_iff, Prod.mk.injEq] at h
      obtain ⟨_, h1, _, h2, _, h3, _, h4, rfl, rfl, rfl, rfl⟩ := h
      exact Or.inl ⟨l, rfl, h1, h2, h3, h4⟩
    · next x y z w =>
      simp only [Option.bind_eq_some_iff, Option.map_eq_some_iff, index_iff, Prod.mk.injEq] at h
      obtain ⟨_, h1, _, h2, _, h3, _, h4, rfl, rfl, rfl, rfl⟩ := h
      unfold IsIndex at h1 h2 h3 h4
      exact Or.inr (by rw [h1, h2, h3, h4])
    · cases h
  · have hi : ∀ n : Nat, Json.index (.int n : Json K) = some n := fun n => (index_iff _ _).2 rfl
    rintro (⟨l, rfl, h1, h2, h3, h4⟩ | rfl)
    · simp only [Json.readTetrahedron, (required_iff index_iff).2 h1, (required_iff index_iff).2 h2,
        (required_iff index_iff).2 h3, (required_iff index_iff).2 h4, Option.bind_some, Option.map_some]
    · simp only [Json.readTetrahedron, hi, Option.bind_some, Option.map_some]

/-- C80: an output document is read as `o` exactly if it says `o` (`IsOutput`); everything else is refused. -/
theorem C80_read (L : Libs U) (j : Json K) (o : OutputDoc K U) : Json.readOutput L j = some o ↔ IsOutput L j o := by
  obtain ⟨u, n, t, cs, ts, qs⟩ := o
  unfold IsOutput
  constructor
  · intro h
    unfold Json.readOutput at h
    split at h
    · next l =>
      simp only [Option.bind_eq_some_iff, Option.map_eq_some_iff, required_iff text_iff, defaulted_iff text_iff,
        defaulted_iff (uuid_iff L), required_iff (list_iff readPoint3_iff), defaulted_iff (list_iff readTriangle_iff),
        defaulted_iff (list_iff readTetrahedron_iff), OutputDoc.mk.injEq] at h
      obtain ⟨_, h1, _, h2, _, h3, _, h4, _, h5, _, h6, rfl, rfl, rfl, rfl, rfl, rfl⟩ := h
      exact Or.inl ⟨l, rfl, h1, h2, h3, h4, h5, h6⟩
    · next a b c e rest =>
      split at h
      · next hl =>
        have e0 : Json.positional [] (Json.list Json.readTriangle) rest =
            Json.positional [] (Json.list Json.readTriangle) (rest.drop 0) := by rw [List.drop_zero]
        rw [e0] at h
        simp only [Option.bind_eq_some_iff, Option.map_eq_some_iff, text_iff, uuid_iff, list_iff readPoint3_iff,
          positional_iff (list_iff readTriangle_iff), positional_iff (list_iff readTetrahedron_iff),
          OutputDoc.mk.injEq] at h
        obtain ⟨_, h1, _, h2, _, h3, _, h4, _, h5, _, h6, rfl, rfl, rfl, rfl, rfl, rfl⟩ := h
        unfold IsText at h2 h3
        exact Or.inr ⟨a, e, rest, by rw [h2, h3], hl, h1, h4, h5, h6⟩
      · cases h
    · cases h
  · rintro (⟨l, rfl, h1, h2, h3, h4, h5, h6⟩ | ⟨a, e, rest, rfl, hl, h1, h4, h5, h6⟩)
    · simp only [Json.readOutput, (defaulted_iff (uuid_iff L)).2 h1, (required_iff text_iff).2 h2,
        (defaulted_iff text_iff).2 h3, (required_iff (list_iff readPoint3_iff)).2 h4,
        (defaulted_iff (list_iff readTriangle_iff)).2 h5, (defaulted_iff (list_iff readTetrahedron_iff)).2 h6,
        Option.bind_some, Option.map_some]
    · have := (positional_iff (list_iff readTriangle_iff)).2 h5
      rw [List.drop_zero] at this
      simp only [Json.readOutput, if_pos hl, (uuid_iff L _ _).2 h1, Json.text, (list_iff readPoint3_iff _ _).2 h4, this,
        (positional_iff (list_iff readTetrahedron_iff)).2 h6, Option.bind_some, Option.map_some]

/-- C80: what is written says the data, and nothing else. -/
theorem C80_written {L : Libs U} (hid : ∀ u, L.readId (L.writeId u) = some u) (o o' : OutputDoc K U) :
    IsOutput L (Json.writeOutput L o) o' ↔ o' = o := by
  rw [← C80_read, C80_round hid]
  exact ⟨fun h => (Option.some.inj h).symm, fun h => by rw [h]⟩

/-- C80: when the program writes a document, the input file held a document `d`, the output has its identifier, name and
date, and reading it back yields the coordinates (with third coordinate zero) and the triangles that the program computed
from the actions and parameters of `d`, and no tetrahedra. -/
theorem C80_main [IsStrictOrderedRing K] {L : Libs U} (hid : ∀ u, L.readId (L.writeId u) = some u) {eps : K}
    {fuel : Nat} {F : CircleFns K} {dist : Vertex K → Vertex K → K} {σ : Sched} {file : Option (Json K)} {out : Json K}
    (h : mainProgram L eps fuel F dist σ file = .ok out) :
    ∃ j d o w, file = some j ∧ IsInput L j d ∧ runProgram eps fuel F dist σ d.input = .ok o ∧
      Json.readOutput L out = some w ∧ w.id = d.id ∧ w.name = d.name ∧ w.date = d.date ∧
      w.coordinates = o.coordinates.map (fun v => (v.x, v.y, 0)) ∧ w.triangles = o.triangles ∧ w.tetrahedrons = [] ∧
      (∀ t ∈ w.triangles, t.1 < w.coordinates.length ∧ t.2.1 < w.coordinates.length ∧ t.2.2 < w.coordinates.length) := by
  unfold mainProgram at h
  split at h
  · cases h
  · next d hd =>
    obtain ⟨j, hj, hd⟩ := Option.bind_eq_some_iff.1 hd
    obtain ⟨o, ho, h⟩ := Res.bind_eq_ok.1 h
    injection h with h
    subst h
    refine ⟨j, d, o, outputDocument d o, hj, (C79_input L j d).1 hd, ho, C80_round hid _, rfl, rfl, rfl, rfl, rfl, rfl, ?_⟩
    intro t ht
    obtain ⟨-, _, _, _, _, order, -, -, -, -, -, hl⟩ := C61_output ho
    obtain ⟨l, hp, he⟩ := hl.triples
    have hlen : (outputDocument d o).coordinates.length = l.length := by
      simp [outputDocument, hp.length_eq]
    rw [hlen]
    have hm : lookup (reorder o l) t ∈ o.triangles.map (lookup (reorder o l)) := List.mem_map_of_mem ht
    rw [he] at hm
    obtain ⟨u, -, hu⟩ := List.mem_map.1 hm
    unfold lookup reorder at hu
    simp only at hu
    split at hu
    · next h1 h2 h3 =>
      exact ⟨(List.getElem?_eq_some_iff.1 h1).1, (List.getElem?_eq_some_iff.1 h2).1, (List.getElem?_eq_some_iff.1 h3).1⟩
    · cases hu

/-- C80: the program panics when the file is missing, is not JSON or does not say what is required. -/
theorem C80_refused (L : Libs U) {eps : K} {fuel : Nat} {F : CircleFns K} {dist : Vertex K → Vertex K → K} {σ : Sched}
    {file : Option (Json K)} (h : ∀ j d, file = some j → ¬ IsInput L j d) :
    mainProgram L eps fuel F dist σ file = .panic := by
  unfold mainProgram
  cases hf : file.bind (Json.readInput L) with
  | none => rfl
  | some d =>
    obtain ⟨j, hj, hd⟩ := Option.bind_eq_some_iff.1 hf
    exact absurd ((C79_input L j d).1 hd) (h j d hj)

/-- An output document written as arrays, without tetrahedra. -/
example : IsOutput ⟨some, id, "new", "today"⟩ (.arr [.str "7", .str "dart", .str "2020",
    .arr [.arr [.int 0, .int 0], .arr [.int 1, .int 0], .arr [.int 0, .int 1, .int 2]],
    .arr [.arr [.int 0, .int 1, .int 2]]] : Json ℚ)
    ⟨"7", "dart", "2020", [(0, 0, 0), (1, 0, 0), (0, 1, 2)], [(0, 1, 2)], []⟩ := (C80_read _ _ _).1 rfl

namespace ValidityExample

/-- Identifiers that are texts. -/
def textIds : Libs String := ⟨some, id, "new", "today"⟩

/-- The document of `dartInput`, with the parameters first, an entry that is not part of the format, points written as
objects and as arrays, and without identifier. -/
def dartDocument : Json ℚ :=
  .obj [("params", .obj [("quality", .int 10), ("max_area", .frac 3)]), ("comment", .null), ("date", .str "2020"),
    ("name", .str "dart"),
    ("actions", .arr [
      .obj [("geometry", .str "vertices"), ("intent", .str "constraint"),
        ("points", .arr [.obj [("x", .int 1), ("y", .frac 3)], .arr [.int 3, .int 3, .int 7]])],
      .obj [("intent", .str "include"), ("geometry", .str "polyline"),
        ("points", .arr [.arr [.int 0, .int 0], .arr [.int 4, .int 0], .arr [.int 4, .int 4], .arr [.int 2, .int 3],
          .arr [.int 0, .int 4]])],
      .arr [.str "constraint", .str "vertices", .arr [], .arr [.arr [.int 2, .int 1]]]])]

/-- C79 applies: this is what the document says. -/
example : IsInput textIds dartDocument ⟨"new", "dart", "2020", dartInput⟩ := (C79_input _ _ _).1 rfl

/-- Without the parameters the document says nothing. -/
example : ∀ d, ¬ IsInput textIds (.obj [("name", .str "dart"), ("actions", .arr [])] : Json ℚ) d := fun d h => by
  have := (C79_input _ _ _).2 h
  cases this

/-- C80 applies: the program writes a document with this name and date, 13 coordinates and 14 triangles. -/
example : ∃ out w, mainProgram textIds 0 60 noCircles blocks (order 3) (some dartDocument) = .ok out ∧
    Json.readOutput textIds out = some w ∧ w.name = "dart" ∧ w.date = "2020" ∧ w.coordinates.length = 13 ∧
    w.triangles.length = 14 := by
  obtain ⟨o, h, n1, n2⟩ := of_written written_dart
  have hr : Json.readInput textIds dartDocument = some ⟨"new", "dart", "2020", dartInput⟩ := rfl
  have hm : mainProgram textIds 0 60 noCircles blocks (order 3) (some dartDocument) =
      .ok (Json.writeOutput textIds (outputDocument ⟨"new", "dart", "2020", dartInput⟩ o)) := by
    unfold mainProgram
    rw [Option.bind_some, hr]
    simp only
    rw [h, Res.bind_ok]
  refine ⟨_, outputDocument ⟨"new", "dart", "2020", dartInput⟩ o, hm, C80_round (fun _ => rfl) _, rfl, rfl, ?_, n2⟩
  rw [← n1]
  exact List.length_map _

end ValidityExample

end Verif.Props
