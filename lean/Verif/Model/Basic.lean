import Mathlib.Data.List.Perm.Basic
import Mathlib.Data.List.Nodup

/-!
# Results, schedulers and list-based sets

Common vocabulary of the model. It models no particular file of `/repo`; it fixes how
Rust panics, non-terminating loops and randomised hash iteration are represented.
-/

namespace Verif

/-- Outcome of a Rust computation: a value, a panic (`unwrap` on `None`, `panic!`, bad index),
or "the loop did not finish within the given number of iterations". -/
inductive Res (α : Type*) where
  | ok (a : α)
  | panic
  | diverged
  deriving DecidableEq, Repr

namespace Res

variable {α β : Type*}

/-- Sequencing. -/
def bind (r : Res α) (f : α → Res β) : Res β :=
  match r with
  | ok a => f a
  | panic => panic
  | diverged => diverged

instance : Monad Res where
  pure := ok
  bind := bind

/-- `Option::unwrap`. -/
def unwrap (o : Option α) : Res α :=
  match o with
  | some a => ok a
  | none => panic

/-- The value, when there is one. -/
def toOption : Res α → Option α
  | ok a => some a
  | _ => none

end Res

/-- A scheduler decides, at every place where the code iterates a hash container, which element
comes next. It is an infinite tree of natural numbers: `σ []` is the decision taken now,
`σ.sub k` is the scheduler handed to the `k`-th sub-computation. Quantifying over all
schedulers quantifies over all iteration orders (`std::collections::hash_map::RandomState`). -/
def Sched := List Nat → Nat

namespace Sched

/-- The scheduler of the `k`-th sub-computation. -/
def sub (σ : Sched) (k : Nat) : Sched := fun path => σ (k :: path)

/-- The decision taken now. -/
def here (σ : Sched) : Nat := σ []

/-- The scheduler that always takes the first element. -/
def first : Sched := fun _ => 0

end Sched

section containers

variable {α : Type*}

/-- `set.iter().next()` / `map.keys().next()`: some element, chosen by the scheduler. -/
def choose (σ : Sched) (l : List α) : Option α := l[σ.here % l.length]?

/-- One pass over a hash container in the order decided by the scheduler. The first argument bounds
the number of elements (the length of the list). -/
def shuffleAux (σ : Sched) : Nat → List α → List α
  | 0, _ => []
  | n + 1, l =>
    match l[(σ.sub n).here % l.length]? with
    | none => []
    | some a => a :: shuffleAux σ n (l.eraseIdx ((σ.sub n).here % l.length))

/-- All elements of a hash container in the order decided by the scheduler. -/
def shuffle (σ : Sched) (l : List α) : List α := shuffleAux σ l.length l

/-- `HashSet::insert` on a set represented by a list without repetitions. -/
def setInsert [DecidableEq α] (a : α) (l : List α) : List α := if a ∈ l then l else a :: l

/-- `HashSet::remove`. -/
def setErase [DecidableEq α] (a : α) (l : List α) : List α := l.filter (fun b => !decide (b = a))

/-- `iter().cloned().collect::<HashSet<_>>()`. -/
def toSet [DecidableEq α] (l : List α) : List α := l.foldl (fun s a => setInsert a s) []

/-- Iterated union `a.iter().chain(b.iter()).cloned().collect::<HashSet<_>>()`. -/
def setUnion [DecidableEq α] (a b : List α) : List α := toSet (a ++ b)

end containers

end Verif
