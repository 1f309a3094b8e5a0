import Verif.Model.Basic
/-!
# src/range.rs

The trait is generic over `T: PartialOrd` and `R: RangeBounds<T>`; a range is represented by its two
bounds (`start_bound()`, `end_bound()`), and `T` by any type with decidable `<` and `≤`
(the crate uses `u64`).
-/

namespace HashRoll

/-- `std::ops::Bound` -/
inductive Bound (α : Type)
  | included (a : α)
  | excluded (a : α)
  | unbounded
deriving DecidableEq, Repr

/-- A value of a `RangeBounds` type, seen through `start_bound()` and `end_bound()`. -/
structure Bounds (α : Type) where
  start : Bound α
  stop  : Bound α
deriving DecidableEq, Repr

variable {α : Type} [LT α] [LE α] [DecidableLT α] [DecidableLE α]

/-- `RangeExt::exceeds_max` (src/range.rs:22-41) -/
def Bounds.exceedsMax (self : Bounds α) (item : α) : Bool :=
  match self.stop with
  | .included i => if item > i then true else false
  | .excluded i => if item ≥ i then true else false
  | .unbounded  => false

/-- `RangeExt::under_min` (src/range.rs:43-62) -/
def Bounds.underMin (self : Bounds α) (item : α) : Bool :=
  match self.start with
  | .included i => if item < i then true else false
  | .excluded i => if item ≤ i then true else false
  | .unbounded  => false

/-- `RangeExt::contains` (src/range.rs:64-78) -/
def Bounds.contains (self : Bounds α) (item : α) : Bool :=
  if self.underMin item then false
  else if self.exceedsMax item then false
  else true

/-- `bound_cloned` (src/range.rs:103-109) -/
def boundCloned {α : Type} (src : Bound α) : Bound α :=
  match src with
  | .unbounded  => .unbounded
  | .included x => .included x
  | .excluded x => .excluded x

/-- `RangeExt::into_tuple` (src/range.rs:80-88) -/
def Bounds.intoTuple {α : Type} (self : Bounds α) : Bounds α :=
  { start := boundCloned self.start, stop := boundCloned self.stop }

/-- Not in the source: a bound on `u64` read as a bound on numbers. -/
def Bound.toNat (b : Bound (BitVec 64)) : Bound Nat :=
  match b with
  | .included x => .included x.toNat
  | .excluded x => .excluded x.toNat
  | .unbounded  => .unbounded

end HashRoll
