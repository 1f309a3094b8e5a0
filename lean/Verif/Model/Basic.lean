/-!
# Basic vocabulary of the model

Bytes, slices, panics and the two loop shapes used by hash-roll.
-/

namespace HashRoll

/-- `&[u8]` / `Vec<u8>`: a slice of bytes. -/
abbrev Bytes := List UInt8

/-- The ways the modelled Rust code can panic. -/
inductive Panic
  | indexOutOfBounds   -- `a[i]`, `i >= a.len()`
  | sliceIndex         -- `a[i..j]`, `i > j` or `j > a.len()`
  | splitAt            -- `a.split_at(i)`, `i > a.len()`
  | unwrapNone         -- `None.unwrap()`
  | remByZero          -- `x % 0`
  | overflow           -- arithmetic or shift overflow in a build with overflow checks
  | assertFailed       -- `assert!(false)`
  | tryFromInt         -- `Err(TryFromIntError).unwrap()`
deriving DecidableEq, Repr

/-- Result of running a piece of Rust code: a value, or a panic. -/
abbrev R (α : Type) := Except Panic α

/-- `data[i]` (core slice indexing). -/
def index {α : Type} (data : List α) (i : Nat) : R α :=
  match data[i]? with
  | some b => .ok b
  | none   => .error .indexOutOfBounds

/-- `data[a..b]` (core slice range indexing). -/
def slice (data : Bytes) (a b : Nat) : R Bytes :=
  if a ≤ b ∧ b ≤ data.length then .ok ((data.take b).drop a) else .error .sliceIndex

/-- Outcome of a loop body: go on with the next iteration, or `return` from the function.
Both carry the mutated state. -/
inductive Flow (σ ρ : Type)
  | next (s : σ)
  | ret  (s : σ) (r : ρ)

/-- `for (i, v) in data.iter().enumerate() { body }`, started at index `i`. -/
def forEnum {σ ρ : Type} (body : Nat → UInt8 → σ → R (Flow σ ρ)) : Nat → Bytes → σ → R (Flow σ ρ)
  | _, [],      s => .ok (.next s)
  | i, v :: vs, s =>
    match body i v s with
    | .error e        => .error e
    | .ok (.next s')  => forEnum body (i + 1) vs s'
    | .ok (.ret s' r) => .ok (.ret s' r)

/-- `for i in a..a+count { body }`. A Rust range `a..b` runs `b - a` iterations (none if `a >= b`). -/
def forRange {σ ρ : Type} (body : Nat → σ → R (Flow σ ρ)) : (count : Nat) → Nat → σ → R (Flow σ ρ)
  | 0,         _, s => .ok (.next s)
  | count + 1, i, s =>
    match body i s with
    | .error e        => .error e
    | .ok (.next s')  => forRange body count (i + 1) s'
    | .ok (.ret s' r) => .ok (.ret s' r)

/-- Cargo build profile: with overflow checks (`debug`) or wrapping (`release`). -/
inductive Profile
  | debug
  | release
deriving DecidableEq, Repr

/-- `x << n` on a `w`-bit unsigned integer (`n` any unsigned amount): with overflow checks a shift by
`>= w` panics, without them the amount is taken modulo `w`. -/
def shl {w : Nat} (prof : Profile) (x : BitVec w) (n : Nat) : R (BitVec w) :=
  if n < w then .ok (x <<< n)
  else match prof with
    | .debug   => .error .overflow
    | .release => .ok (x <<< (n % w))

/-- `x - y` on a `w`-bit unsigned integer. -/
def sub {w : Nat} (prof : Profile) (x y : BitVec w) : R (BitVec w) :=
  if y ≤ x then .ok (x - y)
  else match prof with
    | .debug   => .error .overflow
    | .release => .ok (x - y)

/-- `x + y` on a `w`-bit unsigned integer. -/
def add {w : Nat} (prof : Profile) (x y : BitVec w) : R (BitVec w) :=
  if x.toNat + y.toNat < 2 ^ w then .ok (x + y)
  else match prof with
    | .debug   => .error .overflow
    | .release => .ok (x + y)

/-- `x * y` on a `w`-bit unsigned integer. -/
def mul {w : Nat} (prof : Profile) (x y : BitVec w) : R (BitVec w) :=
  if x.toNat * y.toNat < 2 ^ w then .ok (x * y)
  else match prof with
    | .debug   => .error .overflow
    | .release => .ok (x * y)

/-- `assert!(c)` -/
def assert (c : Prop) [Decidable c] : R Unit := if c then .ok () else .error .assertFailed

/-- `[T; 256]` indexed by a `u8` (`table[b as usize]`): never out of range. -/
def lookup {α : Type} (t : Vector α 256) (b : UInt8) : α := t[b.toNat]'b.toNat_lt

/-- `table[b as usize] = x` on a `[T; 256]`. -/
def store {α : Type} (t : Vector α 256) (b : UInt8) (x : α) : Vector α 256 :=
  t.set b.toNat x b.toNat_lt

/-- `a[..] == b[..]` on slices (core): equal length and pairwise equal elements -/
def sliceEq {α : Type} [BEq α] (a b : List α) : Bool := a.length == b.length && (a.zip b).all fun x => x.1 == x.2

end HashRoll
