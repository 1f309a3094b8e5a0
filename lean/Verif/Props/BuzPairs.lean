import Verif.Model.Tables
/-!
# How often two entries of the Go table make up each value, packed into one number (for C92)
-/

namespace HashRoll.Spec

/-- `∑ y ∈ m, (2^17)^(x ^^^ y)` -/
def xorRow (x : Nat) : List Nat → Nat
  | [] => 0
  | y :: m => (2 ^ 17) ^ (x ^^^ y) + xorRow x m

/-- `∑ x ∈ l, ∑ y ∈ m, (2^17)^(x ^^^ y)` -/
def xorRows (m : List Nat) : List Nat → Nat
  | [] => 0
  | x :: l => xorRow x m + xorRows m l

/-- all `2^k` digits to the base `2^17` are at most `hi` -/
def digitsLe (hi : Nat) : Nat → Nat → Bool
  | 0, x => Nat.ble x hi
  | k + 1, x => digitsLe hi k (x % (2 ^ 17) ^ 2 ^ k) && digitsLe hi k (x / (2 ^ 17) ^ 2 ^ k)

/-- the last 12 bits of the entries rotated by `r` -/
def lowBits (t : List (BitVec 32)) (r : Nat) : List Nat := t.map fun x => (x.rotateLeft r).toNat % 4096

set_option maxRecDepth 100000 in
theorem goPairs_le : digitsLe 31 12 (xorRows (lowBits Tables.goBuzhash.toList 1) (lowBits Tables.goBuzhash.toList 0)) = true := by
  decide +kernel

end HashRoll.Spec
