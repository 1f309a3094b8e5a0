import Verif.Props.GearDigits
/-!
# The distribution of 15 and of 9 entries of the Gear64 table, packed into one number (for C93)

As in `GearDigits`, for sums modulo `2^k` and windows of `2^w` places.
-/

namespace HashRoll.Spec

def moduOf (k : Nat) : Nat := 2 ^ (136 * 2 ^ k) - 1

/-- `∏ i < j, ∑ e ∈ t, (2^136)^(e * 2^i)` modulo `moduOf k` -/
def prodOf (k : Nat) (t : List Nat) : Nat → Nat
  | 0 => 1
  | j + 1 => prodOf k t j * packed k (t.map (· * 2 ^ j)) % moduOf k

def windowDigits (k w : Nat) (t : List Nat) : Nat := prodOf k t k * packed w (List.range (2 ^ w)) % moduOf k

set_option maxRecDepth 100000 in
theorem windowDigits_15 : within (2 ^ 110 - 2 ^ 110 / 10 ^ 7) (2 ^ 110 + 2 ^ 110 / 10 ^ 7) 15
    (windowDigits 15 5 (Tables.gear64.toList.map (·.toNat))) = true := by decide +kernel

set_option maxRecDepth 100000 in
theorem windowDigits_9 : within (2 ^ 69 - 2 ^ 69 / 10 ^ 7) (2 ^ 69 + 2 ^ 69 / 10 ^ 7) 9
    (windowDigits 9 6 (Tables.gear64.toList.map (·.toNat))) = true := by decide +kernel

end HashRoll.Spec
