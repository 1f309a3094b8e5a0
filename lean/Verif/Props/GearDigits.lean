import Verif.Model.Tables
/-!
# The distribution of 16 entries of the Gear32 table, packed into one number (for C91)

With `Q = 2^136` and `G` the Gear hash of 16 bytes, `gearDigits t = ∑ o, i < 8, Q^((G o + i) % 2^16)`, a number whose `2^16` digits to the
base `Q` count strings. It is a product of 17 factors modulo `Q^(2^16) - 1`, so the kernel can compute it.
-/

namespace HashRoll.Spec

/-- `∑ e ∈ l, (2^136)^(e % 2^k)` -/
def packed : Nat → List Nat → Nat
  | 0, l => l.length
  | k + 1, l =>
    match l with
    | [] => 0
    | e :: l => packed k ((e :: l).filter fun e => !e.testBit k) + packed k ((e :: l).filter (·.testBit k)) * 2 ^ (136 * 2 ^ k)

/-- all `2^k` digits to the base `2^136` are between `lo` and `hi` -/
def within (lo hi : Nat) : Nat → Nat → Bool
  | 0, x => Nat.ble lo x && Nat.ble x hi
  | k + 1, x => within lo hi k (x % 2 ^ (136 * 2 ^ k)) && within lo hi k (x / 2 ^ (136 * 2 ^ k))

def modu : Nat := 2 ^ (136 * 2 ^ 16) - 1

/-- `∏ i < j, ∑ e ∈ t, (2^136)^(e * 2^i)` modulo `modu` -/
def prodMod (t : List Nat) : Nat → Nat
  | 0 => 1
  | j + 1 => prodMod t j * packed 16 (t.map (· * 2 ^ j)) % modu

def gearDigits (t : List Nat) : Nat := prodMod t 16 * packed 3 (List.range 8) % modu

set_option maxRecDepth 100000 in
theorem gearDigits_within : within (2 ^ 115 - 2 ^ 115 / 200000) (2 ^ 115 + 2 ^ 115 / 200000) 16
    (gearDigits (Tables.gear32.toList.map (·.toNat))) = true := by decide +kernel

end HashRoll.Spec
