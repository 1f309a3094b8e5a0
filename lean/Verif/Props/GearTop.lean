import Verif.Props.GearDigits
/-!
# The distribution of the first 16 bits of the newest entries of the Gear32 table, packed into one number (for C92)

As in `GearDigits`: `topDigits t d = ∑ o, i < 8 + d, Q^((G o + i) % 2^16)`, with `G` the sum of the first 16 bits of `d` entries shifted by
`0, ..., d - 1` places.
-/

namespace HashRoll.Spec

/-- `∏ i < j, ∑ e ∈ t, (2^136)^(e * 2^i % 2^32 / 2^16)` modulo `modu` -/
def topProd (t : List Nat) : Nat → Nat
  | 0 => 1
  | j + 1 => topProd t j * packed 16 (t.map fun e => e * 2 ^ j % 2 ^ 32 / 2 ^ 16) % modu

def topDigits (t : List Nat) (d : Nat) : Nat := topProd t d * packed 4 (List.range (8 + d)) % modu

set_option maxRecDepth 100000 in
theorem topDigits_1 : within 0 20 16 (topDigits (Tables.gear32.toList.map (·.toNat)) 1) = true := by decide +kernel

set_option maxRecDepth 100000 in
theorem topDigits_2 : within 0 410 16 (topDigits (Tables.gear32.toList.map (·.toNat)) 2) = true := by decide +kernel

set_option maxRecDepth 100000 in
theorem topDigits_3 : within 0 10797 16 (topDigits (Tables.gear32.toList.map (·.toNat)) 3) = true := by decide +kernel

set_option maxRecDepth 100000 in
theorem topDigits_4 : within 0 949409 16 (topDigits (Tables.gear32.toList.map (·.toNat)) 4) = true := by decide +kernel

end HashRoll.Spec
