import Verif.Model.Tables
/-!
# Walsh coefficients of a table, packed into one number (for C90)

`walshSum t m` is `∑ a < 2^m, W a * 1024^a` with `W a = ∑ x ∈ t, (-1)^(number of common bits of a and x)`; it is a product of `m` factors
per entry, so the kernel computes all `2^m` coefficients at once.
-/

namespace HashRoll.Spec

/-- `(-1)^(bit i of x)` -/
def bsign (x : BitVec 32) (i : Nat) : Int := if x.getLsbD i then -1 else 1

/-- `∏_{i<m} (1 ± X^(2^i))` at `X = 1024` -/
def walshPoly (x : BitVec 32) : Nat → Int
  | 0 => 1
  | m + 1 => walshPoly x m * (1 + bsign x m * 1024 ^ 2 ^ m)

def walshSum (t : List (BitVec 32)) (m : Nat) : Int := (t.map (walshPoly · m)).sum

/-- the lowest `n` digits to the base 1024 are between `lo` and `hi` -/
def digitsWithin (lo hi : Nat) : Nat → Nat → Bool
  | 0, _ => true
  | n + 1, x => Nat.ble lo (x % 1024) && Nat.ble (x % 1024) hi && digitsWithin lo hi n (x / 1024)

/-- `∑ a < n, (W a + 256) * 1024^a` for `n = 2^12` -/
def walshDigits (t : List (BitVec 32)) (n : Nat) : Nat := (walshSum t 12 + 256 * ((1024 ^ n - 1) / 1023 : Nat)).toNat

/-- all coefficients but the one for `a = 0` are at most `B` in absolute value, for the first 12 bits of the entries rotated by `r` -/
def walshOk (t : Vector (BitVec 32) 256) (B r : Nat) : Bool :=
  digitsWithin (256 - B) (256 + B) 4095 (walshDigits (t.toList.map (·.rotateLeft r)) 4096 / 1024)

set_option maxRecDepth 100000 in
theorem walshOk_go0 : ∀ r < 4, walshOk Tables.goBuzhash 76 (r + 0) = true := by decide +kernel

set_option maxRecDepth 100000 in
theorem walshOk_go1 : ∀ r < 4, walshOk Tables.goBuzhash 76 (r + 4) = true := by decide +kernel

set_option maxRecDepth 100000 in
theorem walshOk_go2 : ∀ r < 4, walshOk Tables.goBuzhash 76 (r + 8) = true := by decide +kernel

set_option maxRecDepth 100000 in
theorem walshOk_go3 : ∀ r < 4, walshOk Tables.goBuzhash 76 (r + 12) = true := by decide +kernel

set_option maxRecDepth 100000 in
theorem walshOk_go4 : ∀ r < 4, walshOk Tables.goBuzhash 76 (r + 16) = true := by decide +kernel

set_option maxRecDepth 100000 in
theorem walshOk_go5 : ∀ r < 4, walshOk Tables.goBuzhash 76 (r + 20) = true := by decide +kernel

set_option maxRecDepth 100000 in
theorem walshOk_go6 : ∀ r < 4, walshOk Tables.goBuzhash 76 (r + 24) = true := by decide +kernel

set_option maxRecDepth 100000 in
theorem walshOk_go7 : ∀ r < 4, walshOk Tables.goBuzhash 76 (r + 28) = true := by decide +kernel

theorem walshOk_go (r : Nat) (h : r < 32) : walshOk Tables.goBuzhash 76 r = true := by
  by_cases h0 : r < 4
  · exact walshOk_go0 r h0
  by_cases h1 : r < 8
  · have := walshOk_go1 (r - 4) (by omega)
    rwa [Nat.sub_add_cancel (by omega)] at this
  by_cases h2 : r < 12
  · have := walshOk_go2 (r - 8) (by omega)
    rwa [Nat.sub_add_cancel (by omega)] at this
  by_cases h3 : r < 16
  · have := walshOk_go3 (r - 12) (by omega)
    rwa [Nat.sub_add_cancel (by omega)] at this
  by_cases h4 : r < 20
  · have := walshOk_go4 (r - 16) (by omega)
    rwa [Nat.sub_add_cancel (by omega)] at this
  by_cases h5 : r < 24
  · have := walshOk_go5 (r - 20) (by omega)
    rwa [Nat.sub_add_cancel (by omega)] at this
  by_cases h6 : r < 28
  · have := walshOk_go6 (r - 24) (by omega)
    rwa [Nat.sub_add_cancel (by omega)] at this
  have := walshOk_go7 (r - 28) (by omega)
  rwa [Nat.sub_add_cancel (by omega)] at this

set_option maxRecDepth 100000 in
theorem walshOk_borg0 : ∀ r < 4, walshOk Tables.borgBuzhashBase 72 (r + 0) = true := by decide +kernel

set_option maxRecDepth 100000 in
theorem walshOk_borg1 : ∀ r < 4, walshOk Tables.borgBuzhashBase 72 (r + 4) = true := by decide +kernel

set_option maxRecDepth 100000 in
theorem walshOk_borg2 : ∀ r < 4, walshOk Tables.borgBuzhashBase 72 (r + 8) = true := by decide +kernel

set_option maxRecDepth 100000 in
theorem walshOk_borg3 : ∀ r < 4, walshOk Tables.borgBuzhashBase 72 (r + 12) = true := by decide +kernel

set_option maxRecDepth 100000 in
theorem walshOk_borg4 : ∀ r < 4, walshOk Tables.borgBuzhashBase 72 (r + 16) = true := by decide +kernel

set_option maxRecDepth 100000 in
theorem walshOk_borg5 : ∀ r < 4, walshOk Tables.borgBuzhashBase 72 (r + 20) = true := by decide +kernel

set_option maxRecDepth 100000 in
theorem walshOk_borg6 : ∀ r < 4, walshOk Tables.borgBuzhashBase 72 (r + 24) = true := by decide +kernel

set_option maxRecDepth 100000 in
theorem walshOk_borg7 : ∀ r < 4, walshOk Tables.borgBuzhashBase 72 (r + 28) = true := by decide +kernel

theorem walshOk_borg (r : Nat) (h : r < 32) : walshOk Tables.borgBuzhashBase 72 r = true := by
  by_cases h0 : r < 4
  · exact walshOk_borg0 r h0
  by_cases h1 : r < 8
  · have := walshOk_borg1 (r - 4) (by omega)
    rwa [Nat.sub_add_cancel (by omega)] at this
  by_cases h2 : r < 12
  · have := walshOk_borg2 (r - 8) (by omega)
    rwa [Nat.sub_add_cancel (by omega)] at this
  by_cases h3 : r < 16
  · have := walshOk_borg3 (r - 12) (by omega)
    rwa [Nat.sub_add_cancel (by omega)] at this
  by_cases h4 : r < 20
  · have := walshOk_borg4 (r - 16) (by omega)
    rwa [Nat.sub_add_cancel (by omega)] at this
  by_cases h5 : r < 24
  · have := walshOk_borg5 (r - 20) (by omega)
    rwa [Nat.sub_add_cancel (by omega)] at this
  by_cases h6 : r < 28
  · have := walshOk_borg6 (r - 24) (by omega)
    rwa [Nat.sub_add_cancel (by omega)] at this
  have := walshOk_borg7 (r - 28) (by omega)
  rwa [Nat.sub_add_cancel (by omega)] at this

end HashRoll.Spec
