import Verif.Model.Zpaq
import Mathlib.Analysis.SpecialFunctions.Log.Base
/-!
# C67: the floating point logarithm of `Zpaq::fragment_ave_from_max`

The model replaces `(max as f64 / 4096.0).log2() as u8` (src/zpaq.rs:56-59) by `⌊log2 (max / 4096)⌋`, computed
exactly. Here: this is the floor of the real logarithm, and the real logarithm is so far below the next integer
that a floating point result which is too large by less than `2^-45` (four units in the last place for results
between 32 and 64, more below) gives the same.
-/

namespace HashRoll.Props

/-- `⌊log2 (n / 4096)⌋` in the reals, for `n ≥ 4096` -/
theorem log2_bounds {n : Nat} (h : 4096 ≤ n) :
    2 ^ (Nat.log2 (n / 4096) + 12) ≤ n ∧ n + 1 ≤ 2 ^ (Nat.log2 (n / 4096) + 13) := by
  have hne : n / 4096 ≠ 0 := by omega
  have h1 := Nat.log2_self_le hne
  have h2 := Nat.lt_log2_self (n := n / 4096)
  generalize Nat.log2 (n / 4096) = f at h1 h2
  have e1 : 2 ^ (f + 12) = 2 ^ f * 4096 := by rw [Nat.pow_add]
  have e2 : 2 ^ (f + 13) = 2 ^ (f + 1) * 4096 := by rw [show f + 13 = (f + 1) + 12 by omega, Nat.pow_add]
  rw [e1, e2]
  omega

/-- Any `y` between the result and slightly (`2^-45`) above the real logarithm has the floor the model uses. -/
theorem C67_margin (max : BitVec 64) (h1 : 4096 ≤ max.toNat) (h2 : max.toNat < 2 ^ 45) (y : ℝ)
    (hlo : (Zpaq.fragmentAveFromMax max).toNat ≤ y)
    (hy : y < Real.logb 2 (max.toNat / 4096) + 1 / 2 ^ 45) :
    ⌊y⌋ = (Zpaq.fragmentAveFromMax max).toNat := by
  obtain ⟨k1, k2⟩ := log2_bounds h1
  have hf : (Zpaq.fragmentAveFromMax max).toNat = Nat.log2 (max.toNat / 4096) := by
    rw [Zpaq.fragmentAveFromMax, BitVec.toNat_ofNat]
    apply Nat.mod_eq_of_lt
    by_contra hc
    have : 2 ^ 45 ≤ 2 ^ (Nat.log2 (max.toNat / 4096) + 12) := Nat.pow_le_pow_right (by decide) (by omega)
    omega
  rw [hf] at hlo ⊢
  have hf32 : Nat.log2 (max.toNat / 4096) ≤ 32 := by
    by_contra hc
    have : 2 ^ 45 ≤ 2 ^ (Nat.log2 (max.toNat / 4096) + 12) := Nat.pow_le_pow_right (by decide) (by omega)
    omega
  generalize Nat.log2 (max.toNat / 4096) = f at *
  generalize max.toNat = n at *
  rw [Int.floor_eq_iff]
  refine ⟨by exact_mod_cast hlo, ?_⟩
  have hn : (n : ℝ) ≤ 2 ^ (f + 13) - 1 := by
    have : ((n + 1 : ℕ) : ℝ) ≤ ((2 ^ (f + 13) : ℕ) : ℝ) := by exact_mod_cast k2
    push_cast at this; linarith
  have hnpos : (0 : ℝ) < n := by exact_mod_cast (by omega : 0 < n)
  -- x = n / 4096 ≤ 2^(f+1) (1 - 2^-(f+13))
  have hpow : (0 : ℝ) < 2 ^ (f + 13) := by positivity
  have hx : (n : ℝ) / 4096 ≤ 2 ^ (f + 1) * (1 - 1 / 2 ^ (f + 13)) := by
    have e : (2 : ℝ) ^ (f + 13) = 2 ^ (f + 1) * 4096 := by rw [show f + 13 = (f + 1) + 12 by omega, pow_add]; norm_num
    rw [div_le_iff₀ (by norm_num)]
    rw [mul_sub, mul_one, sub_mul, ← e]
    have : (2 : ℝ) ^ (f + 1) * (1 / 2 ^ (f + 13)) * 4096 = 1 := by
      rw [e]; field_simp
    rw [this]; exact hn
  have hle1 : (1 : ℝ) / 2 ^ (f + 13) ≤ 1 / 2 := by
    apply one_div_le_one_div_of_le (by norm_num)
    calc (2 : ℝ) = 2 ^ 1 := by norm_num
      _ ≤ 2 ^ (f + 13) := pow_le_pow_right₀ (by norm_num) (by omega)
  have hpos : (0 : ℝ) < 1 - 1 / 2 ^ (f + 13) := by linarith
  have hlog : Real.logb 2 (n / 4096) ≤ (f + 1) + Real.logb 2 (1 - 1 / 2 ^ (f + 13)) := by
    have := Real.logb_le_logb_of_le (b := 2) (by norm_num) (by positivity) hx
    rw [Real.logb_mul (by positivity) hpos.ne', Real.logb_pow, Real.logb_self_eq_one (by norm_num)] at this
    push_cast at this
    linarith
  have hlog2 : Real.logb 2 (1 - 1 / 2 ^ (f + 13)) ≤ - (1 / 2 ^ (f + 13)) := by
    have h3 := Real.log_le_sub_one_of_pos hpos
    have h4 : Real.log (1 - 1 / 2 ^ (f + 13)) ≤ - (1 / 2 ^ (f + 13)) := by linarith
    rw [Real.logb, div_le_iff₀ (Real.log_pos (by norm_num))]
    have h5 : Real.log 2 ≤ 1 := by have := Real.log_le_sub_one_of_pos (show (0:ℝ) < 2 by norm_num); linarith
    have h6 : (0 : ℝ) < 1 / 2 ^ (f + 13) := by positivity
    nlinarith
  have h45 : (1 : ℝ) / 2 ^ 45 ≤ 1 / 2 ^ (f + 13) := by
    apply one_div_le_one_div_of_le (by positivity)
    exact pow_le_pow_right₀ (by norm_num) (by omega)
  push_cast
  linarith

/-- In particular the model computes the floor of the real logarithm. -/
theorem C67_floor (max : BitVec 64) (h1 : 4096 ≤ max.toNat) (h2 : max.toNat < 2 ^ 45) :
    ⌊Real.logb 2 (max.toNat / 4096)⌋ = (Zpaq.fragmentAveFromMax max).toNat := by
  apply C67_margin max h1 h2
  · obtain ⟨k1, _⟩ := log2_bounds h1
    have hf : (Zpaq.fragmentAveFromMax max).toNat ≤ Nat.log2 (max.toNat / 4096) := by
      rw [Zpaq.fragmentAveFromMax, BitVec.toNat_ofNat]; exact Nat.mod_le _ _
    refine le_trans (Nat.cast_le.2 hf) ?_
    have hk : ((2 : ℝ) ^ (Nat.log2 (max.toNat / 4096) + 12)) ≤ max.toNat := by exact_mod_cast k1
    have hpos : (0 : ℝ) < max.toNat := by exact_mod_cast (by omega : 0 < max.toNat)
    rw [Real.le_logb_iff_rpow_le (by norm_num) (by positivity), Real.rpow_natCast, le_div_iff₀ (by norm_num)]
    rw [pow_add] at hk
    norm_num at hk ⊢
    exact hk
  · have : (0 : ℝ) < 1 / 2 ^ 45 := by positivity
    linarith
example : 4096 ≤ (65536 : BitVec 64).toNat ∧ (65536 : BitVec 64).toNat < 2 ^ 45 ∧
    Zpaq.fragmentAveFromMax 65536 = 4 := by decide

/-- Below 4096 the logarithm is negative and the cast `as u8` gives 0, as the model does. -/
theorem C67_small (max : BitVec 64) (h0 : 0 < max.toNat) (h1 : max.toNat < 4096) :
    Real.logb 2 (max.toNat / 4096) < 0 ∧ Zpaq.fragmentAveFromMax max = 0 := by
  constructor
  · have hpos : (0 : ℝ) < max.toNat := by exact_mod_cast h0
    apply Real.logb_neg (by norm_num) (by positivity)
    rw [div_lt_one (by norm_num)]
    exact_mod_cast h1
  · rw [Zpaq.fragmentAveFromMax, Nat.div_eq_of_lt h1]; rfl
example : 0 < (4095 : BitVec 64).toNat ∧ (4095 : BitVec 64).toNat < 4096 := by decide

/-- From `2^45` on the logarithm and the value of the model are at least 33; the callers panic for both. -/
theorem C67_large (max : BitVec 64) (h : 2 ^ 45 ≤ max.toNat) :
    33 ≤ Real.logb 2 (max.toNat / 4096) ∧ 33 ≤ (Zpaq.fragmentAveFromMax max).toNat := by
  constructor
  · have hk : ((2 : ℝ) ^ 45) ≤ max.toNat := by exact_mod_cast h
    have hpos : (0 : ℝ) < max.toNat := lt_of_lt_of_le (by positivity) hk
    rw [Real.le_logb_iff_rpow_le (by norm_num) (by positivity), le_div_iff₀ (by norm_num)]
    rw [show (33 : ℝ) = ((33 : ℕ) : ℝ) by norm_num, Real.rpow_natCast]
    norm_num at hk ⊢
    exact hk
  · have hlt := max.isLt
    have hne : max.toNat / 4096 ≠ 0 := by omega
    have h1 : 33 ≤ Nat.log2 (max.toNat / 4096) := (Nat.le_log2 hne).2 (by omega)
    have h2 : Nat.log2 (max.toNat / 4096) < 52 := (Nat.log2_lt hne).2 (by omega)
    rw [Zpaq.fragmentAveFromMax, BitVec.toNat_ofNat, Nat.mod_eq_of_lt (by omega)]
    exact h1
example : 2 ^ 45 ≤ (0x200000000000 : BitVec 64).toNat := by decide

end HashRoll.Props
