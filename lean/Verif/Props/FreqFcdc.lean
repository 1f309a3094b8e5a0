import Verif.Props.FreqGear
import Verif.Props.FcdcDigits
import Verif.Props.MeanBounds
import Verif.Proofs.FastCdc
/-!
# C93: how often FastCDC's conditions for a cut hold
-/

namespace HashRoll.Spec

/-! ## the distribution of the sum of `k` entries -/

theorem moduOf_eq (k : Nat) : moduOf k = (2 ^ 136) ^ 2 ^ k - 1 := by rw [moduOf, pow_mul]

theorem prodOf_modEq (N : Nat) (t : List Nat) (T : UInt8 → Nat) (h : ∀ g : Nat → Nat, ∑ b ∈ bytes, g (T b) = (t.map g).sum) (k : Nat) :
    prodOf N t k ≡ ∑ o ∈ words k, (2 ^ 136) ^ gearNat T o [MOD moduOf N] := by
  induction k with
  | zero =>
    rw [show words 0 = {[]} by ext s; simp [mem_words], Finset.sum_singleton]
    rfl
  | succ k ih =>
    rw [prodOf, sum_pow_gearNat]
    refine (Nat.mod_modEq _ _).trans (ih.mul ?_)
    rw [packed_eq, h fun x => (2 ^ 136) ^ (x * 2 ^ k), List.map_map, moduOf_eq]
    refine sum_map_modEq _ _ _ _ fun x => ?_
    exact pow_mod_modEq _ _ _ (by positivity)

/-- how many strings of `k` bytes have a hash in the `2^w` places up to `c`, modulo `2^k` -/
def window (T : UInt8 → Nat) (k w c : Nat) : Nat := ∑ o ∈ words k, ∑ i ∈ Finset.range (2 ^ w), if (gearNat T o + i) % 2 ^ k = c then 1 else 0

theorem window_le (T : UInt8 → Nat) (k w c : Nat) : window T k w c ≤ 256 ^ k * 2 ^ w := by
  refine le_trans (Finset.sum_le_sum (g := fun _ => 2 ^ w) fun o _ => ?_) ?_
  · refine le_trans (Finset.sum_le_sum (g := fun _ => 1) fun i _ => ?_) ?_
    · split <;> omega
    · simp
  · rw [Finset.sum_const, card_words, smul_eq_mul]

theorem sum_window (T : UInt8 → Nat) (Q k w : Nat) : ∑ c ∈ Finset.range (2 ^ k), window T k w c * Q ^ c =
    ∑ o ∈ words k, ∑ i ∈ Finset.range (2 ^ w), Q ^ ((gearNat T o + i) % 2 ^ k) := by
  rw [Finset.sum_congr rfl fun c _ => by rw [window, Finset.sum_mul, Finset.sum_congr rfl fun o _ => Finset.sum_mul _ _ _]]
  rw [Finset.sum_comm]
  refine Finset.sum_congr rfl fun o _ => ?_
  rw [Finset.sum_comm]
  refine Finset.sum_congr rfl fun i _ => ?_
  rw [Finset.sum_eq_single ((gearNat T o + i) % 2 ^ k)]
  · rw [if_pos rfl, one_mul]
  · intro c _ hc
    rw [if_neg (Ne.symm hc), zero_mul]
  · intro h
    exact absurd (Finset.mem_range.2 (Nat.mod_lt _ (by positivity))) h

theorem packed_range (w : Nat) : packed w (List.range (2 ^ w)) = ∑ i ∈ Finset.range (2 ^ w), (2 ^ 136) ^ i := by
  rw [packed_eq]
  have : (List.range (2 ^ w)).map (fun e => (2 ^ 136) ^ (e % 2 ^ w)) = (List.range (2 ^ w)).map fun e => (2 ^ 136) ^ e :=
    List.map_congr_left fun e he => by rw [Nat.mod_eq_of_lt (List.mem_range.1 he)]
  rw [this]
  generalize 2 ^ w = n
  induction n with
  | zero => rfl
  | succ n ih => rw [List.range_succ, List.map_append, List.sum_append, Finset.sum_range_succ, ih]; simp

theorem windowDigits_eq (t : List Nat) (T : UInt8 → Nat) (h : ∀ g : Nat → Nat, ∑ b ∈ bytes, g (T b) = (t.map g).sum) (k w : Nat)
    (hk : 256 ^ k * 2 ^ w * 4 ≤ 2 ^ 136) : windowDigits k w t = ∑ c ∈ Finset.range (2 ^ k), window T k w c * (2 ^ 136) ^ c := by
  have hm := moduOf_eq k
  have h4 : (2 : Nat) < (2 ^ 136) ^ 2 ^ k := by
    refine Nat.lt_of_lt_of_le (by norm_num : 2 < 2 ^ 136) (Nat.le_self_pow (by positivity) _)
  have h1 : windowDigits k w t ≡ ∑ c ∈ Finset.range (2 ^ k), window T k w c * (2 ^ 136) ^ c [MOD moduOf k] := by
    rw [sum_window, windowDigits]
    refine (Nat.mod_modEq _ _).trans (((prodOf_modEq _ _ T h k).mul_right _).trans ?_)
    rw [Finset.sum_mul, packed_range]
    refine Nat.ModEq.sum fun o _ => ?_
    rw [Finset.mul_sum]
    refine Nat.ModEq.sum fun i _ => ?_
    rw [← pow_add, hm]
    exact (pow_mod_modEq _ _ _ (by positivity)).symm
  have h2 : windowDigits k w t < moduOf k := Nat.mod_lt _ (by rw [hm]; omega)
  have h3 : ∑ c ∈ Finset.range (2 ^ k), window T k w c * (2 ^ 136) ^ c < moduOf k := by
    have := sum_digits_lt (Q := 2 ^ 136) (2 ^ k) (fun c => 2 * window T k w c) fun c => by
      have := window_le T k w c
      have : (0 : Nat) < 256 ^ k * 2 ^ w := by positivity
      omega
    have e : ∑ c ∈ Finset.range (2 ^ k), 2 * window T k w c * (2 ^ 136) ^ c = 2 * ∑ c ∈ Finset.range (2 ^ k), window T k w c * (2 ^ 136) ^ c := by
      rw [Finset.mul_sum]
      exact Finset.sum_congr rfl fun c _ => by rw [mul_assoc]
    rw [e] at this
    rw [hm]
    generalize (2 ^ 136) ^ 2 ^ k = A at *
    omega
  exact Nat.ModEq.eq_of_lt_of_lt h1 h2 h3

/-! ## the bits of a mask -/

theorem and_eq_zero_shift {x m w : Nat} : x &&& (m * 2 ^ w) = 0 ↔ x / 2 ^ w &&& m = 0 := by
  have h : x &&& (m * 2 ^ w) = (x / 2 ^ w &&& m) * 2 ^ w := by
    rw [← Nat.shiftLeft_eq, ← Nat.shiftRight_eq_div_pow, ← Nat.shiftLeft_eq]
    apply Nat.eq_of_testBit_eq
    intro i
    simp only [Nat.testBit_and, Nat.testBit_shiftLeft, Nat.testBit_shiftRight]
    by_cases hi : w ≤ i
    · simp [hi]
    · simp [hi]
  rw [h]
  constructor
  · intro h0
    rcases Nat.mul_eq_zero.1 h0 with h0 | h0
    · exact h0
    · exact absurd h0 (by positivity)
  · intro h0; rw [h0, Nat.zero_mul]

/-- how many of the numbers below `n` have no bit of `m` -/
def clearOf (m n : Nat) : Nat := ((List.range n).filter fun u => u &&& m == 0).length

theorem clearOf_eq (m n : Nat) : clearOf m n = ∑ u ∈ Finset.range n, if u &&& m = 0 then 1 else 0 := by
  rw [clearOf]
  induction n with
  | zero => rfl
  | succ n ih =>
    rw [List.range_succ, List.filter_append, List.length_append, ih, Finset.sum_range_succ]
    congr 1
    by_cases h : n &&& m = 0 <;> simp [h]

theorem window_place {G i r u k w : Nat} (hw : w ≤ k) (hi : i < 2 ^ w) (hu : u < 2 ^ (k - w)) :
    (G + i) % 2 ^ k = (2 ^ w * u + (2 ^ w - 1) + (2 ^ k - r % 2 ^ k)) % 2 ^ k ↔ (G + r) % 2 ^ k = 2 ^ w * u + (2 ^ w - 1 - i) := by
  have e : 2 ^ k = 2 ^ w * 2 ^ (k - w) := by rw [← pow_add]; congr 1; omega
  have h1 : 2 ^ w * u + 2 ^ w ≤ 2 ^ k := by
    rw [e, ← Nat.mul_succ]
    exact Nat.mul_le_mul_left _ hu
  have hr := Nat.mod_lt r (show 2 ^ k > 0 by positivity)
  have key : ∀ a b : Nat, (a % 2 ^ k = b % 2 ^ k) ↔ a ≡ b [MOD 2 ^ k] := fun _ _ => Iff.rfl
  have h2 : 2 ^ w * u + (2 ^ w - 1 - i) = (2 ^ w * u + (2 ^ w - 1 - i)) % 2 ^ k := (Nat.mod_eq_of_lt (by omega)).symm
  rw [h2, key, key]
  have h3 : 2 ^ w * u + (2 ^ w - 1) + (2 ^ k - r % 2 ^ k) = (2 ^ w * u + (2 ^ w - 1 - i)) + i + (2 ^ k - r % 2 ^ k) := by omega
  have h4 : r + (2 ^ k - r % 2 ^ k) ≡ 0 [MOD 2 ^ k] := by
    have := (Nat.mod_modEq r (2 ^ k)).symm.add_right (2 ^ k - r % 2 ^ k)
    rw [Nat.add_sub_cancel' hr.le] at this
    exact this.trans (by simp [Nat.ModEq])
  set z := 2 ^ k - r % 2 ^ k
  rw [h3]
  constructor
  · intro h
    have h5 : G + i ≡ (2 ^ w * u + (2 ^ w - 1 - i)) + z + i [MOD 2 ^ k] := by
      refine h.trans ?_; rw [show 2 ^ w * u + (2 ^ w - 1 - i) + i + z = 2 ^ w * u + (2 ^ w - 1 - i) + z + i by omega]
    have h6 := Nat.ModEq.add_right_cancel' i h5
    have h7 := (h6.add_right r).trans (show 2 ^ w * u + (2 ^ w - 1 - i) + z + r ≡ 2 ^ w * u + (2 ^ w - 1 - i) [MOD 2 ^ k] by
      rw [Nat.add_assoc, Nat.add_comm z]
      exact h4.add_left _)
    exact h7
  · intro h
    have h5 := (h.add_right z).add_right i
    rw [Nat.add_assoc G] at h5
    have h6 := (((h4.add_left G).add_right i).symm.trans h5)
    rw [Nat.add_zero] at h6
    refine h6.trans ?_
    rw [show 2 ^ w * u + (2 ^ w - 1 - i) + i + z = 2 ^ w * u + (2 ^ w - 1 - i) + z + i by omega]

theorem sum_places {y k w m : Nat} (hw : w ≤ k) (hy : y < 2 ^ k) :
    (∑ u ∈ Finset.range (2 ^ (k - w)), ∑ i ∈ Finset.range (2 ^ w), if u &&& m = 0 then (if y = 2 ^ w * u + (2 ^ w - 1 - i) then 1 else 0) else 0) =
    if y &&& (m * 2 ^ w) = 0 then 1 else 0 := by
  have e : 2 ^ k = 2 ^ w * 2 ^ (k - w) := by rw [← pow_add]; congr 1; omega
  have hpos : 0 < 2 ^ w := by positivity
  have hdm := Nat.div_add_mod y (2 ^ w)
  have hml := Nat.mod_lt y hpos
  rw [Finset.sum_eq_single (y / 2 ^ w)]
  · rw [if_congr and_eq_zero_shift rfl rfl]
    by_cases h0 : y / 2 ^ w &&& m = 0
    · rw [if_pos h0, Finset.sum_eq_single (2 ^ w - 1 - y % 2 ^ w)]
      · rw [if_pos h0, if_pos (by omega)]
      · intro i hi hne
        have := Finset.mem_range.1 hi
        rw [if_pos h0, if_neg (by omega)]
      · intro h
        exact absurd (Finset.mem_range.2 (by omega)) h
    · rw [if_neg h0]
      exact Finset.sum_eq_zero fun i _ => by rw [if_neg h0]
  · intro u _ hne
    refine Finset.sum_eq_zero fun i hi => ?_
    have := Finset.mem_range.1 hi
    split
    · rw [if_neg]
      intro h
      apply hne
      rw [h, Nat.mul_add_div hpos, Nat.div_eq_of_lt (by omega)]
      omega
    · rfl
  · intro h
    refine absurd (Finset.mem_range.2 ?_) h
    exact Nat.div_lt_of_lt_mul (by rwa [← e])

/-- the strings of `k` bytes whose hash, moved by `r`, has no bit of the mask -/
theorem count_clear (T : UInt8 → Nat) (k w m r : Nat) (hw : w ≤ k) :
    (∑ o ∈ words k, if (gearNat T o + r) % 2 ^ k &&& (m * 2 ^ w) = 0 then 1 else 0) =
      ∑ u ∈ Finset.range (2 ^ (k - w)), if u &&& m = 0 then window T k w ((2 ^ w * u + (2 ^ w - 1) + (2 ^ k - r % 2 ^ k)) % 2 ^ k) else 0 := by
  rw [Finset.sum_congr rfl fun o _ => (sum_places (y := (gearNat T o + r) % 2 ^ k) (m := m) hw (Nat.mod_lt _ (by positivity))).symm]
  rw [Finset.sum_comm]
  refine Finset.sum_congr rfl fun u hu => ?_
  by_cases h0 : u &&& m = 0
  · rw [if_pos h0, window]
    refine Finset.sum_congr rfl fun o _ => Finset.sum_congr rfl fun i hi => ?_
    rw [if_pos h0]
    exact if_congr (window_place hw (Finset.mem_range.1 hi) (Finset.mem_range.1 hu)).symm rfl rfl
  · rw [if_neg h0]
    exact Finset.sum_eq_zero fun o _ => Finset.sum_eq_zero fun i _ => by rw [if_neg h0]

/-- bounds for the windows give bounds for the number of strings -/
theorem count_clear_bounds {T : UInt8 → Nat} {k w m lo hi : Nat} (hw : w ≤ k)
    (hb : ∀ c < 2 ^ k, lo ≤ window T k w c ∧ window T k w c ≤ hi) (r : Nat) :
    clearOf m (2 ^ (k - w)) * lo ≤ (∑ o ∈ words k, if (gearNat T o + r) % 2 ^ k &&& (m * 2 ^ w) = 0 then 1 else 0) ∧
    (∑ o ∈ words k, if (gearNat T o + r) % 2 ^ k &&& (m * 2 ^ w) = 0 then 1 else 0) ≤ clearOf m (2 ^ (k - w)) * hi := by
  rw [count_clear T k w m r hw, clearOf_eq, Finset.sum_mul, Finset.sum_mul]
  constructor
  · refine Finset.sum_le_sum fun u _ => ?_
    split
    · rw [one_mul]; exact (hb _ (Nat.mod_lt _ (by positivity))).1
    · simp
  · refine Finset.sum_le_sum fun u _ => ?_
    split
    · rw [one_mul]; exact (hb _ (Nat.mod_lt _ (by positivity))).2
    · simp

/-! ## several groups of bits -/

/-- the share of the strings of `n` bytes with the property -/
noncomputable def share (n : Nat) (P : Bytes → Prop) : ℝ := (howMany n P : ℝ) / 256 ^ n

theorem share_nonneg (n : Nat) (P : Bytes → Prop) : 0 ≤ share n P := by unfold share; positivity

theorem share_congr {n : Nat} {P Q : Bytes → Prop} (h : ∀ s, s.length = n → (P s ↔ Q s)) : share n P = share n Q := by
  rw [share, howMany_congr h, share]

/-- bytes without influence -/
theorem share_skip (k h : Nat) (Q : Bytes → Prop) : share (k + h) (fun s => Q (s.drop k)) = share h Q := by
  have : howMany (k + h) (fun s => Q (s.drop k)) = 256 ^ k * howMany h Q := by
    rw [← howMany_true k, ← howMany_mul]
    exact howMany_congr fun s _ => by simp
  rw [share, this, share, pow_add]
  push_cast
  field_simp

open Classical in
/-- a group of bits that the `k` bytes before decide -/
theorem share_layer {T : UInt8 → Nat} {k w m lo hi : Nat} (hw : w ≤ k)
    (hb : ∀ c < 2 ^ k, lo ≤ window T k w c ∧ window T k w c ≤ hi) (h : Nat) (Q : Bytes → Prop) :
    (clearOf m (2 ^ (k - w)) * lo : ℝ) / 256 ^ k * share h Q ≤
      share (k + h) (fun s => Q (s.drop k) ∧ gearNat T s / 2 ^ h % 2 ^ k &&& (m * 2 ^ w) = 0) ∧
    share (k + h) (fun s => Q (s.drop k) ∧ gearNat T s / 2 ^ h % 2 ^ k &&& (m * 2 ^ w) = 0) ≤
      (clearOf m (2 ^ (k - w)) * hi : ℝ) / 256 ^ k * share h Q := by
  unfold share
  have e : howMany (k + h) (fun s => Q (s.drop k) ∧ gearNat T s / 2 ^ h % 2 ^ k &&& (m * 2 ^ w) = 0) =
      ∑ v ∈ words h, (if Q v then 1 else 0) * ∑ o ∈ words k, if (gearNat T o + gearNat T v / 2 ^ h) % 2 ^ k &&& (m * 2 ^ w) = 0 then 1 else 0 := by
    rw [howMany, sum_words_add, Finset.sum_comm]
    refine Finset.sum_congr rfl fun v hv => ?_
    rw [Finset.mul_sum]
    refine Finset.sum_congr rfl fun o ho => ?_
    have h1 : gearNat T (o ++ v) / 2 ^ h = gearNat T o + gearNat T v / 2 ^ h := by
      rw [gearNat_append, mem_words.1 hv, Nat.mul_add_div (by positivity)]
    rw [h1, List.drop_left' (mem_words.1 ho)]
    by_cases hq : Q v <;> simp [hq]
  have hlo : clearOf m (2 ^ (k - w)) * lo * howMany h Q ≤ howMany (k + h) (fun s => Q (s.drop k) ∧ gearNat T s / 2 ^ h % 2 ^ k &&& (m * 2 ^ w) = 0) := by
    rw [e, howMany, Finset.mul_sum]
    refine Finset.sum_le_sum fun v _ => ?_
    rw [Nat.mul_comm]
    exact Nat.mul_le_mul_left _ (count_clear_bounds hw hb _).1
  have hhi : howMany (k + h) (fun s => Q (s.drop k) ∧ gearNat T s / 2 ^ h % 2 ^ k &&& (m * 2 ^ w) = 0) ≤ clearOf m (2 ^ (k - w)) * hi * howMany h Q := by
    rw [e, howMany, Finset.mul_sum]
    refine Finset.sum_le_sum fun v _ => ?_
    rw [Nat.mul_comm _ (if Q v then 1 else 0)]
    exact Nat.mul_le_mul_left _ (count_clear_bounds hw hb _).2
  have hlo' : (clearOf m (2 ^ (k - w)) * lo * howMany h Q : ℝ) ≤ howMany (k + h) (fun s => Q (s.drop k) ∧ gearNat T s / 2 ^ h % 2 ^ k &&& (m * 2 ^ w) = 0) := by
    exact_mod_cast hlo
  have hhi' : (howMany (k + h) (fun s => Q (s.drop k) ∧ gearNat T s / 2 ^ h % 2 ^ k &&& (m * 2 ^ w) = 0) : ℝ) ≤ clearOf m (2 ^ (k - w)) * hi * howMany h Q := by
    exact_mod_cast hhi
  rw [div_mul_div_comm, div_mul_div_comm, ← pow_add]
  exact ⟨div_le_div_of_nonneg_right hlo' (by positivity), div_le_div_of_nonneg_right hhi' (by positivity)⟩

/-- the entries of the table -/
def gear64T (b : UInt8) : Nat := (lookup Tables.gear64 b).toNat

theorem sum_bytes_table64 (t : Vector (BitVec 64) 256) (g : Nat → Nat) :
    ∑ b ∈ bytes, g (lookup t b).toNat = ((t.toList.map (·.toNat)).map g).sum := by
  rw [bytes, List.sum_toFinset _ nodup_allBytes, List.map_map]
  refine congrArg List.sum ?_
  refine List.ext_getElem (by simp [allBytes]) fun i h1 h2 => ?_
  have h2 : i < 256 := by simpa using h2
  simp [allBytes, lookup, Nat.mod_eq_of_lt h2]

theorem window_15 (c : Nat) (hc : c < 2 ^ 15) :
    2 ^ 110 - 2 ^ 110 / 10 ^ 7 ≤ window gear64T 15 5 c ∧ window gear64T 15 5 c ≤ 2 ^ 110 + 2 ^ 110 / 10 ^ 7 := by
  refine within_digits _ _ 15 (window gear64T 15 5) (fun c => ?_) ?_ c hc
  · exact Nat.lt_of_le_of_lt (window_le _ _ _ _) (by norm_num)
  · rw [← windowDigits_eq _ gear64T (sum_bytes_table64 Tables.gear64) 15 5 (by norm_num)]
    exact windowDigits_15

theorem window_9 (c : Nat) (hc : c < 2 ^ 9) :
    2 ^ 69 - 2 ^ 69 / 10 ^ 7 ≤ window gear64T 9 6 c ∧ window gear64T 9 6 c ≤ 2 ^ 69 + 2 ^ 69 / 10 ^ 7 := by
  refine within_digits _ _ 9 (window gear64T 9 6) (fun c => ?_) ?_ c hc
  · exact Nat.lt_of_le_of_lt (window_le _ _ _ _) (by norm_num)
  · rw [← windowDigits_eq _ gear64T (sum_bytes_table64 Tables.gear64) 9 6 (by norm_num)]
    exact windowDigits_9

/-- a group of the mask in 15 places -/
theorem share_15 {m c : Nat} (hm : clearOf m (2 ^ 10) = 2 ^ c) (h : Nat) (Q : Bytes → Prop) :
    (1 - 1 / 10 ^ 7) * (2 ^ c / 2 ^ 10) * share h Q ≤ share (15 + h) (fun s => Q (s.drop 15) ∧ gearNat gear64T s / 2 ^ h % 2 ^ 15 &&& (m * 2 ^ 5) = 0) ∧
    share (15 + h) (fun s => Q (s.drop 15) ∧ gearNat gear64T s / 2 ^ h % 2 ^ 15 &&& (m * 2 ^ 5) = 0) ≤ (1 + 1 / 10 ^ 7) * (2 ^ c / 2 ^ 10) * share h Q := by
  obtain ⟨h1, h2⟩ := share_layer (m := m) (by norm_num) window_15 h Q
  rw [show 15 - 5 = 10 from rfl, hm] at h1 h2
  have hs := share_nonneg h Q
  have hc : (0 : ℝ) < 2 ^ c := by positivity
  constructor
  · refine le_trans (mul_le_mul_of_nonneg_right ?_ hs) h1
    push_cast
    norm_num
    linarith
  · refine le_trans h2 (mul_le_mul_of_nonneg_right ?_ hs)
    push_cast
    norm_num
    linarith

/-- a group of the mask in 9 places -/
theorem share_9 {m c : Nat} (hm : clearOf m (2 ^ 3) = 2 ^ c) (h : Nat) (Q : Bytes → Prop) :
    (1 - 1 / 10 ^ 7) * (2 ^ c / 2 ^ 3) * share h Q ≤ share (9 + h) (fun s => Q (s.drop 9) ∧ gearNat gear64T s / 2 ^ h % 2 ^ 9 &&& (m * 2 ^ 6) = 0) ∧
    share (9 + h) (fun s => Q (s.drop 9) ∧ gearNat gear64T s / 2 ^ h % 2 ^ 9 &&& (m * 2 ^ 6) = 0) ≤ (1 + 1 / 10 ^ 7) * (2 ^ c / 2 ^ 3) * share h Q := by
  obtain ⟨h1, h2⟩ := share_layer (m := m) (by norm_num) window_9 h Q
  rw [show 9 - 6 = 3 from rfl, hm] at h1 h2
  have hs := share_nonneg h Q
  have hc : (0 : ℝ) < 2 ^ c := by positivity
  constructor
  · refine le_trans (mul_le_mul_of_nonneg_right ?_ hs) h1
    push_cast
    norm_num
    linarith
  · refine le_trans h2 (mul_le_mul_of_nonneg_right ?_ hs)
    push_cast
    norm_num
    linarith

/-! ## the two masks -/

theorem and_split {x A B j : Nat} (hB : B < 2 ^ j) : x &&& (2 ^ j * A + B) = 0 ↔ x / 2 ^ j &&& A = 0 ∧ x % 2 ^ j &&& B = 0 := by
  have h : x &&& (2 ^ j * A + B) = 2 ^ j * (x / 2 ^ j &&& A) + (x % 2 ^ j &&& B) := by
    have hlt : x % 2 ^ j &&& B < 2 ^ j := Nat.lt_of_le_of_lt Nat.and_le_right hB
    apply Nat.eq_of_testBit_eq
    intro i
    rw [Nat.testBit_and, Nat.testBit_two_pow_mul_add _ hB, Nat.testBit_two_pow_mul_add _ hlt]
    by_cases hi : i < j
    · simp [hi]
    · rw [if_neg hi, if_neg hi, Nat.testBit_and, Nat.testBit_div_two_pow, Nat.sub_add_cancel (by omega)]
  rw [h]
  have hp : 0 < 2 ^ j := by positivity
  constructor
  · intro h0
    have h1 := Nat.eq_zero_of_add_eq_zero h0
    refine ⟨?_, h1.2⟩
    rcases Nat.mul_eq_zero.1 h1.1 with h2 | h2
    · omega
    · exact h2
  · rintro ⟨h1, h2⟩
    rw [h1, h2, Nat.mul_zero]

theorem and_mod {x A j : Nat} (hA : A < 2 ^ j) : x % 2 ^ j &&& A = x &&& A := by
  apply Nat.eq_of_testBit_eq
  intro i
  rw [Nat.testBit_and, Nat.testBit_and, Nat.testBit_mod_two_pow]
  by_cases hi : i < j
  · simp [hi]
  · have : A.testBit i = false := Nat.testBit_lt_two_pow (Nat.lt_of_lt_of_le hA (Nat.pow_le_pow_right (by decide) (by omega)))
    simp [this]

theorem gearNat_drop (T : UInt8 → Nat) (s : Bytes) (k h : Nat) (hs : s.length = k + h) : gearNat T (s.drop k) % 2 ^ h = gearNat T s % 2 ^ h := by
  conv_rhs => rw [← List.take_append_drop k s, gearNat_append, List.length_drop, hs, Nat.add_sub_cancel_left, Nat.mul_add_mod]

theorem div_mod_of_mod {a b h j k : Nat} (hh : j + k ≤ h) (e : a % 2 ^ h = b % 2 ^ h) : a / 2 ^ j % 2 ^ k = b / 2 ^ j % 2 ^ k := by
  have h1 : ∀ a, a / 2 ^ j % 2 ^ k = a % 2 ^ h / 2 ^ j % 2 ^ k := by
    intro a
    apply Nat.eq_of_testBit_eq
    intro i
    rw [Nat.testBit_mod_two_pow, Nat.testBit_mod_two_pow, Nat.testBit_div_two_pow, Nat.testBit_div_two_pow, Nat.testBit_mod_two_pow]
    by_cases hi : i < k
    · simp [show i + j < h by omega]
    · simp [hi]
  rw [h1 a, h1 b, e]

theorem maskS_split (x : Nat) : x &&& 0x0003590703530000 = 0 ↔ (x / 2 ^ 11 % 2 ^ 15 &&& (0x353 * 2 ^ 5) = 0 ∧ x / 2 ^ 26 % 2 ^ 9 &&& (7 * 2 ^ 6) = 0) ∧
    x / 2 ^ 35 % 2 ^ 15 &&& (0x359 * 2 ^ 5) = 0 := by
  have e1 : (0x0003590703530000 : Nat) = 2 ^ 35 * (0x359 * 2 ^ 5) + (2 ^ 26 * (7 * 2 ^ 6) + (2 ^ 11 * (0x353 * 2 ^ 5) + 0)) := by norm_num
  rw [e1, and_split (by norm_num), and_split (by norm_num), and_split (by norm_num), Nat.and_zero, and_mod (by norm_num), and_mod (by norm_num),
    and_mod (by norm_num)]
  have h2 : x % 2 ^ 35 / 2 ^ 26 &&& (7 * 2 ^ 6) = x / 2 ^ 26 &&& (7 * 2 ^ 6) := by
    rw [← and_mod (j := 9) (by norm_num), div_mod_of_mod (h := 35) (by norm_num) (Nat.mod_mod _ _), and_mod (by norm_num)]
  have h3 : x % 2 ^ 35 % 2 ^ 26 / 2 ^ 11 &&& (0x353 * 2 ^ 5) = x / 2 ^ 11 &&& (0x353 * 2 ^ 5) := by
    rw [← and_mod (j := 15) (by norm_num), div_mod_of_mod (h := 26) (b := x) (by norm_num), and_mod (by norm_num)]
    rw [Nat.mod_mod, Nat.mod_mod_of_dvd _ (by norm_num)]
  rw [h2, h3]
  constructor
  · rintro ⟨a, b, c, -⟩; exact ⟨⟨c, b⟩, a⟩
  · rintro ⟨⟨c, b⟩, a⟩; exact ⟨a, b, c, rfl⟩

theorem maskL_split (x : Nat) : x &&& 0x0000d90003530000 = 0 ↔ x / 2 ^ 11 % 2 ^ 15 &&& (0x353 * 2 ^ 5) = 0 ∧
    x / 2 ^ 33 % 2 ^ 15 &&& (0x364 * 2 ^ 5) = 0 := by
  have e1 : (0x0000d90003530000 : Nat) = 2 ^ 33 * (0x364 * 2 ^ 5) + (2 ^ 11 * (0x353 * 2 ^ 5) + 0) := by norm_num
  rw [e1, and_split (by norm_num), and_split (by norm_num), Nat.and_zero, and_mod (by norm_num), and_mod (by norm_num)]
  have h3 : x % 2 ^ 33 / 2 ^ 11 &&& (0x353 * 2 ^ 5) = x / 2 ^ 11 &&& (0x353 * 2 ^ 5) := by
    rw [← and_mod (j := 15) (by norm_num), div_mod_of_mod (h := 33) (by norm_num) (Nat.mod_mod _ _), and_mod (by norm_num)]
  rw [h3]
  constructor
  · rintro ⟨a, b, -⟩; exact ⟨b, a⟩
  · rintro ⟨b, a⟩; exact ⟨a, b, rfl⟩

/-- the bits of the hash of the last `h` bytes are those of the whole hash -/
theorem hash_place {T : UInt8 → Nat} {s : Bytes} {f h j k : Nat} (hs : h ≤ s.length) (hh : j + k ≤ h) :
    (2 ^ s.length * f + gearNat T s) / 2 ^ j % 2 ^ k = gearNat T (s.drop (s.length - h)) / 2 ^ j % 2 ^ k := by
  refine div_mod_of_mod hh ?_
  rw [gearNat_drop T s (s.length - h) h (by omega)]
  obtain ⟨d, hd⟩ := Nat.exists_eq_add_of_le hs
  rw [hd, pow_add, mul_assoc, Nat.mul_add_mod]

/-- any `n ≥ 50` bytes, from any value of the hash: the first mask -/
theorem share_maskS (f : Nat) {n : Nat} (hn : 50 ≤ n) :
    (1 - 1 / 3000000) / 2 ^ 15 ≤ share n (fun s => (2 ^ n * f + gearNat gear64T s) &&& 0x0003590703530000 = 0) ∧
    share n (fun s => (2 ^ n * f + gearNat gear64T s) &&& 0x0003590703530000 = 0) ≤ (1 + 1 / 3000000) / 2 ^ 15 := by
  obtain ⟨k, rfl⟩ : ∃ k, n = k + (15 + (9 + (15 + 11))) := ⟨n - 50, by omega⟩
  let Q3 : Bytes → Prop := fun s => True ∧ gearNat gear64T s / 2 ^ 11 % 2 ^ 15 &&& (0x353 * 2 ^ 5) = 0
  let Q2 : Bytes → Prop := fun s => Q3 (s.drop 9) ∧ gearNat gear64T s / 2 ^ (15 + 11) % 2 ^ 9 &&& (7 * 2 ^ 6) = 0
  let Q1 : Bytes → Prop := fun s => Q2 (s.drop 15) ∧ gearNat gear64T s / 2 ^ (9 + (15 + 11)) % 2 ^ 15 &&& (0x359 * 2 ^ 5) = 0
  have e : share (k + (15 + (9 + (15 + 11)))) (fun s => (2 ^ (k + (15 + (9 + (15 + 11)))) * f + gearNat gear64T s) &&& 0x0003590703530000 = 0) =
      share (k + (15 + (9 + (15 + 11)))) (fun s => Q1 (s.drop k)) := by
    refine share_congr fun s hs => ?_
    rw [maskS_split, ← hs, hash_place (h := 26) (by omega) (by omega), hash_place (h := 35) (by omega) (by omega),
      hash_place (h := 50) (by omega) (by omega)]
    simp only [Q1, Q2, Q3, List.drop_drop, true_and]
    rw [show s.length - 26 = k + (15 + 9) by omega, show s.length - 35 = k + 15 by omega, show s.length - 50 = k by omega]
  rw [e, share_skip]
  have a3 := share_15 (m := 0x353) (c := 4) (by decide +kernel) 11 (fun _ => True)
  have a2 := share_9 (m := 7) (c := 0) (by decide +kernel) (15 + 11) Q3
  have a1 := share_15 (m := 0x359) (c := 4) (by decide +kernel) (9 + (15 + 11)) Q2
  have a0 : share 11 (fun _ => True) = 1 := by
    rw [share, howMany_true]; norm_num
  rw [a0] at a3
  change _ ≤ share (15 + 11) Q3 ∧ share (15 + 11) Q3 ≤ _ at a3
  change _ ≤ share (9 + (15 + 11)) Q2 ∧ share (9 + (15 + 11)) Q2 ≤ _ at a2
  change _ ≤ share (15 + (9 + (15 + 11))) Q1 ∧ share (15 + (9 + (15 + 11))) Q1 ≤ _ at a1
  generalize share (15 + 11) Q3 = z3 at *
  generalize share (9 + (15 + 11)) Q2 = z2 at *
  generalize share (15 + (9 + (15 + 11))) Q1 = z1 at *
  norm_num at a1 a2 a3 ⊢
  constructor
  · linarith [a1.1, a2.1, a3.1]
  · linarith [a1.2, a2.2, a3.2]

/-- the second mask -/
theorem share_maskL (f : Nat) {n : Nat} (hn : 48 ≤ n) :
    (1 - 1 / 3000000) / 2 ^ 11 ≤ share n (fun s => (2 ^ n * f + gearNat gear64T s) &&& 0x0000d90003530000 = 0) ∧
    share n (fun s => (2 ^ n * f + gearNat gear64T s) &&& 0x0000d90003530000 = 0) ≤ (1 + 1 / 3000000) / 2 ^ 11 := by
  obtain ⟨k, rfl⟩ : ∃ k, n = k + (15 + (7 + (15 + 11))) := ⟨n - 48, by omega⟩
  let Q3 : Bytes → Prop := fun s => True ∧ gearNat gear64T s / 2 ^ 11 % 2 ^ 15 &&& (0x353 * 2 ^ 5) = 0
  let Q2 : Bytes → Prop := fun s => Q3 (s.drop 7)
  let Q1 : Bytes → Prop := fun s => Q2 (s.drop 15) ∧ gearNat gear64T s / 2 ^ (7 + (15 + 11)) % 2 ^ 15 &&& (0x364 * 2 ^ 5) = 0
  have e : share (k + (15 + (7 + (15 + 11)))) (fun s => (2 ^ (k + (15 + (7 + (15 + 11)))) * f + gearNat gear64T s) &&& 0x0000d90003530000 = 0) =
      share (k + (15 + (7 + (15 + 11)))) (fun s => Q1 (s.drop k)) := by
    refine share_congr fun s hs => ?_
    rw [maskL_split, ← hs, hash_place (h := 26) (by omega) (by omega), hash_place (h := 48) (by omega) (by omega)]
    simp only [Q1, Q2, Q3, List.drop_drop, true_and]
    rw [show s.length - 26 = k + (15 + 7) by omega, show s.length - 48 = k by omega]
  rw [e, share_skip]
  have a3 := share_15 (m := 0x353) (c := 4) (by decide +kernel) 11 (fun _ => True)
  have a2 := share_skip 7 (15 + 11) Q3
  have a1 := share_15 (m := 0x364) (c := 5) (by decide +kernel) (7 + (15 + 11)) Q2
  have a0 : share 11 (fun _ => True) = 1 := by
    rw [share, howMany_true]; norm_num
  rw [a0] at a3
  rw [show share (7 + (15 + 11)) Q2 = share (15 + 11) Q3 from a2] at a1
  change _ ≤ share (15 + 11) Q3 ∧ share (15 + 11) Q3 ≤ _ at a3
  change _ ≤ share (15 + (7 + (15 + 11))) Q1 ∧ share (15 + (7 + (15 + 11))) Q1 ≤ _ at a1
  generalize share (15 + 11) Q3 = z3 at *
  generalize share (15 + (7 + (15 + 11))) Q1 = z1 at *
  norm_num at a1 a3 ⊢
  constructor
  · linarith [a1.1, a3.1]
  · linarith [a1.2, a3.2]

end HashRoll.Spec

namespace HashRoll.Spec
open HashRoll.FastCdc

/-- the fingerprint `f`, after these bytes -/
def fpAfter (G : UInt8 → BitVec 64) (f : BitVec 64) (x : Bytes) : BitVec 64 := x.foldl (fun fp v => (fp <<< 1) + G v) f

/-- Of the strings of `n` bytes, one in `2^m` satisfies `P`, up to a relative error of one in three million. -/
def OneIn (m n : Nat) (P : Bytes → Bool) : Prop := |(2 ^ m * (strings n).countP P : ℝ) / 256 ^ n - 1| ≤ 1 / 3000000

theorem oneIn_iff {m n : Nat} {P : Bytes → Bool} : OneIn m n P ↔
    (1 - 1 / 3000000) / 2 ^ m ≤ share n (fun x => P x = true) ∧ share n (fun x => P x = true) ≤ (1 + 1 / 3000000) / 2 ^ m := by
  rw [OneIn, countP_strings, mul_div_assoc, show ((howMany n fun s => P s = true) : ℝ) / 256 ^ n = share n fun x => P x = true from rfl, abs_le,
    div_le_iff₀ (by positivity : (0 : ℝ) < 2 ^ m), le_div_iff₀ (by positivity : (0 : ℝ) < 2 ^ m)]
  constructor <;> rintro ⟨h1, h2⟩ <;> constructor <;> linarith

theorem fpAfter_toNat (f : BitVec 64) (x : Bytes) :
    (fpAfter (lookup Tables.gear64) f x).toNat = (2 ^ x.length * f.toNat + gearNat gear64T x) % 2 ^ 64 := by
  induction x generalizing f with
  | nil =>
    have := f.isLt
    simp only [fpAfter, gearNat, List.foldl_nil, List.length_nil]
    omega
  | cons v x ih =>
    have e : fpAfter (lookup Tables.gear64) f (v :: x) = fpAfter (lookup Tables.gear64) (f <<< 1 + lookup Tables.gear64 v) x := rfl
    have ef : (f <<< 1 + lookup Tables.gear64 v).toNat = (2 * f.toNat + gear64T v) % 2 ^ 64 := by
      rw [BitVec.toNat_add, BitVec.toNat_shiftLeft, gear64T, Nat.shiftLeft_eq, Nat.mod_add_mod, Nat.mul_comm]
    rw [e, ih, ef, gearNat_cons, List.length_cons]
    have : 2 ^ (x.length + 1) * f.toNat + (2 ^ x.length * gear64T v + gearNat gear64T x) =
        2 ^ x.length * (2 * f.toNat + gear64T v) + gearNat gear64T x := by rw [pow_succ]; ring
    rw [this]
    exact (Nat.ModEq.add_right _ (Nat.ModEq.mul_left _ (Nat.mod_modEq _ _)))

theorem fpAfter_and (f : BitVec 64) (x : Bytes) (m : BitVec 64) :
    fpAfter (lookup Tables.gear64) f x &&& m = 0 ↔ (2 ^ x.length * f.toNat + gearNat gear64T x) &&& m.toNat = 0 := by
  rw [← BitVec.toNat_inj, BitVec.toNat_and, fpAfter_toNat, and_mod m.isLt]
  rfl

theorem gearSum_append_eq (G : UInt8 → BitVec 64) (c x : Bytes) : gearSum G (c ++ x) = fpAfter G (gearSum G c) x := by
  induction x using List.reverseRecOn with
  | nil => rw [List.append_nil]; rfl
  | append_singleton x v ih =>
    rw [← List.append_assoc, gearSum_snoc, ih, fpAfter, fpAfter, List.foldl_append]
    rfl

end HashRoll.Spec

namespace HashRoll.Props
open HashRoll.Spec HashRoll.FastCdc

/-- C93. The table `GEAR_64`, any fingerprint (so any bytes before): of the strings of `n ≥ 50` bytes, one in `2^15` ends with a fingerprint
that `MASK_S` accepts, up to 4 in ten million, and one in `2^11` with one that `MASK_L` accepts. -/
theorem C93_masks (f : BitVec 64) {n : Nat} (hn : 50 ≤ n) : OneIn 15 n (fun x => fpAfter (lookup Tables.gear64) f x &&& maskS == 0) ∧
    OneIn 11 n (fun x => fpAfter (lookup Tables.gear64) f x &&& maskL == 0) := by
  rw [oneIn_iff, oneIn_iff]
  have h1 : share n (fun x => (fpAfter (lookup Tables.gear64) f x &&& maskS == 0) = true) =
      share n (fun s => (2 ^ n * f.toNat + gearNat gear64T s) &&& 0x0003590703530000 = 0) :=
    share_congr fun s hs => by rw [beq_iff_eq, fpAfter_and, hs]; rfl
  have h2 : share n (fun x => (fpAfter (lookup Tables.gear64) f x &&& maskL == 0) = true) =
      share n (fun s => (2 ^ n * f.toNat + gearNat gear64T s) &&& 0x0000d90003530000 = 0) :=
    share_congr fun s hs => by rw [beq_iff_eq, fpAfter_and, hs]; rfl
  rw [h1, h2]
  exact ⟨share_maskS _ hn, share_maskL _ (by omega)⟩
example : 50 ≤ 8192 - 2048 := by decide

/-- C93. In the rule that C12 and C22 prove of the code: after any `c` of at least `min` bytes and `n ≥ 50` more the condition for a cut holds
for one string in `2^15` up to the normal size and for one in `2^11` beyond it. -/
theorem C93_rule (min normal : Nat) (c : Bytes) (hc : min ≤ c.length) {n : Nat} (hn : 50 ≤ n) (P : Bytes → Bool)
    (hP : ∀ x, P x = true ↔ fastHit (lookup Tables.gear64) min normal (c ++ x)) : OneIn (if c.length + n ≤ normal then 15 else 11) n P := by
  have key : ∀ x, x.length = n → (P x = true ↔ (fpAfter (lookup Tables.gear64) (gearSum (lookup Tables.gear64) (c.drop min)) x &&&
      (if c.length + n ≤ normal then maskS else maskL) == 0) = true) := by
    intro x hx
    rw [hP, fastHit, List.drop_append_of_le_length hc, gearSum_append_eq, List.length_append, hx, beq_iff_eq]
    rfl
  have := C93_masks (gearSum (lookup Tables.gear64) (c.drop min)) hn
  rw [oneIn_iff, share_congr key, ← oneIn_iff (P := fun x => fpAfter (lookup Tables.gear64) (gearSum (lookup Tables.gear64) (c.drop min)) x &&&
      (if c.length + n ≤ normal then maskS else maskL) == 0)]
  split
  · exact this.1
  · exact this.2

/-- C93. The masks are what one step of the code tests: between the minimal and the maximal size, `push` of one byte cuts exactly if the new
fingerprint has no bit of `MASK_S` (before the normal size) or of `MASK_L` (after it). -/
theorem C93_push (p : FastCdc) (f : BitVec 64) (l : Nat) (v : UInt8) (h1 : p.minSize ≤ l) (h3 : l + 1 < p.maxSize) :
    (FastCdcState.push { l := l, fp := f } p [v]).2 =
      if fpAfter (lookup p.gear) f [v] &&& (if l < p.normalSize then maskS else maskL) = 0 then some 0 else none := by
  have hskip : (if l ≤ p.minSize then p.minSize - l else 0) = 0 := by split <;> omega
  have hge : ¬ (1 + l ≤ p.minSize) := by omega
  unfold FastCdcState.push
  simp only [List.length_singleton, hge, if_false, hskip, List.drop_zero, fpAfter, List.foldl_cons, List.foldl_nil, Nat.add_zero]
  by_cases hn : l < p.normalSize
  · have hn' : ¬ p.normalSize ≤ l := by omega
    by_cases hh : (f <<< 1 + lookup p.gear v) &&& maskS = 0#64
    · simp [loop1, hn, hn', hh]
    · have : ¬ p.maxSize ≤ l + 1 := by omega
      simp [loop1, loop2, hn, hn', hh, this]
  · have hn' : p.normalSize ≤ l := by omega
    have hm : ¬ p.maxSize ≤ l := by omega
    by_cases hh : (f <<< 1 + lookup p.gear v) &&& maskL = 0#64
    · simp [loop1, loop2, hn, hn', hh, hm]
    · have : ¬ p.maxSize ≤ l + 1 := by omega
      simp [loop1, loop2, hn, hn', hh, hm, this]
example : FastCdc.default.minSize ≤ 5000 ∧ 5000 + 1 < FastCdc.default.maxSize := by decide

end HashRoll.Props
