import Mathlib.Algebra.BigOperators.Intervals
import Mathlib.Algebra.BigOperators.ModEq
import Mathlib.Tactic.Ring
import Mathlib.Tactic.Linarith
import Verif.Props.FreqBup
import Verif.Props.GearDigits
import Verif.Proofs.Gear
import Verif.Props.Constructors
/-!
# C91: how often Gear32's condition for a cut holds
-/

namespace HashRoll.Spec

/-! ## digits -/

theorem map_sum_filter (l : List Nat) (p : Nat → Bool) (g : Nat → Nat) :
    (l.map g).sum = ((l.filter fun e => !p e).map g).sum + ((l.filter p).map g).sum := by
  induction l with
  | nil => rfl
  | cons e l ih =>
    cases h : p e <;> simp [h, ih] <;> omega

theorem mod_two_pow_succ_of_testBit {e k : Nat} : e % 2 ^ (k + 1) = e % 2 ^ k + if e.testBit k then 2 ^ k else 0 := by
  rw [Nat.mod_pow_succ, Nat.testBit_eq_decide_div_mod_eq]
  have := Nat.mod_two_eq_zero_or_one (e / 2 ^ k)
  rcases this with h | h <;> simp [h]

theorem packed_eq (k : Nat) (l : List Nat) : packed k l = (l.map fun e => (2 ^ 136) ^ (e % 2 ^ k)).sum := by
  induction k generalizing l with
  | zero =>
    rw [packed]
    induction l with
    | nil => rfl
    | cons e l ih =>
      rw [List.length_cons, List.map_cons, List.sum_cons, ih, Nat.pow_zero, Nat.mod_one, Nat.pow_zero]
      omega
  | succ k ih =>
    have h : packed (k + 1) l = packed k (l.filter fun e => !e.testBit k) + packed k (l.filter (·.testBit k)) * 2 ^ (136 * 2 ^ k) := by
      cases l with
      | nil => rw [packed, List.filter_nil, List.filter_nil, ih]; simp
      | cons e l => rfl
    rw [h, ih, ih, map_sum_filter l (·.testBit k), ← List.sum_map_mul_right]
    congr 1
    · refine congrArg List.sum (List.map_congr_left fun e he => ?_)
      have := (List.mem_filter.1 he).2
      rw [mod_two_pow_succ_of_testBit, if_neg (by simpa using this)]
      rfl
    · refine congrArg List.sum (List.map_congr_left fun e he => ?_)
      have := (List.mem_filter.1 he).2
      rw [mod_two_pow_succ_of_testBit, if_pos (by simpa using this), pow_add, pow_mul]

theorem sum_digits_lt {Q : Nat} (n : Nat) (f : Nat → Nat) (hf : ∀ c, f c < Q) : ∑ c ∈ Finset.range n, f c * Q ^ c < Q ^ n := by
  induction n with
  | zero => simp
  | succ n ih =>
    rw [Finset.sum_range_succ, pow_succ]
    have : (f n + 1) * Q ^ n ≤ Q * Q ^ n := Nat.mul_le_mul_right _ (hf n)
    rw [add_mul, one_mul] at this
    rw [mul_comm (Q ^ n)]
    omega

theorem within_digits (lo hi k : Nat) (f : Nat → Nat) (hf : ∀ c, f c < 2 ^ 136)
    (h : within lo hi k (∑ c ∈ Finset.range (2 ^ k), f c * (2 ^ 136) ^ c) = true) (c : Nat) (hc : c < 2 ^ k) : lo ≤ f c ∧ f c ≤ hi := by
  induction k generalizing f c with
  | zero =>
    have : c = 0 := by omega
    subst this
    rw [within, Bool.and_eq_true] at h
    simp only [pow_zero, Finset.sum_range_one, mul_one] at h
    exact ⟨Nat.le_of_ble_eq_true h.1, Nat.le_of_ble_eq_true h.2⟩
  | succ k ih =>
    have e : ∑ c ∈ Finset.range (2 ^ (k + 1)), f c * (2 ^ 136) ^ c = ∑ c ∈ Finset.range (2 ^ k), f c * (2 ^ 136) ^ c +
        2 ^ (136 * 2 ^ k) * ∑ c ∈ Finset.range (2 ^ k), f (2 ^ k + c) * (2 ^ 136) ^ c := by
      rw [pow_succ 2 k, Nat.mul_two, Finset.sum_range_add, Finset.mul_sum]
      congr 1
      refine Finset.sum_congr rfl fun c _ => ?_
      rw [pow_add, pow_mul 2 136]
      ring
    have hlt : ∑ c ∈ Finset.range (2 ^ k), f c * (2 ^ 136) ^ c < 2 ^ (136 * 2 ^ k) := by
      rw [pow_mul]
      exact sum_digits_lt _ _ hf
    rw [e, within, Nat.add_mul_mod_self_left, Nat.mod_eq_of_lt hlt, Nat.add_mul_div_left _ _ (by positivity), Nat.div_eq_of_lt hlt,
      Nat.zero_add, Bool.and_eq_true] at h
    by_cases h' : c < 2 ^ k
    · exact ih f hf h.1 c h'
    · have := ih (fun c => f (2 ^ k + c)) (fun c => hf _) h.2 (c - 2 ^ k) (by rw [pow_succ] at hc; omega)
      rwa [Nat.add_sub_cancel' (by omega)] at this

/-! ## the product -/

/-- the Gear hash of `o` without reduction -/
def gearNat (T : UInt8 → Nat) (o : Bytes) : Nat := o.foldl (fun a v => 2 * a + T v) 0

theorem gearNat_acc (T : UInt8 → Nat) (o : Bytes) (a : Nat) : o.foldl (fun a v => 2 * a + T v) a = 2 ^ o.length * a + gearNat T o := by
  induction o generalizing a with
  | nil => simp [gearNat]
  | cons v o ih =>
    have e : gearNat T (v :: o) = 2 ^ o.length * (2 * 0 + T v) + gearNat T o := ih _
    rw [List.foldl_cons, ih, e, List.length_cons, pow_succ]
    ring

theorem gearNat_cons (T : UInt8 → Nat) (v : UInt8) (o : Bytes) : gearNat T (v :: o) = 2 ^ o.length * T v + gearNat T o := by
  rw [gearNat, List.foldl_cons, gearNat_acc]
  ring

theorem sum_pow_gearNat (T : UInt8 → Nat) (Q k : Nat) :
    ∑ o ∈ words (k + 1), Q ^ gearNat T o = (∑ o ∈ words k, Q ^ gearNat T o) * ∑ b ∈ bytes, Q ^ (T b * 2 ^ k) := by
  rw [sum_words_cons, Finset.sum_mul_sum, Finset.sum_comm]
  refine Finset.sum_congr rfl fun o ho => Finset.sum_congr rfl fun b _ => ?_
  rw [gearNat_cons, mem_words.1 ho, pow_add]
  ring_nf

theorem pow_mod_modEq (Q N a : Nat) (hQ : 0 < Q) : Q ^ (a % N) ≡ Q ^ a [MOD Q ^ N - 1] := by
  conv_rhs => rw [← Nat.mod_add_div a N, pow_add, pow_mul]
  have h1 : Q ^ N ≡ 1 [MOD Q ^ N - 1] := by
    have : 1 ≤ Q ^ N := Nat.pow_pos hQ
    exact ((Nat.modEq_iff_dvd' this).2 (dvd_refl _)).symm
  have := (h1.pow (a / N)).mul_left (Q ^ (a % N))
  rw [one_pow, mul_one] at this
  exact this.symm

theorem sum_map_modEq (t : List Nat) (g g' : Nat → Nat) (m : Nat) (h : ∀ x, g x ≡ g' x [MOD m]) : (t.map g).sum ≡ (t.map g').sum [MOD m] := by
  induction t with
  | nil => rfl
  | cons x t ih => exact (h x).add ih

theorem prodMod_modEq (t : List Nat) (T : UInt8 → Nat) (h : ∀ g : Nat → Nat, ∑ b ∈ bytes, g (T b) = (t.map g).sum) (k : Nat) :
    prodMod t k ≡ ∑ o ∈ words k, (2 ^ 136) ^ gearNat T o [MOD modu] := by
  induction k with
  | zero =>
    rw [show words 0 = {[]} by ext s; simp [mem_words], Finset.sum_singleton]
    rfl
  | succ k ih =>
    rw [prodMod, sum_pow_gearNat]
    refine (Nat.mod_modEq _ _).trans (ih.mul ?_)
    rw [packed_eq, h fun x => (2 ^ 136) ^ (x * 2 ^ k), List.map_map]
    have hm : modu = (2 ^ 136) ^ 2 ^ 16 - 1 := by rw [modu, pow_mul]
    rw [hm]
    refine sum_map_modEq _ _ _ _ fun x => ?_
    exact pow_mod_modEq _ _ _ (by positivity)

/-- how many strings of 16 bytes have a hash in the eight places up to `c`, modulo `2^16` -/
def nearby (T : UInt8 → Nat) (c : Nat) : Nat := ∑ o ∈ words 16, ∑ i ∈ Finset.range 8, if (gearNat T o + i) % 2 ^ 16 = c then 1 else 0

theorem nearby_le (T : UInt8 → Nat) (c : Nat) : nearby T c ≤ 2 ^ 131 := by
  refine le_trans (Finset.sum_le_sum (g := fun _ => 8) fun o _ => ?_) ?_
  · refine le_trans (Finset.sum_le_sum (g := fun _ => 1) fun i _ => ?_) ?_
    · split <;> omega
    · simp
  · rw [Finset.sum_const, card_words, smul_eq_mul]
    norm_num

theorem sum_nearby (T : UInt8 → Nat) (Q : Nat) : ∑ c ∈ Finset.range (2 ^ 16), nearby T c * Q ^ c =
    ∑ o ∈ words 16, ∑ i ∈ Finset.range 8, Q ^ ((gearNat T o + i) % 2 ^ 16) := by
  rw [Finset.sum_congr rfl fun c _ => by rw [nearby, Finset.sum_mul, Finset.sum_congr rfl fun o _ => Finset.sum_mul _ _ _]]
  rw [Finset.sum_comm]
  refine Finset.sum_congr rfl fun o _ => ?_
  rw [Finset.sum_comm]
  refine Finset.sum_congr rfl fun i _ => ?_
  rw [Finset.sum_eq_single ((gearNat T o + i) % 2 ^ 16)]
  · rw [if_pos rfl, one_mul]
  · intro c _ hc
    rw [if_neg (Ne.symm hc), zero_mul]
  · intro h
    exact absurd (Finset.mem_range.2 (Nat.mod_lt _ (by positivity))) h

theorem gearDigits_eq (t : List Nat) (T : UInt8 → Nat) (h : ∀ g : Nat → Nat, ∑ b ∈ bytes, g (T b) = (t.map g).sum) :
    gearDigits t = ∑ c ∈ Finset.range (2 ^ 16), nearby T c * (2 ^ 136) ^ c := by
  have hm : modu = (2 ^ 136) ^ 2 ^ 16 - 1 := by rw [modu, pow_mul]
  have h4 : (2 : Nat) < (2 ^ 136) ^ 2 ^ 16 := by
    refine Nat.lt_of_lt_of_le (by norm_num : 2 < 2 ^ 136) (Nat.le_self_pow (by positivity) _)
  have h1 : gearDigits t ≡ ∑ c ∈ Finset.range (2 ^ 16), nearby T c * (2 ^ 136) ^ c [MOD modu] := by
    rw [sum_nearby, gearDigits]
    refine (Nat.mod_modEq _ _).trans (((prodMod_modEq _ T h 16).mul_right _).trans ?_)
    rw [Finset.sum_mul, packed_eq]
    refine Nat.ModEq.sum fun o _ => ?_
    have : ((List.range 8).map fun e => (2 ^ 136) ^ (e % 2 ^ 3)).sum = ∑ i ∈ Finset.range 8, (2 ^ 136) ^ i := by rfl
    rw [this, Finset.mul_sum]
    refine Nat.ModEq.sum fun i _ => ?_
    rw [← pow_add, hm]
    exact (pow_mod_modEq _ _ _ (by positivity)).symm
  have h2 : gearDigits t < modu := Nat.mod_lt _ (by rw [hm]; omega)
  have h3 : ∑ c ∈ Finset.range (2 ^ 16), nearby T c * (2 ^ 136) ^ c < modu := by
    have := sum_digits_lt (Q := 2 ^ 136) (2 ^ 16) (fun c => 2 * nearby T c) fun c => by
      have := nearby_le T c
      have : (2 : Nat) ^ 131 * 32 = 2 ^ 136 := by norm_num
      have : (0 : Nat) < 2 ^ 131 := by positivity
      omega
    have e : ∑ c ∈ Finset.range (2 ^ 16), 2 * nearby T c * (2 ^ 136) ^ c = 2 * ∑ c ∈ Finset.range (2 ^ 16), nearby T c * (2 ^ 136) ^ c := by
      rw [Finset.mul_sum]
      exact Finset.sum_congr rfl fun c _ => by rw [mul_assoc]
    rw [e] at this
    rw [hm]
    generalize (2 ^ 136) ^ 2 ^ 16 = A at *
    omega
  exact Nat.ModEq.eq_of_lt_of_lt h1 h2 h3

/-! ## strings of 32 bytes -/

theorem gearNat_append (T : UInt8 → Nat) (x y : Bytes) : gearNat T (x ++ y) = 2 ^ y.length * gearNat T x + gearNat T y := by
  rw [gearNat, List.foldl_append, gearNat_acc]
  rfl

theorem sum_ite_eq_lt (y U : Nat) : (∑ u ∈ Finset.range U, ∑ i ∈ Finset.range 8, if y = 8 * u + 7 - i then 1 else 0) =
    if y < 8 * U then 1 else 0 := by
  have h : ∀ u, (∑ i ∈ Finset.range 8, if y = 8 * u + 7 - i then 1 else 0) = if y / 8 = u then 1 else 0 := by
    intro u
    by_cases hu : y / 8 = u
    · rw [if_pos hu, Finset.sum_eq_single (7 - y % 8)]
      · rw [if_pos (by omega)]
      · intro i hi hne
        have := Finset.mem_range.1 hi
        rw [if_neg (by omega)]
      · intro h
        exact absurd (Finset.mem_range.2 (by omega)) h
    · rw [if_neg hu]
      refine Finset.sum_eq_zero fun i hi => ?_
      have := Finset.mem_range.1 hi
      rw [if_neg (by omega)]
  rw [Finset.sum_congr rfl fun u _ => h u, Finset.sum_ite_eq]
  refine if_congr ?_ rfl rfl
  rw [Finset.mem_range]
  omega

theorem shift_mod {G i r u : Nat} (hi : i < 8) (hu : 8 * u + 7 < 2 ^ 16) :
    (G + i) % 2 ^ 16 = (8 * u + 7 + (2 ^ 16 - r % 2 ^ 16)) % 2 ^ 16 ↔ (G + r) % 2 ^ 16 = 8 * u + 7 - i := by
  omega

/-- the strings of 16 bytes whose hash, moved by `r`, is below `8 * U` -/
theorem count_below (T : UInt8 → Nat) (r U : Nat) (hU : U ≤ 2 ^ 13) :
    (∑ o ∈ words 16, if (gearNat T o + r) % 2 ^ 16 < 8 * U then 1 else 0) =
      ∑ u ∈ Finset.range U, nearby T ((8 * u + 7 + (2 ^ 16 - r % 2 ^ 16)) % 2 ^ 16) := by
  simp only [nearby]
  rw [Finset.sum_comm]
  refine Finset.sum_congr rfl fun o _ => ?_
  rw [← sum_ite_eq_lt]
  refine Finset.sum_congr rfl fun u hu => Finset.sum_congr rfl fun i hi => ?_
  have hu := Finset.mem_range.1 hu
  exact if_congr (shift_mod (Finset.mem_range.1 hi) (by omega)).symm rfl rfl

/-- the entries of the table -/
def gearT (b : UInt8) : Nat := (lookup Tables.gear32 b).toNat

theorem sum_bytes_table (t : Vector (BitVec 32) 256) (g : Nat → Nat) :
    ∑ b ∈ bytes, g (lookup t b).toNat = ((t.toList.map (·.toNat)).map g).sum := by
  rw [bytes, List.sum_toFinset _ nodup_allBytes, List.map_map]
  refine congrArg List.sum ?_
  refine List.ext_getElem (by simp [allBytes]) fun i h1 h2 => ?_
  have h2 : i < 256 := by simpa using h2
  simp [allBytes, lookup, Nat.mod_eq_of_lt h2]

theorem nearby_bounds (c : Nat) (hc : c < 2 ^ 16) :
    2 ^ 115 - 2 ^ 115 / 200000 ≤ nearby gearT c ∧ nearby gearT c ≤ 2 ^ 115 + 2 ^ 115 / 200000 := by
  refine within_digits _ _ 16 (nearby gearT) (fun c => ?_) ?_ c hc
  · exact Nat.lt_of_le_of_lt (nearby_le _ _) (by norm_num)
  · rw [← gearDigits_eq _ gearT (sum_bytes_table Tables.gear32)]
    exact gearDigits_within

/-- Of the strings of `n` bytes, `N` make up one in `2^m` up to a relative error of one in 200000. -/
def CloseToOneIn (m n N : Nat) : Prop := 199999 * 256 ^ n ≤ 200000 * (2 ^ m * N) ∧ 200000 * (2 ^ m * N) ≤ 200001 * 256 ^ n

/-- Whatever the bytes before and after: of the strings of 16 bytes that are followed by 16 others, one in `2^m` gives a hash whose first
`m` bits are zero. -/
theorem count_middle (m : Nat) (hm : m ≤ 13) (r : Nat) :
    CloseToOneIn m 16 (∑ o ∈ words 16, if (gearNat gearT o + r) % 2 ^ 16 < 2 ^ (16 - m) then 1 else 0) := by
  have e : 2 ^ (16 - m) = 8 * 2 ^ (13 - m) := by rw [show 16 - m = 3 + (13 - m) by omega, pow_add]; norm_num
  have e2 : 2 ^ m * 2 ^ (13 - m) = 2 ^ 13 := by rw [← pow_add]; congr 1; omega
  rw [e, count_below _ _ _ (Nat.pow_le_pow_right (by decide) (by omega))]
  set U := 2 ^ (13 - m)
  have hlo := Finset.sum_le_sum (s := Finset.range U) (f := fun _ => 2 ^ 115 - 2 ^ 115 / 200000)
    (g := fun u => nearby gearT ((8 * u + 7 + (2 ^ 16 - r % 2 ^ 16)) % 2 ^ 16)) fun u _ => (nearby_bounds _ (Nat.mod_lt _ (by positivity))).1
  have hhi := Finset.sum_le_sum (s := Finset.range U) (g := fun _ => 2 ^ 115 + 2 ^ 115 / 200000)
    (f := fun u => nearby gearT ((8 * u + 7 + (2 ^ 16 - r % 2 ^ 16)) % 2 ^ 16)) fun u _ => (nearby_bounds _ (Nat.mod_lt _ (by positivity))).2
  rw [Finset.sum_const, Finset.card_range, smul_eq_mul] at hlo hhi
  set S := ∑ u ∈ Finset.range U, nearby gearT ((8 * u + 7 + (2 ^ 16 - r % 2 ^ 16)) % 2 ^ 16)
  have h1 := Nat.mul_le_mul_left (2 ^ m) hlo
  have h2 := Nat.mul_le_mul_left (2 ^ m) hhi
  rw [← mul_assoc, e2] at h1 h2
  constructor
  · refine le_trans ?_ (Nat.mul_le_mul_left 200000 h1)
    norm_num
  · refine le_trans (Nat.mul_le_mul_left 200000 h2) ?_
    norm_num

theorem hash_split (a G W : Nat) (m : Nat) (hm : m ≤ 16) :
    (2 ^ 32 * a + (2 ^ 16 * G + W)) % 2 ^ 32 < 2 ^ (32 - m) ↔ (G + W / 2 ^ 16) % 2 ^ 16 < 2 ^ (16 - m) := by
  have e : 2 ^ (32 - m) = 2 ^ 16 * 2 ^ (16 - m) := by rw [← pow_add]; congr 1; omega
  rw [e, Nat.mul_add_mod]
  have : (2 ^ 16 * G + W) % 2 ^ 32 = 2 ^ 16 * ((G + W / 2 ^ 16) % 2 ^ 16) + W % 2 ^ 16 := by omega
  rw [this]
  have := Nat.mod_lt W (show 2 ^ 16 > 0 by positivity)
  generalize 2 ^ (16 - m) = B
  omega

/-- any `n ≥ 32` bytes, from any value of the hash -/
theorem count_gear (m : Nat) (hm : m ≤ 13) (f n : Nat) (hn : 32 ≤ n) :
    CloseToOneIn m n (∑ x ∈ words n, if (2 ^ n * f + gearNat gearT x) % 2 ^ 32 < 2 ^ (32 - m) then 1 else 0) := by
  obtain ⟨k, rfl⟩ : ∃ k, n = k + (16 + 16) := ⟨n - 32, by omega⟩
  have h : ∀ p ∈ words k, ∀ w ∈ words 16, CloseToOneIn m 16
      (∑ o ∈ words 16, if (2 ^ (k + (16 + 16)) * f + gearNat gearT (p ++ (o ++ w))) % 2 ^ 32 < 2 ^ (32 - m) then 1 else 0) := by
    intro p _ w hw
    have := count_middle m hm (gearNat gearT w / 2 ^ 16)
    rw [Finset.sum_congr rfl] 
    · exact this
    · intro o ho
      refine if_congr ?_ rfl rfl
      rw [← hash_split (2 ^ k * f + gearNat gearT p) _ _ m (by omega), gearNat_append, gearNat_append, List.length_append,
        mem_words.1 ho, mem_words.1 hw]
      have : 2 ^ (k + (16 + 16)) * f + (2 ^ (16 + 16) * gearNat gearT p + (2 ^ 16 * gearNat gearT o + gearNat gearT w)) =
          2 ^ 32 * (2 ^ k * f + gearNat gearT p) + (2 ^ 16 * gearNat gearT o + gearNat gearT w) := by
        rw [pow_add]; ring
      rw [this]
  have e : (∑ x ∈ words (k + (16 + 16)), if (2 ^ (k + (16 + 16)) * f + gearNat gearT x) % 2 ^ 32 < 2 ^ (32 - m) then 1 else 0) =
      ∑ p ∈ words k, ∑ w ∈ words 16, ∑ o ∈ words 16,
        if (2 ^ (k + (16 + 16)) * f + gearNat gearT (p ++ (o ++ w))) % 2 ^ 32 < 2 ^ (32 - m) then 1 else 0 := by
    rw [sum_words_add]
    refine Finset.sum_congr rfl fun p _ => ?_
    rw [sum_words_add, Finset.sum_comm]
  have c : ∀ a : Nat, ∑ p ∈ words k, ∑ w ∈ words 16, a = 256 ^ (k + 16) * a := by
    intro a
    rw [Finset.sum_congr rfl fun p _ => Finset.sum_const _, Finset.sum_const, card_words, card_words, smul_eq_mul, smul_eq_mul, pow_add]
    ring
  rw [e]
  have h1 := Finset.sum_le_sum fun p hp => Finset.sum_le_sum fun w hw => (h p hp w hw).1
  have h2 := Finset.sum_le_sum fun p hp => Finset.sum_le_sum fun w hw => (h p hp w hw).2
  rw [c] at h1
  rw [c] at h2
  simp only [← Finset.mul_sum] at h1 h2
  have e16 : (256 : Nat) ^ (k + (16 + 16)) = 256 ^ (k + 16) * 256 ^ 16 := by rw [← pow_add]
  rw [CloseToOneIn, e16]
  generalize (256 : Nat) ^ (k + 16) = A at *
  generalize (256 : Nat) ^ 16 = B at *
  refine ⟨le_trans (le_of_eq (by ring)) h1, le_trans h2 (le_of_eq (by ring))⟩

end HashRoll.Spec

namespace HashRoll.Spec
open HashRoll.Gear

/-- the state after `push` of every byte of `x`, whatever the cuts -/
def gearAfter (p : Gear32) (st : GearState32) (x : Bytes) : GearState32 := x.foldl (fun st v => (st.push p v).1) st

/-- after these bytes the condition for a cut is met -/
def gearHits (p : Gear32) (st : GearState32) (x : Bytes) : Bool := (gearAfter p st x).fp &&& p.mask == p.xxx

end HashRoll.Spec

namespace HashRoll.Props
open HashRoll.Spec HashRoll.Gear

/-- what the last `push` returns -/
theorem gearHits_snoc (p : Gear32) (st : GearState32) (x : Bytes) (v : UInt8) :
    gearHits p st (x ++ [v]) = ((gearAfter p st x).push p v).2 := by
  rw [gearHits, gearAfter, List.foldl_append]
  rfl

theorem gearAfter_fp {p : Gear32} (hg : p.gear = Tables.gear32) (st : GearState32) (x : Bytes) :
    (gearAfter p st x).fp.toNat = (2 ^ x.length * st.fp.toNat + gearNat gearT x) % 2 ^ 32 := by
  induction x generalizing st with
  | nil =>
    have := st.fp.isLt
    simp only [gearAfter, gearNat, List.foldl_nil, List.length_nil]
    omega
  | cons v x ih =>
    have e : gearAfter p st (v :: x) = gearAfter p (st.push p v).1 x := rfl
    have ef : (st.push p v).1.fp.toNat = (2 * st.fp.toNat + gearT v) % 2 ^ 32 := by
      show (st.fp <<< 1 + lookup p.gear v).toNat = _
      rw [hg, BitVec.toNat_add, BitVec.toNat_shiftLeft, gearT, Nat.shiftLeft_eq, Nat.mod_add_mod, Nat.mul_comm]
    rw [e, ih, ef, gearNat_cons, List.length_cons]
    have : 2 ^ (x.length + 1) * st.fp.toNat + (2 ^ x.length * gearT v + gearNat gearT x) =
        2 ^ x.length * (2 * st.fp.toNat + gearT v) + gearNat gearT x := by rw [pow_succ]; ring
    rw [this]
    exact (Nat.ModEq.add_right _ (Nat.ModEq.mul_left _ (Nat.mod_modEq _ _)))

theorem and_msb_zero {mask x : BitVec 32} {m : Nat} (h : ∀ i < 32, mask.getLsbD i = decide (32 - m ≤ i)) :
    x &&& mask = 0 ↔ x.toNat < 2 ^ (32 - m) := by
  constructor
  · intro h0
    refine Nat.lt_pow_two_of_testBit _ fun i hi => ?_
    by_cases h32 : i < 32
    · have := congrArg (fun y => y.getLsbD i) h0
      simp only [BitVec.getLsbD_and, h i h32, hi, decide_true, Bool.and_true] at this
      simpa [BitVec.getLsbD] using this
    · exact Nat.testBit_lt_two_pow (Nat.lt_of_lt_of_le x.isLt (Nat.pow_le_pow_right (by decide) (by omega)))
  · intro hx
    apply BitVec.eq_of_getLsbD_eq
    intro i hi
    rw [BitVec.getLsbD_and, h i hi]
    by_cases hl : 32 - m ≤ i
    · have : x.getLsbD i = false := Nat.testBit_lt_two_pow (Nat.lt_of_lt_of_le hx (Nat.pow_le_pow_right (by decide) hl))
      simp [this]
    · simp [hl]

/-- C91. Gear32 with an average size of at most 2^13, any state (so any bytes before): of the strings of `n ≥ 32` bytes, one in `2^m` ends
with the condition for a cut, up to 5 in a million. -/
theorem C91_gear (prof : Profile) (m : BitVec 64) (h1 : 1 ≤ m.toNat) (h2 : m.toNat ≤ 13) {p : Gear32}
    (hp : Gear32.withAverageSizeLog2 prof m = .ok p) (st : GearState32) {n : Nat} (hn : 32 ≤ n) :
    CloseToOneIn m.toNat n ((strings n).countP (gearHits p st)) := by
  obtain ⟨p', h, hx, hg, hb⟩ := C49_gear prof m h1 (by omega)
  rw [hp] at h
  cases h
  have := count_gear m.toNat h2 st.fp.toNat n hn
  rw [countP_strings, howMany_sum, Finset.sum_congr rfl]
  · exact this
  · intro x hxn
    refine if_congr ?_ rfl rfl
    rw [gearHits, beq_iff_eq, hx, and_msb_zero hb, gearAfter_fp hg, mem_words.1 hxn]

/-- C91. The default: one in 8192. -/
theorem C91_gear_default (prof : Profile) {p : Gear32} (hp : Gear32.default prof = .ok p) (st : GearState32) {n : Nat} (hn : 32 ≤ n) :
    CloseToOneIn 13 n ((strings n).countP (gearHits p st)) := C91_gear prof 13 (by decide) (by decide) hp st hn
example : ∃ p, Gear32.default .debug = .ok p := ⟨_, C49_default _⟩

end HashRoll.Props
