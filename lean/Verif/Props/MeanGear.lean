import Verif.Props.FreqGear
import Verif.Props.GearTop
import Verif.Props.MeanBuz
/-!
# C92: mean chunk size of `Gear32::default`
-/

namespace HashRoll.Spec

/-! ## the first 16 bits of a few entries -/

/-- the sum of the first 16 bits of the shifted entries -/
def gearTop (T : UInt8 → Nat) : Bytes → Nat
  | [] => 0
  | v :: o => T v * 2 ^ o.length % 2 ^ 32 / 2 ^ 16 + gearTop T o

theorem gearTop_cons (T : UInt8 → Nat) (v : UInt8) (o : Bytes) : gearTop T (v :: o) = T v * 2 ^ o.length % 2 ^ 32 / 2 ^ 16 + gearTop T o := rfl

theorem sum_pow_gearTop (T : UInt8 → Nat) (Q k : Nat) :
    ∑ o ∈ words (k + 1), Q ^ gearTop T o = (∑ o ∈ words k, Q ^ gearTop T o) * ∑ b ∈ bytes, Q ^ (T b * 2 ^ k % 2 ^ 32 / 2 ^ 16) := by
  rw [sum_words_cons, Finset.sum_mul_sum, Finset.sum_comm]
  refine Finset.sum_congr rfl fun o ho => Finset.sum_congr rfl fun b _ => ?_
  rw [gearTop_cons, mem_words.1 ho, pow_add, mul_comm]

theorem topProd_modEq (t : List Nat) (T : UInt8 → Nat) (h : ∀ g : Nat → Nat, ∑ b ∈ bytes, g (T b) = (t.map g).sum) (k : Nat) :
    topProd t k ≡ ∑ o ∈ words k, (2 ^ 136) ^ gearTop T o [MOD modu] := by
  induction k with
  | zero =>
    rw [show words 0 = {[]} by ext s; simp [mem_words], Finset.sum_singleton]
    rfl
  | succ k ih =>
    rw [topProd, sum_pow_gearTop]
    refine (Nat.mod_modEq _ _).trans (ih.mul ?_)
    rw [packed_eq, h fun x => (2 ^ 136) ^ (x * 2 ^ k % 2 ^ 32 / 2 ^ 16), List.map_map]
    have hm : modu = (2 ^ 136) ^ 2 ^ 16 - 1 := by rw [modu, pow_mul]
    rw [hm]
    refine sum_map_modEq _ _ _ _ fun x => ?_
    exact pow_mod_modEq _ _ _ (by positivity)

/-- how many strings of `d` bytes come near `c` -/
def nearTop (T : UInt8 → Nat) (d c : Nat) : Nat :=
  ∑ o ∈ words d, ∑ i ∈ Finset.range (8 + d), if (gearTop T o + i) % 2 ^ 16 = c then 1 else 0

theorem nearTop_le (T : UInt8 → Nat) {d : Nat} (hd : d ≤ 8) (c : Nat) : nearTop T d c ≤ 2 ^ 131 := by
  refine le_trans (Finset.sum_le_sum (g := fun _ => 16) fun o _ => ?_) ?_
  · refine le_trans (Finset.sum_le_sum (g := fun _ => 1) fun i _ => ?_) ?_
    · split <;> omega
    · simp; omega
  · rw [Finset.sum_const, card_words, smul_eq_mul]
    have : 256 ^ d ≤ 256 ^ 8 := Nat.pow_le_pow_right (by decide) hd
    have : 256 ^ 8 * 16 ≤ 2 ^ 131 := by norm_num
    omega

theorem sum_nearTop (T : UInt8 → Nat) (d Q : Nat) : ∑ c ∈ Finset.range (2 ^ 16), nearTop T d c * Q ^ c =
    ∑ o ∈ words d, ∑ i ∈ Finset.range (8 + d), Q ^ ((gearTop T o + i) % 2 ^ 16) := by
  rw [Finset.sum_congr rfl fun c _ => by rw [nearTop, Finset.sum_mul, Finset.sum_congr rfl fun o _ => Finset.sum_mul _ _ _]]
  rw [Finset.sum_comm]
  refine Finset.sum_congr rfl fun o _ => ?_
  rw [Finset.sum_comm]
  refine Finset.sum_congr rfl fun i _ => ?_
  rw [Finset.sum_eq_single ((gearTop T o + i) % 2 ^ 16)]
  · rw [if_pos rfl, one_mul]
  · intro c _ hc
    rw [if_neg (Ne.symm hc), zero_mul]
  · intro h
    exact absurd (Finset.mem_range.2 (Nat.mod_lt _ (by positivity))) h

theorem sum_list_range {Q : Nat} (n : Nat) (hn : n ≤ 16) :
    ((List.range n).map fun e => Q ^ (e % 2 ^ 4)).sum = ∑ i ∈ Finset.range n, Q ^ i := by
  induction n with
  | zero => rfl
  | succ n ih =>
    rw [List.range_succ, List.map_append, List.sum_append, ih (by omega), Finset.sum_range_succ, List.map_singleton, List.sum_singleton,
      Nat.mod_eq_of_lt (by omega)]

theorem topDigits_eq (t : List Nat) (T : UInt8 → Nat) (h : ∀ g : Nat → Nat, ∑ b ∈ bytes, g (T b) = (t.map g).sum) {d : Nat} (hd : d ≤ 8) :
    topDigits t d = ∑ c ∈ Finset.range (2 ^ 16), nearTop T d c * (2 ^ 136) ^ c := by
  have hm : modu = (2 ^ 136) ^ 2 ^ 16 - 1 := by rw [modu, pow_mul]
  have h4 : (2 : Nat) < (2 ^ 136) ^ 2 ^ 16 := by
    refine Nat.lt_of_lt_of_le (by norm_num : 2 < 2 ^ 136) (Nat.le_self_pow (by positivity) _)
  have h1 : topDigits t d ≡ ∑ c ∈ Finset.range (2 ^ 16), nearTop T d c * (2 ^ 136) ^ c [MOD modu] := by
    rw [sum_nearTop, topDigits]
    refine (Nat.mod_modEq _ _).trans (((topProd_modEq _ T h d).mul_right _).trans ?_)
    rw [Finset.sum_mul, packed_eq]
    refine Nat.ModEq.sum fun o _ => ?_
    have : ((List.range (8 + d)).map fun e => (2 ^ 136) ^ (e % 2 ^ 4)).sum = ∑ i ∈ Finset.range (8 + d), (2 ^ 136) ^ i := by
      exact sum_list_range _ (by omega)
    rw [this, Finset.mul_sum]
    refine Nat.ModEq.sum fun i _ => ?_
    rw [← pow_add, hm]
    exact (pow_mod_modEq _ _ _ (by positivity)).symm
  have h2 : topDigits t d < modu := Nat.mod_lt _ (by rw [hm]; omega)
  have h3 : ∑ c ∈ Finset.range (2 ^ 16), nearTop T d c * (2 ^ 136) ^ c < modu := by
    have := sum_digits_lt (Q := 2 ^ 136) (2 ^ 16) (fun c => 2 * nearTop T d c) fun c => by
      have := nearTop_le T hd c
      have : (2 : Nat) ^ 131 * 32 = 2 ^ 136 := by norm_num
      have : (0 : Nat) < 2 ^ 131 := by positivity
      omega
    have e : ∑ c ∈ Finset.range (2 ^ 16), 2 * nearTop T d c * (2 ^ 136) ^ c = 2 * ∑ c ∈ Finset.range (2 ^ 16), nearTop T d c * (2 ^ 136) ^ c := by
      rw [Finset.mul_sum]
      exact Finset.sum_congr rfl fun c _ => by rw [mul_assoc]
    rw [e] at this
    rw [hm]
    generalize (2 ^ 136) ^ 2 ^ 16 = A at *
    omega
  exact Nat.ModEq.eq_of_lt_of_lt h1 h2 h3

/-- the hash is the sum of the first halves, up to carries -/
theorem gearNat_top (T : UInt8 → Nat) (o : Bytes) : ∃ low, low ≤ o.length * (2 ^ 16 - 1) ∧
    gearNat T o ≡ 2 ^ 16 * gearTop T o + low [MOD 2 ^ 32] := by
  induction o with
  | nil => exact ⟨0, by simp, rfl⟩
  | cons v o ih =>
    obtain ⟨low, h1, h2⟩ := ih
    refine ⟨low + T v * 2 ^ o.length % 2 ^ 32 % 2 ^ 16, ?_, ?_⟩
    · have : T v * 2 ^ o.length % 2 ^ 32 % 2 ^ 16 < 2 ^ 16 := Nat.mod_lt _ (by decide)
      rw [List.length_cons, Nat.succ_mul]
      omega
    · rw [gearNat_cons, gearTop_cons]
      have h3 : 2 ^ o.length * T v ≡ T v * 2 ^ o.length % 2 ^ 32 [MOD 2 ^ 32] := by
        rw [Nat.mul_comm]; exact (Nat.mod_modEq _ _).symm
      refine (h3.add h2).trans ?_
      have := Nat.div_add_mod (T v * 2 ^ o.length % 2 ^ 32) (2 ^ 16)
      have e : T v * 2 ^ o.length % 2 ^ 32 + (2 ^ 16 * gearTop T o + low) = 2 ^ 16 * (T v * 2 ^ o.length % 2 ^ 32 / 2 ^ 16 + gearTop T o) +
          (low + T v * 2 ^ o.length % 2 ^ 32 % 2 ^ 16) := by omega
      rw [e]

theorem top_mod {S r top low d : Nat} (hd : d ≤ 8) (hlow : low ≤ d * (2 ^ 16 - 1)) (hS : S ≡ 2 ^ 16 * top + low [MOD 2 ^ 32])
    (h : (r + S) % 2 ^ 32 < 2 ^ 19) : ∃ i < 8 + d, (top + i) % 2 ^ 16 = (7 + (2 ^ 16 - r % 2 ^ 32 / 2 ^ 16)) % 2 ^ 16 := by
  have h1 : (r + S) % 2 ^ 32 = (r % 2 ^ 32 + (2 ^ 16 * top + low)) % 2 ^ 32 := ((Nat.mod_modEq r _).symm.add hS)
  rw [h1] at h
  generalize hr : r % 2 ^ 32 = r' at *
  have hr' : r' < 2 ^ 32 := by rw [← hr]; exact Nat.mod_lt _ (by decide)
  clear h1 hS hr
  refine ⟨(r' % 2 ^ 16 + low) / 2 ^ 16 + 7 - (r' + (2 ^ 16 * top + low)) % 2 ^ 32 / 2 ^ 16, ?_, ?_⟩
  · have : low ≤ d * 65535 := hlow
    omega
  · have : low ≤ d * 65535 := hlow
    omega

theorem count_top (T : UInt8 → Nat) (r : Nat) {d : Nat} (hd : d ≤ 8) :
    (∑ o ∈ words d, if (r + gearNat T o) % 2 ^ 32 < 2 ^ 19 then 1 else 0) ≤ nearTop T d ((7 + (2 ^ 16 - r % 2 ^ 32 / 2 ^ 16)) % 2 ^ 16) := by
  refine Finset.sum_le_sum fun o ho => ?_
  by_cases h : (r + gearNat T o) % 2 ^ 32 < 2 ^ 19
  · obtain ⟨low, h1, h2⟩ := gearNat_top T o
    rw [mem_words.1 ho] at h1
    obtain ⟨i, hi, he⟩ := top_mod hd h1 h2 h
    rw [if_pos h]
    have := Finset.single_le_sum (f := fun i => if (gearTop T o + i) % 2 ^ 16 = (7 + (2 ^ 16 - r % 2 ^ 32 / 2 ^ 16)) % 2 ^ 16 then 1 else 0)
      (s := Finset.range (8 + d)) (fun i _ => Nat.zero_le _) (Finset.mem_range.2 hi)
    simp only [he, if_true] at this
    exact this
  · rw [if_neg h]; omega

theorem top_bound {hi d : Nat} (hd : d ≤ 8) (h : within 0 hi 16 (topDigits (Tables.gear32.toList.map (·.toNat)) d) = true) (r : Nat) :
    (∑ o ∈ words d, if (r + gearNat gearT o) % 2 ^ 32 < 2 ^ 19 then 1 else 0) ≤ hi := by
  refine le_trans (count_top gearT r hd) ?_
  refine (within_digits 0 hi 16 (nearTop gearT d) (fun c => ?_) ?_ _ (Nat.mod_lt _ (by decide))).2
  · exact Nat.lt_of_le_of_lt (nearTop_le _ hd _) (by norm_num)
  · rw [← topDigits_eq _ gearT (sum_bytes_table Tables.gear32) hd]
    exact h

end HashRoll.Spec

namespace HashRoll.Props
open Spec Gear

/-- the condition for a cut of the default -/
abbrev defaultEdge : Bytes → Prop := edge Ex.gear

theorem gearSum_nat (x : Bytes) : (gearSum (lookup Tables.gear32) x).toNat = gearNat gearT x % 2 ^ 32 := by
  induction x using snoc_induction with
  | nil => rfl
  | snoc x v ih =>
    rw [gearSum_snoc, gearNat_append, BitVec.toNat_add, BitVec.toNat_shiftLeft, ih]
    show _ = (2 ^ 1 * gearNat gearT x + gearNat gearT [v]) % _
    have : gearNat gearT [v] = (lookup Tables.gear32 v).toNat := by simp [gearNat, gearT]
    rw [this, Nat.shiftLeft_eq]
    omega

theorem defaultEdge_iff (p x : Bytes) : defaultEdge (p ++ x) ↔ (2 ^ x.length * gearNat gearT p + gearNat gearT x) % 2 ^ 32 < 2 ^ 19 := by
  obtain ⟨p', h, hx, hg, hb⟩ := C49_gear .debug 13 (by decide) (by decide)
  have h0 : Gear32.withAverageSizeLog2 .debug 13 = .ok Ex.gear := C49_default .debug
  rw [h0] at h
  cases h
  rw [defaultEdge, edge, gearEdge, hx, hg, and_msb_zero hb, gearSum_nat, gearNat_append]
  rfl

theorem default_howMany (p : Bytes) (n : Nat) : howMany n (fun x => defaultEdge (p ++ x)) =
    ∑ x ∈ words n, if (2 ^ n * gearNat gearT p + gearNat gearT x) % 2 ^ 32 < 2 ^ 19 then 1 else 0 := by
  rw [howMany_congr (Q := fun x => (2 ^ n * gearNat gearT p + gearNat gearT x) % 2 ^ 32 < 2 ^ 19) fun x hx => by
    rw [defaultEdge_iff, hx], howMany_sum]

theorem default_freq_few {hi d : Nat} (hd : d ≤ 8) (h : within 0 hi 16 (topDigits (Tables.gear32.toList.map (·.toNat)) d) = true)
    (p : Bytes) : freq defaultEdge p d ≤ hi / 256 ^ d := by
  rw [freq, default_howMany]
  refine div_le_div_of_nonneg_right ?_ (by positivity)
  exact_mod_cast top_bound hd h _

theorem default_freq (p : Bytes) {n : Nat} (hn : 32 ≤ n) :
    199999 / 200000 / 8192 ≤ freq defaultEdge p n ∧ freq defaultEdge p n ≤ 200001 / 200000 / 8192 := by
  obtain ⟨h1, h2⟩ := count_gear 13 (le_refl _) (gearNat gearT p) n hn
  have e := default_howMany p n
  rw [show (2 : Nat) ^ (32 - 13) = 2 ^ 19 from rfl, ← e] at h1 h2
  generalize hN : howMany n (fun x => defaultEdge (p ++ x)) = N at *
  have h1' : (199999 : ℝ) * 256 ^ n ≤ 200000 * (2 ^ 13 * N) := by exact_mod_cast h1
  have h2' : 200000 * ((2 : ℝ) ^ 13 * N) ≤ 200001 * 256 ^ n := by exact_mod_cast h2
  have hpos : (0 : ℝ) < 256 ^ n := by positivity
  have hf : freq defaultEdge p n = N / 256 ^ n := by rw [freq]; rw [hN]
  rw [hf]
  constructor
  · rw [le_div_iff₀ hpos]; linarith
  · rw [div_le_iff₀ hpos]; linarith

/-- bounds for the frequencies after a few bytes, less 1/8192 -/
noncomputable def defaultExtra (i : Nat) : ℝ :=
  if i = 1 then 20 / 256 - 1 / 8192 else if i = 2 then 410 / 256 ^ 2 - 1 / 8192 else
  if i = 3 then 10797 / 256 ^ 3 - 1 / 8192 else 949409 / 256 ^ 4 - 1 / 8192

theorem default_sum (p : Bytes) (T : Nat) :
    ∑ i ∈ Finset.range T, freq defaultEdge p (i + 1) ≤ 875 / 10000 + 200001 / 200000 / 8192 * T := by
  refine sum_freq_le (D := 32) (w := defaultExtra) (fun i => ?_) ?_ (fun p i h1 h2 => ?_) (fun p i hi => (default_freq p hi).2) p T
  · unfold defaultExtra
    split
    · norm_num
    · split
      · norm_num
      · split <;> norm_num
  · norm_num [Finset.sum_range_succ, defaultExtra]
  · unfold defaultExtra
    split
    · rename_i h; subst h
      have := default_freq_few (by decide) topDigits_1 p
      norm_num at this ⊢
      linarith
    · split
      · rename_i h; subst h
        have := default_freq_few (by decide) topDigits_2 p
        norm_num at this ⊢
        linarith
      · split
        · rename_i h; subst h
          have := default_freq_few (by decide) topDigits_3 p
          norm_num at this ⊢
          linarith
        · have := freq_le_of (default_freq_few (by decide) topDigits_4) p (i := i) (by omega)
          norm_num at this ⊢
          linarith

/-- C92. On random bytes the chunks found by `find_chunk_edge` of `Gear32::default` have a mean size between 4840 and 9850 bytes. -/
theorem C92_gear (prof : Profile) {p : Gear32} (hp : Gear32.default prof = .ok p) : ∃ μ : ℝ, MeanChunk (chunk p) μ ∧ 4840 ≤ μ ∧ μ ≤ 9850 := by
  have h0 : Gear32.default prof = .ok Ex.gear := C49_default prof
  rw [h0] at hp
  cases hp
  obtain ⟨μ, hs, h1, h2⟩ : ∃ μ, HasSum (uncutShare defaultEdge) μ ∧ 4840 ≤ μ ∧ μ ≤ 9850 := by
    refine mean_between (D := 32) (K := 660) (T := 2633) (by norm_num) (fun p i hi => (default_freq p hi).1)
      (fun p i hi => (default_freq p hi).2) default_sum ?_ ?_ ?_ ?_ <;> norm_num
  exact ⟨μ, meanChunk_of_uncut (fce_conforms _) hs, h1, h2⟩
example : ∃ p, Gear32.default .debug = .ok p := ⟨_, C49_default _⟩

theorem default_block (n : Nat) : uncutShare defaultEdge (n + 2048) ≤ (1 - 194 / 1000) * uncutShare defaultEdge n := by
  refine le_trans (uncutShare_le n 32 2016 (by norm_num) (fun p i hi => (default_freq p hi).1)
    (fun p i hi => (default_freq p hi).2) default_sum) ?_
  refine mul_le_mul_of_nonneg_right ?_ (uncutShare_nonneg _ _)
  norm_num

/-- C92. At most `0.806^k` of the strings of `2048 k` bytes contain no end of a chunk. -/
theorem C92_gear_tail (prof : Profile) {p : Gear32} (hp : Gear32.default prof = .ok p) (k : Nat) :
    (noCut (chunk p) (k * 2048) : ℝ) ≤ (806 / 1000) ^ k * 256 ^ (k * 2048) := by
  have h0 : Gear32.default prof = .ok Ex.gear := C49_default prof
  rw [h0] at hp
  cases hp
  rw [noCut_of_conforms (fce_conforms _)]
  refine mul_le_mul_of_nonneg_right ?_ (by positivity)
  have := uncutShare_add_mul_le (by norm_num) default_block 0 k
  rw [uncutShare_zero, Nat.zero_add, mul_one] at this
  norm_num at this ⊢
  exact this

end HashRoll.Props
