import Verif.Props.MeanBuz
/-!
# C92: mean chunk size of `RollSum`
-/

namespace HashRoll.Props
open Spec Bup

/-- what the last and the `d`th byte from the end contribute -/
theorem bupS2_ends {W d : Nat} (hd : d + 2 ≤ W) (p m : Bytes) (hm : m.length = d) (u v : UInt8) :
    bupS2 W (p ++ ([u] ++ (m ++ [v]))) = bupS2 W (p ++ ([0] ++ (m ++ [0]))) + (d + 2) * u.toNat + v.toNat := by
  have h : ∀ u v : UInt8, ([u] ++ (m ++ [v])).length = d + 2 := fun u v => by simp [hm]
  have e : ∀ u v : UInt8, bupS2 W (p ++ ([u] ++ (m ++ [v]))) = 31 * W * (W - 1) + (tsum (lastN (W - (d + 2)) p) +
      (d + 2) * bsum (lastN (W - (d + 2)) p) + (tsum m + (bsum m + v.toNat) + (d + 2) * u.toNat)) := by
    intro u v
    rw [bupS2_eq, lastN_append_le p (by rw [h]; exact hd), tsum_append, h, List.singleton_append, tsum_cons, tsum_snoc, bsum_snoc]
    simp [hm]
  rw [e u v, e 0 0]
  simp only [UInt8.toNat_zero]
  omega

/-- the newest byte -/
theorem bupS2_last {W : Nat} (hW : 1 ≤ W) (p : Bytes) (v : UInt8) : bupS2 W (p ++ [v]) = bupS2 W (p ++ [0]) + v.toNat := by
  have e : ∀ v : UInt8, bupS2 W (p ++ [v]) = 31 * W * (W - 1) + (tsum (lastN (W - 1) p) + bsum (lastN (W - 1) p) + v.toNat) := by
    intro v
    rw [bupS2_eq, lastN_append_le p (by simpa using hW), tsum_snoc, bsum_snoc, List.length_singleton]
    omega
  rw [e v, e 0]
  simp only [UInt8.toNat_zero]
  omega

theorem sum_last (K : Nat) : (∑ v ∈ bytes, if (K + v.toNat) % 8192 = 8191 then 1 else 0) ≤ 1 := by
  by_cases h : ∃ v : UInt8, (K + v.toNat) % 8192 = 8191
  · obtain ⟨w, hw⟩ := h
    refine le_trans (Finset.sum_le_sum fun v _ => ?_) (le_of_eq (sum_one_byte w.toNat_lt))
    have := v.toNat_lt
    have := w.toNat_lt
    by_cases hv : (K + v.toNat) % 8192 = 8191
    · rw [if_pos hv, if_pos (by omega)]
    · rw [if_neg hv]; omega
  · rw [Finset.sum_eq_zero]
    · omega
    · intro v _
      rw [if_neg fun hv => h ⟨v, hv⟩]

theorem spaced {d u v q c A B a b : Int} (h1 : 1 ≤ d) (h2 : d ≤ 32) (hu : 0 ≤ u ∧ u ≤ 255) (hv : 0 ≤ v ∧ v ≤ 255)
    (hA : q * d ≤ A ∧ A < q * d + d) (hB : q * d ≤ B ∧ B < q * d + d) (ha : a = 0 ∨ a = 1) (hb : b = 0 ∨ b = 1)
    (eA : A = d * u + c - 8192 * a) (eB : B = d * v + c - 8192 * b) : u = v := by
  have b1 : d * (u - v) ≤ d * 255 := mul_le_mul_of_nonneg_left (by omega) (by omega)
  have b2 : d * (v - u) ≤ d * 255 := mul_le_mul_of_nonneg_left (by omega) (by omega)
  rw [mul_sub] at b1 b2
  have e1 : u < v → d * 1 ≤ d * (v - u) := fun h => mul_le_mul_of_nonneg_left (by omega) (by omega)
  have e2 : v < u → d * 1 ≤ d * (u - v) := fun h => mul_le_mul_of_nonneg_left (by omega) (by omega)
  rw [mul_sub] at e1 e2
  generalize d * u = x at *
  generalize d * v = y at *
  generalize q * d = z at *
  rcases ha with rfl | rfl <;> rcases hb with rfl | rfl <;> omega

/-- of the multiples of `d ≤ 32` few lie in an interval of 256 numbers -/
theorem sum_spaced (K : Nat) {d : Nat} (h1 : 1 ≤ d) (h2 : d ≤ 32) :
    (∑ u ∈ bytes, if 7936 ≤ (K + d * u.toNat) % 8192 then 1 else 0) ≤ 255 / d + 1 := by
  simp only [← Nat.mod_add_mod K]
  have hK : K % 8192 < 8192 := Nat.mod_lt _ (by decide)
  generalize K % 8192 = K at *
  rw [← Finset.card_filter]
  refine le_trans (Finset.card_le_card_of_injOn (t := Finset.range (255 / d + 1)) (fun u => ((K + d * u.toNat) % 8192 - 7936) / d) ?_ ?_) ?_
  · intro u hu
    rw [Finset.coe_range, Set.mem_Iio]
    refine Nat.lt_succ_of_le (Nat.div_le_div_right ?_)
    omega
  · intro u hu v hv h
    have hu := (Finset.mem_filter.1 hu).2
    have hv := (Finset.mem_filter.1 hv).2
    have h3 := u.toNat_lt
    have h4 := v.toNat_lt
    dsimp only at h
    refine UInt8.toNat_inj.1 ?_
    have h5 : ∀ w : UInt8, d * w.toNat ≤ 32 * 255 := fun w => Nat.mul_le_mul h2 (by have := w.toNat_lt; omega)
    have h6 := h5 u
    have h7 := h5 v
    have d1 := Nat.div_add_mod ((K + d * u.toNat) % 8192 - 7936) d
    have d2 := Nat.div_add_mod ((K + d * v.toNat) % 8192 - 7936) d
    have r1 := Nat.mod_lt ((K + d * u.toNat) % 8192 - 7936) h1
    have r2 := Nat.mod_lt ((K + d * v.toNat) % 8192 - 7936) h1
    rw [h] at d1
    have := spaced (d := d) (u := u.toNat) (v := v.toNat) (q := (((K + d * v.toNat) % 8192 - 7936) / d : Nat)) (c := K - 7936)
      (A := ((K + d * u.toNat) % 8192 - 7936 : Nat)) (B := ((K + d * v.toNat) % 8192 - 7936 : Nat))
      (a := ((K + d * u.toNat) / 8192 : Nat)) (b := ((K + d * v.toNat) / 8192 : Nat))
      (by omega) (by omega) (by omega) (by omega) ?_ ?_ (by omega) (by omega) ?_ ?_
    · exact_mod_cast this
    · rw [mul_comm, ← Nat.cast_mul]; omega
    · rw [mul_comm, ← Nat.cast_mul]; omega
    · rw [← Nat.cast_mul]; omega
    · rw [← Nat.cast_mul]; omega
  · rw [Finset.card_range]

theorem sum_ends (K : Nat) {d : Nat} (h1 : 1 ≤ d) (h2 : d ≤ 32) :
    (∑ u ∈ bytes, ∑ v ∈ bytes, if (K + d * u.toNat + v.toNat) % 8192 = 8191 then 1 else 0) ≤ 255 / d + 1 := by
  refine le_trans (Finset.sum_le_sum fun u _ => ?_) (sum_spaced K h1 h2)
  by_cases h : 7936 ≤ (K + d * u.toNat) % 8192
  · rw [if_pos h]; exact sum_last _
  · rw [if_neg h, Finset.sum_eq_zero]
    intro v _
    have := v.toNat_lt
    rw [if_neg (by omega)]

section
variable {W : Nat} (hW : 32 ≤ W)

include hW in
theorem bup_freq_one (p : Bytes) : freq (bupEdge W) p 1 ≤ 1 / 256 := by
  rw [freq, pow_one]
  refine div_le_div_of_nonneg_right ?_ (by norm_num)
  have : howMany 1 (fun y => bupEdge W (p ++ y)) ≤ 1 := by
    refine le_trans (le_of_eq ?_) (sum_last (bupS2 W (p ++ [0])))
    simp only [bupEdge]
    rw [howMany_sum, sum_words_one]
    refine Finset.sum_congr rfl fun v _ => ?_
    rw [bupS2_last (by omega)]
  exact_mod_cast this

include hW in
theorem bup_freq_ends (p : Bytes) {d : Nat} (hd : d ≤ 30) : freq (bupEdge W) p (d + 2) ≤ (255 / (d + 2) + 1 : Nat) / 65536 := by
  rw [freq, div_le_div_iff₀ (by positivity) (by norm_num)]
  have : howMany (d + 2) (fun y => bupEdge W (p ++ y)) ≤ 256 ^ d * (255 / (d + 2) + 1) := by
    simp only [bupEdge]
    rw [howMany_sum,
      show d + 2 = 1 + (d + 1) by omega, sum_words_add, sum_words_one, Finset.sum_congr rfl fun u _ => sum_words_snoc d _, Finset.sum_comm,
      ← card_words d, ← smul_eq_mul, ← Finset.sum_const]
    refine Finset.sum_le_sum fun m hm => ?_
    have := sum_ends (bupS2 W (p ++ ([0] ++ (m ++ [0])))) (d := d + 2) (by omega) (by omega)
    rw [show 1 + (d + 1) = d + 2 by omega]
    refine le_trans (le_of_eq ?_) this
    refine Finset.sum_congr rfl fun u _ => Finset.sum_congr rfl fun v _ => ?_
    rw [bupS2_ends (by omega) p m (mem_words.1 hm)]
  have h2 : ((howMany (d + 2) (fun y => bupEdge W (p ++ y)) : Nat) : ℝ) ≤ 256 ^ d * ((255 / (d + 2) + 1 : Nat) : ℝ) := by exact_mod_cast this
  rw [pow_add]
  linarith

include hW in
theorem bup_freq_32 (p : Bytes) : freq (bupEdge W) p 32 = 1 / 8192 := by
  have : ∀ c, c = 30 → howMany (1 + (c + 1)) (fun y => bupEdge W (p ++ y)) = 256 ^ c * 8 := by
    intro c hc
    simp only [bupEdge]
    rw [howMany_sum, sum_words_add, sum_words_one, Finset.sum_congr rfl fun u _ => sum_words_snoc c _, Finset.sum_comm,
      ← card_words c, ← smul_eq_mul, ← Finset.sum_const]
    refine Finset.sum_congr rfl fun m hm => ?_
    rw [← sum_pairs (bupS2 W (p ++ ([0] ++ (m ++ [0]))))]
    refine Finset.sum_congr rfl fun u _ => Finset.sum_congr rfl fun v _ => ?_
    rw [bupS2_pair hW p m ((mem_words.1 hm).trans hc)]
  have h2 := this 30 rfl
  rw [freq, h2]
  push_cast
  norm_num

include hW in
theorem bup_freq (p : Bytes) (i : Nat) (hi : 32 ≤ i) : 1 / 8192 ≤ freq (bupEdge W) p i ∧ freq (bupEdge W) p i ≤ 1 / 8192 :=
  ⟨le_freq_of (fun p => (bup_freq_32 hW p).ge) p hi, freq_le_of (fun p => (bup_freq_32 hW p).le) p hi⟩

/-- bounds for the frequencies after a few bytes, less 1/8192 -/
noncomputable def bupExtra (i : Nat) : ℝ := if i ≤ 1 then 1 / 256 - 1 / 8192 else if i < 32 then (255 / i + 1 : Nat) / 65536 - 1 / 8192 else 0

include hW in
theorem bup_sum (p : Bytes) (T : Nat) :
    ∑ i ∈ Finset.range T, freq (bupEdge W) p (i + 1) ≤ 1218 / 100000 + 1 / 8192 * T := by
  refine sum_freq_le (D := 32) (w := bupExtra) (fun i => ?_) ?_ (fun p i h1 h2 => ?_) (fun p i hi => (bup_freq hW p i hi).2) p T
  · unfold bupExtra
    split
    · norm_num
    · split
      · have : 8 ≤ 255 / i + 1 := by
          have : 8 ≤ 255 / i := by rw [Nat.le_div_iff_mul_le (by omega)]; omega
          omega
        have : (8 : ℝ) ≤ (255 / i + 1 : Nat) := by exact_mod_cast this
        linarith
      · norm_num
  · norm_num [Finset.sum_range_succ, bupExtra]
  · unfold bupExtra
    split
    · obtain rfl : i = 1 := by omega
      have := bup_freq_one hW p
      linarith
    · have := bup_freq_ends hW p (d := i - 2) (by omega)
      rw [Nat.sub_add_cancel (by omega)] at this
      linarith

include hW in
theorem bup_mean : ∃ μ, HasSum (uncutShare (bupEdge W)) μ ∧ 6900 ≤ μ ∧ μ ≤ 9070 := by
  refine mean_between (D := 32) (K := 688) (T := 1175) (by norm_num) (fun p i hi => (bup_freq hW p i hi).1)
    (fun p i hi => (bup_freq hW p i hi).2) (bup_sum hW) ?_ ?_ ?_ ?_ <;> norm_num

theorem freq_append (e : Bytes → Prop) (h p : Bytes) (i : Nat) : freq (fun q => e (h ++ q)) p i = freq e (h ++ p) i := by
  rw [freq, freq]
  simp only [List.append_assoc]

include hW in
/-- after any bytes -/
theorem bup_mean_after (h : Bytes) : ∃ μ, HasSum (uncutShare fun q => bupEdge W (h ++ q)) μ ∧ 6900 ≤ μ ∧ μ ≤ 9070 := by
  refine mean_between (D := 32) (K := 688) (T := 1175) (by norm_num) (fun p i hi => ?_) (fun p i hi => ?_)
    (U := 1218 / 100000) (h := 1 / 8192) (l := 1 / 8192) (fun p T => ?_) ?_ ?_ ?_ ?_
  · rw [freq_append]; exact (bup_freq hW _ i hi).1
  · rw [freq_append]; exact (bup_freq hW _ i hi).2
  · simp only [freq_append]; exact bup_sum hW _ T
  all_goals norm_num

include hW in
theorem bup_block (n : Nat) : uncutShare (bupEdge W) (n + 2048) ≤ (1 - 212 / 1000) * uncutShare (bupEdge W) n := by
  refine le_trans (uncutShare_le n 32 2016 (by norm_num) (fun p i hi => (bup_freq hW p i hi).1)
    (fun p i hi => (bup_freq hW p i hi).2) (bup_sum hW)) ?_
  refine mul_le_mul_of_nonneg_right ?_ (uncutShare_nonneg _ _)
  norm_num

end

/-- C92. On random bytes the chunks found by `find_chunk_edge` of `RollSum` with any window of at least 32 bytes have a mean size between 6900
and 9070 bytes. -/
theorem C92_rollsum (p : RollSum) (hW : 32 ≤ p.windowLen) : ∃ μ : ℝ, MeanChunk (Bup.chunk p) μ ∧ 6900 ≤ μ ∧ μ ≤ 9070 := by
  obtain ⟨μ, hs, h⟩ := bup_mean hW
  exact ⟨μ, meanChunk_of_uncut (Bup.fce_conforms p) hs, h⟩
example : 32 ≤ RollSum.default.windowLen := by decide

/-- C92. `RollSumIncr` with a window of `2^n ≥ 32` bytes: in any state the mean number of bytes up to the next cut is in the same range. -/
theorem C92_rollsum_incr {n : Nat} (hn : 5 ≤ n) {st : RollSumIncr} (hr : Reachable (Bup.incr (RollSum.withWindow (2 ^ n))) st) :
    ∃ μ : ℝ, MeanPush (Bup.incr (RollSum.withWindow (2 ^ n))) st μ ∧ 6900 ≤ μ ∧ μ ≤ 9070 := by
  obtain ⟨h, hi⟩ := bup_reachable hr
  have hW : 32 ≤ 2 ^ n := (by norm_num : 32 = 2 ^ 5) ▸ Nat.pow_le_pow_right (by decide) hn
  obtain ⟨μ, hs, hb⟩ := bup_mean_after hW h
  refine ⟨μ, meanPush_of_uncut (e := fun q => bupEdge (2 ^ n) (h ++ q)) (fun s => ?_) hs, hb⟩
  have hi' : RingInv (2 ^ n) st (h ++ []) := by rwa [List.append_nil]
  rcases (incrLoop n).push_spec st h [] hi' (NoEdge.nil _) s with ⟨st', h1, -, h3⟩ | ⟨st', i, h1, -, -, h3⟩
  · exact ⟨st', none, h1, h3.not_firstCut⟩
  · refine ⟨st', some (i + 1), h1, ?_⟩
    have h4 : FirstCut (bupIncrEdge (2 ^ n) h) s (i + 1) := by simpa using h3
    exact h4
example : Reachable (Bup.incr (RollSum.withWindow (2 ^ 6))) (Bup.incr (RollSum.withWindow (2 ^ 6))).init := .init

/-- C92. At most `0.788^k` of the strings of `2048 k` bytes contain no end of a chunk. -/
theorem C92_rollsum_tail (p : RollSum) (hW : 32 ≤ p.windowLen) (k : Nat) :
    (noCut (Bup.chunk p) (k * 2048) : ℝ) ≤ (788 / 1000) ^ k * 256 ^ (k * 2048) := by
  rw [noCut_of_conforms (Bup.fce_conforms p)]
  refine mul_le_mul_of_nonneg_right ?_ (by positivity)
  have := uncutShare_add_mul_le (by norm_num) (bup_block hW) 0 k
  rw [uncutShare_zero, Nat.zero_add, mul_one] at this
  norm_num at this ⊢
  exact this

end HashRoll.Props
