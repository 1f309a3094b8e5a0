import Verif.Props.FreqBup
/-!
# Bounds for the mean chunk size from frequencies of the cut condition (for C92)

If, after any bytes, the condition holds after `i ≥ D` further bytes with a frequency between `l` and `h`, and the sum of the frequencies
after `1, ..., T` bytes is at most `U + h T`, then the mean chunk size lies between two numbers computed from these.
-/

namespace HashRoll.Spec

/-- the share of strings `y` of `i` bytes for which `p ++ y` satisfies `e` -/
noncomputable def freq (e : Bytes → Prop) (p : Bytes) (i : Nat) : ℝ := (howMany i fun y => e (p ++ y)) / 256 ^ i

theorem freq_nonneg (e : Bytes → Prop) (p : Bytes) (i : Nat) : 0 ≤ freq e p i := by unfold freq; positivity

open Classical in
theorem sum_freq (e : Bytes → Prop) (p : Bytes) (i : Nat) :
    ∑ y ∈ words i, (if e (p ++ y) then 1 else 0 : ℝ) = 256 ^ i * freq e p i := by
  rw [freq, howMany]
  push_cast
  field_simp

open Classical in
/-- longer strings -/
theorem sum_freq_take (e : Bytes → Prop) (p : Bytes) {i L : Nat} (h : i ≤ L) :
    ∑ y ∈ words L, (if e (p ++ y.take i) then 1 else 0 : ℝ) = 256 ^ L * freq e p i := by
  obtain ⟨d, rfl⟩ : ∃ d, L = i + d := ⟨L - i, by omega⟩
  rw [sum_words_add]
  rw [Finset.sum_congr rfl (g := fun x => (256 : ℝ) ^ d * if e (p ++ x) then 1 else 0)]
  · rw [← Finset.mul_sum, sum_freq, pow_add]
    ring
  · intro x hx
    rw [Finset.sum_congr rfl (g := fun _ => if e (p ++ x) then (1 : ℝ) else 0)]
    · rw [Finset.sum_const, card_words, nsmul_eq_mul]
      push_cast
      rfl
    · intro y _
      rw [List.take_left' (mem_words.1 hx)]

/-- a frequency after `i + j` bytes is a mean of frequencies after `j` bytes -/
theorem freq_add (e : Bytes → Prop) (p : Bytes) (i j : Nat) :
    256 ^ i * freq e p (i + j) = ∑ x ∈ words i, freq e (p ++ x) j := by
  classical
  have h : ∑ y ∈ words (i + j), (if e (p ++ y) then 1 else 0 : ℝ) = ∑ x ∈ words i, 256 ^ j * freq e (p ++ x) j := by
    rw [sum_words_add]
    refine Finset.sum_congr rfl fun x _ => ?_
    rw [← sum_freq]
    simp only [List.append_assoc]
  rw [sum_freq, ← Finset.mul_sum, pow_add] at h
  have h256 : (0 : ℝ) < 256 ^ j := by positivity
  have : 256 ^ j * (256 ^ i * freq e p (i + j)) = 256 ^ j * ∑ x ∈ words i, freq e (p ++ x) j := by rw [← h]; ring
  exact mul_left_cancel₀ h256.ne' this

theorem freq_le_of {e : Bytes → Prop} {h : ℝ} {j : Nat} (H : ∀ p, freq e p j ≤ h) (p : Bytes) {i : Nat} (hi : j ≤ i) : freq e p i ≤ h := by
  obtain ⟨k, rfl⟩ : ∃ k, i = k + j := ⟨i - j, by omega⟩
  have h1 := freq_add e p k j
  have h2 : ∑ x ∈ words k, freq e (p ++ x) j ≤ ∑ _x ∈ words k, h := Finset.sum_le_sum fun x _ => H _
  rw [Finset.sum_const, card_words, nsmul_eq_mul, ← h1] at h2
  push_cast at h2
  exact le_of_mul_le_mul_left h2 (by positivity)

theorem le_freq_of {e : Bytes → Prop} {l : ℝ} {j : Nat} (H : ∀ p, l ≤ freq e p j) (p : Bytes) {i : Nat} (hi : j ≤ i) : l ≤ freq e p i := by
  obtain ⟨k, rfl⟩ : ∃ k, i = k + j := ⟨i - j, by omega⟩
  have h1 := freq_add e p k j
  have h2 : ∑ _x ∈ words k, l ≤ ∑ x ∈ words k, freq e (p ++ x) j := Finset.sum_le_sum fun x _ => H _
  rw [Finset.sum_const, card_words, nsmul_eq_mul, ← h1] at h2
  push_cast at h2
  exact le_of_mul_le_mul_left h2 (by positivity)

open Classical in
/-- two places -/
theorem sum_freq_two (e : Bytes → Prop) (p : Bytes) {i j L : Nat} (hij : i < j) (hj : j ≤ L) :
    ∑ y ∈ words L, (if e (p ++ y.take i) then 1 else 0 : ℝ) * (if e (p ++ y.take j) then 1 else 0) =
      256 ^ (L - i) * ∑ x ∈ words i, (if e (p ++ x) then 1 else 0 : ℝ) * freq e (p ++ x) (j - i) := by
  obtain ⟨d, rfl⟩ : ∃ d, L = i + d := ⟨L - i, by omega⟩
  rw [sum_words_add, Finset.mul_sum]
  refine Finset.sum_congr rfl fun x hx => ?_
  have hx := mem_words.1 hx
  rw [Finset.sum_congr rfl (g := fun y => (if e (p ++ x) then 1 else 0 : ℝ) * if e ((p ++ x) ++ y.take (j - i)) then 1 else 0)]
  · rw [← Finset.mul_sum, sum_freq_take _ _ (by omega), Nat.add_sub_cancel_left]
    ring
  · intro y _
    rw [List.take_left' hx, List.take_append, List.take_of_length_le (by omega), hx, List.append_assoc]

/-! ## blocks -/

section
variable {e : Bytes → Prop}

open Classical in
theorem uncut_append_iff (x y : Bytes) : Uncut e (x ++ y) ↔ Uncut e x ∧ ∀ i, 1 ≤ i → i ≤ y.length → ¬ e (x ++ y.take i) := by
  constructor
  · intro h
    refine ⟨h.of_append, fun i h1 h2 => ?_⟩
    have := h (x.length + i) (by omega) (by rw [List.length_append]; omega)
    rwa [List.take_length_add_append] at this
  · rintro ⟨h1, h2⟩ m hm hm'
    by_cases hl : m ≤ x.length
    · rw [List.take_append_of_le_length hl]
      exact h1 m hm hl
    · rw [List.length_append] at hm'
      obtain ⟨i, rfl⟩ : ∃ i, m = x.length + i := ⟨m - x.length, by omega⟩
      rw [List.take_length_add_append]
      exact h2 i (by omega) (by omega)

open Classical in
/-- the strings without a cut, block by block -/
theorem uncutShare_add (n L : Nat) : 256 ^ (n + L) * uncutShare e (n + L) =
    ∑ x ∈ words n, (if Uncut e x then 1 else 0 : ℝ) * ∑ y ∈ words L, (if ∀ i, 1 ≤ i → i ≤ L → ¬ e (x ++ y.take i) then 1 else 0 : ℝ) := by
  have : 256 ^ (n + L) * uncutShare e (n + L) = (howMany (n + L) (Uncut e) : ℝ) := by
    rw [uncutShare]; field_simp
  rw [this, howMany]
  push_cast
  rw [sum_words_add]
  refine Finset.sum_congr rfl fun x _ => ?_
  rw [Finset.mul_sum]
  refine Finset.sum_congr rfl fun y hy => ?_
  have hy := mem_words.1 hy
  rw [← hy]
  by_cases h1 : Uncut e x <;> by_cases h2 : ∀ i, 1 ≤ i → i ≤ y.length → ¬ e (x ++ y.take i) <;> simp [uncut_append_iff, h1, h2]

open Classical in
theorem sum_uncut (n : Nat) : ∑ x ∈ words n, (if Uncut e x then 1 else 0 : ℝ) = 256 ^ n * uncutShare e n := by
  rw [uncutShare, howMany]
  push_cast
  field_simp

/-- at least this share of the strings goes on without a cut -/
theorem uncutShare_ge {a : ℝ} (n L : Nat) (h : ∀ p, ∑ i ∈ Finset.range L, freq e p (i + 1) ≤ a) :
    (1 - a) * uncutShare e n ≤ uncutShare e (n + L) := by
  classical
  have key : ∀ x, 256 ^ L * (1 - a) ≤ ∑ y ∈ words L, (if ∀ i, 1 ≤ i → i ≤ L → ¬ e (x ++ y.take i) then 1 else 0 : ℝ) := by
    intro x
    have h1 : ∀ y ∈ words L, 1 - ∑ i ∈ Finset.range L, (if e (x ++ y.take (i + 1)) then 1 else 0 : ℝ) ≤
        (if ∀ i, 1 ≤ i → i ≤ L → ¬ e (x ++ y.take i) then 1 else 0 : ℝ) := by
      intro y _
      by_cases hy : ∀ i, 1 ≤ i → i ≤ L → ¬ e (x ++ y.take i)
      · rw [if_pos hy]
        have : 0 ≤ ∑ i ∈ Finset.range L, (if e (x ++ y.take (i + 1)) then 1 else 0 : ℝ) :=
          Finset.sum_nonneg fun i _ => by split <;> norm_num
        linarith
      · rw [if_neg hy]
        push Not at hy
        obtain ⟨i, hi1, hi2, hi3⟩ := hy
        have := Finset.single_le_sum (f := fun i => (if e (x ++ y.take (i + 1)) then 1 else 0 : ℝ)) (s := Finset.range L)
          (fun i _ => by split <;> norm_num) (Finset.mem_range.2 (show i - 1 < L by omega))
        simp only [Nat.sub_add_cancel hi1, hi3, if_true] at this
        linarith
    refine le_trans ?_ (Finset.sum_le_sum h1)
    rw [Finset.sum_sub_distrib, Finset.sum_const, card_words, nsmul_eq_mul, Finset.sum_comm,
      Finset.sum_congr rfl fun i hi => sum_freq_take e x (show i + 1 ≤ L by have := Finset.mem_range.1 hi; omega), ← Finset.mul_sum]
    push_cast
    have := mul_le_mul_of_nonneg_left (h x) (show (0 : ℝ) ≤ 256 ^ L by positivity)
    linarith
  have h2 := uncutShare_add (e := e) n L
  have h3 : ∑ x ∈ words n, (if Uncut e x then 1 else 0 : ℝ) * (256 ^ L * (1 - a)) ≤ 256 ^ (n + L) * uncutShare e (n + L) := by
    rw [h2]
    refine Finset.sum_le_sum fun x _ => mul_le_mul_of_nonneg_left (key x) ?_
    split <;> norm_num
  rw [← Finset.sum_mul, sum_uncut, pow_add] at h3
  have h4 : (0 : ℝ) < 256 ^ n * 256 ^ L := by positivity
  refine le_of_mul_le_mul_left ?_ h4
  calc _ = 256 ^ n * uncutShare e n * (256 ^ L * (1 - a)) := by ring
    _ ≤ _ := h3

/-- the first two terms of inclusion and exclusion -/
theorem bonferroni (K : Nat) (a : Nat → ℝ) (ha : ∀ i, a i = 0 ∨ a i = 1) :
    (∀ i < K, a i = 0) ∧ ∑ j ∈ Finset.range K, (a j - ∑ i ∈ Finset.range j, a i * a j) = 0 ∨
    (∃ i < K, a i = 1) ∧ 1 ≤ ∑ i ∈ Finset.range K, a i ∧ ∑ j ∈ Finset.range K, (a j - ∑ i ∈ Finset.range j, a i * a j) ≤ 1 := by
  induction K with
  | zero => left; simp
  | succ K ih =>
    rw [Finset.sum_range_succ, Finset.sum_range_succ, ← Finset.sum_mul]
    rcases ih with ⟨h1, h2⟩ | ⟨⟨i, hi, hi'⟩, h1, h2⟩
    · have h0 : ∑ i ∈ Finset.range K, a i = 0 := Finset.sum_eq_zero fun i hi => h1 i (Finset.mem_range.1 hi)
      rw [h2, h0]
      rcases ha K with h | h
      · left
        refine ⟨fun i hi => ?_, by rw [h]; ring⟩
        rcases Nat.lt_succ_iff_lt_or_eq.1 hi with hi | rfl
        · exact h1 i hi
        · exact h
      · right
        exact ⟨⟨K, by omega, h⟩, by rw [h]; norm_num, by rw [h]; norm_num⟩
    · right
      refine ⟨⟨i, by omega, hi'⟩, ?_, ?_⟩
      · rcases ha K with h | h <;> rw [h] <;> linarith
      · rcases ha K with h | h
        · rw [h]; linarith
        · rw [h]; linarith

theorem sum_range_real (K : Nat) : ∑ i ∈ Finset.range K, (i : ℝ) = K * (K - 1) / 2 := by
  induction K with
  | zero => simp
  | succ K ih => rw [Finset.sum_range_succ, ih]; push_cast; ring

/-- at most this share -/
theorem uncutShare_le {l h U : ℝ} (n D K : Nat) (hD : 1 ≤ D) (hl : ∀ p i, D ≤ i → l ≤ freq e p i) (hh : ∀ p i, D ≤ i → freq e p i ≤ h)
    (hU : ∀ p T, ∑ i ∈ Finset.range T, freq e p (i + 1) ≤ U + h * T) :
    uncutShare e (n + (D + K)) ≤ (1 - (K * l - h * (K * U + h * (K * (K - 1) / 2)))) * uncutShare e n := by
  classical
  set P := K * l - h * (K * U + h * (K * (K - 1) / 2)) with hP
  have key : ∀ x, ∑ y ∈ words (D + K), (if ∀ i, 1 ≤ i → i ≤ D + K → ¬ e (x ++ y.take i) then 1 else 0 : ℝ) ≤ 256 ^ (D + K) * (1 - P) := by
    intro x
    let a : Bytes → Nat → ℝ := fun y i => if e (x ++ y.take (D + i)) then 1 else 0
    have h1 : ∀ y ∈ words (D + K), (if ∀ i, 1 ≤ i → i ≤ D + K → ¬ e (x ++ y.take i) then 1 else 0 : ℝ) ≤
        1 - ∑ j ∈ Finset.range K, (a y j - ∑ i ∈ Finset.range j, a y i * a y j) := by
      intro y _
      have ha : ∀ i, a y i = 0 ∨ a y i = 1 := fun i => by
        simp only [a]; split
        · right; rfl
        · left; rfl
      rcases bonferroni K (a y) ha with ⟨-, h2⟩ | ⟨⟨i, hi, hi'⟩, -, h2⟩
      · rw [h2]; split <;> norm_num
      · rw [if_neg]
        · linarith
        · intro h3
          have := h3 (D + i) (by omega) (by omega)
          simp only [a, this, if_false] at hi'
          norm_num at hi'
    refine le_trans (Finset.sum_le_sum h1) ?_
    rw [Finset.sum_sub_distrib, Finset.sum_const, card_words, nsmul_eq_mul, Finset.sum_comm, mul_sub, mul_one]
    push_cast
    have hswap : ∑ j ∈ Finset.range K, ∑ y ∈ words (D + K), (a y j - ∑ i ∈ Finset.range j, a y i * a y j) =
        ∑ j ∈ Finset.range K, 256 ^ (D + K) * freq e x (D + j) -
        ∑ i ∈ Finset.range K, ∑ j ∈ Finset.Ico (i + 1) K, ∑ y ∈ words (D + K), a y i * a y j := by
      rw [Finset.sum_congr rfl fun j _ => Finset.sum_sub_distrib _ _, Finset.sum_sub_distrib]
      congr 1
      · refine Finset.sum_congr rfl fun j hj => ?_
        have := Finset.mem_range.1 hj
        exact sum_freq_take e x (by omega)
      · rw [Finset.sum_congr rfl fun j _ => Finset.sum_comm]
        rw [Finset.range_eq_Ico, Finset.sum_Ico_Ico_comm' 0 K]
        simp only [Finset.range_eq_Ico]
    have hpair : ∀ i ∈ Finset.range K, ∑ j ∈ Finset.Ico (i + 1) K, ∑ y ∈ words (D + K), a y i * a y j ≤
        256 ^ (D + K) * (h * (U + h * ((K - 1 - i : Nat) : ℝ))) := by
      intro i hi
      have hi := Finset.mem_range.1 hi
      rw [Finset.sum_congr rfl (g := fun j => 256 ^ (D + K - (D + i)) *
        ∑ z ∈ words (D + i), (if e (x ++ z) then 1 else 0 : ℝ) * freq e (x ++ z) (j - i))]
      · rw [← Finset.mul_sum, Finset.sum_comm]
        have : ∀ z ∈ words (D + i), ∑ j ∈ Finset.Ico (i + 1) K, (if e (x ++ z) then 1 else 0 : ℝ) * freq e (x ++ z) (j - i) ≤
            (if e (x ++ z) then 1 else 0 : ℝ) * (U + h * ((K - 1 - i : Nat) : ℝ)) := by
          intro z _
          rw [← Finset.mul_sum]
          refine mul_le_mul_of_nonneg_left ?_ (by split <;> norm_num)
          rw [Finset.sum_Ico_eq_sum_range]
          have := hU (x ++ z) (K - 1 - i)
          rw [show K - (i + 1) = K - 1 - i by omega]
          refine le_trans (le_of_eq (Finset.sum_congr rfl fun t _ => ?_)) this
          congr 1
          omega
        have h3 := Finset.sum_le_sum this
        rw [← Finset.sum_mul, sum_freq] at h3
        have hpos : 0 ≤ U + h * ((K - 1 - i : Nat) : ℝ) :=
          le_trans (Finset.sum_nonneg fun t _ => freq_nonneg e x (t + 1)) (hU x (K - 1 - i))
        have h4 := mul_le_mul_of_nonneg_right (hh x (D + i) (by omega)) hpos
        have e1 : (256 : ℝ) ^ (D + K) = 256 ^ (D + K - (D + i)) * 256 ^ (D + i) := by rw [← pow_add]; congr 1; omega
        rw [e1]
        have h5 : (0 : ℝ) ≤ 256 ^ (D + i) := by positivity
        have h6 : (0 : ℝ) ≤ 256 ^ (D + K - (D + i)) := by positivity
        calc _ ≤ 256 ^ (D + K - (D + i)) * (256 ^ (D + i) * freq e x (D + i) * (U + h * ((K - 1 - i : Nat) : ℝ))) :=
              mul_le_mul_of_nonneg_left h3 h6
          _ = 256 ^ (D + K - (D + i)) * (256 ^ (D + i) * (freq e x (D + i) * (U + h * ((K - 1 - i : Nat) : ℝ)))) := by ring
          _ ≤ 256 ^ (D + K - (D + i)) * (256 ^ (D + i) * (h * (U + h * ((K - 1 - i : Nat) : ℝ)))) :=
              mul_le_mul_of_nonneg_left (mul_le_mul_of_nonneg_left h4 h5) h6
          _ = _ := by ring
      · intro j hj
        have hj := Finset.mem_Ico.1 hj
        have := sum_freq_two e x (i := D + i) (j := D + j) (L := D + K) (by omega) (by omega)
        rw [show D + j - (D + i) = j - i by omega] at this
        exact this
    rw [hswap]
    have h7 : K * (256 ^ (D + K) * l) ≤ ∑ j ∈ Finset.range K, 256 ^ (D + K) * freq e x (D + j) := by
      have := Finset.sum_le_sum (s := Finset.range K) (f := fun _ => 256 ^ (D + K) * l) (g := fun j => 256 ^ (D + K) * freq e x (D + j))
        fun j _ => mul_le_mul_of_nonneg_left (hl x (D + j) (by omega)) (by positivity)
      rwa [Finset.sum_const, Finset.card_range, nsmul_eq_mul] at this
    have h8 := Finset.sum_le_sum hpair
    rw [← Finset.mul_sum, ← Finset.mul_sum, Finset.sum_add_distrib, Finset.sum_const, Finset.card_range, nsmul_eq_mul, ← Finset.mul_sum,
      Finset.sum_range_reflect (fun i => (i : ℝ)) K] at h8
    rw [sum_range_real] at h8
    have h10 : 256 ^ (D + K) * P = K * (256 ^ (D + K) * l) - 256 ^ (D + K) * (h * (K * U + h * (K * (K - 1) / 2))) := by
      rw [hP]; ring
    linarith
  have h2 := uncutShare_add (e := e) n (D + K)
  have h3 : 256 ^ (n + (D + K)) * uncutShare e (n + (D + K)) ≤ ∑ x ∈ words n, (if Uncut e x then 1 else 0 : ℝ) * (256 ^ (D + K) * (1 - P)) := by
    rw [h2]
    refine Finset.sum_le_sum fun x _ => mul_le_mul_of_nonneg_left (key x) ?_
    split <;> norm_num
  rw [← Finset.sum_mul, sum_uncut, pow_add 256 n] at h3
  have h4 : (0 : ℝ) < 256 ^ n * 256 ^ (D + K) := by positivity
  refine le_of_mul_le_mul_left ?_ h4
  calc _ ≤ 256 ^ n * uncutShare e n * (256 ^ (D + K) * (1 - P)) := h3
    _ = _ := by ring

/-- the share of strings without a cut falls by a factor at least every `L` bytes -/
theorem sum_uncut_le {P : ℝ} {L : Nat} (hP : 0 < P) (h : ∀ n, uncutShare e (n + L) ≤ (1 - P) * uncutShare e n) (N : Nat) :
    ∑ n ∈ Finset.range N, uncutShare e n ≤ L / P := by
  have h1 : ∑ n ∈ Finset.range N, uncutShare e n ≤ ∑ n ∈ Finset.range (L + N), uncutShare e n :=
    Finset.sum_le_sum_of_subset_of_nonneg (Finset.range_mono (by omega)) fun n _ _ => uncutShare_nonneg e n
  have h2 : ∑ n ∈ Finset.range L, uncutShare e n ≤ L := by
    have := Finset.sum_le_sum (s := Finset.range L) (f := uncutShare e) (g := fun _ => 1) fun n _ => by
      have := antitone_nat_of_succ_le (uncutShare_anti e) (Nat.zero_le n)
      rwa [uncutShare_zero] at this
    simpa using this
  have h3 : ∑ n ∈ Finset.range N, uncutShare e (L + n) ≤ (1 - P) * ∑ n ∈ Finset.range N, uncutShare e n := by
    rw [Finset.mul_sum]
    exact Finset.sum_le_sum fun n _ => by rw [Nat.add_comm L]; exact h n
  rw [Finset.sum_range_add] at h1
  rw [le_div_iff₀ hP]
  linarith

/-- Bounds for the mean. -/
theorem mean_between {l h U lo hi : ℝ} {D K T : Nat} (hD : 1 ≤ D) (hl : ∀ p i, D ≤ i → l ≤ freq e p i) (hh : ∀ p i, D ≤ i → freq e p i ≤ h)
    (hU : ∀ p T, ∑ i ∈ Finset.range T, freq e p (i + 1) ≤ U + h * T) (hP : 0 < K * l - h * (K * U + h * (K * (K - 1) / 2)))
    (hhi : D + K ≤ (K * l - h * (K * U + h * (K * (K - 1) / 2))) * hi) (hT : 0 < U + h * T)
    (hlo : lo * (U + h * T) ≤ T * (1 - U) - h * (T * (T - 1) / 2)) :
    ∃ μ, HasSum (uncutShare e) μ ∧ lo ≤ μ ∧ μ ≤ hi := by
  set P := K * l - h * (K * U + h * (K * (K - 1) / 2)) with hPdef
  have hb := sum_uncut_le (e := e) (L := D + K) hP fun n => uncutShare_le n D K hD hl hh hU
  have hs : Summable (uncutShare e) := summable_of_sum_range_le (uncutShare_nonneg e) hb
  refine ⟨_, hs.hasSum, ?_, ?_⟩
  · have h1 := hs.sum_add_tsum_nat_add T
    have h2 : (1 - (U + h * T)) * ∑' n, uncutShare e n ≤ ∑' n, uncutShare e (n + T) := by
      rw [← tsum_mul_left]
      exact (hs.mul_left _).tsum_le_tsum (fun n => uncutShare_ge n T fun p => hU p T) ((summable_nat_add_iff T).2 hs)
    have h3 : T * (1 - U) - h * (T * (T - 1) / 2) ≤ ∑ n ∈ Finset.range T, uncutShare e n := by
      have h4 : ∀ n ∈ Finset.range T, 1 - (U + h * n) ≤ uncutShare e n := fun n _ => by
        have := uncutShare_ge (e := e) 0 n fun p => hU p n
        rwa [uncutShare_zero, mul_one, Nat.zero_add] at this
      have h5 := Finset.sum_le_sum h4
      rw [Finset.sum_sub_distrib, Finset.sum_add_distrib, ← Finset.mul_sum, sum_range_real] at h5
      simp only [Finset.sum_const, Finset.card_range, nsmul_eq_mul] at h5
      linarith
    have h6 : lo * (U + h * T) ≤ (∑' n, uncutShare e n) * (U + h * T) := by linarith
    exact le_of_mul_le_mul_right h6 hT
  · refine hs.tsum_le_of_sum_range_le fun N => le_trans (hb N) ?_
    rw [div_le_iff₀ hP, mul_comm hi]
    push_cast
    exact hhi

theorem uncutShare_add_mul_le {P : ℝ} {L : Nat} (hP : P ≤ 1) (h : ∀ n, uncutShare e (n + L) ≤ (1 - P) * uncutShare e n) (n k : Nat) :
    uncutShare e (n + k * L) ≤ (1 - P) ^ k * uncutShare e n := by
  induction k with
  | zero => rw [Nat.zero_mul, pow_zero, one_mul, Nat.add_zero]
  | succ k ih =>
    rw [Nat.succ_mul, ← Nat.add_assoc, pow_succ', mul_assoc]
    exact le_trans (h _) (mul_le_mul_of_nonneg_left ih (by linarith))

/-- A maximal size `N` far above the mean hardly changes the mean. -/
theorem mean_capped {e' : Bytes → Prop} {P μ : ℝ} {L k N : Nat} (hP : P ≤ 1) (hL : ∀ n, uncutShare e (n + L) ≤ (1 - P) * uncutShare e n)
    (h1 : ∀ n ≤ N, uncutShare e' n = uncutShare e n) (h2 : ∀ n, N < n → uncutShare e' n = 0) (hk : k * L ≤ N + 1)
    (hs : HasSum (uncutShare e) μ) : ∃ μ', HasSum (uncutShare e') μ' ∧ μ' ≤ μ ∧ (1 - (1 - P) ^ k) * μ ≤ μ' := by
  have e1 : HasSum (uncutShare e') (∑ n ∈ Finset.range (N + 1), uncutShare e' n) :=
    hasSum_sum_of_ne_finset_zero fun n hn => h2 n (by rw [Finset.mem_range] at hn; omega)
  rw [Finset.sum_congr rfl fun n hn => h1 n (by rw [Finset.mem_range] at hn; omega)] at e1
  have e2 := hs.summable.sum_add_tsum_nat_add (N + 1)
  have e3 : ∑' n, uncutShare e (n + (N + 1)) ≤ (1 - P) ^ k * μ := by
    rw [← hs.tsum_eq, ← tsum_mul_left]
    refine ((summable_nat_add_iff _).2 hs.summable).tsum_le_tsum (fun n => ?_) (hs.summable.mul_left _)
    refine le_trans ?_ (uncutShare_add_mul_le hP hL n k)
    exact antitone_nat_of_succ_le (uncutShare_anti e) (by omega)
  have e4 : 0 ≤ ∑' n, uncutShare e (n + (N + 1)) := tsum_nonneg fun n => uncutShare_nonneg e _
  rw [hs.tsum_eq] at e2
  exact ⟨_, e1, by linarith, by linarith⟩

/-- the sum of the frequencies from bounds for the first `D - 1` of them -/
theorem sum_freq_le {h U : ℝ} {D : Nat} {w : Nat → ℝ} (hw : ∀ i, 0 ≤ w i) (hsum : ∑ i ∈ Finset.range (D - 1), w (i + 1) ≤ U)
    (h1 : ∀ p i, 1 ≤ i → i < D → freq e p i ≤ h + w i) (h2 : ∀ p i, D ≤ i → freq e p i ≤ h) (p : Bytes) (T : Nat) :
    ∑ i ∈ Finset.range T, freq e p (i + 1) ≤ U + h * T := by
  have key : ∀ T, ∑ i ∈ Finset.range T, freq e p (i + 1) ≤ ∑ i ∈ Finset.range (min T (D - 1)), w (i + 1) + h * T := by
    intro T
    induction T with
    | zero => simp
    | succ T ih =>
      rw [Finset.sum_range_succ]
      push_cast
      by_cases hT : T < D - 1
      · rw [Nat.min_eq_left (by omega), Finset.sum_range_succ]
        rw [Nat.min_eq_left (by omega)] at ih
        have := h1 p (T + 1) (by omega) (by omega)
        linarith
      · rw [Nat.min_eq_right (by omega)]
        rw [Nat.min_eq_right (by omega)] at ih
        have := h2 p (T + 1) (by omega)
        linarith
  refine le_trans (key T) ?_
  have : ∑ i ∈ Finset.range (min T (D - 1)), w (i + 1) ≤ ∑ i ∈ Finset.range (D - 1), w (i + 1) :=
    Finset.sum_le_sum_of_subset_of_nonneg (Finset.range_mono (min_le_right _ _)) fun i _ _ => hw _
  linarith

end

end HashRoll.Spec
