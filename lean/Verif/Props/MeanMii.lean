import Mathlib.Data.Nat.Choose.Sum
import Verif.Props.MeanSizes
/-!
# C80: mean chunk size of Mii on uniformly random bytes

src/mii.rs:6-9 leaves this open ("determine distribution and expected size of chunks").
The number `a n` of strings of length `n` without a cut satisfies, for `n ≥ 1` and `m = w + 1`,
`∑ C(256, k m) a (n - k m) = ∑ C(256, k m + 1) a (n - k m - 1)`: both sides count pairs of a string and a way to write
it as an increasing block (of length `k m`, or `k m + 1`) followed by a string without a cut, and with `r` the length of
the longest increasing prefix exactly one block length of each kind is possible, if one is at all.
-/

namespace HashRoll.Props

open Spec

/-! ## increasing strings -/

theorem sum_bytes (f : Nat → Nat) : ∑ b ∈ bytes, f b.toNat = ∑ v ∈ Finset.range 256, f v := by
  refine Finset.sum_nbij' (fun b => b.toNat) (fun v => UInt8.ofNat v) ?_ ?_ ?_ ?_ ?_
  · intro b _; exact Finset.mem_range.2 b.toNat_lt
  · intro v _; exact mem_bytes _
  · intro b _; simp
  · intro v hv; simp [Nat.mod_eq_of_lt (Finset.mem_range.1 hv)]
  · intro b _; rfl

theorem sum_choose (t j : Nat) : ∑ v ∈ Finset.range t, v.choose j = t.choose (j + 1) := by
  induction t with
  | zero => simp
  | succ t ih => rw [Finset.sum_range_succ, ih, Nat.choose_succ_succ, Nat.add_comm]

theorem increasing_snoc {s : Bytes} {b : UInt8} : Increasing (s ++ [b]) ↔ Increasing s ∧ ∀ c ∈ s, c.toNat < b.toNat := by
  unfold Increasing
  rw [List.pairwise_append]
  simp [UInt8.lt_iff_toNat_lt]

/-- an increasing string with bytes between `l` and `t` -/
def Between (l t : Nat) (s : Bytes) : Prop := Increasing s ∧ (∀ c ∈ s, l ≤ c.toNat) ∧ ∀ c ∈ s, c.toNat < t

theorem howMany_increasing {l : Nat} (j : Nat) : ∀ {t : Nat}, t ≤ 256 →
    howMany j (Between l t) = (t - l).choose j := by
  classical
  induction j with
  | zero =>
    intro t _
    have : words 0 = {[]} := by ext s; simp [mem_words]
    rw [howMany, this, Finset.sum_singleton]
    simp [Increasing, Between]
  | succ j ih =>
    intro t ht
    rw [howMany, sum_words_snoc, Finset.sum_comm]
    have h1 : ∀ b ∈ bytes, (∑ s ∈ words j, if Between l t (s ++ [b]) then 1 else 0) =
        (fun v => if l ≤ v ∧ v < t then (v - l).choose j else 0) b.toNat := by
      intro b _
      dsimp only
      have e : ∀ s : Bytes, Between l t (s ++ [b]) ↔ (l ≤ b.toNat ∧ b.toNat < t) ∧ Between l b.toNat s := by
        intro s
        unfold Between
        rw [increasing_snoc]
        constructor
        · rintro ⟨⟨h1, h2⟩, h3, h4⟩
          exact ⟨⟨h3 b (by simp), h4 b (by simp)⟩, h1, fun c hc => h3 c (by simp [hc]), h2⟩
        · rintro ⟨⟨h1, h2⟩, h3, h4, h5⟩
          refine ⟨⟨h3, h5⟩, fun c hc => ?_, fun c hc => ?_⟩ <;> rcases List.mem_append.1 hc with hc | hc
          · exact h4 c hc
          · rw [List.mem_singleton.1 hc]; exact h1
          · have := h5 c hc; omega
          · rw [List.mem_singleton.1 hc]; exact h2
      by_cases hb : l ≤ b.toNat ∧ b.toNat < t
      · rw [if_pos hb, ← ih (t := b.toNat) (by have := b.toNat_lt; omega), howMany]
        exact Finset.sum_congr rfl fun s _ => if_congr ((e s).trans ⟨fun h => h.2, fun h => ⟨hb, h⟩⟩) rfl rfl
      · rw [if_neg hb]
        exact Finset.sum_eq_zero fun s _ => if_neg fun h => hb ((e s).1 h).1
    rw [Finset.sum_congr rfl h1, sum_bytes fun v => if l ≤ v ∧ v < t then (v - l).choose j else 0, ← Finset.sum_filter]
    have h2 : (Finset.range 256).filter (fun v => l ≤ v ∧ v < t) = Finset.Ico l t := by
      ext v; simp only [Finset.mem_filter, Finset.mem_range, Finset.mem_Ico]; omega
    rw [h2, Finset.sum_Ico_eq_sum_range, ← sum_choose]
    exact Finset.sum_congr rfl fun v _ => by rw [Nat.add_sub_cancel_left]

theorem count_increasing (j : Nat) : howMany j Increasing = Nat.choose 256 j := by
  have := howMany_increasing (l := 0) j (t := 256) (by omega)
  rw [Nat.sub_zero] at this
  rw [← this]
  exact howMany_congr fun s _ => ⟨fun h => ⟨h, fun c _ => Nat.zero_le _, fun c _ => c.toNat_lt⟩, fun h => h.1⟩

theorem count_increasing_pos (j : Nat) : howMany j (fun s => Increasing (0 :: s)) = Nat.choose 255 j := by
  have := howMany_increasing (l := 1) j (t := 256) (by omega)
  rw [show 256 - 1 = 255 from rfl] at this
  rw [← this]
  refine howMany_congr fun s _ => ?_
  unfold Increasing
  rw [List.pairwise_cons]
  constructor
  · rintro ⟨h1, h2⟩
    refine ⟨h2, fun c hc => ?_, fun c _ => c.toNat_lt⟩
    have := h1 c hc
    rw [UInt8.lt_iff_toNat_lt] at this
    exact this
  · rintro ⟨h1, h2, -⟩
    refine ⟨fun c hc => ?_, h1⟩
    rw [UInt8.lt_iff_toNat_lt]
    exact h2 c hc

/-! ## strings without `m` increasing bytes in a row -/

/-- no `m` consecutive bytes of `s` increase -/
def Avoid (m : Nat) (s : Bytes) : Prop := ∀ k, k + m ≤ s.length → ¬ Increasing ((s.drop k).take m)

theorem avoid_iff_uncut {w : Nat} (hw : 1 ≤ w) (s : Bytes) : Uncut (miiEdge w) s ↔ Avoid (w + 1) s := by
  constructor
  · intro h k hk hi
    refine h (k + (w + 1)) (by omega) hk ⟨hw, by rw [List.length_take]; omega, ?_⟩
    rw [lastN, List.length_take, Nat.min_eq_left hk, Nat.add_sub_cancel, List.drop_take]
    rwa [Nat.add_sub_cancel_left]
  · rintro h m h1 h2 ⟨-, h3, h4⟩
    rw [List.length_take, Nat.min_eq_left h2] at h3
    refine h (m - (w + 1)) (by omega) ?_
    rw [lastN, List.length_take, Nat.min_eq_left h2, List.drop_take] at h4
    rwa [show m - (m - (w + 1)) = w + 1 by omega] at h4

/-- a string that starts with `j` increasing bytes, without a cut after them -/
def Split (m : Nat) (s : Bytes) (j : Nat) : Prop := j ≤ s.length ∧ Increasing (s.take j) ∧ Avoid m (s.drop j)

theorem Increasing.sublist {s t : Bytes} (h : Increasing t) (hs : s.Sublist t) : Increasing s := List.Pairwise.sublist hs h

/-- the longest increasing prefix -/
theorem exists_run (s : Bytes) (hs : s ≠ []) : ∃ r, 1 ≤ r ∧ r ≤ s.length ∧ Increasing (s.take r) ∧
    ∀ j, j ≤ s.length → Increasing (s.take j) → j ≤ r := by
  classical
  have hlen : 1 ≤ s.length := List.length_pos_of_ne_nil hs
  let P : Nat → Prop := fun j => Increasing (s.take j)
  have h1 : P 1 := by
    obtain ⟨b, t, rfl⟩ := List.exists_cons_of_ne_nil hs
    simp [P, Increasing]
  refine ⟨Nat.findGreatest P s.length, Nat.le_findGreatest hlen h1, Nat.findGreatest_le _,
    Nat.findGreatest_spec (P := P) hlen h1, fun j hj hi => Nat.le_findGreatest hj hi⟩

/-- the string can be split after `j` bytes iff `j ≤ r < j + m` and it can be split after `r` -/
theorem split_iff {m : Nat} (hm : 2 ≤ m) {s : Bytes} {r : Nat} (h2 : r ≤ s.length)
    (h3 : Increasing (s.take r)) (h4 : ∀ j, j ≤ s.length → Increasing (s.take j) → j ≤ r) (j : Nat) :
    Split m s j ↔ (j ≤ r ∧ r < j + m) ∧ Avoid m (s.drop r) := by
  constructor
  · rintro ⟨hj, hi, ha⟩
    have hjr := h4 j hj hi
    refine ⟨⟨hjr, ?_⟩, fun k hk => ?_⟩
    · by_contra hlt
      refine ha 0 (by rw [List.length_drop]; omega) ?_
      rw [List.drop_zero]
      refine h3.sublist ?_
      have : (s.drop j).take m = (s.take (j + m)).drop j := by rw [List.drop_take, Nat.add_sub_cancel_left]
      rw [this]
      exact (List.drop_sublist _ _).trans (List.take_prefix_take_left (by omega)).sublist
    · rw [List.length_drop] at hk
      have := ha (r - j + k) (by rw [List.length_drop]; omega)
      rwa [List.drop_drop, show j + (r - j + k) = r + k by omega, ← List.drop_drop] at this
  · rintro ⟨⟨hj, hr⟩, ha⟩
    refine ⟨by omega, h3.sublist (List.take_prefix_take_left hj).sublist, fun k hk hi => ?_⟩
    rw [List.length_drop] at hk
    rw [List.drop_drop] at hi
    by_cases hkr : r ≤ j + k
    · refine ha (j + k - r) (by rw [List.length_drop]; omega) ?_
      rwa [List.drop_drop, show r + (j + k - r) = j + k by omega]
    · -- the window would make the prefix longer
      have hr1 : r + 1 ≤ s.length := by omega
      have : Increasing (s.take (r + 1)) := by
        have hrl : r < s.length := by omega
        rw [List.take_add_one, List.getElem?_eq_getElem hrl, Option.toList_some, increasing_snoc]
        refine ⟨h3, fun c hc => ?_⟩
        -- `s[r-1] < s[r]`
        have hlast : (s[r - 1]'(by omega)).toNat < (s[r]'hrl).toNat := by
          have hi' := List.pairwise_iff_getElem.1 hi (r - 1 - (j + k)) (r - (j + k))
            (by rw [List.length_take, List.length_drop]; omega) (by rw [List.length_take, List.length_drop]; omega) (by omega)
          rw [List.getElem_take, List.getElem_take, List.getElem_drop, List.getElem_drop] at hi'
          simp only [show j + k + (r - 1 - (j + k)) = r - 1 by omega, show j + k + (r - (j + k)) = r by omega] at hi'
          exact UInt8.lt_iff_toNat_lt.1 hi'
        obtain ⟨i, hi1, rfl⟩ := List.mem_iff_getElem.1 hc
        rw [List.length_take] at hi1
        rw [List.getElem_take]
        by_cases hi2 : i = r - 1
        · subst hi2; exact hlast
        · have h5 := List.pairwise_iff_getElem.1 h3 i (r - 1)
            (by rw [List.length_take]; omega) (by rw [List.length_take]; omega) (by omega)
          rw [List.getElem_take, List.getElem_take, UInt8.lt_iff_toNat_lt] at h5
          omega
      have := h4 (r + 1) hr1 this
      omega

open Classical in
/-- exactly one block length in each residue class -/
theorem sum_split {m : Nat} (hm : 2 ≤ m) {s : Bytes} {r : Nat} (h2 : r ≤ s.length)
    (h3 : Increasing (s.take r)) (h4 : ∀ j, j ≤ s.length → Increasing (s.take j) → j ≤ r) {q : Nat} (hq : q < m) (hqr : q ≤ r) :
    ∑ j ∈ Finset.range (s.length + 1), (if j % m = q then (if Split m s j then 1 else 0) else 0) =
      if Avoid m (s.drop r) then 1 else 0 := by
  have hdm := Nat.div_add_mod (r - q) m
  have hml := Nat.mod_lt (r - q) (show 0 < m by omega)
  rw [Finset.sum_eq_single (m * ((r - q) / m) + q)]
  · rw [Nat.mul_add_mod, Nat.mod_eq_of_lt hq, if_pos rfl]
    refine if_congr ?_ rfl rfl
    rw [split_iff hm h2 h3 h4]
    exact ⟨fun h => h.2, fun h => ⟨⟨by omega, by omega⟩, h⟩⟩
  · intro j _ hne
    by_cases hj : j % m = q
    · rw [if_pos hj, if_neg]
      intro h
      have h' := ((split_iff hm h2 h3 h4 j).1 h).1
      apply hne
      have h5 := Nat.div_add_mod j m
      have h6 : (r - q) / m = j / m := by
        rw [Nat.div_eq_iff (by omega)]
        rw [Nat.mul_comm] at h5
        omega
      rw [h6]; omega
    · rw [if_neg hj]
  · intro h
    exfalso
    exact h (Finset.mem_range.2 (by omega))

open Classical in
theorem sum_split_eq {m : Nat} (hm : 2 ≤ m) {s : Bytes} (hs : s ≠ []) :
    ∑ j ∈ Finset.range (s.length + 1), (if j % m = 0 then (if Split m s j then 1 else 0) else 0) =
      ∑ j ∈ Finset.range (s.length + 1), (if j % m = 1 then (if Split m s j then 1 else 0) else 0) := by
  obtain ⟨r, h1, h2, h3, h4⟩ := exists_run s hs
  rw [sum_split hm h2 h3 h4 (by omega) (by omega), sum_split hm h2 h3 h4 (by omega) (by omega)]

theorem howMany_split (m : Nat) {n j : Nat} (hj : j ≤ n) :
    howMany n (fun s => Split m s j) = Nat.choose 256 j * howMany (n - j) (Avoid m) := by
  obtain ⟨i, rfl⟩ := Nat.exists_eq_add_of_le hj
  rw [Nat.add_sub_cancel_left, ← count_increasing, ← howMany_mul]
  refine howMany_congr fun s hs => ?_
  unfold Split
  rw [hs]
  exact ⟨fun h => h.2, fun h => ⟨hj, h⟩⟩

theorem howMany_split_zero (m : Nat) {n j : Nat} (hj : j ≤ n) :
    howMany n (fun s => Split m (0 :: s) (j + 1)) = Nat.choose 255 j * howMany (n - j) (Avoid m) := by
  obtain ⟨i, rfl⟩ := Nat.exists_eq_add_of_le hj
  rw [Nat.add_sub_cancel_left, ← count_increasing_pos, ← howMany_mul]
  refine howMany_congr fun s hs => ?_
  unfold Split
  rw [List.take_succ_cons, List.drop_succ_cons, List.length_cons, hs]
  exact ⟨fun h => h.2, fun h => ⟨by omega, h⟩⟩

/-- the relation for strings of length `n ≥ 1` -/
theorem mii_relation {m : Nat} (hm : 2 ≤ m) {n : Nat} (hn : 1 ≤ n) :
    ∑ j ∈ Finset.range (n + 1), (if j % m = 0 then Nat.choose 256 j * howMany (n - j) (Avoid m) else 0) =
      ∑ j ∈ Finset.range (n + 1), (if j % m = 1 then Nat.choose 256 j * howMany (n - j) (Avoid m) else 0) := by
  classical
  have key : ∀ q, ∑ j ∈ Finset.range (n + 1), (if j % m = q then Nat.choose 256 j * howMany (n - j) (Avoid m) else 0) =
      ∑ s ∈ words n, ∑ j ∈ Finset.range (s.length + 1), (if j % m = q then (if Split m s j then 1 else 0) else 0) := by
    intro q
    have h1 : ∀ s ∈ words n, ∑ j ∈ Finset.range (s.length + 1), (if j % m = q then (if Split m s j then 1 else 0) else 0) =
        ∑ j ∈ Finset.range (n + 1), (if j % m = q then (if Split m s j then 1 else 0) else 0) := fun s hs => by
      rw [mem_words.1 hs]
    rw [Finset.sum_congr rfl h1, Finset.sum_comm]
    refine Finset.sum_congr rfl fun j hj => ?_
    rw [← howMany_split m (Nat.lt_succ_iff.1 (Finset.mem_range.1 hj)), howMany]
    by_cases h : j % m = q <;> simp [h]
  rw [key, key]
  refine Finset.sum_congr rfl fun s hs => sum_split_eq hm fun h => ?_
  rw [h] at hs
  have := mem_words.1 hs
  simp at this
  omega

/-- the relation for strings read after a zero byte -/
theorem mii_relation_zero {m : Nat} (hm : 2 ≤ m) (n : Nat) :
    howMany n (fun s => Avoid m (0 :: s)) +
        ∑ j ∈ Finset.range (n + 1), (if j % m = m - 1 then Nat.choose 255 j * howMany (n - j) (Avoid m) else 0) =
      ∑ j ∈ Finset.range (n + 1), (if j % m = 0 then Nat.choose 255 j * howMany (n - j) (Avoid m) else 0) := by
  classical
  have key : ∀ q, ∑ j ∈ Finset.range (n + 1), (if (j + 1) % m = q then Nat.choose 255 j * howMany (n - j) (Avoid m) else 0) =
      ∑ s ∈ words n, ∑ j ∈ Finset.range (n + 1), (if (j + 1) % m = q then (if Split m (0 :: s) (j + 1) then 1 else 0) else 0) := by
    intro q
    rw [Finset.sum_comm]
    refine Finset.sum_congr rfl fun j hj => ?_
    rw [← howMany_split_zero m (Nat.lt_succ_iff.1 (Finset.mem_range.1 hj)), howMany]
    by_cases h : (j + 1) % m = q <;> simp [h]
  have e1 : ∀ j, j % m = 0 ↔ (j + 1) % m = 1 := by
    intro j
    rw [Nat.add_mod, Nat.mod_eq_of_lt (show 1 < m by omega)]
    have := Nat.mod_lt j (show 0 < m by omega)
    constructor
    · intro h; rw [h, Nat.zero_add]; exact Nat.mod_eq_of_lt (by omega)
    · intro h
      by_cases hl : j % m + 1 < m
      · rw [Nat.mod_eq_of_lt hl] at h; omega
      · rw [show j % m + 1 = m by omega, Nat.mod_self] at h; omega
  have e2 : ∀ j, j % m = m - 1 ↔ (j + 1) % m = 0 := by
    intro j
    rw [Nat.add_mod, Nat.mod_eq_of_lt (show 1 < m by omega)]
    have := Nat.mod_lt j (show 0 < m by omega)
    constructor
    · intro h; rw [h, Nat.sub_add_cancel (by omega)]; exact Nat.mod_self m
    · intro h
      by_cases hl : j % m + 1 < m
      · rw [Nat.mod_eq_of_lt hl] at h; omega
      · omega
  rw [Finset.sum_congr rfl fun j _ => if_congr (e1 j) rfl rfl, Finset.sum_congr rfl fun j _ => if_congr (e2 j) rfl rfl,
    key, key, howMany, ← Finset.sum_add_distrib]
  refine Finset.sum_congr rfl fun s hs => ?_
  have h := sum_split_eq hm (s := 0 :: s) (by simp)
  rw [List.length_cons, mem_words.1 hs, Finset.sum_range_succ', Finset.sum_range_succ' _ (n + 1)] at h
  have h0 : Split m (0 :: s) 0 ↔ Avoid m (0 :: s) := by
    unfold Split
    simp [Increasing]
  rw [if_pos (Nat.zero_mod m), if_neg (show ¬ 0 % m = 1 by rw [Nat.zero_mod]; omega), Nat.add_zero, if_congr h0 rfl rfl, Nat.add_comm] at h
  exact h

/-! ## the mean -/

/-- one over the mean chunk size is `∑ miiWeight w j` -/
noncomputable def miiWeight (w j : Nat) : ℝ :=
  ((if j % (w + 1) = 0 then 1 else 0) - (if j % (w + 1) = 1 then 1 else 0)) * (Nat.choose 256 j / 256 ^ j)

/-- the mean chunk size of Mii: `1 / (∑ₖ C(256, k (w+1)) / 256^(k (w+1)) - ∑ₖ C(256, k (w+1) + 1) / 256^(k (w+1) + 1))` -/
noncomputable def miiMean (w : Nat) : ℝ := (∑ j ∈ Finset.range 257, miiWeight w j)⁻¹

/-- for the chunks of `MiiIncr` after the first -/
noncomputable def miiWeightZero (w j : Nat) : ℝ :=
  ((if j % (w + 1) = 0 then 1 else 0) - (if j % (w + 1) = w then 1 else 0)) * (Nat.choose 255 j / 256 ^ j)

/-- the mean size of the chunks of `MiiIncr` after the first -/
noncomputable def miiMeanZero (w : Nat) : ℝ := miiMean w * ∑ j ∈ Finset.range 257, miiWeightZero w j

theorem hasSum_weight {c : ℕ → ℝ} (h : ∀ j, 257 ≤ j → c j = 0) : HasSum c (∑ j ∈ Finset.range 257, c j) :=
  hasSum_sum_of_ne_finset_zero fun j hj => h j (by simpa using hj)

theorem summable_norm_weight {c : ℕ → ℝ} (h : ∀ j, 257 ≤ j → c j = 0) : Summable fun j => ‖c j‖ :=
  (hasSum_sum_of_ne_finset_zero (s := Finset.range 257) fun j hj => by rw [h j (by simpa using hj), norm_zero]).summable

theorem miiWeight_zero {w j : Nat} (h : 257 ≤ j) : miiWeight w j = 0 := by
  rw [miiWeight, Nat.choose_eq_zero_of_lt (by omega)]; simp

theorem miiWeightZero_zero {w j : Nat} (h : 257 ≤ j) : miiWeightZero w j = 0 := by
  rw [miiWeightZero, Nat.choose_eq_zero_of_lt (by omega)]; simp

theorem mii_share {w : Nat} (hw : 1 ≤ w) (n : Nat) :
    uncutShare (miiEdge w) n = (howMany n (Avoid (w + 1)) : ℝ) / 256 ^ n := by
  rw [uncutShare, howMany_congr fun s _ => avoid_iff_uncut hw s]

/-- the relations, as a convolution -/
theorem convolution {w N : Nat} (hw : 1 ≤ w) (A B : Nat → Bool) (n : Nat) {d : ℕ → ℝ}
    (hd : ∀ j, d j = ((if A j then 1 else 0) - (if B j then 1 else 0)) * (Nat.choose N j / 256 ^ j)) :
    ∑ j ∈ Finset.range (n + 1), d j * uncutShare (miiEdge w) (n - j) =
      (((∑ j ∈ Finset.range (n + 1), (if A j then Nat.choose N j * howMany (n - j) (Avoid (w + 1)) else 0) : ℕ) : ℝ) -
        ((∑ j ∈ Finset.range (n + 1), (if B j then Nat.choose N j * howMany (n - j) (Avoid (w + 1)) else 0) : ℕ) : ℝ)) / 256 ^ n := by
  push_cast
  rw [← Finset.sum_sub_distrib, Finset.sum_div]
  refine Finset.sum_congr rfl fun j hj => ?_
  have hj := Nat.lt_succ_iff.1 (Finset.mem_range.1 hj)
  rw [hd, mii_share hw]
  have : (256 : ℝ) ^ n = 256 ^ j * 256 ^ (n - j) := by rw [← pow_add, Nat.add_sub_cancel' hj]
  rw [this]
  cases A j <;> cases B j <;> simp <;> field_simp

/-- the weights of all strings add up to one: `(∑ weights) * (mean) = 1` -/
theorem mii_product {w : Nat} (hw : 1 ≤ w) {μ : ℝ} (hs : HasSum (uncutShare (miiEdge w)) μ) :
    (∑ j ∈ Finset.range 257, miiWeight w j) * μ = 1 := by
  have h1 := hasSum_weight (c := miiWeight w) fun j => miiWeight_zero
  have hn : Summable fun n => ‖uncutShare (miiEdge w) n‖ := by
    simpa only [Real.norm_of_nonneg (uncutShare_nonneg _ _)] using hs.summable
  have h2 := tsum_mul_tsum_eq_tsum_sum_range_of_summable_norm (summable_norm_weight (c := miiWeight w) fun j => miiWeight_zero) hn
  rw [h1.tsum_eq, hs.tsum_eq] at h2
  rw [h2, tsum_eq_single 0]
  · simp [uncutShare_zero, miiWeight, Nat.mod_eq_of_lt (show 0 < w + 1 by omega)]
  · intro n hn0
    rw [convolution hw (N := 256) (fun j => decide (j % (w + 1) = 0)) (fun j => decide (j % (w + 1) = 1)) n (by
      intro j; simp [miiWeight])]
    have := mii_relation (m := w + 1) (by omega) (n := n) (by omega)
    simp only [decide_eq_true_eq]
    rw [this, _root_.sub_self, zero_div]

theorem mii_summable {w : Nat} (hw : 1 ≤ w) (hw' : w ≤ 255) : Summable (uncutShare (miiEdge w)) := by
  refine uncutShare_summable (L := w + 1) (by omega) fun s _ => ?_
  refine ⟨(List.range (w + 1)).map UInt8.ofNat, by simp, fun h => ?_⟩
  refine (avoid_iff_uncut hw _).1 h s.length (by simp) ?_
  rw [List.drop_left, List.take_of_length_le (by simp)]
  unfold Increasing
  rw [List.pairwise_map]
  refine List.Pairwise.imp_of_mem (R := (· < ·)) (fun {a b} ha hb hab => ?_) List.pairwise_lt_range
  have ha := List.mem_range.1 ha
  have hb := List.mem_range.1 hb
  rw [UInt8.lt_iff_toNat_lt, UInt8.toNat_ofNat', UInt8.toNat_ofNat', Nat.mod_eq_of_lt (by omega), Nat.mod_eq_of_lt (by omega)]
  exact hab

theorem mii_mean {w : Nat} (hw : 1 ≤ w) (hw' : w ≤ 255) : HasSum (uncutShare (miiEdge w)) (miiMean w) := by
  have hs := (mii_summable hw hw').hasSum
  have h := mii_product hw hs
  rwa [eq_inv_of_mul_eq_one_right h] at hs

theorem mii_pushFirst (p : Mii.Mii) : PushFirst (Mii.incr p) (Mii.incr p).init (miiEdge p.w) := by
  intro s
  obtain ⟨st', r, h1, h2⟩ := Mii.incr_conforms p s (Mii.incr p).init 0 0 [] .start s.length (by omega) (by omega)
  have hsub : Spec.sub s 0 s.length = s := by simp [Spec.sub]
  rw [hsub] at h1 h2
  refine ⟨st', r, h1, ?_⟩
  rcases r with _ | i
  · exact h2
  · have := h2.2
    rw [Nat.zero_add, Nat.sub_zero] at this
    exact this

/-- C80. Mii: `find_chunk_edge`, and the first chunk of `push`. -/
theorem C80_mii (p : Mii.Mii) (hw : 1 ≤ p.w) (hw' : p.w ≤ 255) :
    MeanChunk (Mii.chunk p) (miiMean p.w) ∧ MeanPush (Mii.incr p) (Mii.incr p).init (miiMean p.w) :=
  ⟨meanChunk_of_uncut (Mii.fce_conforms p) (mii_mean hw hw'), meanPush_of_uncut (mii_pushFirst p) (mii_mean hw hw')⟩
example : MeanChunk (Mii.chunk Mii.Mii.default) (miiMean 5) := (C80_mii Mii.Mii.default (by decide) (by decide)).1

/-- the chunk size after a zero byte -/
theorem mii_mean_zero {w : Nat} (hw : 1 ≤ w) (hw' : w ≤ 255) :
    HasSum (uncutShare fun p => miiEdge w (0 :: p)) (miiMeanZero w) := by
  have hs := mii_mean hw hw'
  have hn : Summable fun n => ‖uncutShare (miiEdge w) n‖ := by
    simpa only [Real.norm_of_nonneg (uncutShare_nonneg _ _)] using hs.summable
  have h1 := hasSum_weight (c := miiWeightZero w) fun j => miiWeightZero_zero
  have hn1 := summable_norm_weight (c := miiWeightZero w) fun j => miiWeightZero_zero
  have h2 := tsum_mul_tsum_eq_tsum_sum_range_of_summable_norm hn1 hn
  have h3 := (summable_norm_sum_mul_range_of_summable_norm hn1 hn).of_norm.hasSum
  rw [← h2, h1.tsum_eq, hs.tsum_eq, mul_comm] at h3
  refine (funext fun n => ?_ : uncutShare (fun p => miiEdge w (0 :: p)) =
    fun n => ∑ k ∈ Finset.range (n + 1), miiWeightZero w k * uncutShare (miiEdge w) (n - k)) ▸ h3
  rw [convolution hw (N := 255) (fun j => decide (j % (w + 1) = 0)) (fun j => decide (j % (w + 1) = w)) n (by
    intro j; simp [miiWeightZero])]
  have h4 := mii_relation_zero (m := w + 1) (by omega) n
  simp only [decide_eq_true_eq]
  rw [Nat.add_sub_cancel] at h4
  rw [← h4]
  push_cast
  rw [add_sub_cancel_right, uncutShare]
  congr 2
  refine howMany_congr fun s _ => ?_
  rw [← avoid_iff_uncut hw, uncut_cons]
  exact ⟨fun h => ⟨fun h' => absurd h'.2.1 (by simp; omega), h⟩, fun h => h.2⟩

theorem mii_pushFirst_later (p : Mii.Mii) {s : Bytes} {st : Mii.MiiIncr} {pos : Nat} {cs : List Bytes}
    (hr : IncrRun (Mii.incr p) s st pos pos cs) (hpos : 0 < pos) : PushFirst (Mii.incr p) st fun q => miiEdge p.w (0 :: q) := by
  intro t
  obtain ⟨-, h2, h3, -⟩ := (Mii.incrLoop p).incrSpec.run hr
  rw [Spec.sub_self] at h3
  have hb : s.take pos ≠ [] := by
    intro h
    have := congrArg List.length h
    rw [List.length_take, List.length_nil] at this
    omega
  have he : miiIncrEdge p.w (s.take pos) = fun p' => miiEdge p.w (0 :: p') := by
    funext q; rw [miiIncrEdge, if_neg hb]
  rcases (Mii.incrLoop p).push_spec st _ [] h3 (NoEdge.nil _) t with ⟨st', h4, -, h6⟩ | ⟨st', i, h4, -, -, h7⟩
  · rw [he] at h6
    exact ⟨st', none, h4, h6.not_firstCut⟩
  · rw [he] at h7
    refine ⟨st', some (i + 1), h4, ?_⟩
    simpa using h7

/-- C80. `MiiIncr`, every chunk after the first: `push` leaves `prev = 0`, so the first byte of a chunk counts as an
increase unless it is 0, and the chunks are shorter on average. -/
theorem C80_mii_later (p : Mii.Mii) (hw : 1 ≤ p.w) (hw' : p.w ≤ 255) {s : Bytes} {st : Mii.MiiIncr} {pos : Nat} {cs : List Bytes}
    (hr : IncrRun (Mii.incr p) s st pos pos cs) (hpos : 0 < pos) : MeanPush (Mii.incr p) st (miiMeanZero p.w) :=
  meanPush_of_uncut (mii_pushFirst_later p hr hpos) (mii_mean_zero hw hw')
example : MeanPush (Mii.incr (Mii.Mii.withW 1)) ⟨1, 0, 0⟩ (miiMeanZero 1) :=
  C80_mii_later (Mii.Mii.withW 1) (by decide) (by decide) (s := [7, 9]) (pos := 2) (cs := [[7, 9]])
    (IncrRun.cut (e := 2) (i := 2) .start (by decide) (by decide) (by decide +kernel)) (by decide)

/-! ## the default parameters, in numbers -/

/-- `C(n, j)` by the multiplicative formula -/
def binom (n : Nat) : Nat → Nat
  | 0 => 1
  | j + 1 => binom n j * (n - j) / (j + 1)

theorem binom_eq (n j : Nat) : binom n j = n.choose j := by
  induction j with
  | zero => simp [binom]
  | succ j ih =>
    rw [binom, ih, ← Nat.choose_succ_right_eq, Nat.mul_div_cancel _ (Nat.succ_pos j)]

/-- numerators of the weights over `256^256` -/
def weightSum (N m a b : Nat) : Nat → Int
  | 0 => 0
  | n + 1 => weightSum N m a b n +
      ((if n % m = a then 1 else 0) - (if n % m = b then 1 else 0)) * (binom N n * 256 ^ (256 - n) : Nat)

theorem weightSum_eq (N m a b : Nat) : ∀ n, n ≤ 257 →
    (weightSum N m a b n : ℝ) / 256 ^ 256 =
      ∑ j ∈ Finset.range n, ((if j % m = a then 1 else 0) - (if j % m = b then 1 else 0)) * (Nat.choose N j / 256 ^ j : ℝ) := by
  intro n
  induction n with
  | zero => intro _; simp [weightSum]
  | succ n ih =>
    intro hn
    rw [Finset.sum_range_succ, ← ih (by omega), weightSum, binom_eq]
    have h : (256 : ℝ) ^ 256 = 256 ^ n * 256 ^ (256 - n) := by rw [← pow_add, Nat.add_sub_cancel' (by omega)]
    rw [h]
    push_cast
    field_simp

theorem miiMean_eq (w : Nat) : miiMean w = 256 ^ 256 / weightSum 256 (w + 1) 0 1 257 := by
  rw [miiMean, ← inv_div, weightSum_eq _ _ _ _ _ le_rfl]
  rfl

theorem miiMeanZero_eq (w : Nat) : miiMeanZero w = weightSum 255 (w + 1) 0 w 257 / weightSum 256 (w + 1) 0 1 257 := by
  have h : ∑ j ∈ Finset.range 257, miiWeightZero w j = weightSum 255 (w + 1) 0 w 257 / 256 ^ 256 := by
    rw [weightSum_eq _ _ _ _ _ le_rfl]; rfl
  rw [miiMeanZero, miiMean_eq, h]
  field_simp

/-- C80. Chunks of `Mii::default()` have 887.59… bytes on average. -/
theorem C80_mii_default : 887.59 < miiMean 5 ∧ miiMean 5 < 887.6 := by
  have h : 0 < weightSum 256 6 0 1 257 ∧ 88759 * weightSum 256 6 0 1 257 < 100 * 256 ^ 256 ∧
      100 * 256 ^ 256 < 88760 * weightSum 256 6 0 1 257 := by decide +kernel
  obtain ⟨h0, h1, h2⟩ := h
  rw [miiMean_eq]
  generalize weightSum 256 6 0 1 257 = x at *
  have h0' : (0 : ℝ) < x := by exact_mod_cast h0
  have h1' : (88759 : ℝ) * x < 100 * 256 ^ 256 := by exact_mod_cast h1
  have h2' : (100 : ℝ) * 256 ^ 256 < 88760 * x := by exact_mod_cast h2
  rw [lt_div_iff₀ h0', div_lt_iff₀ h0']
  constructor <;> linarith

/-- C80. Later chunks of `MiiIncr` with the default parameter have 881.76… bytes on average. -/
theorem C80_mii_later_default : 881.76 < miiMeanZero 5 ∧ miiMeanZero 5 < 881.77 := by
  have h : 0 < weightSum 256 6 0 1 257 ∧ 88176 * weightSum 256 6 0 1 257 < 100 * weightSum 255 6 0 5 257 ∧
      100 * weightSum 255 6 0 5 257 < 88177 * weightSum 256 6 0 1 257 := by decide +kernel
  obtain ⟨h0, h1, h2⟩ := h
  rw [miiMeanZero_eq]
  generalize weightSum 256 6 0 1 257 = x at *
  generalize weightSum 255 6 0 5 257 = y at *
  have h0' : (0 : ℝ) < x := by exact_mod_cast h0
  have h1' : (88176 : ℝ) * x < 100 * y := by exact_mod_cast h1
  have h2' : (100 : ℝ) * y < 88177 * x := by exact_mod_cast h2
  rw [lt_div_iff₀ h0', div_lt_iff₀ h0']
  constructor <;> linarith

end HashRoll.Props
