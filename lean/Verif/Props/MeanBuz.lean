import Verif.Props.FreqBuz
import Verif.Props.FreqTables
import Verif.Props.MeanBounds
import Verif.Props.BuzPairs
import Verif.Props.FreqGear
import Verif.Props.MeanSizes
/-!
# C92: mean chunk size of `BuzHash::new_nom`
-/

namespace HashRoll.Spec

/-- how many strings of length `n` contain no chunk end -/
def noCut (A : Chunk) (n : Nat) : Nat := (strings n).countP fun s =>
  match A.fce A.init s with
  | .ok (_, none, _) => true
  | _ => false

/-- the same for `push` from the start -/
def noPushCut (C : ChunkIncr) (n : Nat) : Nat := (strings n).countP fun s =>
  match C.push C.init s with
  | .ok (_, none) => true
  | _ => false

end HashRoll.Spec

namespace HashRoll.Props
open Spec

/-! ## pairs -/

theorem sum_bytes_xor' (s : UInt8) (g : UInt8 → Nat) : ∑ b ∈ bytes, g (b ^^^ s) = ∑ b ∈ bytes, g b := by
  have := sum_bytes_xor s fun b => (g b : Int)
  exact_mod_cast this

theorem xorRow_eq (x : Nat) (m : List Nat) : xorRow x m = (m.map fun y => (2 ^ 17) ^ (x ^^^ y)).sum := by
  induction m with
  | nil => rfl
  | cons y m ih => rw [xorRow, ih, List.map_cons, List.sum_cons]

theorem xorRows_eq (m l : List Nat) : xorRows m l = (l.map fun x => (m.map fun y => (2 ^ 17) ^ (x ^^^ y)).sum).sum := by
  induction l with
  | nil => rfl
  | cons x l ih => rw [xorRows, ih, List.map_cons, List.sum_cons, xorRow_eq]

theorem digitsLe_digits (hi k : Nat) (f : Nat → Nat) (hf : ∀ c, f c < 2 ^ 17)
    (h : digitsLe hi k (∑ c ∈ Finset.range (2 ^ k), f c * (2 ^ 17) ^ c) = true) (c : Nat) (hc : c < 2 ^ k) : f c ≤ hi := by
  induction k generalizing f c with
  | zero =>
    have : c = 0 := by omega
    subst this
    rw [digitsLe] at h
    simp only [pow_zero, Finset.sum_range_one, mul_one] at h
    exact Nat.le_of_ble_eq_true h
  | succ k ih =>
    have e : ∑ c ∈ Finset.range (2 ^ (k + 1)), f c * (2 ^ 17) ^ c = ∑ c ∈ Finset.range (2 ^ k), f c * (2 ^ 17) ^ c +
        (2 ^ 17) ^ 2 ^ k * ∑ c ∈ Finset.range (2 ^ k), f (2 ^ k + c) * (2 ^ 17) ^ c := by
      rw [pow_succ 2 k, Nat.mul_two, Finset.sum_range_add, Finset.mul_sum]
      congr 1
      refine Finset.sum_congr rfl fun c _ => ?_
      rw [pow_add]
      ring
    have hlt : ∑ c ∈ Finset.range (2 ^ k), f c * (2 ^ 17) ^ c < (2 ^ 17) ^ 2 ^ k := sum_digits_lt _ _ hf
    rw [e, digitsLe, Nat.add_mul_mod_self_left, Nat.mod_eq_of_lt hlt, Nat.add_mul_div_left _ _ (by positivity), Nat.div_eq_of_lt hlt,
      Nat.zero_add, Bool.and_eq_true] at h
    by_cases h' : c < 2 ^ k
    · exact ih f hf h.1 c h'
    · have := ih (fun c => f (2 ^ k + c)) (fun c => hf _) h.2 (c - 2 ^ k) (by rw [pow_succ] at hc; omega)
      rwa [Nat.add_sub_cancel' (by omega)] at this

theorem sum_bytes_lowBits (t : Vector (BitVec 32) 256) (r : Nat) (g : Nat → Nat) :
    ∑ b ∈ bytes, g (((lookup t b).rotateLeft r).toNat % 4096) = ((lowBits t.toList r).map g).sum := by
  rw [bytes, List.sum_toFinset _ nodup_allBytes, lowBits, List.map_map]
  refine congrArg List.sum ?_
  refine List.ext_getElem (by simp [allBytes]) fun i h1 h2 => ?_
  have h2 : i < 256 := by simpa using h2
  simp [allBytes, lookup, Nat.mod_eq_of_lt h2]

/-- each value is the xor of the last 12 bits of at most 31 pairs -/
theorem go_pairs (c : Nat) (hc : c < 4096) :
    (∑ a ∈ bytes, ∑ b ∈ bytes, if ((lookup Tables.goBuzhash b).rotateLeft 0).toNat % 4096 ^^^
      ((lookup Tables.goBuzhash a).rotateLeft 1).toNat % 4096 = c then 1 else 0) ≤ 31 := by
  generalize hA : (fun b => ((lookup Tables.goBuzhash b).rotateLeft 0).toNat % 4096) = A
  generalize hB : (fun b => ((lookup Tables.goBuzhash b).rotateLeft 1).toNat % 4096) = B
  have hA' : ∀ b, ((lookup Tables.goBuzhash b).rotateLeft 0).toNat % 4096 = A b := fun b => congrFun hA b
  have hB' : ∀ b, ((lookup Tables.goBuzhash b).rotateLeft 1).toNat % 4096 = B b := fun b => congrFun hB b
  simp only [hA', hB']
  refine digitsLe_digits 31 12 (fun c => ∑ a ∈ bytes, ∑ b ∈ bytes, if A b ^^^ B a = c then 1 else 0) (fun c => ?_) ?_ c hc
  · refine Nat.lt_of_le_of_lt (Finset.sum_le_sum (g := fun _ => 256) fun a _ => ?_) ?_
    · refine le_trans (Finset.sum_le_sum (g := fun _ => 1) fun b _ => ?_) ?_
      · split <;> omega
      · rw [Finset.sum_const, card_bytes]; simp
    · rw [Finset.sum_const, card_bytes]; norm_num
  · have e : ∑ c ∈ Finset.range (2 ^ 12), (∑ a ∈ bytes, ∑ b ∈ bytes, if A b ^^^ B a = c then 1 else 0) * (2 ^ 17) ^ c =
        xorRows (lowBits Tables.goBuzhash.toList 1) (lowBits Tables.goBuzhash.toList 0) := by
      rw [xorRows_eq, ← sum_bytes_lowBits]
      simp only [← sum_bytes_lowBits, hA', hB']
      rw [Finset.sum_congr rfl fun c _ => by rw [Finset.sum_mul, Finset.sum_congr rfl fun o _ => Finset.sum_mul _ _ _]]
      rw [Finset.sum_comm, Finset.sum_comm (s := bytes) (t := bytes)]
      refine Finset.sum_congr rfl fun a _ => ?_
      rw [Finset.sum_comm]
      refine Finset.sum_congr rfl fun b _ => ?_
      have hlt : A b ^^^ B a < 2 ^ 12 := by
        refine Nat.xor_lt_two_pow ?_ ?_
        · rw [← hA' b]; exact Nat.mod_lt _ (by decide)
        · rw [← hB' a]; exact Nat.mod_lt _ (by decide)
      rw [Finset.sum_eq_single (A b ^^^ B a)]
      · rw [if_pos rfl, one_mul]
      · intro c _ hc
        rw [if_neg (Ne.symm hc), zero_mul]
      · intro h
        exact absurd (Finset.mem_range.2 hlt) h
    rw [e]
    exact goPairs_le


theorem uncut_iff (e : Bytes → Prop) (s : Bytes) : Uncut e s ↔ ∀ n, ¬ FirstCut e s n := by
  constructor
  · intro h n hf
    exact h n hf.1 hf.2.1 hf.2.2.1
  · intro h m
    induction m using Nat.strong_induction_on with
    | _ m ih =>
      intro h1 h2 he
      exact h m ⟨h1, h2, he, fun k hk1 hk2 => ih k hk2 hk1 (by omega)⟩

theorem noCut_of_conforms {A : Chunk} {e : Bytes → Prop} (hA : FceConforms A Any (EdgeRule (Local e))) (n : Nat) :
    (noCut A n : ℝ) = uncutShare e n * 256 ^ n := by
  have key : ∀ s, (match A.fce A.init s with | .ok (_, none, _) => true | _ => false) = true ↔ Uncut e s := by
    intro s
    obtain ⟨st', r, d, h1, -, h3⟩ := hA s A.init 0 0 0 [] .start s.length (by omega) (by omega) trivial
    have hsub : Spec.sub s 0 s.length = s := by simp [Spec.sub]
    rw [hsub] at h1 h3
    rw [h1, uncut_iff]
    rcases r with _ | c
    · simp only [List.take_zero] at h3
      exact ⟨fun _ => h3, fun _ => rfl⟩
    · obtain ⟨-, -, h3⟩ := h3
      exact ⟨fun h => (by cases h), fun h => (h _ h3).elim⟩
  rw [noCut, countP_strings, howMany_congr fun s _ => key s, uncutShare]
  field_simp

theorem noPushCut_of_conforms {C : ChunkIncr} {e : Bytes → Prop} (hC : IncrConforms C (EdgeRule (Local e))) (n : Nat) :
    (noPushCut C n : ℝ) = uncutShare e n * 256 ^ n := by
  have key : ∀ s, (match C.push C.init s with | .ok (_, none) => true | _ => false) = true ↔ Uncut e s := by
    intro s
    obtain ⟨st', r, h1, h3⟩ := pushFirst_of_conforms hC s
    rw [h1, uncut_iff]
    rcases r with _ | c
    · exact ⟨fun _ => h3, fun _ => rfl⟩
    · exact ⟨fun h => (by cases h), fun h => (h _ h3).elim⟩
  rw [noPushCut, countP_strings, howMany_congr fun s _ => key s, uncutShare]
  field_simp

/-! ## frequencies -/

section
variable (salt : UInt8)

/-- the condition for a cut of `new_nom(salt)` -/
abbrev nomEdge (salt : UInt8) : Bytes → Prop := buzEdge 67 (Buzhash.tableByteSaltHash salt Tables.goBuzhash) 0xfff

theorem nom_abs (p : Bytes) {n : Nat} (hn : n ≤ 67) :
    |(2 : Int) ^ 12 * howMany n (fun x => nomEdge salt (p ++ x)) - 256 ^ n| ≤ (2 ^ 12 - 1) * (76 : Int) ^ n := by
  refine abs_buzEdge (B := 76) _ _ rfl (fun a h0 ha r hr => ?_) p hn
  have e := sum_bytes_xor salt fun b => chi 12 a ((lookup Tables.goBuzhash b).rotateLeft r)
  have e' := sum_bytes_lookup Tables.goBuzhash fun x => chi 12 a (x.rotateLeft r)
  have := walsh_bound (by decide) (walshOk_go r hr) (le_refl 12) h0 ha
  rw [List.map_map] at this
  exact (e.trans e').symm ▸ this

theorem nom_freq (p : Bytes) {n : Nat} (hn : n ≤ 67) : |freq (nomEdge salt) p n - 1 / 4096| ≤ (76 / 256) ^ n := by
  have h := nom_abs salt p hn
  have h' : |(4096 : ℝ) * howMany n (fun x => nomEdge salt (p ++ x)) - 256 ^ n| ≤ 4095 * 76 ^ n := by
    have h2 : ((|(2 : Int) ^ 12 * howMany n (fun x => nomEdge salt (p ++ x)) - 256 ^ n| : Int) : ℝ) ≤ (((2 ^ 12 - 1) * (76 : Int) ^ n : Int) : ℝ) :=
      Int.cast_le.2 h
    push_cast at h2
    exact h2
  have e : freq (nomEdge salt) p n - 1 / 4096 = (4096 * howMany n (fun x => nomEdge salt (p ++ x)) - 256 ^ n) / (4096 * 256 ^ n) := by
    rw [freq]
    field_simp
  rw [e, abs_div, abs_of_pos (show (0 : ℝ) < 4096 * 256 ^ n by positivity), div_le_iff₀ (by positivity), div_pow]
  refine le_trans h' ?_
  rw [mul_comm (4096 : ℝ), ← mul_assoc, div_mul_cancel₀ _ (by positivity)]
  have : (0 : ℝ) ≤ 76 ^ n := by positivity
  linarith

theorem nom_freq_one (p : Bytes) : freq (nomEdge salt) p 1 ≤ 2 / 256 := by
  rw [freq, pow_one]
  refine div_le_div_of_nonneg_right ?_ (by norm_num)
  set F : UInt8 → Nat → BitVec 32 := fun b j => (Buzhash.tableByteSaltHash salt Tables.goBuzhash b).rotateLeft j ^^^
    if j < 67 then 0 else (Buzhash.tableByteSaltHash salt Tables.goBuzhash b).rotateLeft (j - 67 + 67 % 8) with hF
  set x := wxor (fun b j => F b (j + 1)) p with hx
  have key : ∀ b, nomEdge salt (p ++ [b]) → (x ^^^ lookup Tables.goBuzhash (b ^^^ salt)).toNat % 4096 = 4095 := by
    intro b hb
    have h1 : buzHash 67 (Buzhash.tableByteSaltHash salt Tables.goBuzhash) (p ++ [b]) = x ^^^ lookup Tables.goBuzhash (b ^^^ salt) := by
      rw [buzHash, wxor_append, BitVec.xor_comm]
      congr 1
      show wxor F ([] ++ [b]) = _
      rw [wxor_snoc]
      simp [hF, Buzhash.tableByteSaltHash, rotateLeft_zero_right]
    rw [nomEdge, buzEdge, h1] at hb
    have h5 := congrArg BitVec.toNat hb
    rw [toNat_and_mask _ _ (k := 12) rfl] at h5
    exact h5
  have h2 : howMany 1 (fun y => nomEdge salt (p ++ y)) ≤ allBytes.countP fun b =>
      (fun c => decide ((x ^^^ lookup Tables.goBuzhash c).toNat % 4096 = 4095)) (b ^^^ salt) := by
    classical
    rw [howMany, sum_words_one, countP_bytes]
    refine Finset.sum_le_sum fun b _ => ?_
    by_cases hb : nomEdge salt (p ++ [b])
    · rw [if_pos hb, if_pos (decide_eq_true (key b hb))]
    · rw [if_neg hb]; omega
  have h3 : (allBytes.countP fun b => (fun c => decide ((x ^^^ lookup Tables.goBuzhash c).toNat % 4096 = 4095)) (b ^^^ salt)) ≤ 2 := by
    rw [countP_xor (fun c => decide ((x ^^^ lookup Tables.goBuzhash c).toNat % 4096 = 4095))]
    refine countP_le_of_mem _ go_mult fun b b' hb hb' => ?_
    refine List.mem_filter.2 ⟨mem_allBytes b', ?_⟩
    have h1 := (decide_eq_true_iff.1 hb).trans (decide_eq_true_iff.1 hb').symm
    rw [show 4096 = 2 ^ 12 from rfl, BitVec.toNat_xor, BitVec.toNat_xor, Nat.xor_mod_two_pow,
      Nat.xor_mod_two_pow (b := (lookup Tables.goBuzhash b').toNat)] at h1
    have := congrArg (fun y => x.toNat % 2 ^ 12 ^^^ y) h1
    simp only [← Nat.xor_assoc, Nat.xor_self, Nat.zero_xor] at this
    rw [beq_iff_eq]
    exact this.symm
  exact_mod_cast h2.trans h3

theorem nom_freq_two (p : Bytes) : freq (nomEdge salt) p 2 ≤ 31 / 65536 := by
  rw [freq, show (256 : ℝ) ^ 2 = 65536 by norm_num]
  refine div_le_div_of_nonneg_right ?_ (by norm_num)
  set H := Buzhash.tableByteSaltHash salt Tables.goBuzhash with hH
  set F : UInt8 → Nat → BitVec 32 := fun b j => (H b).rotateLeft j ^^^ if j < 67 then 0 else (H b).rotateLeft (j - 67 + 67 % 8) with hF
  set x := wxor (fun b j => F b (j + 2)) p with hx
  have key : ∀ a b, nomEdge salt (p ++ [a, b]) → ((lookup Tables.goBuzhash (b ^^^ salt)).rotateLeft 0).toNat % 4096 ^^^
      ((lookup Tables.goBuzhash (a ^^^ salt)).rotateLeft 1).toNat % 4096 = x.toNat % 4096 ^^^ 4095 := by
    intro a b hb
    have h1 : buzHash 67 H (p ++ [a, b]) = x ^^^ ((H a).rotateLeft 1 ^^^ (H b).rotateLeft 0) := by
      rw [buzHash, wxor_append, BitVec.xor_comm]
      congr 1
      show wxor F (([] ++ [a]) ++ [b]) = _
      rw [wxor_snoc, wxor_snoc]
      simp [hF]
      exact BitVec.xor_comm _ _
    rw [nomEdge, buzEdge, h1] at hb
    have h5 := congrArg BitVec.toNat hb
    rw [toNat_and_mask _ _ (k := 12) rfl, BitVec.toNat_xor, BitVec.toNat_xor, Nat.xor_mod_two_pow, Nat.xor_mod_two_pow] at h5
    have h6 := congrArg (fun y => x.toNat % 2 ^ 12 ^^^ y) h5
    simp only [← Nat.xor_assoc, Nat.xor_self, Nat.zero_xor] at h6
    rw [Nat.xor_comm] at h6
    exact h6
  have h2 : howMany 2 (fun y => nomEdge salt (p ++ y)) ≤ ∑ a ∈ bytes, ∑ b ∈ bytes,
      if ((lookup Tables.goBuzhash (b ^^^ salt)).rotateLeft 0).toNat % 4096 ^^^
      ((lookup Tables.goBuzhash (a ^^^ salt)).rotateLeft 1).toNat % 4096 = x.toNat % 4096 ^^^ 4095 then 1 else 0 := by
    classical
    rw [howMany, sum_words_cons, Finset.sum_congr rfl fun a _ => sum_words_one _]
    refine Finset.sum_le_sum fun a _ => Finset.sum_le_sum fun b _ => ?_
    by_cases hb : nomEdge salt (p ++ [a, b])
    · rw [if_pos hb, if_pos (key a b hb)]
    · rw [if_neg hb]; omega
  have h3 : (∑ a ∈ bytes, ∑ b ∈ bytes,
      if ((lookup Tables.goBuzhash (b ^^^ salt)).rotateLeft 0).toNat % 4096 ^^^
      ((lookup Tables.goBuzhash (a ^^^ salt)).rotateLeft 1).toNat % 4096 = x.toNat % 4096 ^^^ 4095 then 1 else 0) ≤ 31 := by
    have h4 := go_pairs (x.toNat % 4096 ^^^ 4095) (Nat.xor_lt_two_pow (n := 12) (Nat.mod_lt _ (by decide)) (by decide))
    rw [← sum_bytes_xor' salt] at h4
    rw [Finset.sum_congr rfl fun a _ => (sum_bytes_xor' salt _).symm] at h4
    exact h4
  exact_mod_cast h2.trans h3

theorem nom_freq_large (p : Bytes) {n : Nat} (hn : 14 ≤ n) : |freq (nomEdge salt) p n - 1 / 4096| ≤ (76 / 256) ^ 14 := by
  have h1 : ∀ p, freq (nomEdge salt) p 14 ≤ 1 / 4096 + (76 / 256) ^ 14 := fun p => by
    have := abs_le.1 (nom_freq salt p (n := 14) (by norm_num)); linarith
  have h2 : ∀ p, 1 / 4096 - (76 / 256) ^ 14 ≤ freq (nomEdge salt) p 14 := fun p => by
    have := abs_le.1 (nom_freq salt p (n := 14) (by norm_num)); linarith
  exact abs_le.2 ⟨by have := le_freq_of h2 p hn; linarith, by have := freq_le_of h1 p hn; linarith⟩

/-- bounds for the frequencies after a few bytes, less 1/4096 -/
noncomputable def nomExtra (i : Nat) : ℝ := if i = 1 then 31 / 4096 else if i ≤ 6 then 15 / 65536 else (76 / 256) ^ i

theorem nom_le (p : Bytes) (i : Nat) (hi : 14 ≤ i) : freq (nomEdge salt) p i ≤ 1 / 4096 + (76 / 256) ^ 14 := by
  have := abs_le.1 (nom_freq_large salt p hi); linarith

theorem nom_ge (p : Bytes) (i : Nat) (hi : 14 ≤ i) : 1 / 4096 - (76 / 256) ^ 14 ≤ freq (nomEdge salt) p i := by
  have := abs_le.1 (nom_freq_large salt p hi); linarith

theorem nom_sum (p : Bytes) (T : Nat) :
    ∑ i ∈ Finset.range T, freq (nomEdge salt) p (i + 1) ≤ 901 / 100000 + (1 / 4096 + (76 / 256) ^ 14) * T := by
  refine sum_freq_le (D := 14) (w := nomExtra) (fun i => ?_) ?_ (fun p i h1 h2 => ?_) (nom_le salt) p T
  · unfold nomExtra
    split
    · norm_num
    · split
      · norm_num
      · positivity
  · norm_num [Finset.sum_range_succ, nomExtra]
  · unfold nomExtra
    split
    · rename_i h; subst h
      have := nom_freq_one salt p
      have : (0 : ℝ) ≤ (76 / 256) ^ 14 := by positivity
      linarith
    · split
      · have := freq_le_of (nom_freq_two salt) p (i := i) (by omega)
        have : (0 : ℝ) ≤ (76 / 256) ^ 14 := by positivity
        linarith
      · have := abs_le.1 (nom_freq salt p (n := i) (by omega))
        have : (0 : ℝ) ≤ (76 / 256) ^ 14 := by positivity
        linarith

theorem nom_mean : ∃ μ, HasSum (uncutShare (nomEdge salt)) μ ∧ 3540 + 1 ≤ μ ∧ μ ≤ 4500 := by
  refine mean_between (D := 14) (K := 323) (T := 512) (by norm_num) (nom_ge salt) (nom_le salt) (nom_sum salt) ?_ ?_ ?_ ?_ <;> norm_num

theorem nom_block (n : Nat) : uncutShare (nomEdge salt) (n + 1024) ≤ (1 - 213 / 1000) * uncutShare (nomEdge salt) n := by
  refine le_trans (uncutShare_le n 14 1010 (by norm_num) (nom_ge salt) (nom_le salt) (nom_sum salt)) ?_
  refine mul_le_mul_of_nonneg_right ?_ (uncutShare_nonneg _ _)
  norm_num

end

theorem uncut_capped {e : Bytes → Prop} {N : Nat} (s : Bytes) :
    Uncut (fun p => e p ∨ N < p.length) s ↔ Uncut e s ∧ s.length ≤ N := by
  constructor
  · intro h
    refine ⟨fun m h1 h2 he => h m h1 h2 (Or.inl he), ?_⟩
    by_contra hc
    exact h s.length (by omega) (le_refl _) (Or.inr (by rw [List.take_length]; omega))
  · rintro ⟨h, hN⟩ m h1 h2 (he | he)
    · exact h m h1 h2 he
    · rw [List.length_take] at he
      omega

theorem uncutShare_capped {e : Bytes → Prop} {N : Nat} (n : Nat) :
    (n ≤ N → uncutShare (fun p => e p ∨ N < p.length) n = uncutShare e n) ∧
    (N < n → uncutShare (fun p => e p ∨ N < p.length) n = 0) := by
  constructor
  · intro h
    rw [uncutShare, uncutShare, howMany_congr (Q := Uncut e) fun s hs => by rw [uncut_capped]; exact ⟨fun h => h.1, fun h' => ⟨h', by omega⟩⟩]
  · intro h
    rw [uncutShare, howMany_false fun s hs => by rw [uncut_capped]; rintro ⟨-, h'⟩; omega]
    simp

theorem nom_fields {salt : UInt8} {p : Buzhash.BuzHash} (hp : Buzhash.BuzHash.newNom salt = .ok p) :
    p.k = 67 ∧ p.h = Buzhash.tableByteSaltHash salt Tables.goBuzhash ∧ p.mask = 0xfff ∧ p.maxChunkSize = 2 ^ 24 := by
  cases hp; exact ⟨rfl, rfl, rfl, rfl⟩

theorem nom_fce {salt : UInt8} {p : Buzhash.BuzHash} (hp : Buzhash.BuzHash.newNom salt = .ok p) :
    FceConforms (Buzhash.chunk p) Any (EdgeRule (Local (nomEdge salt))) := by
  obtain ⟨h1, h2, h3, -⟩ := nom_fields hp
  have := Buzhash.fce_conforms p (by rw [h1]; decide)
  rwa [Buzhash.fceEdge, h1, h2, h3] at this

theorem nom_incr {salt : UInt8} {p : Buzhash.BuzHash} (hp : Buzhash.BuzHash.newNom salt = .ok p) :
    IncrConforms (Buzhash.incr p) (EdgeRule (Local fun q => nomEdge salt q ∨ 2 ^ 24 < q.length)) := by
  obtain ⟨h1, h2, h3, h4⟩ := nom_fields hp
  have := Buzhash.incr_conforms p (by rw [h1]; decide)
  have e : Buzhash.incrEdge p = fun q => nomEdge salt q ∨ 2 ^ 24 < q.length := by
    funext q
    rw [Buzhash.incrEdge, buzIncrEdge, h1, h2, h3, h4]
  rwa [e] at this

open Buzhash in
/-- C92. On random bytes the chunks found by `find_chunk_edge` of `BuzHash::new_nom(salt)` have a mean size between 3540 and 4500 bytes. The
maximal size, which only `BuzHashIncr` applies, lowers the mean by less than a byte. -/
theorem C92_buzhash (salt : UInt8) {p : BuzHash} (hp : BuzHash.newNom salt = .ok p) :
    ∃ μ μ' : ℝ, MeanChunk (chunk p) μ ∧ MeanPush (incr p) (incr p).init μ' ∧ 3540 ≤ μ' ∧ μ' ≤ μ ∧ μ < μ' + 1 ∧ μ ≤ 4500 := by
  obtain ⟨μ, hs, h1, h2⟩ := nom_mean salt
  obtain ⟨μ', hs', h3, h4⟩ := mean_capped (e' := fun q => nomEdge salt q ∨ 2 ^ 24 < q.length) (N := 2 ^ 24) (k := 100) (by norm_num)
    (nom_block salt) (fun n => (uncutShare_capped n).1) (fun n => (uncutShare_capped n).2) (by norm_num) hs
  have h5 : ((1 : ℝ) - 213 / 1000) ^ 100 ≤ 1 / 10000 := by norm_num
  have h6 : ((1 : ℝ) - 213 / 1000) ^ 100 * μ ≤ 1 / 10000 * μ := mul_le_mul_of_nonneg_right h5 (by linarith)
  exact ⟨μ, μ', meanChunk_of_uncut (nom_fce hp) hs, meanPush_of_conforms (nom_incr hp) hs', by linarith, h3, by linarith, h2⟩

open Buzhash in
/-- C92. At most `0.787^k` of the strings of `1024 k` bytes contain no end of a chunk. -/
theorem C92_buzhash_tail (salt : UInt8) {p : BuzHash} (hp : BuzHash.newNom salt = .ok p) (k : Nat) :
    (noCut (chunk p) (k * 1024) : ℝ) ≤ (787 / 1000) ^ k * 256 ^ (k * 1024) := by
  rw [noCut_of_conforms (nom_fce hp)]
  refine mul_le_mul_of_nonneg_right ?_ (by positivity)
  have := uncutShare_add_mul_le (by norm_num) (nom_block salt) 0 k
  rw [uncutShare_zero, Nat.zero_add, mul_one] at this
  norm_num at this ⊢
  exact this

example : ∃ p, Buzhash.BuzHash.newNom 7 = .ok p := ⟨_, rfl⟩

end HashRoll.Props
