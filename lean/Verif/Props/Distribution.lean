import Verif.Props.MeanMii
/-!
# C82: how many strings of each length are a chunk

The distribution behind the means of C80. With C81 it holds for every chunk of Gzip, Pigz (both APIs), Ram and Mii
(`find_chunk_edge`); for `MiiIncr` the chunks after the first have their own.
-/

namespace HashRoll.Spec

/-- The number of strings of each length without a cut by Mii, as a recurrence (the term `j = 0` on the left is `a n`). -/
def MiiSeq (w : Nat) (a : Nat → Nat) : Prop :=
  a 0 = 1 ∧ ∀ n, 1 ≤ n →
    ∑ j ∈ Finset.range (n + 1), (if j % (w + 1) = 0 then Nat.choose 256 j * a (n - j) else 0) =
      ∑ j ∈ Finset.range (n + 1), (if j % (w + 1) = 1 then Nat.choose 256 j * a (n - j) else 0)

/-- The same after a zero byte. -/
def MiiSeqZero (w : Nat) (a b : Nat → Nat) : Prop :=
  ∀ n, b n + ∑ j ∈ Finset.range (n + 1), (if j % (w + 1) = w then Nat.choose 255 j * a (n - j) else 0) =
    ∑ j ∈ Finset.range (n + 1), (if j % (w + 1) = 0 then Nat.choose 255 j * a (n - j) else 0)

/-- `a n` strings of length `n` have no cut, `c n` have their first cut after the last byte -/
def Leaves (a c : Nat → Nat) : Prop := a 0 = 1 ∧ c 0 = 0 ∧ ∀ n, 256 * a n = a (n + 1) + c (n + 1)

/-- Pigz: strings of length `k` that lead from a cut to a cut (with any cuts between) -/
def pigzReturns (bits k : Nat) : Nat := if k = 0 then 1 else if k + 7 < bits then 0 else 256 ^ k / 2 ^ bits

end HashRoll.Spec

namespace HashRoll.Props

open Spec

theorem howMany_zero_uncut (e : Bytes → Prop) : howMany 0 (Uncut e) = 1 := by
  have h := uncutShare_zero e
  rw [uncutShare, pow_zero, div_one] at h
  exact_mod_cast h

theorem leaves_of {e : Bytes → Prop} {c : Nat → Nat} (h : c 0 = 0 ∧ ∀ n, c (n + 1) = howMany (n + 1) fun s => FirstCut e s (n + 1)) :
    Leaves (fun n => howMany n (Uncut e)) c :=
  ⟨howMany_zero_uncut e, h.1, fun n => by rw [h.2]; exact howMany_uncut_succ e n⟩

/-! ## Gzip -/

/-- C82. Gzip with a modulus that divides 256: `c (256 - c)^n` chunks of length `n + 1`, `c = 256 / modulus`. -/
theorem C82_gzip (p : Gzip.GzipRsyncable) (hm : p.modulus.toNat ∣ 256) (hw : 0 < p.windowLen) (n : Nat) :
    cutAt (Gzip.chunk p) (n + 1) = (256 / p.modulus.toNat) * (256 - 256 / p.modulus.toNat) ^ n ∧
    pushCutAt (Gzip.incr p) (Gzip.incr p).init (n + 1) = (256 / p.modulus.toNat) * (256 - 256 / p.modulus.toNat) ^ n := by
  have h0 : 0 < p.modulus.toNat := Nat.pos_of_ne_zero fun h => by rw [h] at hm; simp at hm
  have hm0 : p.modulus ≠ 0 := fun h => by rw [h] at h0; simp at h0
  obtain ⟨c, hc⟩ := id hm
  have h256 : 256 / p.modulus.toNat = c := by rw [hc, Nat.mul_div_cancel_left _ h0]
  have hc' : c ≤ 256 := Nat.le_of_dvd (by decide) ⟨_, hc.trans (Nat.mul_comm _ _)⟩
  rw [h256]
  have hstep := geometric_step (e := gzipEdge p.windowLen p.modulus.toNat) fun s _ => gzip_next hw h0 hc s
  have ha : ∀ n, howMany n (Uncut (gzipEdge p.windowLen p.modulus.toNat)) = (256 - c) ^ n := by
    intro n
    induction n with
    | zero => exact howMany_zero_uncut _
    | succ n ih =>
      have h1 := hstep n
      rw [ih] at h1
      rw [pow_succ, Nat.mul_comm, Nat.sub_mul]
      omega
  have key : ∀ {f : Nat → Nat}, Leaves (fun n => howMany n (Uncut (gzipEdge p.windowLen p.modulus.toNat))) f →
      f (n + 1) = c * (256 - c) ^ n := by
    intro f hf
    have h1 := hf.2.2 n
    have h2 := hstep n
    simp only at h1
    rw [← ha n]
    omega
  exact ⟨key (leaves_of (cutAt_of_conforms (Gzip.fce_conforms p hm0))),
    key (leaves_of (pushCutAt_of_first (pushFirst_of_conforms (Gzip.incr_conforms p hm0 hw))))⟩
example : cutAt (Gzip.chunk { windowLen := 3, modulus := 64 }) 3 = 4 * 252 ^ 2 :=
  (C82_gzip { windowLen := 3, modulus := 64 } (by decide) (by decide) 2).1

/-! ## Ram -/

/-- C82. Ram: no chunks of at most `w + 1` bytes; of `w + 2 + j` bytes: with `v` the largest of the first `w + 1` bytes, `j`
smaller bytes and one that is not smaller. -/
theorem C82_ram (p : Ram.Ram) : (∀ n, n ≤ p.w + 1 → cutAt (Ram.chunk p) n = 0) ∧
    ∀ j, cutAt (Ram.chunk p) (p.w + 2 + j) =
      ∑ v ∈ Finset.range 256, ((v + 1) ^ (p.w + 1) - v ^ (p.w + 1)) * v ^ j * (256 - v) := by
  obtain ⟨-, h0, h1⟩ := leaves_of (cutAt_of_conforms (Ram.fce_conforms p))
  have hs : ∀ n, n ≤ p.w + 1 → howMany n (Uncut (ramEdge p.w)) = 256 ^ n := by
    intro n hn
    rw [← howMany_true n]
    exact howMany_congr fun s hs => ⟨fun _ => trivial, fun _ => ram_uncut_short (by omega)⟩
  constructor
  · intro n hn
    cases n with
    | zero => exact h0
    | succ n =>
      have h2 := h1 n
      simp only at h2
      rw [hs n (by omega), hs (n + 1) hn, pow_succ] at h2
      omega
  · intro j
    have h2 := h1 (p.w + 1 + j)
    simp only at h2
    rw [ram_howMany, show p.w + 1 + j + 1 = p.w + 1 + (j + 1) by omega, ram_howMany] at h2
    rw [show p.w + 2 + j = p.w + 1 + (j + 1) by omega]
    have h3 : ∑ v ∈ Finset.range 256, ((v + 1) ^ (p.w + 1) - v ^ (p.w + 1)) * v ^ (j + 1) +
        ∑ v ∈ Finset.range 256, ((v + 1) ^ (p.w + 1) - v ^ (p.w + 1)) * v ^ j * (256 - v) =
        256 * ∑ v ∈ Finset.range 256, ((v + 1) ^ (p.w + 1) - v ^ (p.w + 1)) * v ^ j := by
      rw [← Finset.sum_add_distrib, Finset.mul_sum]
      refine Finset.sum_congr rfl fun v hv => ?_
      have hv := Finset.mem_range.1 hv
      have h256 : v + (256 - v) = 256 := by omega
      rw [pow_succ v j, ← Nat.mul_assoc, ← Nat.mul_add, h256, Nat.mul_comm]
    omega
example : cutAt (Ram.chunk (Ram.Ram.withW 2)) 4 = ∑ v ∈ Finset.range 256, ((v + 1) ^ 3 - v ^ 3) * v ^ 0 * (256 - v) :=
  (C82_ram (Ram.Ram.withW 2)).2 0

/-! ## Mii -/

/-- The recurrence determines the sequence. -/
theorem miiSeq_unique {w : Nat} {a b : Nat → Nat} (ha : MiiSeq w a) (hb : MiiSeq w b) (n : Nat) : a n = b n := by
  induction n using Nat.strongRecOn with
  | ind n ih =>
    rcases Nat.eq_zero_or_pos n with rfl | hn
    · rw [ha.1, hb.1]
    · have h1 := ha.2 n hn
      have h2 := hb.2 n hn
      rw [Finset.sum_range_succ', Finset.sum_range_succ'] at h1 h2
      have e1 : ∀ q, ∑ j ∈ Finset.range n, (if (j + 1) % (w + 1) = q then Nat.choose 256 (j + 1) * a (n - (j + 1)) else 0) =
          ∑ j ∈ Finset.range n, (if (j + 1) % (w + 1) = q then Nat.choose 256 (j + 1) * b (n - (j + 1)) else 0) := by
        intro q
        refine Finset.sum_congr rfl fun j hj => ?_
        have := Finset.mem_range.1 hj
        rw [ih _ (by omega)]
      rw [e1, e1] at h1
      simp only [Nat.zero_mod, if_pos, Nat.sub_zero, Nat.choose_zero_right, Nat.one_mul, if_neg (show ¬ (0 = 1) by decide)] at h1 h2
      omega

theorem miiSeq_uncut {w : Nat} (hw : 1 ≤ w) : MiiSeq w fun n => howMany n (Uncut (miiEdge w)) := by
  refine ⟨howMany_zero_uncut _, fun n hn => ?_⟩
  have h := mii_relation (m := w + 1) (by omega) hn
  have e : ∀ k, howMany k (Avoid (w + 1)) = howMany k (Uncut (miiEdge w)) := fun k =>
    howMany_congr fun s _ => (avoid_iff_uncut hw s).symm
  simp only [e] at h
  exact h

theorem miiSeqZero_uncut {w : Nat} (hw : 1 ≤ w) :
    MiiSeqZero w (fun n => howMany n (Uncut (miiEdge w))) fun n => howMany n (Uncut fun q => miiEdge w (0 :: q)) := by
  intro n
  have h := mii_relation_zero (m := w + 1) (by omega) n
  have e : ∀ k, howMany k (Avoid (w + 1)) = howMany k (Uncut (miiEdge w)) := fun k =>
    howMany_congr fun s _ => (avoid_iff_uncut hw s).symm
  have e0 : howMany n (fun s => Avoid (w + 1) (0 :: s)) = howMany n (Uncut fun q => miiEdge w (0 :: q)) := by
    refine howMany_congr fun s _ => ?_
    rw [← avoid_iff_uncut hw, uncut_cons]
    exact ⟨fun h => h.2, fun h => ⟨fun h' => absurd h'.2.1 (by simp; omega), h⟩⟩
  simp only [e, e0, Nat.add_sub_cancel] at h
  exact h

/-- C82. Mii (`find_chunk_edge`, and the first chunk of `push`): the chunk lengths are those of the sequence that satisfies the
recurrence. -/
theorem C82_mii (p : Mii.Mii) (hw : 1 ≤ p.w) {a : Nat → Nat} (ha : MiiSeq p.w a) :
    Leaves a (cutAt (Mii.chunk p)) ∧ Leaves a (pushCutAt (Mii.incr p) (Mii.incr p).init) := by
  have : a = fun n => howMany n (Uncut (miiEdge p.w)) := funext fun n => miiSeq_unique ha (miiSeq_uncut hw) n
  rw [this]
  exact ⟨leaves_of (cutAt_of_conforms (Mii.fce_conforms p)), leaves_of (pushCutAt_of_first (mii_pushFirst p))⟩

/-- C82. Such a sequence exists. -/
theorem C82_mii_seq {w : Nat} (hw : 1 ≤ w) : ∃ a, MiiSeq w a ∧ ∀ b, MiiSeq w b → b = a :=
  ⟨_, miiSeq_uncut hw, fun _ hb => funext fun n => miiSeq_unique hb (miiSeq_uncut hw) n⟩

/-- C82. `MiiIncr`, chunks after the first. -/
theorem C82_mii_later (p : Mii.Mii) (hw : 1 ≤ p.w) {s : Bytes} {st : Mii.MiiIncr} {pos : Nat} {cs : List Bytes}
    (hr : IncrRun (Mii.incr p) s st pos pos cs) (hpos : 0 < pos) {a b : Nat → Nat} (ha : MiiSeq p.w a) (hb : MiiSeqZero p.w a b) :
    Leaves b (pushCutAt (Mii.incr p) st) := by
  have h1 : a = fun n => howMany n (Uncut (miiEdge p.w)) := funext fun n => miiSeq_unique ha (miiSeq_uncut hw) n
  have h2 : b = fun n => howMany n (Uncut fun q => miiEdge p.w (0 :: q)) := by
    funext n
    have h3 := hb n
    have h4 := miiSeqZero_uncut hw n
    rw [← h1] at h4
    simp only at h4
    omega
  rw [h2]
  exact leaves_of (pushCutAt_of_first (mii_pushFirst_later p hr hpos))
example : ∃ a, MiiSeq 5 a := (C82_mii_seq (by decide)).imp fun _ h => h.1

/-- C82. The chances the comment of src/mii.rs:25-28 asks for: of the pairs of bytes 32640 (not half of 65536) have
`curr > prev`; of the triples that start so, `C(256,3) = 2763520` of `256 * 32640 = 8355840` go on so; of the `8421376` that do
not start so, `5592320`. -/
theorem C82_mii_steps :
    howMany 2 Increasing = 32640 ∧
    howMany 3 (fun s => Increasing (s.take 2)) = 8355840 ∧
    howMany 3 (fun s => Increasing (s.take 2) ∧ Increasing (s.drop 1)) = 2763520 ∧
    howMany 3 (fun s => ¬ Increasing (s.take 2)) = 8421376 ∧
    howMany 3 (fun s => ¬ Increasing (s.take 2) ∧ Increasing (s.drop 1)) = 5592320 := by
  have hc2 : Nat.choose 256 2 = 32640 := by rw [← binom_eq]; decide +kernel
  have hc3 : Nat.choose 256 3 = 2763520 := by rw [← binom_eq]; decide +kernel
  have h2 : howMany 2 Increasing = 32640 := by rw [count_increasing, hc2]
  have htail : howMany 3 (fun s => Increasing (s.drop 1)) = 8355840 := by
    have := howMany_mul 1 2 (fun _ => True) Increasing
    simp only [true_and] at this
    rw [this, howMany_true, h2, pow_one]
  have hhead : howMany 3 (fun s => Increasing (s.take 2)) = 8355840 := by
    have := howMany_mul 2 1 Increasing (fun _ => True)
    simp only [and_true] at this
    rw [this, howMany_true, h2, pow_one]
  have hboth : howMany 3 (fun s => Increasing (s.take 2) ∧ Increasing (s.drop 1)) = 2763520 := by
    rw [← hc3, ← count_increasing]
    refine howMany_congr fun s hs => ?_
    match s, hs with
    | [x, y, z], _ =>
      simp [Increasing, UInt8.lt_iff_toNat_lt]
      omega
  refine ⟨h2, hhead, hboth, ?_, ?_⟩
  · have h3 : howMany 3 (fun s => Increasing (s.take 2) ∨ ¬ Increasing (s.take 2)) = howMany 3 (fun _ => True) :=
      howMany_congr fun s _ => ⟨fun _ => trivial, fun _ => em _⟩
    rw [howMany_or fun s _ h h' => h' h, hhead, howMany_true] at h3
    have : (256 : Nat) ^ 3 = 16777216 := by norm_num
    omega
  · have h3 : howMany 3 (fun s => (Increasing (s.take 2) ∧ Increasing (s.drop 1)) ∨ (¬ Increasing (s.take 2) ∧ Increasing (s.drop 1))) =
        howMany 3 (fun s => Increasing (s.drop 1)) :=
      howMany_congr fun s _ => ⟨fun h => h.elim And.right And.right, fun h => (em _).imp (fun h' => ⟨h', h⟩) fun h' => ⟨h', h⟩⟩
    rw [howMany_or fun s _ h h' => h'.1 h.1, htail, hboth] at h3
    omega

/-! ## Pigz -/

theorem pigzNat_shape (bits z : Nat) (x : Bytes) :
    ∃ y, y < 2 ^ (x.length + 7) ∧ pigzNat bits z x % 2 ^ bits = (2 ^ x.length * z ^^^ y) % 2 ^ bits := by
  induction x using List.reverseRecOn with
  | nil => exact ⟨0, by simp, by simp [pigzNat]⟩
  | append_singleton x b ih =>
    obtain ⟨y, hy, h⟩ := ih
    refine ⟨2 * y ^^^ b.toNat, ?_, ?_⟩
    · have hb := b.toNat_lt
      have hp : 2 ^ 8 ≤ 2 ^ (x.length + 8) := Nat.pow_le_pow_right (by decide) (by omega)
      rw [List.length_append, List.length_singleton, show x.length + 1 + 7 = x.length + 8 by omega]
      refine Nat.xor_lt_two_pow ?_ (by omega)
      rw [show x.length + 8 = x.length + 7 + 1 by omega, pow_succ]
      omega
    · have e : 2 * (2 ^ x.length * z ^^^ y) = 2 ^ (x.length + 1) * z ^^^ 2 * y := by
        have h1 := Nat.shiftLeft_xor_distrib (a := 2 ^ x.length * z) (b := y) (i := 1)
        simp only [Nat.shiftLeft_eq, pow_one] at h1
        rw [Nat.mul_comm, h1, pow_succ, Nat.mul_comm y, Nat.mul_assoc, Nat.mul_assoc, Nat.mul_comm z]
      rw [pigzNat_snoc, Nat.mod_mod, Nat.xor_mod_two_pow, Nat.mul_mod, h, Nat.mul_mod_mod, Nat.mod_mul_mod, e,
        ← Nat.xor_mod_two_pow, List.length_append, List.length_singleton, Nat.xor_assoc]

/-- A short string does not lead from a cut to a cut: the top bit of the hash is set. -/
theorem pigz_short {bits : Nat} {x : Bytes} (hx : x ≠ []) (hk : x.length + 7 < bits) :
    pigzNat bits ((2 ^ bits - 1) / 2) x ≠ (2 ^ bits - 1) / 2 := by
  obtain ⟨j, rfl⟩ : ∃ j, bits = j + 1 := ⟨bits - 1, by omega⟩
  have hz : (2 ^ (j + 1) - 1) / 2 = 2 ^ j - 1 := by rw [pow_succ]; omega
  rw [hz]
  intro h
  obtain ⟨y, hy, h1⟩ := pigzNat_shape (j + 1) (2 ^ j - 1) x
  have h2 := congrArg (fun n => Nat.testBit n j) h1
  simp only [h] at h2
  have hpos := List.length_pos_of_ne_nil hx
  have hy' : y.testBit j = false := Nat.testBit_lt_two_pow (lt_of_lt_of_le hy (Nat.pow_le_pow_right (by decide) (by omega)))
  rw [Nat.testBit_mod_two_pow, Nat.testBit_mod_two_pow, Nat.testBit_xor, hy', Nat.testBit_two_pow_sub_one,
    Nat.mul_comm, ← Nat.shiftLeft_eq, Nat.testBit_shiftLeft, Nat.testBit_two_pow_sub_one] at h2
  have a1 : decide (j ≥ x.length) = true := decide_eq_true (by omega)
  have a2 : decide (j - x.length < j) = true := decide_eq_true (by omega)
  rw [a1, a2] at h2
  simp at h2

theorem pigz_returns {bits k : Nat} :
    howMany k (fun x => pigzNat bits ((2 ^ bits - 1) / 2) x = (2 ^ bits - 1) / 2) = pigzReturns bits k := by
  have hlt : (2 ^ bits - 1) / 2 < 2 ^ bits := by
    have := Nat.two_pow_pos bits
    omega
  unfold pigzReturns
  split
  · rename_i h
    subst h
    have : howMany 0 (fun x => pigzNat bits ((2 ^ bits - 1) / 2) x = (2 ^ bits - 1) / 2) = howMany 0 fun _ => True :=
      howMany_congr fun s hs => by rw [List.length_eq_zero_iff.1 hs]; simp [pigzNat]
    rw [this, howMany_true, pow_zero]
  · rename_i h
    split
    · rename_i h'
      exact howMany_false fun s hs => pigz_short (by rintro rfl; simp at hs; omega) (by omega)
    · have h1 := pigzNat_uniform bits ((2 ^ bits - 1) / 2) (k := k) (by omega) (Nat.le_refl bits) (by omega) hlt
      rw [countP_strings] at h1
      rw [← h1, Nat.mul_div_cancel _ (Nat.two_pow_pos _)]
      refine howMany_congr fun s hs => ?_
      rw [decide_eq_true_iff]
      rcases List.eq_nil_or_concat s with rfl | ⟨u, b, rfl⟩
      · simp at hs; omega
      · rw [List.concat_eq_append, pigzNat_snoc, Nat.mod_mod]

/-- strings that end with a cut, by their first cut -/
theorem howMany_first (e : Bytes → Prop) (n : Nat) (hn : 1 ≤ n) :
    howMany n e = ∑ k ∈ Finset.range n, howMany n fun s => FirstCut e s (k + 1) ∧ e s := by
  classical
  simp only [howMany]
  rw [Finset.sum_comm]
  refine Finset.sum_congr rfl fun s hs => ?_
  have hs := mem_words.1 hs
  by_cases he : e s
  · simp only [he, and_true, if_true]
    have hex : ∃ m, 1 ≤ m ∧ m ≤ s.length ∧ e (s.take m) := ⟨s.length, by omega, le_rfl, by rwa [List.take_length]⟩
    have hf := Nat.find_spec hex
    have hmin := fun m => Nat.find_min hex (m := m)
    generalize Nat.find hex = c at hf hmin
    have hc : FirstCut e s c := ⟨hf.1, hf.2.1, hf.2.2, fun m h1 h2 h3 => hmin m h2 ⟨h1, by omega, h3⟩⟩
    rw [Finset.sum_eq_single (c - 1)]
    · rw [Nat.sub_add_cancel hf.1, if_pos hc]
    · intro k _ hk
      refine if_neg fun h => hk ?_
      have := (EdgeRule.good (Local e)).det (hist := []) (data := s) hc h
      omega
    · intro h
      exact absurd (Finset.mem_range.2 (by omega)) h
  · simp [he]

theorem firstCut_take {e : Bytes → Prop} {s : Bytes} {n : Nat} (hn : n ≤ s.length) : FirstCut e s n ↔ FirstCut e (s.take n) n := by
  unfold FirstCut
  rw [List.length_take, Nat.min_eq_left hn, List.take_take, Nat.min_self]
  refine and_congr_right fun _ => ?_
  constructor
  · rintro ⟨-, h1, h2⟩
    refine ⟨le_rfl, h1, fun m h3 h4 => ?_⟩
    rw [List.take_take, Nat.min_eq_left h4.le]
    exact h2 m h3 h4
  · rintro ⟨-, h1, h2⟩
    refine ⟨hn, h1, fun m h3 h4 => ?_⟩
    have := h2 m h3 h4
    rwa [List.take_take, Nat.min_eq_left h4.le] at this

/-- the renewal equation -/
theorem pigz_renewal (bits : Nat) {n : Nat} (hn : 1 ≤ n) :
    pigzReturns bits n = ∑ k ∈ Finset.range n,
      howMany (k + 1) (fun s => FirstCut (pigzHit bits ((2 ^ bits - 1) / 2) ((2 ^ bits - 1) / 2)) s (k + 1)) * pigzReturns bits (n - (k + 1)) := by
  generalize hh : (2 ^ bits - 1) / 2 = hit
  have h1 := howMany_first (pigzHit bits hit hit) n hn
  have h2 : howMany n (pigzHit bits hit hit) = pigzReturns bits n := by
    rw [← pigz_returns, hh]; rfl
  rw [← h2, h1]
  refine Finset.sum_congr rfl fun k hk => ?_
  have hk := Finset.mem_range.1 hk
  obtain ⟨d, rfl⟩ : ∃ d, n = (k + 1) + d := ⟨n - (k + 1), by omega⟩
  rw [Nat.add_sub_cancel_left, ← pigz_returns, hh, ← howMany_mul]
  refine howMany_congr fun s hs => ?_
  rw [← firstCut_take (by omega)]
  refine and_congr_right fun hf => ?_
  have hc : pigzHit bits hit hit (s.take (k + 1)) := hf.2.2.1
  have e : pigzNat bits hit s = pigzNat bits (pigzNat bits hit (s.take (k + 1))) (s.drop (k + 1)) := by
    conv_lhs => rw [← List.take_append_drop (k + 1) s]
    rw [pigzNat, List.foldl_append]; rfl
  unfold pigzHit at hc ⊢
  rw [e, hc]

/-- C82. Pigz (both APIs): the numbers of chunks of each length are determined by the strings that lead from a cut to a cut, of
which there are `pigzReturns`: each of those begins with exactly one chunk. -/
theorem C82_pigz {prof : Profile} {bits : BitVec 8} {p : Pigz.PigzRsyncable}
    (h : Pigz.PigzRsyncable.withBits prof bits = .ok p) (hb : bits.toNat ≤ 31) {n : Nat} (hn : 1 ≤ n) :
    pigzReturns bits.toNat n = ∑ k ∈ Finset.range n, cutAt (Pigz.chunk p) (k + 1) * pigzReturns bits.toNat (n - (k + 1)) ∧
    pushCutAt (Pigz.incr p) (Pigz.incr p).init n = cutAt (Pigz.chunk p) n := by
  obtain ⟨p', h1, -, h3, h4⟩ := C50_pigz prof bits hb
  rw [h] at h1
  cases h1
  have hlt : p.hit.toNat < 2 ^ bits.toNat := by
    have := Nat.two_pow_pos bits.toNat
    omega
  have he : pigzEdge p.mask p.hit = pigzHit bits.toNat ((2 ^ bits.toNat - 1) / 2) ((2 ^ bits.toNat - 1) / 2) := by
    funext q; rw [← h4]; exact propext (pigz_edge_nat (by omega) h3 hlt q)
  have h5 := (cutAt_of_conforms (Pigz.fce_conforms h)).2
  have h6 := (pushCutAt_of_first (pushFirst_of_conforms (Pigz.incr_conforms h))).2
  rw [Pigz.edge, he] at h5 h6
  refine ⟨?_, ?_⟩
  · rw [pigz_renewal _ hn]
    exact Finset.sum_congr rfl fun k _ => by rw [h5]
  · obtain ⟨m, rfl⟩ : ∃ m, n = m + 1 := ⟨n - 1, by omega⟩
    rw [h5, h6]

/-- the default: no chunk has fewer than 5 bytes; of 5 bytes there are `256^5 / 4096` -/
theorem C82_pigz_default {p : Pigz.PigzRsyncable} (h : Pigz.PigzRsyncable.default .debug = .ok p) :
    (∀ n, 1 ≤ n → n ≤ 4 → cutAt (Pigz.chunk p) n = 0) ∧ cutAt (Pigz.chunk p) 5 = 256 ^ 5 / 4096 := by
  have hp := fun n hn => (C82_pigz (prof := .debug) (bits := 12) h (by decide) (n := n) hn).1
  have h1 := hp 1 (by decide)
  have h2 := hp 2 (by decide)
  have h3 := hp 3 (by decide)
  have h4 := hp 4 (by decide)
  have h5 := hp 5 (by decide)
  simp only [Finset.sum_range_succ, Finset.sum_range_zero] at h1 h2 h3 h4 h5
  have e0 : pigzReturns (BitVec.toNat (12 : BitVec 8)) 0 = 1 := rfl
  have e1 : pigzReturns (BitVec.toNat (12 : BitVec 8)) 1 = 0 := rfl
  have e2 : pigzReturns (BitVec.toNat (12 : BitVec 8)) 2 = 0 := rfl
  have e3 : pigzReturns (BitVec.toNat (12 : BitVec 8)) 3 = 0 := rfl
  have e4 : pigzReturns (BitVec.toNat (12 : BitVec 8)) 4 = 0 := rfl
  have e5 : pigzReturns (BitVec.toNat (12 : BitVec 8)) 5 = 256 ^ 5 / 4096 := rfl
  norm_num [e0, e1, e2, e3, e4, e5] at h1 h2 h3 h4 h5
  refine ⟨fun n hn hn' => ?_, by norm_num; omega⟩
  obtain rfl | rfl | rfl | rfl : n = 1 ∨ n = 2 ∨ n = 3 ∨ n = 4 := by omega
  all_goals symm; assumption

end HashRoll.Props
