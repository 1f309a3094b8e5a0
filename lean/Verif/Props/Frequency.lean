import Verif.Props.Counting
import Verif.Props.Constructors
import Verif.Props.Constant
/-!
# C74, C75: how many of the 256 possible next bytes cut

Chunk size distributions on random data are what the parameters are chosen by. Here without probabilities: the number of
next bytes that cut, for every state (C74), and for `PigzRsyncable` the exact number of strings that end in a cut (C75).
-/

namespace HashRoll.Props
open HashRoll.Spec

/-! ## C74 -/

/-- At most one next byte cuts, in every state of every `RollSumIncr`. -/
theorem C74_rollsum (p : Bup.RollSum) (st : Bup.RollSumIncr) : cutCount (Bup.incr p) st ≤ 1 := by
  refine countP_le_one fun b b' hb hb' => ?_
  have key : ∀ b, cutsOn (Bup.incr p) st b = true → ∃ d, index st.window st.wofs = .ok d ∧
      (st.state.s2 + (st.state.s1 - word 32 d) - BitVec.ofNat 32 st.window.length * (word 32 d + 31) +
        word 32 b).toNat % 2 ^ 13 = 8191 := by
    intro b hb
    rw [cutsOn, show (Bup.incr p).push st [b] = Bup.RollSumIncr.push st [b] from rfl, Bup.push_eq] at hb
    simp only [forEnum, Bup.pushBody, Bup.RollSumIncr.rollByte] at hb
    cases hd : index st.window st.wofs with
    | error e => rw [hd] at hb; simp at hb
    | ok d =>
      refine ⟨d, rfl, ?_⟩
      rw [hd] at hb
      simp only [] at hb
      by_cases hs : Bup.RollSumState.atSplit ((st.add d b).state) = true
      · have : (st.add d b).state.s2 = st.state.s2 + (st.state.s1 - word 32 d) -
          BitVec.ofNat 32 st.window.length * (word 32 d + 31) + word 32 b := by
          show st.state.s2 + (st.state.s1 + word 32 b - word 32 d) -
            BitVec.ofNat 32 st.window.length * (word 32 d + 31) = _
          ring
        rw [← this]
        generalize (st.add d b).state = u at hs
        rw [Bup.RollSumState.atSplit, beq_iff_eq] at hs
        have h2 := congrArg BitVec.toNat hs
        rw [toNat_and_mask _ _ (k := 13) rfl, Bup.RollSumState.digest] at h2
        rw [show (Bup.blobsize - 1).toNat = 8191 from rfl] at h2
        have e1 : ((u.s1 <<< 16) ||| (u.s2 &&& 0xffff)).toNat % 2 ^ 13 = u.s2.toNat % 2 ^ 13 := by
          rw [← toNat_and_mask _ (0x1fff : BitVec 32) (k := 13) rfl, ← toNat_and_mask u.s2 (0x1fff : BitVec 32) (k := 13) rfl]
          congr 1
          apply BitVec.eq_of_getLsbD_eq
          intro i hi
          simp only [BitVec.getLsbD_and, BitVec.getLsbD_or, BitVec.getLsbD_shiftLeft]
          by_cases h13 : i < 13
          · have hc : (0xffff : BitVec 32).getLsbD i = true := by
              have : ∀ i : Fin 13, (0xffff : BitVec 32).getLsbD i.1 = true := by decide
              exact this ⟨i, h13⟩
            rw [hc]
            simp only [show i < 16 by omega, decide_true, Bool.not_true, Bool.and_false, Bool.false_and, Bool.false_or,
              Bool.and_true]
          · have hc : (0x1fff : BitVec 32).getLsbD i = false := by
              have : ∀ i : Fin 32, 13 ≤ i.1 → (0x1fff : BitVec 32).getLsbD i.1 = false := by decide
              exact this ⟨i, hi⟩ (Nat.le_of_not_lt h13)
            rw [hc, Bool.and_false, Bool.and_false]
        rw [e1] at h2
        exact h2
      · simp [Bup.RollSumIncr.atSplit, hs] at hb
  obtain ⟨d, h1, h2⟩ := key b hb
  obtain ⟨d', h1', h2'⟩ := key b' hb'
  rw [h1] at h1'
  cases h1'
  exact add_word_inj (by decide) (by decide) _ (h2.trans h2'.symm)

/-- the bound is attained: a state in which one byte (7) cuts -/
example : cutCount (Bup.incr ⟨2⟩) { state := ⟨0, 8246⟩, wofs := 0, window := [0, 0] } = 1 := by decide +kernel

theorem pigz_cutsOn (p : Pigz.PigzRsyncable) (st : Pigz.PigzRsyncableIncr) (b : UInt8) :
    cutsOn (Pigz.incr p) st b = true ↔ ((st.state.hash <<< 1) ^^^ word 32 b) &&& st.params.mask = st.params.hit := by
  rw [cutsOn_loop (C := Pigz.incr p) Pigz.pushBody]
  · have hadd : (st.state.add st.params b).2 =
        (((st.state.hash <<< 1) ^^^ word 32 b) &&& st.params.mask == st.params.hit) := rfl
    rw [← beq_iff_eq (a := _ &&& _), ← hadd]
    simp only [Pigz.pushBody]
    cases (st.state.add st.params b).2 <;> simp
  · intro st data
    show Pigz.PigzRsyncableIncr.push st data = _
    rw [Pigz.push_eq]
    rcases forEnum Pigz.pushBody 0 data st with e | (s' | ⟨s', r⟩) <;> rfl

/-- `Pigz`: with `bits ≤ 8`, in every state exactly `2^(8-bits)` of the 256 bytes cut (one in `2^bits`); with more, at most
one. -/
theorem C74_pigz {prof : Profile} {bits : BitVec 8} {p : Pigz.PigzRsyncable}
    (h : Pigz.PigzRsyncable.withBits prof bits = .ok p) (hb : bits.toNat ≤ 31) (st : Pigz.PigzRsyncableIncr)
    (hst : st.params = p) :
    (bits.toNat ≤ 8 → cutCount (Pigz.incr p) st = 2 ^ (8 - bits.toNat)) ∧
    (8 ≤ bits.toNat → cutCount (Pigz.incr p) st ≤ 1) := by
  obtain ⟨p', h1, -, h3, h4⟩ := C50_pigz prof bits hb
  rw [h] at h1
  cases h1
  have key : ∀ b, cutsOn (Pigz.incr p) st b = true ↔
      ((st.state.hash <<< 1).toNat ^^^ b.toNat) % 2 ^ bits.toNat = (2 ^ bits.toNat - 1) / 2 := by
    intro b
    rw [pigz_cutsOn, hst, ← BitVec.toNat_inj, toNat_and_mask _ _ h3, h4, BitVec.toNat_xor, toNat_word (by decide)]
  have hlt : (2 ^ bits.toNat - 1) / 2 < 2 ^ bits.toNat := by
    have := Nat.two_pow_pos bits.toNat
    omega
  constructor
  · intro h8
    rw [← count_xor_low (st.state.hash <<< 1).toNat h8 hlt]
    refine List.countP_congr fun b _ => ?_
    rw [key b]
    simp
  · intro h8
    refine countP_le_one fun b b' hb hb' => ?_
    have h256 : 256 ≤ 2 ^ bits.toNat := Nat.pow_le_pow_right (n := 2) (i := 8) (by decide) h8
    have h1 := ((key b).1 hb).trans ((key b').1 hb').symm
    rw [Nat.xor_mod_two_pow, Nat.xor_mod_two_pow (b := b'.toNat), Nat.mod_eq_of_lt (Nat.lt_of_lt_of_le b.toNat_lt h256),
      Nat.mod_eq_of_lt (Nat.lt_of_lt_of_le b'.toNat_lt h256)] at h1
    have := congrArg (fun y => (st.state.hash <<< 1).toNat % 2 ^ bits.toNat ^^^ y) h1
    simp only [← Nat.xor_assoc, Nat.xor_self, Nat.zero_xor] at this
    exact UInt8.toNat_inj.1 this

example : cutCount (Pigz.incr Ex.pigz2) { params := Ex.pigz2, state := { hash := 3 } } = 64 := by decide +kernel

/-- `Ram`: once the window is past, the bytes at or above the maximum cut, `256 - max` of them; within the window none. -/
theorem C74_ram (p : Ram.Ram) (st : Ram.RamIncr) :
    cutCount (Ram.incr p) st = if st.state.i > st.params.w then 256 - st.state.maxVal.toNat else 0 := by
  have key : ∀ b, cutsOn (Ram.incr p) st b = true ↔ st.state.i > st.params.w ∧ b ≥ st.state.maxVal := by
    intro b
    obtain ⟨q, ⟨i, m⟩⟩ := st
    rw [cutsOn, show (Ram.incr p).push ⟨q, ⟨i, m⟩⟩ [b] = Ram.RamIncr.push ⟨q, ⟨i, m⟩⟩ [b] from rfl]
    simp only [Ram.RamIncr.push, Ram.push_eq, forEnum, Ram.body, Nat.zero_add]
    by_cases h1 : b ≥ m
    · by_cases h2 : i > q.w
      · simp [h1, h2]
      · simp [h1, h2]
    · simp [h1]
  split
  · rename_i hi
    rw [cutCount, show allBytes.countP (cutsOn (Ram.incr p) st) = allBytes.countP (fun b => decide (b ≥ st.state.maxVal)) from
      List.countP_congr fun b _ => by rw [key b]; simp [hi]]
    exact count_ge _
  · rename_i hi
    rw [cutCount, List.countP_eq_zero]
    intro b _ hb
    exact hi ((key b).1 hb).1

example : cutCount (Ram.incr ⟨2⟩) { params := ⟨2⟩, state := { i := 3, maxVal := 200 } } = 56 := by rw [C74_ram]; rfl

/-- `Mii`: after `w - 1` increases the bytes above the last one cut, otherwise none. -/
theorem C74_mii (p : Mii.Mii) (st : Mii.MiiIncr) :
    cutCount (Mii.incr p) st = if st.increment + 1 = st.w then 255 - st.prev.toNat else 0 := by
  have key : ∀ b, cutsOn (Mii.incr p) st b = true ↔ st.increment + 1 = st.w ∧ b > st.prev := by
    intro b
    rw [cutsOn_loop (C := Mii.incr p) Mii.body]
    · simp only [Mii.body]
      by_cases h1 : b > st.prev
      · by_cases h2 : st.increment + 1 = st.w
        · simp [h1, h2]
        · simp [h1, h2]
      · simp [h1]
    · intro st data
      show Mii.MiiIncr.push st data = _
      rw [Mii.push_eq]
      rcases forEnum Mii.body 0 data st with e | (s' | ⟨s', r⟩) <;> rfl
  split
  · rename_i hi
    rw [cutCount, show allBytes.countP (cutsOn (Mii.incr p) st) = allBytes.countP (fun b => decide (b > st.prev)) from
      List.countP_congr fun b _ => by rw [key b]; simp [hi]]
    exact count_gt _
  · rename_i hi
    rw [cutCount, List.countP_eq_zero]
    intro b _ hb
    exact hi ((key b).1 hb).1

example : cutCount (Mii.incr ⟨5⟩) { w := 5, increment := 4, prev := 10 } = 245 := by rw [C74_mii]; rfl

theorem zstd_rotate_byte (s : Zstd.ZstdState) (d b : UInt8) (pp : BitVec 64) : (s.rotate d b pp).hash =
    (s.hash - Zstd.ofByte d * pp) * Zstd.prime8Bytes + 10 + word 64 b := by
  have e1 : (s.rotate d b pp).hash = (s.hash - Zstd.ofByte d * pp) * Zstd.prime8Bytes + Zstd.ofByte b := rfl
  have e2 : Zstd.ofByte b = word 64 b + 10 := rfl
  rw [e1, e2, BitVec.add_comm (word 64 b), BitVec.add_assoc]

theorem zstd_cutsOn (p : Zstd.Zstd) (st : Zstd.ZstdIncr) (hf : st.windowFull = true) (b : UInt8)
    (hb : cutsOn (Zstd.incr p) st b = true) : ∃ d, index st.window st.windowOffs = .ok d ∧
      (st.state.rotate d b st.params.primePower).atSplit st.params = true := by
  have h1 : (Zstd.incr p).push st [b] = finish (forEnum (Zstd.pushBody 0) 0 [b] st) := zstd_push_full st hf [b]
  rw [cutsOn, h1, forEnum] at hb
  cases hd : index st.window st.windowOffs with
  | error e =>
    have h2 : Zstd.pushBody 0 0 b st = .error e := by rw [Zstd.pushBody, hd]
    rw [h2] at hb
    cases hb
  | ok d =>
    cases hs : (st.state.rotate d b st.params.primePower).atSplit st.params with
    | true => exact ⟨d, rfl, hs⟩
    | false =>
      have h2 : ∃ s', Zstd.pushBody 0 0 b st = .ok (.next s') := by
        rw [Zstd.pushBody, hd]
        simp only [hs, Bool.false_eq_true, if_false]
        exact ⟨_, rfl⟩
      obtain ⟨s', h2⟩ := h2
      rw [h2] at hb
      cases hb

/-- With the window filled, at most one next byte cuts; before that, none. -/
theorem C74_zstd {prof : Profile} {size : BitVec 64} {p : Zstd.Zstd} (h : Zstd.Zstd.withTargetSectionSize prof size = .ok p)
    (st : Zstd.ZstdIncr) (hst : st.params = p) (hok : ZstdOk st) :
    cutCount (Zstd.incr p) st ≤ if st.windowFull then 1 else 0 := by
  obtain ⟨k, hk, hk', hm⟩ : ∃ k, 20 ≤ k ∧ k < 64 ∧ p.hitMask.toNat = 2 ^ k - 1 := by
    rw [C51_zstd] at h
    split at h
    · cases h
    · split at h
      · cases h
      · cases h
        have hl : Nat.log2 (size.toNat / 2 ^ 20) < 32 := by
          rw [Nat.log2_lt (by omega)]
          omega
        refine ⟨20 + Nat.log2 (size.toNat / 2 ^ 20), by omega, by omega, ?_⟩
        show (BitVec.ofNat 64 _).toNat = _
        rw [BitVec.toNat_ofNat, Nat.mod_eq_of_lt]
        have : 2 ^ (20 + Nat.log2 (size.toNat / 2 ^ 20)) ≤ 2 ^ 63 := Nat.pow_le_pow_right (by decide) (by omega)
        omega
  cases hf : st.windowFull with
  | true =>
    rw [if_pos rfl]
    refine countP_le_one fun b b' hb hb' => ?_
    have key : ∀ b, cutsOn (Zstd.incr p) st b = true → ∃ d, index st.window st.windowOffs = .ok d ∧
        ((st.state.hash - Zstd.ofByte d * p.primePower) * Zstd.prime8Bytes + 10 + word 64 b).toNat % 2 ^ k = 2 ^ k - 1 := by
      intro b hb
      obtain ⟨d, hd, hs⟩ := zstd_cutsOn p st hf b hb
      rw [hst] at hs
      refine ⟨d, hd, ?_⟩
      rw [Zstd.ZstdState.atSplit, beq_iff_eq] at hs
      have h2 := congrArg BitVec.toNat hs
      rw [toNat_and_mask _ _ hm, hm, zstd_rotate_byte] at h2
      exact h2
    obtain ⟨d, h1, h2⟩ := key b hb
    obtain ⟨d', h1', h2'⟩ := key b' hb'
    rw [h1] at h1'
    cases h1'
    exact add_word_inj (by omega) (by omega) _ (h2.trans h2'.symm)
  | false =>
    have ho : st.windowOffs < st.window.length := by
      rcases hok with h | h
      · rw [hf] at h; cases h
      · exact h
    rw [if_neg (by simp), Nat.le_zero, cutCount, List.countP_eq_zero]
    intro b _ hb
    rw [cutsOn, show (Zstd.incr p).push st [b] = st.push [b] from rfl] at hb
    by_cases h1 : [b].length < st.window.length - st.windowOffs
    · rw [zstd_push_filling st hf [b] h1] at hb
      simp at hb
    · rw [List.length_singleton] at h1
      rw [zstd_push_fills st hf ho [b] (by simp; omega), show st.window.length - st.windowOffs = 1 by omega,
        zstd_push_full (zstdFilled _ _) rfl] at hb
      simp [forEnum, finish, shiftRes, Except.map] at hb

example : (Zstd.incr Ex.zstd).init.params = Ex.zstd ∧ ZstdOk (Zstd.incr Ex.zstd).init := ⟨rfl, .inr (by decide +kernel)⟩

/-- `Gzip`: what `push` maintains, with a window that is not absurdly large -/
def GzipOk (st : Gzip.GzipRsyncableIncr) : Prop :=
  st.params.windowLen ≤ 2 ^ 48 ∧ st.window.length ≤ 2 ^ 48 ∧ st.accum.toNat = (st.window.map UInt8.toNat).sum

theorem sum_bytes_le (l : Bytes) : (l.map UInt8.toNat).sum ≤ 255 * l.length := by
  induction l with
  | nil => simp
  | cons b l ih =>
    have := b.toNat_lt
    simp only [List.map_cons, List.sum_cons, List.length_cons]
    omega

/-- one byte: after the oldest one was dropped (if the window was full), `self` -/
theorem gzip_body (st : Gzip.GzipRsyncableIncr) (h : GzipOk st) :
    (∃ e, ∀ i v, Gzip.pushBody i v st = .error e) ∨
    ∃ a : BitVec 64, ∃ w : Bytes, w.length < 2 ^ 48 ∧ a.toNat = (w.map UInt8.toNat).sum ∧ st.params.modulus ≠ 0 ∧
      ∀ i v, Gzip.pushBody i v st = if (a + word 64 v) % st.params.modulus = 0
        then .ok (.ret ⟨st.params, 0, []⟩ (some (i + 1)))
        else .ok (.next ⟨st.params, a + word 64 v, w ++ [v]⟩) := by
  obtain ⟨⟨W, m⟩, a, w⟩ := st
  obtain ⟨h1, h2, h3⟩ := h
  simp only at h1 h2 h3
  by_cases hw : w.length ≥ W
  · cases w with
    | nil =>
      left
      refine ⟨.unwrapNone, fun i v => ?_⟩
      simp only [Gzip.pushBody, if_pos hw]
    | cons d ds =>
      by_cases hm : m = 0
      · left
        refine ⟨.remByZero, fun i v => ?_⟩
        simp only [Gzip.pushBody, if_pos hw, Gzip.remIsZero, if_pos hm]
      · right
        refine ⟨a - Gzip.ofByte d, ds, by simp only [List.length_cons] at h2; omega, ?_, hm, fun i v => ?_⟩
        · have hd : (Gzip.ofByte d).toNat = d.toNat := toNat_word (by decide) d
          simp only [List.map_cons, List.sum_cons] at h3
          rw [BitVec.toNat_sub_of_le (by rw [BitVec.le_def, hd]; omega), hd]
          omega
        · by_cases hz : (a - Gzip.ofByte d + word 64 v) % m = 0
          · have hb : ((a - Gzip.ofByte d + Gzip.ofByte v) % m == 0) = true := beq_iff_eq.2 hz
            rw [if_pos hz]
            simp only [Gzip.pushBody, if_pos hw, Gzip.remIsZero, if_neg hm, hb, Gzip.GzipRsyncableIncr.reset]
          · have hb : ((a - Gzip.ofByte d + Gzip.ofByte v) % m == 0) = false := beq_eq_false_iff_ne.2 hz
            rw [if_neg hz]
            simp only [Gzip.pushBody, if_pos hw, Gzip.remIsZero, if_neg hm, hb]
            rfl
  · by_cases hm : m = 0
    · left
      refine ⟨.remByZero, fun i v => ?_⟩
      simp only [Gzip.pushBody, if_neg hw, Gzip.remIsZero, if_pos hm]
    · right
      refine ⟨a, w, by omega, h3, hm, fun i v => ?_⟩
      by_cases hz : (a + word 64 v) % m = 0
      · have hb : ((a + Gzip.ofByte v) % m == 0) = true := beq_iff_eq.2 hz
        rw [if_pos hz]
        simp only [Gzip.pushBody, if_neg hw, Gzip.remIsZero, if_neg hm, hb, Gzip.GzipRsyncableIncr.reset]
      · have hb : ((a + Gzip.ofByte v) % m == 0) = false := beq_eq_false_iff_ne.2 hz
        rw [if_neg hz]
        simp only [Gzip.pushBody, if_neg hw, Gzip.remIsZero, if_neg hm, hb]
        rfl

theorem gzip_push (p : Gzip.GzipRsyncable) (st : (Gzip.incr p).State) (data : Bytes) :
    (Gzip.incr p).push st data = finish (forEnum Gzip.pushBody 0 data st) := by
  show Gzip.GzipRsyncableIncr.push st data = _
  rw [Gzip.push_eq]
  rcases forEnum Gzip.pushBody 0 data st with e | (s' | ⟨s', r⟩) <;> rfl

theorem add_toNat {a : BitVec 64} {w : Bytes} (hw : w.length < 2 ^ 48) (ha : a.toNat = (w.map UInt8.toNat).sum)
    (v : UInt8) : (a + word 64 v).toNat = a.toNat + v.toNat := by
  have h1 := sum_bytes_le w
  have h2 := v.toNat_lt
  rw [BitVec.toNat_add, toNat_word (by decide), Nat.mod_eq_of_lt (by omega)]

/-- every constructed `GzipRsyncableIncr` (with a window of at most `2^48` bytes) has the property, and `push` keeps it -/
theorem C74_gzip_kept (p : Gzip.GzipRsyncable) :
    (p.windowLen ≤ 2 ^ 48 → GzipOk (Gzip.incr p).init) ∧ Kept (Gzip.incr p) GzipOk := by
  refine ⟨fun h => ⟨h, Nat.zero_le _, rfl⟩, ?_⟩
  intro st data st' r hok h
  rw [gzip_push] at h
  have : ∀ (data : Bytes) i st, GzipOk st → (∀ s', forEnum Gzip.pushBody i data st = .ok (.next s') → GzipOk s') ∧
      ∀ s' r, forEnum Gzip.pushBody i data st = .ok (.ret s' r) → GzipOk s' := by
    intro data
    induction data with
    | nil =>
      intro i st hok
      refine ⟨fun s' h => ?_, fun s' r h => ?_⟩
      · cases h; exact hok
      · cases h
    | cons v vs ih =>
      intro i st hok
      rcases gzip_body st hok with ⟨e, hb⟩ | ⟨a, w, hw, ha, hm, hb⟩
      · refine ⟨fun s' h => ?_, fun s' r h => ?_⟩ <;> · rw [forEnum, hb] at h; cases h
      · by_cases hz : (a + word 64 v) % st.params.modulus = 0
        · refine ⟨fun s' h => ?_, fun s' r h => ?_⟩ <;> rw [forEnum, hb, if_pos hz] at h <;> cases h
          exact ⟨hok.1, Nat.zero_le _, rfl⟩
        · have hok' : GzipOk ⟨st.params, a + word 64 v, w ++ [v]⟩ := by
            refine ⟨hok.1, by simp; omega, ?_⟩
            show (a + word 64 v).toNat = _
            rw [add_toNat hw ha, ha]
            simp
          refine ⟨fun s' h => ?_, fun s' r h => ?_⟩ <;> rw [forEnum, hb, if_neg hz] at h
          · exact (ih _ _ hok').1 s' h
          · exact (ih _ _ hok').2 s' r h
  rcases hf : forEnum Gzip.pushBody 0 data st with e | (s' | ⟨s', r'⟩) <;> rw [hf] at h <;> cases h
  · exact (this data 0 st hok).1 _ hf
  · exact (this data 0 st hok).2 _ _ hf

/-- At most one next byte cuts if the modulus is 256 or more (the default is 4096), exactly `256 / modulus` if the modulus
divides 256 (and there is a window). -/
theorem C74_gzip (p : Gzip.GzipRsyncable) (st : Gzip.GzipRsyncableIncr) (hok : GzipOk st) :
    (256 ≤ st.params.modulus.toNat → cutCount (Gzip.incr p) st ≤ 1) ∧
    (st.params.modulus.toNat ∣ 256 → 0 < st.params.windowLen →
      cutCount (Gzip.incr p) st = 256 / st.params.modulus.toNat) := by
  have key : (∀ b, cutsOn (Gzip.incr p) st b = false) ∧ (st.params.modulus = 0 ∨ st.params.windowLen = 0) ∨
      ∃ n : Nat, st.params.modulus ≠ 0 ∧
        ∀ b, cutsOn (Gzip.incr p) st b = true ↔ (n + b.toNat) % st.params.modulus.toNat = 0 := by
    rcases gzip_body st hok with ⟨e, hb⟩ | ⟨a, w, hw, ha, hm, hb⟩
    · refine .inl ⟨fun b => ?_, ?_⟩
      · rw [← Bool.not_eq_true, cutsOn_loop (C := Gzip.incr p) Gzip.pushBody (gzip_push p) st b]
        rintro ⟨s', k, h⟩
        rw [hb] at h; cases h
      · by_contra hcon
        rw [not_or] at hcon
        have h0 := hb 0 0
        simp only [Gzip.pushBody] at h0
        split at h0
        · rename_i e' h1
          split at h1
          · split at h1
            · rename_i h2 _ h3
              rw [h3] at h2
              exact hcon.2 (Nat.le_zero.1 h2)
            · cases h1
          · cases h1
        · rename_i s1 h1
          have hp : s1.params = st.params := by
            split at h1
            · split at h1
              · cases h1
              · cases h1; rfl
            · cases h1; rfl
          rw [Gzip.remIsZero, if_neg (by rw [hp]; exact hcon.1)] at h0
          split at h0
          · rename_i h2; cases h2
          · cases h0
          · cases h0
    · refine .inr ⟨a.toNat, hm, fun b => ?_⟩
      rw [cutsOn_loop (C := Gzip.incr p) Gzip.pushBody (gzip_push p) st b, hb]
      have e : (a + word 64 b) % st.params.modulus = 0 ↔ (a.toNat + b.toNat) % st.params.modulus.toNat = 0 := by
        rw [← BitVec.toNat_inj, BitVec.toNat_umod, add_toNat hw ha]
        rfl
      rw [← e]
      by_cases hz : (a + word 64 b) % st.params.modulus = 0
      · rw [if_pos hz]; exact ⟨fun _ => hz, fun _ => ⟨_, _, rfl⟩⟩
      · rw [if_neg hz]; exact ⟨(by rintro ⟨_, _, h⟩; cases h), fun h => absurd h hz⟩
  have hpos : st.params.modulus ≠ 0 → 0 < st.params.modulus.toNat := by
    intro h
    refine Nat.pos_of_ne_zero fun h0 => h (BitVec.eq_of_toNat_eq (by simpa using h0))
  constructor
  · intro h256
    rcases key with ⟨h, -⟩ | ⟨n, hm, h⟩
    · exact countP_le_one fun b b' hb => by rw [h b] at hb; cases hb
    · refine countP_le_one fun b b' hb hb' => ?_
      have h1 := (h b).1 hb
      have h2 := (h b').1 hb'
      have := Nat.ModEq.add_left_cancel' n (show n + b.toNat ≡ n + b'.toNat [MOD st.params.modulus.toNat] from
        h1.trans h2.symm)
      rw [Nat.ModEq, Nat.mod_eq_of_lt (Nat.lt_of_lt_of_le b.toNat_lt h256),
        Nat.mod_eq_of_lt (Nat.lt_of_lt_of_le b'.toNat_lt h256)] at this
      exact UInt8.toNat_inj.1 this
  · intro hd hw
    rcases key with ⟨-, h | h⟩ | ⟨n, hm, h⟩
    · rw [h] at hd; simp at hd
    · omega
    · generalize st.params.modulus.toNat = m at hd h hpos
      have hm0 := hpos hm
      have hle : m ≤ 256 := Nat.le_of_dvd (by decide) hd
      have hr : n % m < m := Nat.mod_lt _ hm0
      rw [← count_dvd ⟨m, by omega⟩ hd hm0 ⟨n % m, by omega⟩ hr, cutCount, allBytes, List.countP_map]
      refine List.countP_congr fun b hb => ?_
      have hb256 : b < 256 := List.mem_range.1 hb
      rw [Function.comp, h]
      simp [Nat.mod_eq_of_lt hb256]

example : GzipOk ⟨⟨4, 8⟩, 12, [3, 9]⟩ ∧ cutCount (Gzip.incr ⟨4, 8⟩) ⟨⟨4, 8⟩, 12, [3, 9]⟩ = 32 :=
  ⟨⟨by decide, by decide, by decide⟩, by decide +kernel⟩

/-! ## C75 -/

/-- the hash of `PigzRsyncable` as a number -/
def pigzNat (bits h : Nat) (x : Bytes) : Nat := x.foldl (fun h b => (2 * h ^^^ b.toNat) % 2 ^ bits) h

theorem pigzNat_snoc (bits h : Nat) (x : Bytes) (b : UInt8) :
    pigzNat bits h (x ++ [b]) = (2 * pigzNat bits h x ^^^ b.toNat) % 2 ^ bits := by
  rw [pigzNat, List.foldl_append]; rfl

/-- the hash before the last doubling, from the hash after it -/
theorem xor_step (H b t j : Nat) (ht : t < 2 ^ (j + 1)) :
    (2 * H ^^^ b) % 2 ^ (j + 1) = t ↔ b % 2 = t % 2 ∧ H % 2 ^ j = (t / 2 ^^^ b / 2) % 2 ^ j := by
  have h2 : ∀ x y : Nat, x = y ↔ x % 2 = y % 2 ∧ x / 2 = y / 2 := fun x y => by omega
  have hj : 2 ^ (j + 1) = 2 * 2 ^ j := by rw [pow_succ, Nat.mul_comm]
  have e1 : (2 * H ^^^ b) % 2 ^ (j + 1) % 2 = b % 2 := by
    rw [Nat.mod_mod_of_dvd _ ⟨2 ^ j, hj⟩, ← pow_one 2, Nat.xor_mod_two_pow]
    simp
  have e2 : (2 * H ^^^ b) % 2 ^ (j + 1) / 2 = (H ^^^ b / 2) % 2 ^ j := by
    rw [hj, Nat.mod_mul_right_div_self, ← Nat.pow_one 2, Nat.xor_div_two_pow]
    simp
  have htj : t / 2 < 2 ^ j := by omega
  rw [h2, e1, e2]
  refine and_congr_right fun _ => ?_
  constructor
  · intro h
    rw [← h, Nat.xor_mod_two_pow, Nat.mod_mod, ← Nat.xor_mod_two_pow, Nat.xor_assoc, Nat.xor_self, Nat.xor_zero]
  · intro h
    rw [Nat.xor_mod_two_pow, h, ← Nat.xor_mod_two_pow, Nat.xor_assoc, Nat.xor_self, Nat.xor_zero, Nat.mod_eq_of_lt htj]

theorem sum_half (t n : Nat) : (allBytes.map fun b => if b.toNat % 2 = t % 2 then n else 0).sum = 128 * n := by
  have key : ∀ r : Fin 2, ∀ l : List UInt8, (l.map fun b => if b.toNat % 2 = r.1 then n else 0).sum =
      l.countP (fun b => b.toNat % 2 = r.1) * n := by
    intro r l
    induction l with
    | nil => simp
    | cons b bs ih =>
      rw [List.map_cons, List.sum_cons, ih, List.countP_cons]
      by_cases h : b.toNat % 2 = r.1
      · simp only [h, if_true, decide_true]; ring
      · simp only [h, if_false, decide_false, Bool.false_eq_true]; ring
  have h2 : t % 2 < 2 := Nat.mod_lt _ (by decide)
  have h3 := count_low ⟨1, by decide⟩ ⟨t % 2, by omega⟩ h2
  rw [key ⟨t % 2, h2⟩ allBytes]
  simp only [pow_one] at h3
  rw [h3, show 2 ^ (8 - 1) = 128 from rfl]

/-- Every remainder is equally frequent among the hashes of the strings of a length. -/
theorem pigzNat_uniform (bits h : Nat) {k : Nat} (hk : 1 ≤ k) {j t : Nat} (hj : j ≤ bits) (hjk : j ≤ k + 7)
    (ht : t < 2 ^ j) : (strings k).countP (fun x => decide (pigzNat bits h x % 2 ^ j = t)) * 2 ^ j = 256 ^ k := by
  induction k, hk using Nat.le_induction generalizing j t with
  | base =>
    have e : strings 1 = allBytes.map fun b => [b] := by
      simp only [strings, List.map_cons, List.map_nil, List.nil_append]
      induction allBytes with
      | nil => rfl
      | cons b bs ih => rw [List.flatMap_cons, ih]; rfl
    rw [e, List.countP_map, show allBytes.countP ((fun x => decide (pigzNat bits h x % 2 ^ j = t)) ∘ fun b => [b]) =
      2 ^ (8 - j) from ?_, ← pow_add, show 8 - j + j = 8 by omega]
    · rfl
    · rw [← count_xor_low (2 * h) (by omega) ht]
      refine List.countP_congr fun b _ => ?_
      have : pigzNat bits h [b] % 2 ^ j = (2 * h ^^^ b.toNat) % 2 ^ j := by
        rw [pigzNat]
        exact Nat.mod_mod_of_dvd _ (Nat.pow_dvd_pow 2 hj)
      simp [this]
  | succ k hk ih =>
    cases j with
    | zero =>
      rw [List.countP_eq_length.2 (fun x _ => by simp at ht ⊢; omega), length_strings]
      simp
    | succ j =>
      have hn : ∃ n, n * 2 ^ j = 256 ^ k ∧ ∀ b : UInt8, (strings k).countP
          (fun x => decide (pigzNat bits h (x ++ [b]) % 2 ^ (j + 1) = t)) = if b.toNat % 2 = t % 2 then n else 0 := by
        have hpos : 0 < 2 ^ j := Nat.two_pow_pos j
        have hu := fun t ht => ih (j := j) (t := t) (by omega) (by omega) ht
        refine ⟨_, hu 0 hpos, fun b => ?_⟩
        have e : ∀ x, decide (pigzNat bits h (x ++ [b]) % 2 ^ (j + 1) = t) =
            decide (b.toNat % 2 = t % 2 ∧ pigzNat bits h x % 2 ^ j = (t / 2 ^^^ b.toNat / 2) % 2 ^ j) := by
          intro x
          rw [pigzNat_snoc, Nat.mod_mod_of_dvd _ (Nat.pow_dvd_pow 2 hj)]
          simp only [xor_step _ _ _ _ ht]
        simp only [e]
        split
        · rename_i hb
          simp only [hb, true_and]
          exact Nat.eq_of_mul_eq_mul_right hpos ((hu _ (Nat.mod_lt _ hpos)).trans (hu 0 hpos).symm)
        · rename_i hb
          simp [hb]
      obtain ⟨n, hn1, hn2⟩ := hn
      have hs : (strings (k + 1)).countP (fun x => decide (pigzNat bits h x % 2 ^ (j + 1) = t)) = 128 * n := by
        rw [← sum_half t n, strings, List.countP_flatMap]
        congr 1
        refine List.map_congr_left fun b _ => ?_
        rw [Function.comp, List.countP_map]
        exact hn2 b
      rw [hs, pow_succ, pow_succ, ← hn1]
      ring

theorem pigz_step {prof : Profile} {bits : BitVec 8} {p : Pigz.PigzRsyncable}
    (h : Pigz.PigzRsyncable.withBits prof bits = .ok p) (hb : bits.toNat ≤ 31) (st : Pigz.PigzRsyncableIncr)
    (hst : st.params = p) (b : UInt8) : ∃ st' r, (Pigz.incr p).push st [b] = .ok (st', r) ∧ st'.params = p ∧
      st'.state.hash.toNat = (2 * st.state.hash.toNat ^^^ b.toNat) % 2 ^ bits.toNat ∧
      (r.isSome ↔ st'.state.hash.toNat = (2 ^ bits.toNat - 1) / 2) := by
  obtain ⟨p', h1, -, h3, h4⟩ := C50_pigz prof bits hb
  rw [h] at h1
  cases h1
  subst hst
  have hh : (st.state.add st.params b).1.hash.toNat = (2 * st.state.hash.toNat ^^^ b.toNat) % 2 ^ bits.toNat := by
    show (((st.state.hash <<< 1) ^^^ word 32 b) &&& st.params.mask).toNat = _
    rw [toNat_and_mask _ _ h3, BitVec.toNat_xor, toNat_word (by decide), BitVec.toNat_shiftLeft, Nat.shiftLeft_eq,
      Nat.xor_mod_two_pow, Nat.mod_mod_of_dvd _ (Nat.pow_dvd_pow 2 (by omega)), ← Nat.xor_mod_two_pow, pow_one,
      Nat.mul_comm]
  have hc : (st.state.add st.params b).2 = ((st.state.add st.params b).1.hash == st.params.hit) := rfl
  have hpush : (Pigz.incr st.params).push st [b] = finish (forEnum Pigz.pushBody 0 [b] st) := by
    show Pigz.PigzRsyncableIncr.push st [b] = _
    rw [Pigz.push_eq]
    rcases forEnum Pigz.pushBody 0 [b] st with e | (s' | ⟨s', r⟩) <;> rfl
  rw [hpush, forEnum]
  simp only [Pigz.pushBody]
  rcases hadd : st.state.add st.params b with ⟨s', c⟩
  rw [hadd] at hh hc
  simp only at hh hc
  cases c with
  | true =>
    have he : s'.hash = st.params.hit := beq_iff_eq.1 hc.symm
    refine ⟨_, _, rfl, rfl, ?_, ?_⟩
    · rw [← hh, he]; rfl
    · refine ⟨fun _ => ?_, fun _ => rfl⟩
      rw [← h4]; rfl
  | false =>
    have he : ¬ s'.hash = st.params.hit := beq_eq_false_iff_ne.1 hc.symm
    refine ⟨_, _, rfl, rfl, hh, ?_⟩
    refine ⟨fun h => by simp at h, fun h => ?_⟩
    rw [← h4] at h
    exact absurd (BitVec.eq_of_toNat_eq h) he

/-- Of the strings of length `k`, exactly one in `2^bits` makes `PigzRsyncable::with_bits(bits)` cut after its last byte, if
`bits ≤ k + 7` and `bits ≤ 31`, whatever came before: on uniformly random data every position from the fifth on is a cut
with probability exactly `2^-12` for the default. -/
theorem C75_pigz {prof : Profile} {bits : BitVec 8} {p : Pigz.PigzRsyncable}
    (h : Pigz.PigzRsyncable.withBits prof bits = .ok p) (hb : bits.toNat ≤ 31) (st : Pigz.PigzRsyncableIncr)
    (hst : st.params = p) (k : Nat) (hk : 1 ≤ k) (hbk : bits.toNat ≤ k + 7) :
    (strings k).countP (endsWithCut (Pigz.incr p) st false) * 2 ^ bits.toNat = 256 ^ k := by
  have key : ∀ x st r, st.params = p → x ≠ [] → endsWithCut (Pigz.incr p) st r x =
      decide (pigzNat bits.toNat st.state.hash.toNat x % 2 ^ bits.toNat = (2 ^ bits.toNat - 1) / 2) := by
    intro x
    induction x with
    | nil => intro st r _ h; exact absurd rfl h
    | cons b bs ih =>
      intro st r hst _
      obtain ⟨st', r', h1, h2, h3, h4⟩ := pigz_step h hb st hst b
      rw [endsWithCut, h1]
      show endsWithCut (Pigz.incr p) st' r'.isSome bs = _
      have hn : pigzNat bits.toNat st.state.hash.toNat (b :: bs) = pigzNat bits.toNat st'.state.hash.toNat bs := by
        rw [h3]; rfl
      rw [hn]
      cases bs with
      | nil =>
        rw [endsWithCut, pigzNat, List.foldl_nil, Bool.eq_iff_iff, h4, decide_eq_true_iff, h3, Nat.mod_mod]
      | cons c cs => exact ih st' _ h2 (by simp)
  have hlt : (2 ^ bits.toNat - 1) / 2 < 2 ^ bits.toNat := by
    have := Nat.two_pow_pos bits.toNat
    omega
  rw [← pigzNat_uniform bits.toNat st.state.hash.toNat hk (Nat.le_refl _) hbk hlt]
  congr 1
  refine List.countP_congr fun x hx => ?_
  rw [key x st false hst (by rintro rfl; have := mem_strings.1 hx; simp at this; omega)]

/-- the default, in words of the claim: of the strings of 5 bytes one in 4096 -/
example (st : Pigz.PigzRsyncableIncr) (hst : st.params = { bits := 12, mask := 0xfff, hit := 0x7ff }) :
    (strings 5).countP (endsWithCut (Pigz.incr { bits := 12, mask := 0xfff, hit := 0x7ff }) st false) * 4096 = 256 ^ 5 :=
  C75_pigz (C50_default .debug) (by decide) st hst 5 (by decide) (by decide)

/-- The length is needed: no single byte makes the default cut after a cut, one in 16 would have to. -/
theorem C75_short :
    (strings 1).countP (endsWithCut (Pigz.incr { bits := 12, mask := 0xfff, hit := 0x7ff })
      (Pigz.incr { bits := 12, mask := 0xfff, hit := 0x7ff }).init false) = 0 := by decide +kernel

end HashRoll.Props
