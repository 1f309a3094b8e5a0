import Verif.Props.Zstd
import Verif.Props.IterMore
/-!
# C49, C50, C52, C54, C55, C60, C61: constructors, ranges and tables
-/

namespace HashRoll.Props

open Spec

/-- finite checks over all 8-bit words -/
theorem bv8_all {P : BitVec 8 → Prop} (h : ∀ n : Fin 256, P (BitVec.ofNat 8 n.1)) (b : BitVec 8) : P b := by
  have := h ⟨b.toNat, b.isLt⟩
  simpa using this

/-! ## C49 -/

theorem msbMask_ok (prof : Profile) (k : Nat) (h1 : 1 ≤ k) (h2 : k ≤ 31) :
    ∃ m, Gear.msbMask prof (BitVec.ofNat 64 k) = .ok m ∧ ∀ i < 32, m.getLsbD i = decide (32 - k ≤ i) := by
  have key : ∀ k : Fin 32, 1 ≤ k.1 →
      (match Gear.msbMask prof (BitVec.ofNat 64 k.1) with
        | .ok m => (List.range 32).all fun i => m.getLsbD i == decide (32 - k.1 ≤ i)
        | .error _ => false) = true := by cases prof <;> decide +kernel
  have := key ⟨k, by omega⟩ h1
  dsimp only at this
  split at this
  · rename_i m hm
    refine ⟨m, hm, fun i hi => ?_⟩
    have := List.all_eq_true.1 this i (List.mem_range.2 hi)
    simpa using this
  · cases this

/-- `with_average_size_log2(n)` for `1 <= n <= 31`: the `n` most significant bits of the mask are set, no
others, in both build profiles; the table is `GEAR_32`. -/
theorem C49_gear (prof : Profile) (n : BitVec 64) (h1 : 1 ≤ n.toNat) (h2 : n.toNat ≤ 31) :
    ∃ p, Gear.Gear32.withAverageSizeLog2 prof n = .ok p ∧ p.xxx = 0 ∧ p.gear = Tables.gear32 ∧
      ∀ i < 32, p.mask.getLsbD i = decide (32 - n.toNat ≤ i) := by
  obtain ⟨m, hm, hb⟩ := msbMask_ok prof n.toNat h1 h2
  rw [BitVec.ofNat_toNat, BitVec.setWidth_eq] at hm
  exact ⟨_, by rw [Gear.Gear32.withAverageSizeLog2, hm], rfl, rfl, hb⟩
example : (1 : Nat) ≤ (13 : BitVec 64).toNat ∧ (13 : BitVec 64).toNat ≤ 31 := by decide

/-- With overflow checks everything else panics. -/
theorem C49_debug (n : BitVec 64) (h : n.toNat = 0 ∨ 32 ≤ n.toNat) :
    Gear.Gear32.withAverageSizeLog2 .debug n = .error .overflow := by
  rcases h with h | h
  · have : n = 0 := BitVec.eq_of_toNat_eq (by simpa using h)
    subst this; rfl
  · rw [Gear.Gear32.withAverageSizeLog2, Gear.msbMask, shl_debug _ h]
example : (0 : BitVec 64).toNat = 0 ∨ 32 ≤ (0 : BitVec 64).toNat := by decide

/-- Without overflow checks `n` is taken modulo 32: in particular 0 and 32 give an empty mask, with which every
byte is a chunk. -/
theorem C49_release (n : BitVec 64) :
    ∃ p, Gear.Gear32.withAverageSizeLog2 .release n = .ok p ∧ p.xxx = 0 ∧ p.gear = Tables.gear32 ∧
      ∀ i < 32, p.mask.getLsbD i = decide (32 - n.toNat % 32 ≤ i) := by
  have e1 : ((32 : BitVec 64) - n).toNat % 32 = (32 - n.toNat % 32) % 32 := by
    rw [BitVec.toNat_sub]
    have : (32 : BitVec 64).toNat = 32 := rfl
    rw [this]
    have := n.isLt
    omega
  refine ⟨{ mask := ((1 : BitVec 32) <<< (n.toNat % 32) - 1) <<< ((32 - n.toNat % 32) % 32), xxx := 0,
            gear := Tables.gear32 }, ?_, rfl, rfl, ?_⟩
  · rw [Gear.Gear32.withAverageSizeLog2, Gear.msbMask, shl_release]
    dsimp only
    rw [sub_release]
    dsimp only
    rw [sub_release]
    dsimp only
    rw [shl_release, e1]
  · have : n.toNat % 32 < 32 := Nat.mod_lt _ (by omega)
    revert this
    generalize n.toNat % 32 = k
    intro hk i hi
    have key : ∀ k i : Fin 32, (((1 : BitVec 32) <<< k.1 - 1) <<< ((32 - k.1) % 32)).getLsbD i.1 =
        decide (32 - k.1 ≤ i.1) := by decide +kernel
    exact key ⟨k, hk⟩ ⟨i, hi⟩

theorem C49_default (prof : Profile) : Gear.Gear32.default prof = .ok Ex.gear := by
  cases prof <;> rfl

/-! ## C50 -/

/-- `with_bits(bits)` for `bits <= 31` -/
theorem C50_pigz (prof : Profile) (bits : BitVec 8) (h : bits.toNat ≤ 31) :
    ∃ p, Pigz.PigzRsyncable.withBits prof bits = .ok p ∧ p.bits = bits ∧
      p.mask.toNat = 2 ^ bits.toNat - 1 ∧ p.hit.toNat = (2 ^ bits.toNat - 1) / 2 := by
  revert h
  revert bits
  refine bv8_all ?_
  intro n hn
  have key : ∀ n : Fin 32,
      (match Pigz.PigzRsyncable.withBits prof (BitVec.ofNat 8 n.1) with
        | .ok p => p.bits == BitVec.ofNat 8 n.1 && p.mask.toNat == 2 ^ n.1 - 1 && p.hit.toNat == (2 ^ n.1 - 1) / 2
        | .error _ => false) = true := by cases prof <;> decide +kernel
  have hn' : n.1 ≤ 31 := by
    simp only [BitVec.toNat_ofNat] at hn
    rw [Nat.mod_eq_of_lt n.2] at hn
    exact hn
  have := key ⟨n.1, by omega⟩
  dsimp only at this
  split at this
  · rename_i p hp
    simp only [Bool.and_eq_true, beq_iff_eq] at this
    refine ⟨p, hp, this.1.1, ?_, ?_⟩ <;> simp only [BitVec.toNat_ofNat, Nat.mod_eq_of_lt n.2] <;> omega
  · cases this
example : (12 : BitVec 8).toNat ≤ 31 := by decide

theorem C50_debug (bits : BitVec 8) (h : 32 ≤ bits.toNat) :
    Pigz.PigzRsyncable.withBits .debug bits = .error .overflow := by
  rw [Pigz.PigzRsyncable.withBits, shl_debug _ h]
example : 32 ≤ (32 : BitVec 8).toNat := by decide

theorem C50_default (prof : Profile) :
    Pigz.PigzRsyncable.default prof = .ok { bits := 12, mask := 0xfff, hit := 0x7ff } := by
  cases prof <;> rfl

/-- With `bits = 0` every byte is its own chunk. -/
theorem C50_zero_bits (prof : Profile) : ∃ p, Pigz.PigzRsyncable.withBits prof 0 = .ok p ∧
    ∀ h data n, EdgeRule (Local (pigzEdge p.mask p.hit)) h data n ↔ n = 1 ∧ data ≠ [] := by
  refine ⟨{ bits := 0, mask := 0, hit := 0 }, by cases prof <;> rfl, fun h data n => ?_⟩
  have hall : ∀ p, pigzEdge 0 0 p := fun p => by simp [pigzEdge]
  constructor
  · rintro ⟨h1, h2, _, h4⟩
    have : n = 1 := by
      by_contra hne
      exact h4 1 (by omega) (by omega) (hall _)
    subst this
    exact ⟨rfl, by rintro rfl; simp at h2⟩
  · rintro ⟨rfl, hne⟩
    have := List.length_pos_iff.2 hne
    exact ⟨by omega, by omega, hall _, by intro m h1 h2; omega⟩

/-! ## C52 -/

theorem C52_average (prof : Profile) (n : BitVec 8) :
    Zpaq.Zpaq.withAverageSizePow2 prof n =
      if n.toNat < 10 ∨ 32 < n.toNat then .error .assertFailed
      else .ok { range := { start := .included (64 * 2 ^ (n.toNat - 10)), stop := .excluded (8128 * 2 ^ n.toNat) },
                 maxHash := BitVec.ofNat 32 (2 ^ (32 - n.toNat)) } := by
  revert n
  refine bv8_all ?_
  cases prof <;> decide +kernel

/-- The default is `with_average_size_pow_2(16)`: range `4096..532676608`. -/
theorem C52_default (prof : Profile) : Zpaq.Zpaq.default prof =
    .ok { range := { start := .included 4096, stop := .excluded 532676608 }, maxHash := 65536 } := by
  cases prof <;> decide +kernel

/-- `max_hash_from_fragment_ave`, both profiles -/
theorem maxHash_eq (prof : Profile) (f : BitVec 8) : Zpaq.maxHashFromFragmentAve prof f =
    if 32 < f.toNat then .error .assertFailed
    else if f.toNat = 0 then (match prof with | .debug => .error .overflow | .release => .ok 1)
    else .ok (BitVec.ofNat 32 (2 ^ (32 - f.toNat))) := by
  revert f
  refine bv8_all ?_
  cases prof <;> decide +kernel

theorem log2_div (m : BitVec 64) : (Zpaq.fragmentAveFromMax m).toNat = Nat.log2 (m.toNat / 4096) := by
  rw [Zpaq.fragmentAveFromMax, BitVec.toNat_ofNat]
  apply Nat.mod_eq_of_lt
  by_cases h0 : m.toNat / 4096 = 0
  · rw [h0]; decide
  · have : Nat.log2 (m.toNat / 4096) < 64 := by
      rw [Nat.log2_lt h0]
      have := m.isLt
      omega
    omega

theorem log2_eq_zero {n : Nat} : Nat.log2 n = 0 ↔ n < 2 := by
  by_cases h : n = 0
  · subst h; decide
  · constructor
    · intro hl
      have := (Nat.log2_lt (k := 1) h).1 (by omega)
      omega
    · intro hl
      have := (Nat.log2_lt (k := 1) h).2 (by omega)
      omega

/-- `with_max_size(m)`, both profiles -/
theorem C52_max (prof : Profile) (m : BitVec 64) :
    Zpaq.Zpaq.withMaxSize prof m =
      if 2 ^ 45 ≤ m.toNat then .error .assertFailed
      else
        let range : Bounds Nat := { start := .included (m.toNat / 64), stop := .excluded m.toNat }
        if m.toNat < 8192 then
          (match prof with
            | .debug => .error .overflow
            | .release => .ok { range := range, maxHash := 1 })
        else .ok { range := range, maxHash := BitVec.ofNat 32 (2 ^ (32 - Nat.log2 (m.toNat / 4096))) } := by
  have hlog := log2_div m
  have h64 : (m / 64).toNat = m.toNat / 64 := by
    rw [BitVec.toNat_udiv]; rfl
  unfold Zpaq.Zpaq.withMaxSize Zpaq.Zpaq.withAverageAndRange
  rw [maxHash_eq, hlog]
  by_cases h1 : 2 ^ 45 ≤ m.toNat
  · have : 32 < Nat.log2 (m.toNat / 4096) := by
      have := (Nat.le_log2 (k := 33) (n := m.toNat / 4096) (by omega)).2 (by omega)
      omega
    rw [if_pos this, if_pos h1]
  · have h32 : ¬ 32 < Nat.log2 (m.toNat / 4096) := by
      by_cases h0 : m.toNat / 4096 = 0
      · rw [h0]; decide
      · have := (Nat.log2_lt (k := 33) h0).2 (by omega)
        omega
    rw [if_neg h32, if_neg h1]
    dsimp only
    by_cases h2 : m.toNat < 8192
    · have h0 : Nat.log2 (m.toNat / 4096) = 0 := log2_eq_zero.2 (by omega)
      rw [if_pos h0, if_pos h2]
      cases prof
      · rfl
      · simp only [Zpaq.rangeFromMax, Bounds.intoTuple, boundCloned, Bound.toNat, h64]
    · have h0 : Nat.log2 (m.toNat / 4096) ≠ 0 := by
        rw [Ne, log2_eq_zero]; omega
      rw [if_neg h0, if_neg h2]
      simp only [Zpaq.rangeFromMax, Bounds.intoTuple, boundCloned, Bound.toNat, h64]

/-- The documentation of `with_max_size` says the average size is `max / 4`. A byte where the hash is below
`max_hash` ends a chunk, so an average of `max / 4` needs `max_hash * (max / 4)` about `2^32`; it is at least
1024 times that. -/
theorem C52_average_doc (m : BitVec 64) (p : Zpaq.Zpaq) (h : Zpaq.Zpaq.withMaxSize .debug m = .ok p) :
    1024 * 2 ^ 32 ≤ p.maxHash.toNat * (m.toNat / 4) := by
  rw [C52_max] at h
  split at h
  · cases h
  · dsimp only at h
    split at h
    · cases h
    · rename_i h1 h2
      cases h
      dsimp only
      have hne : m.toNat / 4096 ≠ 0 := by omega
      have hL : 2 ^ Nat.log2 (m.toNat / 4096) ≤ m.toNat / 4096 := Nat.log2_self_le hne
      have hL0 : Nat.log2 (m.toNat / 4096) ≠ 0 := by rw [Ne, log2_eq_zero]; omega
      have hL1 : Nat.log2 (m.toNat / 4096) < 33 := (Nat.log2_lt hne).2 (by omega)
      generalize Nat.log2 (m.toNat / 4096) = L at *
      rw [BitVec.toNat_ofNat, Nat.mod_eq_of_lt (Nat.pow_lt_pow_right (by omega) (by omega))]
      have e : 2 ^ 32 = 2 ^ (32 - L) * 2 ^ L := by rw [← Nat.pow_add]; congr 1; omega
      rw [e]
      have : 1024 * 2 ^ L ≤ m.toNat / 4 := by omega
      calc 1024 * (2 ^ (32 - L) * 2 ^ L) = 2 ^ (32 - L) * (1024 * 2 ^ L) := by ring
        _ ≤ _ := Nat.mul_le_mul_left _ this
example : ∃ p, Zpaq.Zpaq.withMaxSize .debug 65536 = .ok p ∧ p.maxHash = 0x10000000 := ⟨_, rfl, rfl⟩

/-- `with_range`: which maximum the average size is taken from (`none`: arithmetic overflow) -/
def rangeMax (r : Bounds (BitVec 64)) : Option Nat :=
  match r.stop, r.start with
  | .included i, _ => some i.toNat
  | .excluded i, _ => if i.toNat = 0 then none else some (i.toNat - 1)
  | .unbounded, .included i => if 64 * i.toNat < 2 ^ 64 then some (64 * i.toNat) else none
  | .unbounded, .excluded i => if 64 * (i.toNat + 1) < 2 ^ 64 then some (64 * (i.toNat + 1)) else none
  | .unbounded, .unbounded => some (4096 * 2 ^ 16)

/-- `with_range` with overflow checks: the bounds are kept, the average is `2^⌊log2 (max / 4096)⌋`; a maximum below
8192 or from `2^45` on, and a bound on which the arithmetic overflows, panic. -/
theorem C52_range (r : Bounds (BitVec 64)) : Zpaq.Zpaq.withRange .debug r =
    match rangeMax r with
    | none => .error .overflow
    | some m =>
      if 2 ^ 45 ≤ m then .error .assertFailed
      else if m < 8192 then .error .overflow
      else .ok { range := { start := r.start.toNat, stop := r.stop.toNat },
                 maxHash := BitVec.ofNat 32 (2 ^ (32 - Nat.log2 (m / 4096))) } := by
  have hb : ∀ b : Bound (BitVec 64), boundCloned b = b := by intro b; cases b <;> rfl
  -- what follows once the maximum is known
  have fin : ∀ (f : BitVec 8) (m : Nat), f.toNat = Nat.log2 (m / 4096) →
      Zpaq.Zpaq.withAverageAndRange .debug f r =
      if 2 ^ 45 ≤ m then .error .assertFailed
      else if m < 8192 then .error .overflow
      else .ok { range := { start := r.start.toNat, stop := r.stop.toNat },
                 maxHash := BitVec.ofNat 32 (2 ^ (32 - Nat.log2 (m / 4096))) } := by
    intro f m hf
    unfold Zpaq.Zpaq.withAverageAndRange
    rw [maxHash_eq, hf]
    by_cases h1 : 2 ^ 45 ≤ m
    · have : 32 < Nat.log2 (m / 4096) := by
        have := (Nat.le_log2 (k := 33) (n := m / 4096) (by omega)).2 (by omega)
        omega
      rw [if_pos this, if_pos h1]
    · have h32 : ¬ 32 < Nat.log2 (m / 4096) := by
        by_cases h0 : m / 4096 = 0
        · rw [h0]; decide
        · have := (Nat.log2_lt (k := 33) h0).2 (by omega)
          omega
      rw [if_neg h32, if_neg h1]
      by_cases h2 : m < 8192
      · have h0 : Nat.log2 (m / 4096) = 0 := log2_eq_zero.2 (by omega)
        rw [if_pos h0, if_pos h2]
      · have h0 : Nat.log2 (m / 4096) ≠ 0 := by
          rw [Ne, log2_eq_zero]; omega
        rw [if_neg h0, if_neg h2]
        simp only [Bounds.intoTuple, hb]
  have fin' : ∀ (v : BitVec 64) (m : Nat), v.toNat = m → Zpaq.Zpaq.withAverageAndRange .debug (Zpaq.fragmentAveFromMax v) r =
      if 2 ^ 45 ≤ m then .error .assertFailed
      else if m < 8192 then .error .overflow
      else .ok { range := { start := r.start.toNat, stop := r.stop.toNat },
                 maxHash := BitVec.ofNat 32 (2 ^ (32 - Nat.log2 (m / 4096))) } :=
    fun v m h => fin _ _ (by rw [log2_div, h])
  have h64 : (64 : BitVec 64).toNat = 64 := rfl
  have h1 : (1 : BitVec 64).toNat = 1 := rfl
  obtain ⟨lo, hi⟩ := r
  cases hi with
  | included i =>
    simp only [Zpaq.Zpaq.withRange, Zpaq.fragmentAveFromRange, rangeMax]
    exact fin' i _ rfl
  | excluded i =>
    by_cases hi0 : i.toNat = 0
    · have hs : HashRoll.sub .debug i 1 = .error .overflow := sub_debug (by rw [BitVec.le_def, h1]; omega)
      simp only [Zpaq.Zpaq.withRange, Zpaq.fragmentAveFromRange, rangeMax, hs, if_pos hi0]
    · have hle : (1 : BitVec 64) ≤ i := by rw [BitVec.le_def, h1]; omega
      have hs : HashRoll.sub .debug i 1 = .ok (i - 1) := sub_of_le _ hle
      simp only [Zpaq.Zpaq.withRange, Zpaq.fragmentAveFromRange, rangeMax, hs, if_neg hi0]
      exact fin' _ _ (by rw [BitVec.toNat_sub_of_le hle, h1])
  | unbounded =>
    cases lo with
    | included i =>
      by_cases ho : 64 * i.toNat < 2 ^ 64
      · have hs : HashRoll.mul .debug 64 i = .ok (64 * i) := mul_of_lt _ (by rw [h64]; exact ho)
        simp only [Zpaq.Zpaq.withRange, Zpaq.fragmentAveFromRange, rangeMax, hs, if_pos ho]
        exact fin' _ _ (by rw [BitVec.toNat_mul, h64, Nat.mod_eq_of_lt ho])
      · have hs : HashRoll.mul .debug 64 i = .error .overflow := mul_debug (by rw [h64]; omega)
        simp only [Zpaq.Zpaq.withRange, Zpaq.fragmentAveFromRange, rangeMax, hs, if_neg ho]
    | excluded i =>
      by_cases ho : 64 * (i.toNat + 1) < 2 ^ 64
      · have ha : HashRoll.add .debug i 1 = .ok (i + 1) := add_of_lt _ (by rw [h1]; omega)
        have e : (i + 1).toNat = i.toNat + 1 := by rw [BitVec.toNat_add, h1, Nat.mod_eq_of_lt (by omega)]
        have hs : HashRoll.mul .debug 64 (i + 1) = .ok (64 * (i + 1)) := mul_of_lt _ (by rw [h64, e]; exact ho)
        simp only [Zpaq.Zpaq.withRange, Zpaq.fragmentAveFromRange, rangeMax, ha, hs, if_pos ho]
        exact fin' _ _ (by rw [BitVec.toNat_mul, h64, e, Nat.mod_eq_of_lt ho])
      · simp only [rangeMax, if_neg ho]
        by_cases hov : i.toNat + 1 < 2 ^ 64
        · have ha : HashRoll.add .debug i 1 = .ok (i + 1) := add_of_lt _ (by rw [h1]; omega)
          have e : (i + 1).toNat = i.toNat + 1 := by rw [BitVec.toNat_add, h1, Nat.mod_eq_of_lt (by omega)]
          have hs : HashRoll.mul .debug 64 (i + 1) = .error .overflow := mul_debug (by rw [h64, e]; omega)
          simp only [Zpaq.Zpaq.withRange, Zpaq.fragmentAveFromRange, ha, hs]
        · have ha : HashRoll.add .debug i 1 = .error .overflow := add_debug (by rw [h1]; omega)
          simp only [Zpaq.Zpaq.withRange, Zpaq.fragmentAveFromRange, ha]
    | unbounded =>
      simp only [Zpaq.Zpaq.withRange, Zpaq.fragmentAveFromRange, rangeMax]
      exact fin 16 _ (by decide)
example : rangeMax { start := .included 100, stop := .excluded 20000 } = some 19999 := rfl

/-! ## C54 -/

theorem C54_new (capacity : Nat) (mask : BitVec 32) (h : Buzhash.BuzHashHash) (max : Nat) :
    Buzhash.BuzHash.new capacity mask h max =
      if capacity = 0 then .error .assertFailed
      else .ok { k := capacity, h := h, mask := mask, maxChunkSize := max } := by
  unfold Buzhash.BuzHash.new assert
  by_cases h0 : capacity = 0
  · rw [if_pos h0, if_neg (by omega)]
  · rw [if_neg h0, if_pos (by omega)]

theorem C54_new_nom (salt : UInt8) : ∃ p, Buzhash.BuzHash.newNom salt = .ok p ∧ p.k = 67 ∧ p.mask = 0xfff ∧
    p.maxChunkSize = 2 ^ 24 ∧ (∀ b, p.h b = lookup Tables.goBuzhash (b ^^^ salt)) ∧ p.k % 32 < 8 :=
  ⟨_, rfl, rfl, rfl, rfl, fun _ => rfl, (by decide : 67 % 32 < 8)⟩

/-! ## C55 -/

/-- `x` satisfies a lower bound / an upper bound -/
def AboveLo {α : Type} [LinearOrder α] (b : Bound α) (x : α) : Prop :=
  match b with
  | .included a => a ≤ x
  | .excluded a => a < x
  | .unbounded => True

def BelowHi {α : Type} [LinearOrder α] (b : Bound α) (x : α) : Prop :=
  match b with
  | .included a => x ≤ a
  | .excluded a => x < a
  | .unbounded => True

theorem C55_range {α : Type} [LinearOrder α] (r : Bounds α) (x : α) :
    (r.underMin x = true ↔ ¬ AboveLo r.start x) ∧ (r.exceedsMax x = true ↔ ¬ BelowHi r.stop x) ∧
    (r.contains x = true ↔ AboveLo r.start x ∧ BelowHi r.stop x) ∧ r.intoTuple = r := by
  have h1 : r.underMin x = true ↔ ¬ AboveLo r.start x := by
    unfold Bounds.underMin AboveLo
    cases r.start <;> simp
  have h2 : r.exceedsMax x = true ↔ ¬ BelowHi r.stop x := by
    unfold Bounds.exceedsMax BelowHi
    cases r.stop <;> simp
  refine ⟨h1, h2, ?_, ?_⟩
  · unfold Bounds.contains
    by_cases a : r.underMin x = true
    · simp only [a, if_true, Bool.false_eq_true, false_iff]
      exact fun h => h1.1 a h.1
    · by_cases b : r.exceedsMax x = true
      · simp only [a, b, if_true, Bool.false_eq_true, false_iff, if_false]
        exact fun h => h2.1 b h.2
      · simp only [a, b, Bool.false_eq_true, if_false, true_iff]
        exact ⟨not_not.1 fun h => a (h1.2 h), not_not.1 fun h => b (h2.2 h)⟩
  · obtain ⟨lo, hi⟩ := r
    cases lo <;> cases hi <;> rfl
example : (Bounds.mk (.included 2) (.excluded 5) : Bounds Nat).contains 4 = true := rfl

/-- The trait asks for `PartialOrd` only. For values that are not comparable (`NaN`) `contains` says `true`,
unlike `RangeBounds::contains` of the standard library: any item, any bounds, if nothing is comparable. -/
theorem C55_incomparable {α : Type} [LT α] [LE α] [DecidableLT α] [DecidableLE α] (r : Bounds α) (x : α)
    (h : ∀ a : α, ¬ x < a ∧ ¬ x ≤ a ∧ ¬ a < x ∧ ¬ a ≤ x) : r.contains x = true := by
  have h1 : r.underMin x = false := by
    unfold Bounds.underMin
    cases r.start <;> simp [h]
  have h2 : r.exceedsMax x = false := by
    unfold Bounds.exceedsMax
    cases r.stop <;> simp [h, GT.gt, GE.ge]
  simp [Bounds.contains, h1, h2]

/-! ## C60 -/

theorem lookup_inj {α : Type} {t : Vector α 256} (h : t.toList.Nodup) {b c : UInt8}
    (hbc : lookup t b = lookup t c) : b = c := by
  unfold lookup at hbc
  have := (List.nodup_iff_injective_getElem.1 h)
  have hb : b.toNat < t.toList.length := by simpa using b.toNat_lt
  have hc : c.toNat < t.toList.length := by simpa using c.toNat_lt
  have heq : t.toList[b.toNat] = t.toList[c.toNat] := by
    simpa using hbc
  have := @this ⟨b.toNat, hb⟩ ⟨c.toNat, hc⟩ heq
  exact UInt8.toNat_inj.1 (by simpa using this)

theorem C60_gear_upper (b : UInt8) : lookup Tables.gear32 b = (lookup Tables.gear64 b >>> 32).setWidth 32 := by
  revert b
  exact byte_all (by decide +kernel)

theorem C60_distinct (b c : UInt8) :
    (lookup Tables.gear32 b = lookup Tables.gear32 c → b = c) ∧
    (lookup Tables.gear64 b = lookup Tables.gear64 c → b = c) ∧
    (lookup Tables.goBuzhash b = lookup Tables.goBuzhash c → b = c) ∧
    (lookup Tables.borgBuzhashBase b = lookup Tables.borgBuzhashBase c → b = c) :=
  ⟨lookup_inj (by decide +kernel), lookup_inj (by decide +kernel), lookup_inj (by decide +kernel),
   lookup_inj (by decide +kernel)⟩

/-- Sum of the entries of a table, and sum of the entries weighted by their positions `1, 2, ..`: an entry that is
mistyped, or two that are swapped, change one of the two. -/
def checksum {w : Nat} (l : List (BitVec w)) : Nat × Nat :=
  ((l.map BitVec.toNat).sum, ((l.zipIdx 1).map fun x => x.1.toNat * x.2).sum)

/-- The values were computed from the text of the four source files, not from the model. -/
theorem C60_checksum :
    checksum Tables.gear32.toList = (514350428930, 65551632868758) ∧
    checksum Tables.gear64.toList = (2209118271474581133066, 281542119440500054171214) ∧
    checksum Tables.goBuzhash.toList = (577478717152, 75279445858192) ∧
    checksum Tables.borgBuzhashBase.toList = (561623746589, 71962857531525) := by
  refine ⟨?_, ?_, ?_, ?_⟩ <;> decide +kernel

/-- A single byte can end a chunk (and hang `iter_slices`, C03) exactly for `average_size_log2 <= 24`. -/
theorem C60_single (n : BitVec 64) (h1 : 1 ≤ n.toNat) (h2 : n.toNat ≤ 31) (prof : Profile) :
    ∃ p, Gear.Gear32.withAverageSizeLog2 prof n = .ok p ∧
      ((∃ b, lookup p.gear b &&& p.mask = p.xxx) ↔ n.toNat ≤ 24) := by
  have key : ∀ k : Fin 32, 1 ≤ k.1 →
      (match Gear.msbMask prof (BitVec.ofNat 64 k.1) with
        | .ok m => ((List.range 256).any fun i => lookup Tables.gear32 (UInt8.ofNat i) &&& m == 0) == decide (k.1 ≤ 24)
        | .error _ => false) = true := by cases prof <;> decide +kernel
  have := key ⟨n.toNat, by omega⟩ h1
  dsimp only at this
  split at this
  · rename_i m hm
    rw [BitVec.ofNat_toNat, BitVec.setWidth_eq] at hm
    refine ⟨_, by rw [Gear.Gear32.withAverageSizeLog2, hm], ?_⟩
    dsimp only
    rw [beq_iff_eq] at this
    rw [← decide_eq_true_iff (p := n.toNat ≤ 24), ← this, List.any_eq_true]
    constructor
    · rintro ⟨b, hb⟩
      exact ⟨b.toNat, List.mem_range.2 b.toNat_lt, by simpa using hb⟩
    · rintro ⟨i, _, hi⟩
      exact ⟨_, by simpa using hi⟩
  · cases this

/-! ## C61: the seeded table -/

/-- `borg_buzhash_table(seed)`: every entry is the base entry xor the seed; entries stay distinct. -/
theorem C61_borg (seed : BitVec 32) : ∃ t, Buzhash.borgBuzhashTable seed = .ok t ∧
    (∀ b, lookup t b = lookup Tables.borgBuzhashBase b ^^^ seed) ∧
    ∀ b c, lookup t b = lookup t c → b = c := by
  let body (i : Nat) (t : Vector (BitVec 32) 256) : R (Flow (Vector (BitVec 32) 256) Unit) :=
    if h : i < 256 then .ok (.next (t.set i (Tables.borgBuzhashBase[i] ^^^ seed)))
    else .error .indexOutOfBounds
  have key : ∀ count i (t : Vector (BitVec 32) 256), i + count = 256 →
      (∀ j (h : j < 256), j < i → t[j] = Tables.borgBuzhashBase[j] ^^^ seed) →
      ∃ t', forRange body count i t = .ok (.next t') ∧
        ∀ j (h : j < 256), t'[j] = Tables.borgBuzhashBase[j] ^^^ seed := by
    intro count
    induction count with
    | zero =>
      intro i t hi ht
      exact ⟨t, rfl, fun j h => ht j h (by omega)⟩
    | succ n ih =>
      intro i t hi ht
      have hlt : i < 256 := by omega
      have hb : body i t = .ok (.next (t.set i (Tables.borgBuzhashBase[i] ^^^ seed))) := by
        simp only [body, hlt, dif_pos]
      rw [forRange, hb]
      apply ih (i + 1) _ (by omega)
      intro j hj hji
      rw [Vector.getElem_set]
      split
      · rename_i h; subst h; rfl
      · exact ht j hj (by omega)
  obtain ⟨t', h1, h2⟩ := key 256 0 (Vector.replicate 256 0) rfl (by intro j _ h; omega)
  have hl : ∀ b, lookup t' b = lookup Tables.borgBuzhashBase b ^^^ seed := fun b => h2 b.toNat b.toNat_lt
  refine ⟨t', ?_, hl, ?_⟩
  · unfold Buzhash.borgBuzhashTable
    dsimp only
    rw [h1]
  · intro b c h
    rw [hl, hl] at h
    refine (C60_distinct b c).2.2.2 ?_
    have := congrArg (· ^^^ seed) h
    simpa [BitVec.xor_assoc] using this

end HashRoll.Props
