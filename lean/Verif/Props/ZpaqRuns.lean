import Verif.Props.Lost
/-!
# C72, continued: runs of one byte through Zpaq
-/

namespace HashRoll.Props

open Spec

namespace ZpaqRuns

/-- the hash of `k` times the byte `b` -/
def runHash (b : UInt8) (k : Nat) : Nat := (zpaqHashRev (List.replicate k b)).toNat

theorem runHash_step (b : UInt8) (k : Nat) :
    runHash b (k + 3) = (runHash b (k + 2) + (b.toNat + 1)) * 314159265 % 4294967296 := by
  have hp : zpaqPredict (List.replicate (k + 2) b) = b := by
    simp [zpaqPredict, List.replicate_succ, List.findIdx?_cons]
  have hw : (word 32 b).toNat = b.toNat := by
    have h := b.toNat_lt
    rw [word, BitVec.toNat_setWidth]
    exact Nat.mod_eq_of_lt (Nat.lt_trans h (by decide))
  unfold runHash
  rw [show k + 3 = (k + 2) + 1 from rfl, List.replicate_succ, zpaqHashRev, hp, if_pos rfl, BitVec.toNat_mul,
    BitVec.toNat_add, BitVec.toNat_add, hw]
  simp [Nat.mod_mul_mod, Nat.add_assoc]

/-- The hashes of the next `n` lengths are all at least `2^16`, and the last of them is `h'`. -/
def seg (c h' n : Nat) : (h : Nat) → Bool :=
  Nat.rec (motive := fun _ => Nat → Bool) (fun h => Nat.beq h h')
    (fun _ ih h => bif Nat.ble 65536 ((h + c) * 314159265 % 4294967296)
      then ih ((h + c) * 314159265 % 4294967296) else false) n

theorem seg_zero (c h' h : Nat) : seg c h' 0 h = Nat.beq h h' := rfl

theorem seg_succ (c h' n h : Nat) : seg c h' (n + 1) h = bif Nat.ble 65536 ((h + c) * 314159265 % 4294967296)
    then seg c h' n ((h + c) * 314159265 % 4294967296) else false := rfl

/-- The hash of `k + 2` bytes is `h`, and none up to there is below `2^16`. -/
def Above (b : UInt8) (k h : Nat) : Prop :=
  runHash b (k + 2) = h ∧ ∀ m, 1 ≤ m → m ≤ k + 2 → 65536 ≤ runHash b m

theorem above_zero {b : UInt8} {h : Nat} (h1 : 65536 ≤ runHash b 1) (h2 : runHash b 2 = h) (h3 : 65536 ≤ h) :
    Above b 0 h := by
  refine ⟨h2, fun m m1 m2 => ?_⟩
  obtain rfl | rfl : m = 1 ∨ m = 2 := by omega
  · exact h1
  · rw [h2]; exact h3

theorem Above.seg {b : UInt8} {k h n h' c : Nat} (ha : Above b k h) (hc : b.toNat + 1 = c) (hs : seg c h' n h = true) :
    Above b (k + n) h' := by
  induction n generalizing k h with
  | zero =>
    rw [seg_zero] at hs
    rw [← Nat.eq_of_beq_eq_true hs]
    exact ha
  | succ n ih =>
    obtain ⟨a1, a2⟩ := ha
    have hst := runHash_step b k
    rw [a1, hc] at hst
    rw [seg_succ, ← hst] at hs
    cases hb : Nat.ble 65536 (runHash b (k + 3)) with
    | false => rw [hb] at hs; cases hs
    | true =>
      rw [hb, cond_true] at hs
      rw [show k + (n + 1) = k + 1 + n by omega]
      refine ih ⟨rfl, fun m m1 m2 => ?_⟩ hs
      rcases Nat.eq_or_lt_of_le m2 with rfl | hm
      · exact Nat.le_of_ble_eq_true hb
      · exact a2 m m1 (by omega)

/-- The run of `b` is cut every `k + 3` bytes, if the hash first falls below `2^16` there. -/
theorem runCut {b : UInt8} {k d h c : Nat} (hd : d ≤ 1) (hk : 4096 ≤ k) (hk' : k + 4 < 532676608)
    (ha : Above b k h) (hc : b.toNat + 1 = c) (hl : (h + c) * 314159265 % 4294967296 < 65536) :
    RunCut (zpaqEdge (.included 4096) (.excluded 532676608) 65536 d) b (some (k + 3)) := by
  obtain ⟨k1, k2⟩ := ha
  have hst := runHash_step b k
  rw [k1, hc] at hst
  rw [← hst] at hl
  have hlt : ∀ k, zpaqHash (List.replicate k b) < (65536 : BitVec 32) ↔ runHash b k < 65536 := by
    intro k
    unfold zpaqHash runHash
    rw [List.reverse_replicate, BitVec.lt_def]
    rfl
  refine ⟨by omega, Or.inl ⟨(hlt _).2 hl, ?_⟩, ?_⟩
  · rw [List.length_replicate]; simp only [Below]; omega
  · rintro m m1 m2 (⟨h, -⟩ | h)
    · rw [hlt] at h
      have := k2 m m1 (by omega)
      omega
    · rw [List.length_replicate] at h
      simp only [Beyond] at h
      omega

theorem zero_one : 65536 ≤ runHash 0 1 := by decide +kernel
theorem zero_two : runHash 0 2 = 2034857442 := by decide +kernel
theorem zero_0 : seg 1 2871971746 24000 2034857442 = true := by decide +kernel
theorem zero_1 : seg 1 90179102 17340 2871971746 = true := by decide +kernel

theorem zero_above : Above 0 (0 + 24000 + 17340) 90179102 :=
  ((above_zero zero_one zero_two (by decide)).seg (by decide) zero_0).seg (by decide) zero_1

theorem zero (d : Nat) (hd : d ≤ 1) :
    RunCut (zpaqEdge (.included 4096) (.excluded 532676608) 65536 d) 0 (some 41343) :=
  runCut (k := 41340) hd (by decide) (by decide) zero_above (c := 1) (by decide) (by decide)

theorem ones_one : 65536 ≤ runHash 255 1 := by decide +kernel
theorem ones_two : runHash 255 2 = 3492264448 := by decide +kernel
theorem ones_0 : seg 256 2311158272 24000 3492264448 = true := by decide +kernel
theorem ones_1 : seg 256 3982178816 24000 2311158272 = true := by decide +kernel
theorem ones_2 : seg 256 3640948736 21278 3982178816 = true := by decide +kernel

theorem ones_above : Above 255 (0 + 24000 + 24000 + 21278) 3640948736 :=
  (((above_zero ones_one ones_two (by decide)).seg (by decide) ones_0).seg (by decide) ones_1).seg (by decide) ones_2

theorem ones (d : Nat) (hd : d ≤ 1) :
    RunCut (zpaqEdge (.included 4096) (.excluded 532676608) 65536 d) 255 (some 69281) :=
  runCut (k := 69278) hd (by decide) (by decide) ones_above (c := 256) (by decide) (by decide)

end ZpaqRuns

/-- the bytes whose runs C72_zpaq covers, with the size of the chunks -/
def zpaqRun : List (UInt8 × Nat) := [(0, 41343), (124, 4272), (255, 69281)]

/-- C72 for Zpaq with the default parameters, for the bytes of `zpaqRun`: zeros are cut every 41343 bytes, bytes of
ones every 69281, by both APIs. -/
theorem C72_zpaq (prof : Profile) {b : UInt8} {L : Nat} (h : (b, L) ∈ zpaqRun) :
    ∃ p, Zpaq.Zpaq.default prof = .ok p ∧ ConstFce (Zpaq.chunk p) b (some L) ∧ ConstIncr (Zpaq.incr p) b (some L) := by
  have hr : ∀ d, d ≤ 1 → RunCut (zpaqEdge (.included 4096) (.excluded 532676608) 65536 d) b (some L) := by
    intro d hd
    simp only [zpaqRun, List.mem_cons, Prod.mk.injEq, List.not_mem_nil, or_false] at h
    rcases h with ⟨rfl, rfl⟩ | ⟨rfl, rfl⟩ | ⟨rfl, rfl⟩
    · exact ZpaqRuns.zero d hd
    · exact zpaq_runCut d hd
    · exact ZpaqRuns.ones d hd
  exact ⟨_, C52_default prof,
    constFce (C17_zpaq _) (C08_zpaq _) (EdgeRule.good _) fun n => chunked_run (hr 1 (by decide)) n [],
    constIncr (C27_zpaq _) (C05_zpaq _) (EdgeRule.good _) fun n => chunked_run (hr 0 (by decide)) n []⟩
example : (0, 41343) ∈ zpaqRun ∧ (runChunks 0 100000 (some 41343)).length = 2 := by
  refine ⟨by decide, ?_⟩
  rw [runChunks, List.length_replicate]

end HashRoll.Props
