import Verif.Proofs.Conform
import Verif.Proofs.Sums
import Verif.Model.Pigz
import Verif.Proofs.Arith
/-!
# Pigz rsyncable conforms to its rule
-/

namespace HashRoll.Pigz

open Spec

theorem pigzHash_snoc (hit : BitVec 32) (p : Bytes) (v : UInt8) :
    pigzHash hit (p ++ [v]) = (pigzHash hit p <<< 1) ^^^ word 32 v := by
  unfold pigzHash
  rw [wxor_snoc]
  have h1 : wxor (fun b j => word 32 b <<< (j + 1)) p = wxor (fun b j => word 32 b <<< j) p <<< 1 := by
    rw [wxor_map (· <<< 1) (by simp) (by intros; simp [BitVec.shiftLeft_xor_distrib])]
    apply wxor_congr
    intros
    simp [BitVec.shiftLeft_add]
  rw [h1]
  simp only [List.length_append, List.length_singleton, BitVec.shiftLeft_xor_distrib, BitVec.shiftLeft_zero,
    BitVec.shiftLeft_add]
  ac_rfl

/-- What `with_bits` guarantees about its masks: shifting a masked value and masking again is the same as
masking the shifted value. -/
def MaskOk (mask : BitVec 32) : Prop := ∀ x : BitVec 32, ((x &&& mask) <<< 1) &&& mask = (x <<< 1) &&& mask

theorem maskOk_pow (n : Nat) : MaskOk (BitVec.ofNat 32 (2 ^ n - 1)) := by
  intro x
  apply BitVec.eq_of_getLsbD_eq
  intro i hi
  simp only [BitVec.getLsbD_and, BitVec.getLsbD_shiftLeft, BitVec.getLsbD_ofNat,
    Nat.testBit_two_pow_sub_one]
  rcases Nat.lt_or_ge i 1 with h | h
  · simp [h]
  · by_cases hn : i < n
    · simp [hn, show i - 1 < n by omega, show i - 1 < 32 by omega]
    · simp [hn]

theorem withBits_mask {prof : Profile} {bits : BitVec 8} {p : PigzRsyncable}
    (h : PigzRsyncable.withBits prof bits = .ok p) :
    p.bits = bits ∧ p.mask = BitVec.ofNat 32 (2 ^ (bits.toNat % 32) - 1) ∧ p.hit = p.mask >>> 1 := by
  have hs : ∀ m, m < 32 → (1 : BitVec 32) <<< m - 1 = BitVec.ofNat 32 (2 ^ m - 1) := by decide
  have h32 : bits.toNat % 32 < 32 := Nat.mod_lt _ (by omega)
  unfold PigzRsyncable.withBits at h
  split at h
  · cases h
  · rename_i a ha
    split at h
    · cases h
    · rename_i mask hmask
      cases h
      refine ⟨rfl, ?_, rfl⟩
      rw [sub_ok hmask, shl_ok ha, ← hs _ h32]

theorem withBits_maskOk {prof : Profile} {bits : BitVec 8} {p : PigzRsyncable}
    (h : PigzRsyncable.withBits prof bits = .ok p) : MaskOk p.mask ∧ p.hit &&& p.mask = p.hit := by
  obtain ⟨_, h2, h3⟩ := withBits_mask h
  constructor
  · rw [h2]; exact maskOk_pow _
  · rw [h3, h2]
    apply BitVec.eq_of_getLsbD_eq
    intro i hi
    simp only [BitVec.getLsbD_and, BitVec.getLsbD_ushiftRight, BitVec.getLsbD_ofNat,
      Nat.testBit_two_pow_sub_one, hi, decide_true, Bool.true_and]
    by_cases h1 : 1 + i < bits.toNat % 32
    · simp [h1, show i < bits.toNat % 32 by omega]
    · simp [h1]

/-- the edge predicate of an instance -/
abbrev edge (p : PigzRsyncable) : Bytes → Prop := pigzEdge p.mask p.hit

theorem add_eq {p : PigzRsyncable} (hm : MaskOk p.mask) {st : PigzRsyncableState} {c : Bytes}
    (h : st.hash = pigzHash p.hit c &&& p.mask) (v : UInt8) :
    st.add p v = (⟨pigzHash p.hit (c ++ [v]) &&& p.mask⟩, pigzHash p.hit (c ++ [v]) &&& p.mask == p.hit) := by
  have : (st.hash <<< 1 ^^^ v.toBitVec.setWidth 32) &&& p.mask = pigzHash p.hit (c ++ [v]) &&& p.mask := by
    have hx : ∀ a b m : BitVec 32, (a ^^^ b) &&& m = (a &&& m) ^^^ (b &&& m) := by
      intro a b m
      ext i hi
      simp [Bool.and_xor_distrib_right]
    rw [pigzHash_snoc, h, hx, hm, hx]; rfl
  simp [PigzRsyncableState.add, this]

/-- body of the loop of `find_chunk_edge` -/
def fceBody (p : PigzRsyncable) (i : Nat) (v : UInt8) (state : PigzRsyncableSearchState) :
    R (Flow PigzRsyncableSearchState (Option Nat × Nat)) :=
  let (st, hit) := state.state.add p v
  if hit then .ok (.ret p.toSearchState (some (i + 1), i + 1)) else .ok (.next { state := st })

theorem fce_eq (p : PigzRsyncable) (st : PigzRsyncableSearchState) (data : Bytes) :
    p.findChunkEdge st data =
    match forEnum (fceBody p) 0 data st with
    | .error e => .error e
    | .ok (.ret st r) => .ok (st, r)
    | .ok (.next st)  => .ok (st, none, data.length) := rfl

def fceLoop (p : PigzRsyncable) (hm : MaskOk p.mask) (hh : p.hit &&& p.mask = p.hit) :
    FceLoopSpec (chunk p) (edge p) where
  body := fceBody p
  fce_ret := fun st data st' r h => (fce_eq p st data).trans (by rw [h])
  fce_next := fun st data st' h => (fce_eq p st data).trans (by rw [h])
  Inv := fun st c => st.state.hash = pigzHash p.hit c &&& p.mask
  init := by
    show p.hit = pigzHash p.hit [] &&& p.mask
    simp [pigzHash, hh]
  step := by
    intro i v st c hi
    have ha := add_eq hm hi v
    by_cases h : edge p (c ++ [v])
    · right
      have h' : pigzHash p.hit (c ++ [v]) &&& p.mask = p.hit := h
      refine ⟨p.toSearchState, ?_, ?_, h⟩
      · simp [fceBody, ha, h']
      · show p.hit = pigzHash p.hit [] &&& p.mask
        simp [pigzHash, hh]
    · left
      have h' : ¬ pigzHash p.hit (c ++ [v]) &&& p.mask = p.hit := h
      refine ⟨⟨⟨pigzHash p.hit (c ++ [v]) &&& p.mask⟩⟩, ?_, rfl, h⟩
      simp [fceBody, ha, h']

/-- body of the loop of `push` -/
def pushBody (i : Nat) (v : UInt8) (self : PigzRsyncableIncr) :
    R (Flow PigzRsyncableIncr (Option Nat)) :=
  let (st, hit) := self.state.add self.params v
  if hit then .ok (.ret { self with state := PigzRsyncableState.from self.params } (some (i + 1)))
  else .ok (.next { self with state := st })

theorem push_eq (st : PigzRsyncableIncr) (data : Bytes) : PigzRsyncableIncr.push st data =
    match forEnum pushBody 0 data st with
    | .error e => .error e
    | .ok (.ret self r) => .ok (self, r)
    | .ok (.next self)  => .ok (self, none) := rfl

def incrLoop (p : PigzRsyncable) (hm : MaskOk p.mask) (hh : p.hit &&& p.mask = p.hit) :
    LoopSpec (incr p) (Local (edge p)) where
  body := pushBody
  push_ret := fun st data st' r h => (push_eq st data).trans (by rw [h])
  push_next := fun st data st' h => (push_eq st data).trans (by rw [h])
  Inv := fun st _ c => st.params = p ∧ st.state.hash = pigzHash p.hit c &&& p.mask
  init := by
    refine ⟨rfl, ?_⟩
    show p.hit = pigzHash p.hit [] &&& p.mask
    simp [pigzHash, hh]
  step := by
    rintro i v st _ c ⟨hp, hi⟩
    have ha := add_eq hm hi v
    by_cases h : edge p (c ++ [v])
    · right
      have h' : pigzHash p.hit (c ++ [v]) &&& p.mask = p.hit := h
      refine ⟨{ st with state := PigzRsyncableState.from st.params }, ?_, ⟨hp, ?_⟩, h⟩
      · simp [pushBody, hp, ha, h']
      · show st.params.hit = pigzHash p.hit [] &&& p.mask
        simp [pigzHash, hh, hp]
    · left
      have h' : ¬ pigzHash p.hit (c ++ [v]) &&& p.mask = p.hit := h
      refine ⟨{ st with state := ⟨pigzHash p.hit (c ++ [v]) &&& p.mask⟩ }, ?_, ⟨hp, rfl⟩, h⟩
      simp [pushBody, hp, ha, h']

theorem fce_conforms {prof : Profile} {bits : BitVec 8} {p : PigzRsyncable}
    (h : PigzRsyncable.withBits prof bits = .ok p) :
    FceConforms (chunk p) Any (EdgeRule (Local (edge p))) :=
  (fceLoop p (withBits_maskOk h).1 (withBits_maskOk h).2).conforms

theorem incr_conforms {prof : Profile} {bits : BitVec 8} {p : PigzRsyncable}
    (h : PigzRsyncable.withBits prof bits = .ok p) :
    IncrConforms (incr p) (EdgeRule (Local (edge p))) :=
  (incrLoop p (withBits_maskOk h).1 (withBits_maskOk h).2).conforms

theorem bytewise_conforms {prof : Profile} {bits : BitVec 8} {p : PigzRsyncable}
    (h : PigzRsyncable.withBits prof bits = .ok p) :
    BytewiseConforms (incr p) (EdgeRule (Local (edge p))) :=
  (incrLoop p (withBits_maskOk h).1 (withBits_maskOk h).2).bytewise

end HashRoll.Pigz
