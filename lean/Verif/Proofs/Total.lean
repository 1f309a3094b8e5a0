import Verif.Proofs.Iter
import Verif.Proofs.Gear
import Verif.Proofs.FastCdc
import Verif.Proofs.Pigz
import Verif.Proofs.Ram
import Verif.Proofs.Gzip
import Verif.Proofs.Mii
import Verif.Proofs.Zpaq
import Verif.Proofs.Bup
import Verif.Proofs.Buzhash
import Verif.Proofs.Zstd
/-!
# Calls that never panic, in any state
-/

namespace HashRoll.Spec

theorem forEnum_total {σ ρ : Type} {body : Nat → UInt8 → σ → R (Flow σ ρ)} {Q : Nat → ρ → Prop}
    (hb : ∀ i v s, (∃ s', body i v s = .ok (.next s')) ∨ ∃ s' r, body i v s = .ok (.ret s' r) ∧ Q i r) :
    ∀ (data : Bytes) (i : Nat) (s : σ), (∃ s', forEnum body i data s = .ok (.next s')) ∨
      ∃ s' r j, forEnum body i data s = .ok (.ret s' r) ∧ Q (i + j) r ∧ j < data.length := by
  intro data
  induction data with
  | nil => intro i s; exact .inl ⟨s, rfl⟩
  | cons v vs ih =>
    intro i s
    rcases hb i v s with ⟨s', h⟩ | ⟨s', r, h, hq⟩
    · rcases ih (i + 1) s' with ⟨s2, h2⟩ | ⟨s2, r, j, h2, hq, hj⟩
      · left; refine ⟨s2, ?_⟩; rw [forEnum]; simp [h, h2]
      · right
        refine ⟨s2, r, j + 1, ?_, ?_, by simp; omega⟩
        · rw [forEnum]; simp [h, h2]
        · rwa [show i + (j + 1) = i + 1 + j by omega]
    · right
      refine ⟨s', r, 0, ?_, hq, by simp⟩
      rw [forEnum]; simp [h]

theorem forRange_total {σ ρ : Type} {body : Nat → σ → R (Flow σ ρ)} {Q : Nat → ρ → Prop} {n : Nat}
    (hb : ∀ i s, i < n → (∃ s', body i s = .ok (.next s')) ∨ ∃ s' r, body i s = .ok (.ret s' r) ∧ Q i r) :
    ∀ (count i : Nat) (s : σ), i + count ≤ n ∨ count = 0 → (∃ s', forRange body count i s = .ok (.next s')) ∨
      ∃ s' r j, forRange body count i s = .ok (.ret s' r) ∧ Q j r ∧ j < n := by
  intro count
  induction count with
  | zero => intro i s _; exact .inl ⟨s, rfl⟩
  | succ c ih =>
    intro i s hle
    rcases hb i s (by omega) with ⟨s', h⟩ | ⟨s', r, h, hq⟩
    · rcases ih (i + 1) s' (by omega) with ⟨s2, h2⟩ | ⟨s2, r, j, h2, hq, hj⟩
      · left; refine ⟨s2, ?_⟩; rw [forRange]; simp [h, h2]
      · right
        refine ⟨s2, r, j, ?_, hq, hj⟩
        rw [forRange]; simp [h, h2]
    · right
      refine ⟨s', r, i, ?_, hq, by omega⟩
      rw [forRange]; simp [h]

theorem index_ok {data : Bytes} {i : Nat} (h : i < data.length) : index data i = .ok data[i] := by
  simp [index, h]

end HashRoll.Spec

open HashRoll.Spec

namespace HashRoll.Gear

theorem total (p : Gear32) : Total (chunk p) := by
  intro st data
  rcases forEnum_total (body := fceBody p) (Q := fun i r => r = (some (i + 1), i + 1)) (by
    intro i v s
    unfold fceBody
    by_cases h : (s.push p v).2 = true
    · right; simp [h]
    · left; simp [h]) data 0 st with ⟨s', h⟩ | ⟨s', r, j, h, rfl, hj⟩
  · refine ⟨s', none, data.length, ?_, Nat.le_refl _, by simp⟩
    show p.findChunkEdge st data = _
    rw [fce_eq]; simp only [h]
  · refine ⟨s', some (0 + j + 1), 0 + j + 1, ?_, by omega, by simp; omega⟩
    show p.findChunkEdge st data = _
    rw [fce_eq]; simp only [h]

end HashRoll.Gear

namespace HashRoll.Pigz

theorem total (p : PigzRsyncable) : Total (chunk p) := by
  intro st data
  rcases forEnum_total (body := fceBody p) (Q := fun i r => r = (some (i + 1), i + 1)) (by
    intro i v s
    unfold fceBody
    by_cases h : (s.state.add p v).2 = true
    · right; simp [h]
    · left; simp [h]) data 0 st with ⟨s', h⟩ | ⟨s', r, j, h, rfl, hj⟩
  · refine ⟨s', none, data.length, ?_, Nat.le_refl _, by simp⟩
    show p.findChunkEdge st data = _
    rw [fce_eq]; simp only [h]
  · refine ⟨s', some (0 + j + 1), 0 + j + 1, ?_, by omega, by simp; omega⟩
    show p.findChunkEdge st data = _
    rw [fce_eq]; simp only [h]

end HashRoll.Pigz

namespace HashRoll.Zpaq

theorem total (p : Zpaq) : Total (chunk p) := by
  intro st data
  rcases forEnum_total (body := fceBody p) (Q := fun i r => r = (some (i + 1), i + 1)) (by
    intro i v s
    unfold fceBody
    by_cases h : p.splitHere (s.feed v).2 ((s.feed v).1.idx + 1) = true
    · right; simp [h]
    · left; simp [h]) data 0 st with ⟨s', h⟩ | ⟨s', r, j, h, rfl, hj⟩
  · refine ⟨s', none, data.length, ?_, Nat.le_refl _, by simp⟩
    show p.findChunkEdge st data = _
    rw [fce_eq]; simp only [h]
  · refine ⟨s', some (0 + j + 1), 0 + j + 1, ?_, by omega, by simp; omega⟩
    show p.findChunkEdge st data = _
    rw [fce_eq]; simp only [h]

end HashRoll.Zpaq

namespace HashRoll.Gzip

theorem total (p : GzipRsyncable) (hm : p.modulus ≠ 0) : Total (chunk p) := by
  intro st data
  rcases forRange_total (body := fceBody p data) (Q := fun i r => r = (some (i + 1), i + 1)) (n := data.length) (by
    intro i s hi
    have hadd : ∃ st z, s.state.add data p i data[i] = .ok (st, z) := by
      have hrem : ∀ a, remIsZero a p.modulus = .ok (a % p.modulus == 0) := fun a => if_neg hm
      unfold GzipRsyncableState.add
      by_cases hw : i ≥ p.windowLen
      · simp only [hw, if_true, index_ok (show i - p.windowLen < data.length by omega), hrem]
        exact ⟨_, _, rfl⟩
      · simp only [hw, if_false, hrem]
        exact ⟨_, _, rfl⟩
    obtain ⟨st2, z, hadd⟩ := hadd
    unfold fceBody
    simp only [index_ok hi, hadd]
    cases z <;> simp) (data.length - st.offset) st.offset st (by omega) with
    ⟨s', h⟩ | ⟨s', r, j, h, rfl, hj⟩
  · refine ⟨{ s' with offset := data.length - (data.length - p.windowLen) }, none, data.length - p.windowLen, ?_, by omega, by simp⟩
    show p.findChunkEdge st data = _
    rw [fce_eq]; simp only [h]
  · refine ⟨s', some (j + 1), j + 1, ?_, by omega, by simp; omega⟩
    show p.findChunkEdge st data = _
    rw [fce_eq]; simp only [h]

end HashRoll.Gzip

namespace HashRoll.Bup

theorem total (p : RollSum) : Total (chunk p) := by
  intro st data
  rcases forRange_total (body := fceBody p data) (Q := fun i r => r = (some (i + 1), i + 1)) (n := data.length) (by
    intro i s hi
    have hd : ∃ d, (if i ≥ p.windowLen then index data (i - p.windowLen) else .ok 0) = Except.ok d := by
      by_cases hw : i ≥ p.windowLen
      · exact ⟨data[i - p.windowLen], by simp [hw, index_ok (show i - p.windowLen < data.length by omega)]⟩
      · exact ⟨0, by simp [hw]⟩
    obtain ⟨d, hd⟩ := hd
    unfold fceBody
    simp only [index_ok hi, hd]
    by_cases h : (s.state.add p.windowLen d data[i]).atSplit = true
    · right; simp [h]
    · left; simp [h]) (data.length - st.offset) st.offset st (by omega) with
    ⟨s', h⟩ | ⟨s', r, j, h, rfl, hj⟩
  · refine ⟨{ s' with offset := data.length - (data.length - p.windowLen) }, none, data.length - p.windowLen, ?_, by omega, by simp⟩
    show p.findChunkEdge st data = _
    rw [fce_eq]; simp only [h]
  · refine ⟨s', some (j + 1), j + 1, ?_, by omega, by simp; omega⟩
    show p.findChunkEdge st data = _
    rw [fce_eq]; simp only [h]

end HashRoll.Bup

namespace HashRoll.Buzhash

theorem total (p : BuzHash) : Total (chunk p) := by
  intro st data
  rcases forRange_total (body := fceBody p data) (Q := fun i r => r = (some (i + 1), i + 1)) (n := data.length) (by
    intro i s hi
    have hadd : ∃ st, s.state.addBuf data p i = .ok st := by
      unfold BuzHashState.addBuf
      by_cases hw : i ≥ p.k
      · simp [hw, index_ok (show i - p.k < data.length by omega), index_ok hi]
      · simp [hw, index_ok hi]
    obtain ⟨st2, hadd⟩ := hadd
    unfold fceBody
    simp only [hadd]
    by_cases h : st2.h &&& p.mask = p.mask
    · right; simp [h]
    · left; simp [h]) (data.length - st.offset) st.offset st (by omega) with
    ⟨s', h⟩ | ⟨s', r, j, h, rfl, hj⟩
  · refine ⟨{ s' with offset := data.length - (data.length - p.k) }, none, data.length - p.k, ?_, by omega, by simp⟩
    show p.findChunkEdge st data = _
    rw [fce_eq]; simp only [h]
  · refine ⟨s', some (j + 1), j + 1, ?_, by omega, by simp; omega⟩
    show p.findChunkEdge st data = _
    rw [fce_eq]; simp only [h]

end HashRoll.Buzhash

namespace HashRoll.Ram

theorem push_total (p : Ram) (st : RamState) (data : Bytes) :
    ∃ st' r, st.push p data = .ok (st', r) ∧ ∀ i ∈ r, i < data.length := by
  rcases forEnum_total (body := body p.w st.i) (Q := fun i r => r = some i) (by
    intro i v s
    unfold body
    by_cases h : v ≥ s.maxVal
    · by_cases h2 : i + st.i > p.w
      · right; simp [h, h2]
      · left; simp [h, h2]
    · left; simp [h]) data 0 st with ⟨s', h⟩ | ⟨s', r, j, h, rfl, hj⟩
  · exact ⟨{ s' with i := s'.i + data.length }, none, by rw [push_eq]; simp only [h], by simp⟩
  · exact ⟨s', some (0 + j), by rw [push_eq]; simp only [h], by simpa using hj⟩

theorem total (p : Ram) : Total (chunk p) := by
  intro st data
  obtain ⟨st', r, h, hr⟩ := push_total p st data
  cases r with
  | none => exact ⟨st', none, data.length, by show p.findChunkEdge st data = _; simp [Ram.findChunkEdge, h], Nat.le_refl _, by simp⟩
  | some i =>
    have := hr i rfl
    exact ⟨st', some (i + 1), i + 1, by show p.findChunkEdge st data = _; simp [Ram.findChunkEdge, h], by omega, by simp; omega⟩

end HashRoll.Ram

namespace HashRoll.Mii

theorem push_total (st : MiiIncr) (data : Bytes) :
    ∃ st' r, st.push data = .ok (st', r) ∧ ∀ i ∈ r, 1 ≤ i ∧ i ≤ data.length := by
  rcases forEnum_total (body := body) (Q := fun i r => r = some (i + 1)) (by
    intro i v s
    unfold body
    by_cases h : v > s.prev
    · by_cases h2 : s.increment + 1 = s.w
      · right; simp [h, h2]
      · left; simp [h, h2]
    · left; simp [h]) data 0 st with ⟨s', h⟩ | ⟨s', r, j, h, rfl, hj⟩
  · exact ⟨s', none, by rw [push_eq]; simp only [h], by simp⟩
  · exact ⟨s', some (0 + j + 1), by rw [push_eq]; simp only [h], by simp; omega⟩

theorem total (p : Mii) : Total (chunk p) := by
  intro st data
  obtain ⟨st', r, h, hr⟩ := push_total st.incr data
  have h2 : st.push data = .ok ({ incr := st' }, r) := by simp [MiiSearchState.push, h]
  cases r with
  | none => exact ⟨{ incr := st' }, none, data.length, by show p.findChunkEdge st data = _; simp [Mii.findChunkEdge, h2], Nat.le_refl _, by simp⟩
  | some i =>
    have := hr i rfl
    exact ⟨({ incr := st' } : MiiSearchState).reset, some i, i, by show p.findChunkEdge st data = _; simp [Mii.findChunkEdge, h2], by omega, by simp; omega⟩

end HashRoll.Mii

/-! ## incremental chunkers are safe -/

namespace HashRoll.Gear
theorem safe (p : Gear32) : Safe (incr p) := (before p).incrSpec.safe
end HashRoll.Gear

namespace HashRoll.Pigz
theorem safe {prof : Profile} {bits : BitVec 8} {p : PigzRsyncable} (h : PigzRsyncable.withBits prof bits = .ok p) :
    Safe (incr p) := by
  obtain ⟨h1, h2⟩ := withBits_maskOk h
  exact (incrLoop p h1 h2).incrSpec.safe
end HashRoll.Pigz

namespace HashRoll.Ram
theorem safe (p : Ram) : Safe (incr p) := (before p).incrSpec.safe
end HashRoll.Ram

namespace HashRoll.Gzip
theorem safe (p : GzipRsyncable) (hm : p.modulus ≠ 0) (hw : 0 < p.windowLen) : Safe (incr p) :=
  (incrLoop p hm hw).incrSpec.safe
end HashRoll.Gzip

namespace HashRoll.Mii
theorem safe (p : Mii) : Safe (incr p) := (incrLoop p).incrSpec.safe
end HashRoll.Mii

namespace HashRoll.Zpaq
theorem safe (p : Zpaq) : Safe (incr p) := (incrLoop p).incrSpec.safe
end HashRoll.Zpaq

namespace HashRoll.Buzhash
theorem safe (p : BuzHash) (hk : 0 < p.k) : Safe (incr p) := (incrLoop p hk).incrSpec.safe
end HashRoll.Buzhash

namespace HashRoll.Zstd
theorem safe (p : Zstd) (hp : p.Wf) : Safe (incr p) := by
  refine Safe.of_inv (fun st => ∃ s, StInv p st s) ⟨[], init_inv p⟩ ?_
  rintro st ⟨s, hs⟩ data
  rcases push_spec hp st s hs data with ⟨st', h1, h2, _⟩ | ⟨st', i, h1, h2, h3, _⟩
  · exact ⟨st', none, h1, ⟨_, h2⟩, by simp⟩
  · exact ⟨st', some i, h1, ⟨_, h3⟩, by simp; omega⟩
end HashRoll.Zstd

namespace HashRoll.Bup

/-- Ring index in range, for any window length. -/
def RingOk (st : RollSumIncr) : Prop := st.wofs < st.window.length

theorem rollByte_ok {st : RollSumIncr} (h : RingOk st) (v : UInt8) : ∃ st', st.rollByte v = .ok st' ∧ RingOk st' := by
  unfold RollSumIncr.rollByte
  rw [index_ok h]
  refine ⟨_, rfl, ?_⟩
  have h1 : (st.wofs + 1) &&& (st.window.length - 1) ≤ st.window.length - 1 := Nat.and_le_right
  have h2 : st.wofs < st.window.length := h
  simp only [RingOk, RollSumIncr.add, List.length_set]
  omega

theorem forEnum_ring : ∀ (data : Bytes) (i : Nat) (st : RollSumIncr), RingOk st →
    (∃ st', forEnum pushBody i data st = .ok (.next st') ∧ RingOk st') ∨
    ∃ st' j, forEnum pushBody i data st = .ok (.ret st' (some (i + j + 1))) ∧ RingOk st' ∧ j < data.length := by
  intro data
  induction data with
  | nil => intro i st h; exact .inl ⟨st, rfl, h⟩
  | cons v vs ih =>
    intro i st h
    obtain ⟨st', h1, h2⟩ := rollByte_ok h v
    by_cases hs : st'.atSplit = true
    · right
      refine ⟨st', 0, ?_, h2, by simp⟩
      rw [forEnum]; simp [pushBody, h1, hs]
    · rcases ih (i + 1) st' h2 with ⟨st2, h3, h4⟩ | ⟨st2, j, h3, h4, h5⟩
      · left; exact ⟨st2, by rw [forEnum]; simp [pushBody, h1, hs, h3], h4⟩
      · right
        refine ⟨st2, j + 1, ?_, h4, by simp; omega⟩
        rw [forEnum]; simp [pushBody, h1, hs, h3]; omega

theorem safe (p : RollSum) (hw : 0 < p.windowLen) : Safe (incr p) := by
  refine Safe.of_inv RingOk (by simpa [RingOk, RollSumIncr.from] using hw) ?_
  intro st h data
  rcases forEnum_ring data 0 st h with ⟨st', h1, h2⟩ | ⟨st', j, h1, h2, h3⟩
  · exact ⟨st', none, by show st.push data = _; rw [push_eq]; simp only [h1], h2, by simp⟩
  · exact ⟨st', some (0 + j + 1), by show st.push data = _; rw [push_eq]; simp only [h1], h2, by simp; omega⟩

end HashRoll.Bup

namespace HashRoll.FastCdc

theorem loop1_range (p : FastCdc) : ∀ (rest : Bytes) (gi i : Nat) (fp : BitVec 64),
    (∃ j, loop1 p rest gi i fp = .ret j ∧ j < i + rest.length) ∨
    ∃ k fp', loop1 p rest gi i fp = .done (gi + k) (i + k) fp' ∧ k ≤ rest.length := by
  intro rest
  induction rest with
  | nil => intro gi i fp; exact .inr ⟨0, fp, rfl, by simp⟩
  | cons v vs ih =>
    intro gi i fp
    rw [loop1]
    by_cases h : gi ≥ p.normalSize
    · right; exact ⟨0, fp, by simp [h], by simp⟩
    · simp only [h, if_false]
      by_cases h2 : (fp <<< 1) + lookup p.gear v &&& maskS = 0
      · left; exact ⟨i, by simp only [h2, if_true], by simp⟩
      · simp only [h2, if_false]
        rcases ih (gi + 1) (i + 1) ((fp <<< 1) + lookup p.gear v) with ⟨j, h3, h4⟩ | ⟨k, fp', h3, h4⟩
        · left; exact ⟨j, h3, by simp; omega⟩
        · right
          refine ⟨k + 1, fp', ?_, by simp; omega⟩
          rw [h3, show gi + 1 + k = gi + (k + 1) by omega, show i + 1 + k = i + (k + 1) by omega]

theorem loop2_range (p : FastCdc) : ∀ (rest : Bytes) (gi i : Nat) (fp : BitVec 64),
    (∃ j, loop2 p rest gi i fp = .ret j ∧ j ≤ i + rest.length) ∨
    ∃ gi' i' fp', loop2 p rest gi i fp = .done gi' i' fp' := by
  intro rest
  induction rest with
  | nil =>
    intro gi i fp
    rw [loop2]
    by_cases h : gi ≥ p.maxSize
    · left; exact ⟨i, by simp [h], by simp⟩
    · right; exact ⟨gi, i, fp, by simp [h]⟩
  | cons v vs ih =>
    intro gi i fp
    rw [loop2]
    by_cases h : gi ≥ p.maxSize
    · left; exact ⟨i, by simp [h], by simp⟩
    · simp only [h, if_false]
      by_cases h2 : (fp <<< 1) + lookup p.gear v &&& maskL = 0
      · left; exact ⟨i, by simp only [h2, if_true], by simp⟩
      · simp only [h2, if_false]
        rcases ih (gi + 1) (i + 1) ((fp <<< 1) + lookup p.gear v) with ⟨j, h3, h4⟩ | h3
        · left; exact ⟨j, h3, by simp; omega⟩
        · exact .inr h3

/-- Whatever the parameters and the state, `push` returns an index inside the slice. -/
theorem push_range (p : FastCdc) (st : FastCdcState) (data : Bytes) :
    ∀ i ∈ (st.push p data).2, i ≤ data.length := by
  unfold FastCdcState.push
  simp only
  by_cases h : data.length + st.l ≤ p.minSize
  · simp [h]
  · simp only [h, if_false]
    obtain ⟨skip, hskip⟩ : ∃ k, k = if st.l ≤ p.minSize then p.minSize - st.l else 0 := ⟨_, rfl⟩
    have hs : skip ≤ data.length := by rw [hskip]; split <;> omega
    rw [← hskip]
    rcases loop1_range p (data.drop skip) (st.l + skip) skip st.fp with ⟨j, h3, h4⟩ | ⟨k, fp', h3, h4⟩
    · simp only [h3]
      intro i hi
      cases hi
      simp at h4; omega
    · simp only [h3]
      simp at h4
      rcases loop2_range p (data.drop (skip + k)) (st.l + skip + k) (skip + k) fp' with ⟨j, h5, h6⟩ | ⟨_, _, _, h5⟩
      · simp only [h5]
        intro i hi
        cases hi
        simp at h6; omega
      · simp only [h5]; simp

theorem safe (p : FastCdc) : Safe (incr p) := by
  intro st _ data
  exact ⟨{ st with state := (st.state.push st.params data).1 }, (st.state.push st.params data).2, rfl,
    push_range st.params st.state data⟩

end HashRoll.FastCdc

/-! ## callers that cut after the returned index -/

namespace HashRoll.Spec

/-- Cutting after the byte whose index is returned gives the rule that includes the edge byte. -/
def BeforeSpec.afterSpec {C : ChunkIncr} {e : Bytes → Prop} (L : BeforeSpec C e) :
    IncrSpec (afterByte C) (EdgeRule (Local e)) where
  Inv st _ c := L.Inv st c ∧ NoEdge e c
  init := ⟨L.init, NoEdge.nil _⟩
  step := by
    intro st h c ⟨hi, hno⟩ new
    rcases L.push_spec st c hi hno new with ⟨st', hp, hi', hno'⟩ | ⟨st', i, hp, hlt, hi', hcut⟩
    · exact ⟨st', none, by simp [afterByte, hp, Except.map], ⟨hi', hno'⟩, hno'.not_firstCut⟩
    · exact ⟨st', some (i + 1), by simp [afterByte, hp, Except.map], by omega, ⟨hi', NoEdge.nil _⟩, hcut⟩

end HashRoll.Spec

namespace HashRoll.Gear
theorem after_conforms (p : Gear32) : IncrConforms (afterByte (incr p)) (EdgeRule (Local (edge p))) :=
  (before p).afterSpec.conforms
end HashRoll.Gear

namespace HashRoll.Ram
theorem after_conforms (p : Ram) : IncrConforms (afterByte (incr p)) (EdgeRule (Local (ramEdge p.w))) :=
  (before p).afterSpec.conforms
end HashRoll.Ram

namespace HashRoll.Zstd

def afterSpec (p : Zstd) (hp : p.Wf) : IncrSpec (afterByte (incr p)) (EdgeRule (zstdEdge p.hitMask)) where
  Inv st h c := StInv p st (h ++ c) ∧ NoEdge (zstdEdge p.hitMask h) c
  init := ⟨init_inv p, NoEdge.nil _⟩
  step := by
    rintro st h c ⟨hi, hno⟩ new
    have hpush := push_spec hp st (h ++ c) hi new
    rw [edge_eq] at hpush
    rcases hpush with ⟨st', h1, h2, h3⟩ | ⟨st', i, h1, h2, h3, h4⟩
    · have hno' := hno.append h3
      exact ⟨st', none, by simp [afterByte, h1, Except.map], ⟨by simpa using h2, hno'⟩, hno'.not_firstCut⟩
    · exact ⟨st', some (i + 1), by simp [afterByte, h1, Except.map], by omega,
        ⟨by simpa using h3, NoEdge.nil _⟩, hno.firstCut_append h4⟩

theorem after_conforms (p : Zstd) (hp : p.Wf) :
    IncrConforms (afterByte (incr p)) (EdgeRule (zstdEdge p.hitMask)) := (afterSpec p hp).conforms

end HashRoll.Zstd
