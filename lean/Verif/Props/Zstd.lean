import Verif.Props.Conformance
/-!
# C20, C30, C46, C51: Zstd
-/

namespace HashRoll.Props

open Spec Zstd

/-! ## C51: the constructor -/

theorem clz_xor (j : BitVec 32) (hj : j ≠ 0) : (j.clz ^^^ 31).toNat = Nat.log2 j.toNat := by
  have hj' : j ≠ 0#32 := hj
  have h1 := BitVec.two_pow_sub_clz_le_toNat_of_ne_zero (by decide) hj'
  have h2 := BitVec.toNat_lt_two_pow_sub_clz (x := j)
  have h3 := BitVec.clz_lt_iff_ne_zero.2 hj'
  generalize j.clz = c at h1 h2 h3
  have h3' : c.toNat < 32 := by simpa [BitVec.lt_def] using h3
  have hx : ∀ k : Fin 32, (BitVec.ofNat 32 k.1 ^^^ 31).toNat = 31 - k.1 := by decide +kernel
  have := hx ⟨c.toNat, h3'⟩
  simp only [BitVec.ofNat_toNat, BitVec.setWidth_eq] at this
  rw [this]
  symm
  have hne : j.toNat ≠ 0 := by
    intro h; apply hj'; exact BitVec.eq_of_toNat_eq (by simpa using h)
  rw [Nat.log2_eq_iff hne]
  constructor
  · have e : 32 - c.toNat - 1 = 31 - c.toNat := by omega
    rw [← e]
    have e2 : 32 - c.toNat - 1 = 32 - 1 - c.toNat := by omega
    rw [e2]; exact h1
  · have e : 31 - c.toNat + 1 = 32 - c.toNat := by omega
    rw [e]; exact h2

/-- `with_target_section_size`, in both build profiles: panics exactly when the size is below 2^20 (`assert`)
or at least 2^52 (`try_into`), and otherwise the mask has the documented number of ones. -/
theorem C51_zstd (prof : Profile) (size : BitVec 64) :
    Zstd.withTargetSectionSize prof size =
      if 2 ^ 52 ≤ size.toNat then .error .tryFromInt
      else if size.toNat < 2 ^ 20 then .error .assertFailed
      else .ok { hitMask := BitVec.ofNat 64 (2 ^ (20 + Nat.log2 (size.toNat / 2 ^ 20)) - 1),
                 primePower := prime8Bytes ^ 31 } := by
  have hsh : (size >>> 20).toNat = size.toNat / 2 ^ 20 := by
    simp [BitVec.toNat_ushiftRight, Nat.shiftRight_eq_div_pow]
  unfold Zstd.withTargetSectionSize
  by_cases h1 : 2 ^ 52 ≤ size.toNat
  · rw [if_neg (by rw [hsh]; omega), if_pos h1]
  · rw [if_pos (by rw [hsh]; omega), if_neg h1]
    have hj : ((size >>> 20).setWidth 32 : BitVec 32).toNat = size.toNat / 2 ^ 20 := by
      rw [BitVec.toNat_setWidth, hsh, Nat.mod_eq_of_lt (by omega)]
    generalize ((size >>> 20).setWidth 32 : BitVec 32) = j at hj
    by_cases h2 : size.toNat < 2 ^ 20
    · have : j = 0 := by
        apply BitVec.eq_of_toNat_eq
        rw [hj, Nat.div_eq_of_lt h2]; rfl
      rw [if_pos h2, this]; rfl
    · have hne : j ≠ 0 := by
        intro h
        rw [h] at hj
        have : size.toNat / 2 ^ 20 = 0 := by rw [← hj]; rfl
        have := Nat.div_eq_zero_iff.1 this
        omega
      have hlog := clz_xor j hne
      rw [hj] at hlog
      have hlt : Nat.log2 (size.toNat / 2 ^ 20) < 32 := by
        rw [Nat.log2_lt (by omega)]; omega
      have hadd : add prof (j.clz ^^^ 31) 20 = .ok ((j.clz ^^^ 31) + 20) := by
        unfold HashRoll.add; rw [if_pos]
        rw [hlog]
        have : (20 : BitVec 32).toNat = 20 := rfl
        omega
      have hbits : ((j.clz ^^^ 31) + 20).toNat = 20 + Nat.log2 (size.toNat / 2 ^ 20) := by
        rw [BitVec.toNat_add, hlog]
        have : (20 : BitVec 32).toNat = 20 := rfl
        rw [this, Nat.mod_eq_of_lt (by omega)]; omega
      generalize hL : Nat.log2 (size.toNat / 2 ^ 20) = L at *
      have hshl : shl prof (1 : BitVec 64) (20 + L) = .ok ((1 : BitVec 64) <<< (20 + L)) := by
        unfold HashRoll.shl; rw [if_pos (by omega)]
      have hpow : ((1 : BitVec 64) <<< (20 + L)).toNat = 2 ^ (20 + L) := by
        rw [BitVec.toNat_shiftLeft, Nat.shiftLeft_eq]
        have : (1 : BitVec 64).toNat = 1 := rfl
        rw [this, Nat.one_mul, Nat.mod_eq_of_lt (Nat.pow_lt_pow_right (by omega) (by omega))]
      have hpos : 0 < 2 ^ (20 + L) := Nat.two_pow_pos _
      have hsub : HashRoll.sub prof ((1 : BitVec 64) <<< (20 + L)) 1 = .ok (BitVec.ofNat 64 (2 ^ (20 + L) - 1)) := by
        unfold HashRoll.sub; rw [if_pos]
        · congr 1
          apply BitVec.eq_of_toNat_eq
          have hlt64 : 2 ^ (20 + L) < 2 ^ 64 := Nat.pow_lt_pow_right (by omega) (by omega)
          have one : (1 : BitVec 64).toNat = 1 := rfl
          rw [BitVec.toNat_sub_of_le, hpow, BitVec.toNat_ofNat, Nat.mod_eq_of_lt (by omega), one]
          rw [BitVec.le_def, hpow, one]; omega
        · rw [BitVec.le_def, hpow]
          have one : (1 : BitVec 64).toNat = 1 := rfl
          omega
      simp only [h2, if_false, assert, hne, ne_eq, not_false_eq_true, if_true, hadd, hbits, hshl, hsub,
        wrappingPow_eq]

example : Zstd.withTargetSectionSize .release (1 <<< 20) =
    .ok { hitMask := 0xfffff, primePower := 0xf5507fe35f91f8cb } := by decide +kernel

/-- The default. -/
theorem C51_default (prof : Profile) :
    Zstd.default prof = .ok { hitMask := 0x7fffff, primePower := 0xf5507fe35f91f8cb } := by
  cases prof <;> decide +kernel

/-- What the constructor returns has the right `prime_power`. -/
theorem zstd_wf {prof : Profile} {size : BitVec 64} {p : Zstd.Zstd}
    (h : Zstd.withTargetSectionSize prof size = .ok p) : p.Wf := by
  rw [C51_zstd] at h
  split at h
  · cases h
  · split at h
    · cases h
    · cases h
      show prime8Bytes ^ 31 = _
      rw [wrappingPow_eq]

/-! ## C20: `find_chunk_edge` -/

/-- What is true of C20, first half: up to and including the first cut, for every schedule of buffers. -/
theorem C20_first_partial {prof : Profile} {size : BitVec 64} {p : Zstd.Zstd}
    (h : Zstd.withTargetSectionSize prof size = .ok p) :
    FceFollows (Zstd.chunk p) (fun prev _ _ => prev = 0) (EdgeRule (zstdEdge p.hitMask)) :=
  (Zstd.fce_conforms_first p (zstd_wf h)).follows (EdgeRule.good _) (EdgeRule.pos _)

/-- What is true of C20, second half: all cuts, if each buffer ends at most one byte further than the data
that had to be presented. Missing for C20: buffers that grow by more than that after a cut, see
`C20_refuted`. -/
theorem C20_partial {prof : Profile} {size : BitVec 64} {p : Zstd.Zstd}
    (h : Zstd.withTargetSectionSize prof size = .ok p) :
    FceFollows (Zstd.chunk p) (fun _ need e => e ≤ need + 1) (EdgeRule (zstdEdge p.hitMask)) :=
  (Zstd.fce_conforms_bytewise p (zstd_wf h)).follows (EdgeRule.good _) (EdgeRule.pos _)

/-- 32 bytes whose hash ends in 23 ones -/
def zhit : Bytes := [0,0,0,0,0,0,0,0,0,0,0,0,0,0,0,0,0,0,0,0,0,0,0,0,0,0,0,0,1,196,146,234]

/-- default parameters: cuts after 33 and after 65 bytes -/
def zdata : Bytes := 0 :: zhit ++ zhit

theorem zdata_cuts : ∀ k : Fin 66, (32 < (zdata.take k.1).length ∧
    zstdHash (lastN 32 (zdata.take k.1)) &&& Ex.zstd.hitMask = Ex.zstd.hitMask) ↔ k.1 = 33 ∨ k.1 = 65 := by
  decide +kernel

theorem zdata_fce : ∃ st, Ex.zstd.findChunkEdge ZstdSearchState.default zdata = .ok (st, some 33, 33) ∧
    ∃ st', Ex.zstd.findChunkEdge st (Spec.sub zdata 33 65) = .ok (st', none, 0) :=
  ⟨{ state := { hash := zstdHash zhit }, offset := 32 }, by decide +kernel,
   { state := { hash := zstdHash zhit }, offset := 32 }, by decide +kernel⟩

example : (Zstd.chunk Ex.zstd).docLoop zdata 5 ZstdSearchState.default zdata 0 =
    .ok ([zdata.take 33], some (zdata.drop 33)) := by decide +kernel

theorem zstd_run_one (p : Zstd.Zstd) (G : Nat → Nat → Nat → Prop) (s : Bytes) (hG : G 0 0 s.length)
    {st : ZstdSearchState} {c d : Nat} (h : p.findChunkEdge ZstdSearchState.default s = .ok (st, some c, d)) :
    FceRun (Zstd.chunk p) G s st (0 + d) (max (0 + d) (0 + c)) (0 + c) ([] ++ [Spec.sub s 0 (0 + c)]) :=
  .cut (e := s.length) .start (Nat.zero_le _) (Nat.le_refl _) hG (by
    have : Spec.sub s 0 s.length = s := by simp [Spec.sub]
    rw [this]; exact h)

/-- The default `Zstd` misses the second cut of `zdata` when it is handed over as one buffer. -/
theorem C20_refuted : Zstd.default .debug = .ok Ex.zstd ∧
    ¬ FceConforms (Zstd.chunk Ex.zstd) Any (EdgeRule (zstdEdge Ex.zstd.hitMask)) := by
  refine ⟨by decide +kernel, fun hc => ?_⟩
  have hlen : zdata.length = 65 := by decide
  obtain ⟨st, hf1, st2, hf2⟩ := zdata_fce
  have hr : FceRun (Zstd.chunk Ex.zstd) Any zdata st 33 33 33 [Spec.sub zdata 0 33] :=
    zstd_run_one Ex.zstd Any zdata trivial hf1
  obtain ⟨st', r, d, hf, _, hm⟩ := hc _ _ _ _ _ _ hr 65 (by decide) (Nat.le_of_eq hlen.symm) trivial
  have hf2' : (Zstd.chunk Ex.zstd).fce st (Spec.sub zdata 33 65) = .ok (st2, none, 0) := hf2
  rw [hf2'] at hf
  cases hf
  refine hm 32 ?_
  refine Zstd.rule_of_cut Ex.zstd zdata (prev := 33) (n := 65) (e := 65) (by decide) (by decide) (Nat.le_of_eq hlen.symm)
    ((zdata_cuts 65).2 (.inr rfl)) ?_
  intro k h1 h2 hk
  have := (zdata_cuts ⟨k, by omega⟩).1 hk
  simp at this
  omega

/-- every call, in a state left by calls that respect the contract -/
theorem zstd_full_ok (p : Zstd.Zstd) (st : ZstdSearchState) (data : Bytes) (ho : st.offset = 32) :
    ∃ st' r, p.findChunkEdgeFull st data = .ok (st', r, data.length - 32) ∧
      ((r = none ∧ st'.offset = min data.length 32) ∨
       ∃ c, r = some c ∧ 32 < c ∧ c ≤ data.length ∧ st'.offset = 32) := by
  have key : ∀ count i (s : ZstdSearchState), s.offset = 32 → 32 ≤ i → i + count ≤ data.length ∨ count = 0 →
      (∃ s', forRange (fceBody p data) count i s = .ok (.next s') ∧ s'.offset = 32) ∨
      ∃ s' c, forRange (fceBody p data) count i s = .ok (.ret s' (some c, data.length - 32)) ∧ 32 < c ∧
        c ≤ data.length ∧ s'.offset = 32 := by
    intro count
    induction count with
    | zero => intro i s hs _ _; exact .inl ⟨s, rfl, hs⟩
    | succ n ih =>
      intro i s hs hi hle
      have h1 : ¬ i < rsyncLength := by simp only [rsyncLength]; omega
      have e1 : index data (i - rsyncLength) = .ok (data[i - 32]'(by omega)) :=
        index_ok (show i - 32 < data.length by omega)
      have e2 := index_ok (show i < data.length by omega)
      by_cases hsp : (s.state.rotate (data[i - 32]'(by omega)) (data[i]'(by omega)) p.primePower).atSplit p = true
      · right
        have hb : fceBody p data i s = .ok (.ret { s with
            state := s.state.rotate (data[i - 32]'(by omega)) (data[i]'(by omega)) p.primePower }
            (some (i + 1), data.length - 32)) := by
          rw [fceBody, if_neg h1, e1]; dsimp only; rw [e2]; dsimp only; rw [if_pos hsp]; rfl
        refine ⟨{ s with state := s.state.rotate (data[i - 32]'(by omega)) (data[i]'(by omega)) p.primePower },
          i + 1, ?_, by omega, by omega, hs⟩
        rw [forRange, hb]
      · have hb : fceBody p data i s = .ok (.next { s with
            state := s.state.rotate (data[i - 32]'(by omega)) (data[i]'(by omega)) p.primePower }) := by
          rw [fceBody, if_neg h1, e1]; dsimp only; rw [e2]; dsimp only; rw [if_neg hsp]
        rw [forRange, hb]
        exact ih (i + 1) _ hs (by omega) (by omega)
  rw [fceFull_eq]
  rcases key (data.length - st.offset) st.offset st ho (by omega) (by omega) with ⟨s', h1, h2⟩ | ⟨s', c, h1, h2⟩
  · rw [h1]
    refine ⟨_, _, rfl, .inl ⟨rfl, ?_⟩⟩
    simp only [rsyncLength]
    omega
  · rw [h1]
    exact ⟨_, _, rfl, .inr ⟨c, rfl, h2⟩⟩

theorem zstd_call_ok (p : Zstd.Zstd) (st : ZstdSearchState) (data : Bytes) (ho : st.offset ≤ 32)
    (hd : st.offset < 32 → st.offset ≤ data.length) :
    ∃ st' r, p.findChunkEdge st data = .ok (st', r, data.length - 32) ∧
      ((r = none ∧ st'.offset = min data.length 32) ∨
       ∃ c, r = some c ∧ 32 < c ∧ c ≤ data.length ∧ st'.offset = 32) := by
  have hR : rsyncLength = 32 := rfl
  unfold Zstd.findChunkEdge
  by_cases h : st.offset < rsyncLength
  · rw [if_pos h]
    have hd' := hd (by omega)
    have hsl : slice data st.offset (min rsyncLength data.length) =
        .ok ((data.take (min rsyncLength data.length)).drop st.offset) := by
      simp only [slice]
      rw [if_pos (by omega)]
    rw [hsl]
    dsimp only
    have hlen : st.offset + ((data.take (min rsyncLength data.length)).drop st.offset).length =
        min 32 data.length := by
      simp only [List.length_drop, List.length_take]; omega
    by_cases h2 : data.length < 32
    · rw [if_pos (by rw [hlen]; omega)]
      refine ⟨_, _, by rw [show data.length - 32 = 0 by omega], .inl ⟨rfl, ?_⟩⟩
      dsimp only
      rw [hlen]; omega
    · rw [if_neg (by rw [hlen]; omega)]
      apply zstd_full_ok
      dsimp only
      rw [hlen]; omega
  · rw [if_neg h]
    exact zstd_full_ok p st data (by omega)

/-- What remains of C20 for every schedule of buffers and *any* parameters: no call panics, no call discards more
than the buffer, reported cuts lie inside the buffer. -/
theorem C20_no_panic (p : Zstd.Zstd) (s : Bytes) (st : (Zstd.chunk p).State) (base need prev : Nat) (cs : List Bytes)
    (hr : FceRun (Zstd.chunk p) Any s st base need prev cs) (e : Nat) (h1 : need ≤ e) (h2 : e ≤ s.length) :
    ∃ st' r d, p.findChunkEdge st (Spec.sub s base e) = .ok (st', r, d) ∧ base + d ≤ e ∧
      ∀ c ∈ r, 32 < c ∧ base + c ≤ e := by
  have inv : base ≤ need ∧ ZstdSearchState.offset st ≤ 32 ∧ (ZstdSearchState.offset st < 32 → base + ZstdSearchState.offset st ≤ need) := by
    clear h1 h2 e
    induction hr with
    | start => exact ⟨Nat.le_refl _, Nat.zero_le _, fun _ => Nat.le_refl _⟩
    | @cut st base need prev cs e st' c d hr h1 h2 hg hf ih =>
      obtain ⟨i1, i2, i3⟩ := ih
      obtain ⟨st2, r2, hf2, hcase⟩ := zstd_call_ok p st (Spec.sub s base e) i2
        (by intro h; have := i3 h; rw [sub_length]; omega)
      change p.findChunkEdge st (Spec.sub s base e) = _ at hf
      rw [hf] at hf2
      cases hf2
      rcases hcase with ⟨h, _⟩ | ⟨c', h, h3, h4, h5⟩
      · cases h
      · cases h
        exact ⟨by omega, by omega, by intro h; omega⟩
    | @more st base need prev cs e st' d hr h1 h2 hg hf ih =>
      obtain ⟨i1, i2, i3⟩ := ih
      obtain ⟨st2, r2, hf2, hcase⟩ := zstd_call_ok p st (Spec.sub s base e) i2
        (by intro h; have := i3 h; rw [sub_length]; omega)
      change p.findChunkEdge st (Spec.sub s base e) = _ at hf
      rw [hf] at hf2
      cases hf2
      rcases hcase with ⟨_, h⟩ | ⟨c', h, h3, h4, h5⟩
      · rw [sub_length] at h ⊢
        exact ⟨by omega, by omega, by intro h'; omega⟩
      · cases h
  obtain ⟨i1, i2, i3⟩ := inv
  obtain ⟨st2, r2, hf2, hcase⟩ := zstd_call_ok p st (Spec.sub s base e) i2
    (by intro h; have := i3 h; rw [sub_length]; omega)
  refine ⟨st2, r2, _, hf2, by rw [sub_length]; omega, ?_⟩
  rintro c hc
  rcases hcase with ⟨h, _⟩ | ⟨c', h, h3, h4, _⟩
  · rw [h] at hc; cases hc
  · rw [h] at hc; cases hc
    rw [sub_length] at h4
    exact ⟨h3, by omega⟩
/-- A run with a cut, for the hypotheses of the four theorems above. -/
example : ∃ st b n p cs, FceRun (Zstd.chunk Ex.zstd) (fun prev _ _ => prev = 0) zdata st b n p cs ∧ cs.length = 1 := by
  obtain ⟨st, hf1, _⟩ := zdata_fce
  exact ⟨_, _, _, _, _, zstd_run_one Ex.zstd _ zdata rfl hf1, rfl⟩

/-- Without the contract a call can panic: a buffer shorter than what was already presented. -/
theorem C20_contract_needed : ∃ st, Ex.zstd.findChunkEdge ZstdSearchState.default [1, 2, 3] = .ok (st, none, 0) ∧
    Ex.zstd.findChunkEdge st [1, 2] = .error .sliceIndex := ⟨_, rfl, rfl⟩

/-! ## C30: `ZstdIncr` -/

theorem C30_zstd {prof : Profile} {size : BitVec 64} {p : Zstd.Zstd}
    (h : Zstd.withTargetSectionSize prof size = .ok p) :
    BytewiseFollows (Zstd.incr p) (EdgeRule (zstdEdge p.hitMask)) :=
  (Zstd.bytewise_conforms p (zstd_wf h)).follows (EdgeRule.good _) (EdgeRule.pos _)

/-- Any slicing, for a caller that cuts after the byte whose index is returned. -/
theorem C30_after {prof : Profile} {size : BitVec 64} {p : Zstd.Zstd}
    (h : Zstd.withTargetSectionSize prof size = .ok p) :
    IncrFollows (afterByte (Zstd.incr p)) (EdgeRule (zstdEdge p.hitMask)) :=
  (Zstd.after_conforms p (zstd_wf h)).follows (EdgeRule.good _)

/-- The same without the vocabulary of rules: fed byte by byte, the byte at stream position `pos` reports a cut
exactly if it is not one of the first 32 and the hash of the last 32 bytes has all mask bits set. -/
theorem C30_positions {prof : Profile} {size : BitVec 64} {p : Zstd.Zstd}
    (h : Zstd.withTargetSectionSize prof size = .ok p) {s : Bytes} {st : (Zstd.incr p).State} {pos prev : Nat} {cs : List Bytes}
    (hr : ByteRun (Zstd.incr p) s st pos prev cs) (hpos : pos < s.length) :
    ∃ st' r, ZstdIncr.push st (Spec.sub s pos (pos + 1)) = .ok (st', r) ∧
      (r.isSome ↔ 32 ≤ pos ∧ zstdHash (lastN 32 (s.take (pos + 1))) &&& p.hitMask = p.hitMask) := by
  have hp := zstd_wf h
  have inv : StInv p st (s.take pos) := by
    clear hpos
    induction hr with
    | start => exact init_inv p
    | @cut st pos prev cs st' i hr hp' hf ih =>
      have hsub : s.take pos ++ Spec.sub s pos (pos + 1) = s.take (pos + 1) := take_append_sub s (by omega)
      rcases push_spec hp st _ ih (Spec.sub s pos (pos + 1)) with ⟨st2, h1, h2, h3⟩ | ⟨st2, j, h1, h2, h3, h4⟩
      · change ZstdIncr.push st (Spec.sub s pos (pos + 1)) = _ at hf
        rw [hf] at h1; cases h1
      · change ZstdIncr.push st (Spec.sub s pos (pos + 1)) = _ at hf
        rw [hf] at h1; cases h1
        rw [sub_length] at h2
        rw [List.take_of_length_le (l := Spec.sub s pos (pos + 1)) (by rw [sub_length]; omega), hsub] at h3
        exact h3
    | @more st pos prev cs st' hr hp' hf ih =>
      have hsub : s.take pos ++ Spec.sub s pos (pos + 1) = s.take (pos + 1) := take_append_sub s (by omega)
      rcases push_spec hp st _ ih (Spec.sub s pos (pos + 1)) with ⟨st2, h1, h2, h3⟩ | ⟨st2, j, h1, h2, h3, h4⟩
      · change ZstdIncr.push st (Spec.sub s pos (pos + 1)) = _ at hf
        rw [hf] at h1; cases h1
        rwa [hsub] at h2
      · change ZstdIncr.push st (Spec.sub s pos (pos + 1)) = _ at hf
        rw [hf] at h1; cases h1
  have hsub : s.take pos ++ Spec.sub s pos (pos + 1) = s.take (pos + 1) := take_append_sub s (by omega)
  have hl : (Spec.sub s pos (pos + 1)).length = 1 := by rw [sub_length]; omega
  have hlt : (s.take (pos + 1)).length = pos + 1 := by rw [List.length_take]; omega
  rcases push_spec hp st _ inv (Spec.sub s pos (pos + 1)) with ⟨st2, h1, h2, h3⟩ | ⟨st2, j, h1, h2, h3, h4⟩
  · refine ⟨st2, none, h1, ?_⟩
    have : ¬ cutAt p (s.take pos ++ (Spec.sub s pos (pos + 1)).take 1) := h3 1 (by omega) (by omega)
    rw [List.take_of_length_le (l := Spec.sub s pos (pos + 1)) (by omega), hsub] at this
    simp only [Option.isSome_none, Bool.false_eq_true, false_iff]
    intro hx
    exact this ⟨by omega, hx.2⟩
  · refine ⟨st2, some j, h1, ?_⟩
    have hj : j = 0 := by omega
    subst hj
    have : cutAt p (s.take pos ++ (Spec.sub s pos (pos + 1)).take (0 + 1)) := h4.2.2.1
    rw [List.take_of_length_le (l := Spec.sub s pos (pos + 1)) (by omega), hsub] at this
    simp only [Option.isSome_some, true_iff]
    exact ⟨by have := this.1; omega, this.2⟩

/-- The hash is the one documented in the property: a polynomial in the prime with offset 10 for the bytes. -/
theorem C30_hash_snoc (t : Bytes) (v : UInt8) :
    zstdHash [] = 0 ∧ zstdHash (t ++ [v]) = zstdHash t * 0xCF1BBCDCB7A56463 + (word 64 v + 10) :=
  ⟨rfl, Zstd.zstdHash_snoc t v⟩

/-- one-byte pushes of all of `s` -/
def zstdFeed (p : Zstd.Zstd) (s : Bytes) : R (ZstdIncr × List Bool) :=
  s.foldlM (init := (ZstdIncr.from p, [])) fun x b => (x.1.push [b]).map fun y => (y.1, x.2 ++ [y.2.isSome])

theorem zstdFeed_snoc (p : Zstd.Zstd) (s : Bytes) (b : UInt8) : zstdFeed p (s ++ [b]) =
    (zstdFeed p s).bind fun x => (x.1.push [b]).map fun y => (y.1, x.2 ++ [y.2.isSome]) := by
  rw [zstdFeed, List.foldlM_append]
  change (zstdFeed p s >>= fun init => _) = _
  cases zstdFeed p s with
  | error e => rfl
  | ok x =>
    simp only [bind, Except.bind, List.foldlM_cons, List.foldlM_nil]
    cases h : (x.1.push [b]) <;> rfl

/-- byte by byte: which of the bytes of `s` report a cut -/
theorem zstdFeed_eq {prof : Profile} {size : BitVec 64} {p : Zstd.Zstd}
    (h : Zstd.withTargetSectionSize prof size = .ok p) (s : Bytes) : ∃ st l, zstdFeed p s = .ok (st, l) ∧
      l.length = s.length ∧ ∀ i < s.length, l[i]? =
        some (decide (32 ≤ i ∧ zstdHash (lastN 32 (s.take (i + 1))) &&& p.hitMask = p.hitMask)) := by
  have hp := zstd_wf h
  suffices hs : ∀ n, ∀ s : Bytes, s.length = n → ∃ st l, zstdFeed p s = .ok (st, l) ∧ StInv p st s ∧
      l.length = s.length ∧ ∀ i < s.length, l[i]? =
        some (decide (32 ≤ i ∧ zstdHash (lastN 32 (s.take (i + 1))) &&& p.hitMask = p.hitMask)) by
    obtain ⟨st, l, h1, _, h2⟩ := hs _ s rfl
    exact ⟨st, l, h1, h2⟩
  intro n
  induction n with
  | zero =>
    intro s hs
    have : s = [] := List.length_eq_zero_iff.1 hs
    subst this
    exact ⟨_, _, rfl, init_inv p, rfl, by simp⟩
  | succ n ih =>
    intro s hs
    obtain ⟨t, b, rfl⟩ : ∃ t b, s = t ++ [b] := by
      rcases List.eq_nil_or_concat s with rfl | ⟨t, b, h⟩
      · simp at hs
      · exact ⟨t, b, by simpa using h⟩
    simp only [List.length_append, List.length_singleton, Nat.add_right_cancel_iff] at hs
    obtain ⟨st, l, h1, h2, h3, h4⟩ := ih t hs
    have fin : ∀ st' (r : Option Nat), st.push [b] = .ok (st', r) → StInv p st' (t ++ [b]) →
        r.isSome = decide (32 ≤ t.length ∧ zstdHash (lastN 32 (t ++ [b])) &&& p.hitMask = p.hitMask) →
        ∃ st l, zstdFeed p (t ++ [b]) = .ok (st, l) ∧ StInv p st (t ++ [b]) ∧
        l.length = (t ++ [b]).length ∧ ∀ i < (t ++ [b]).length, l[i]? =
        some (decide (32 ≤ i ∧ zstdHash (lastN 32 ((t ++ [b]).take (i + 1))) &&& p.hitMask = p.hitMask)) := by
      intro st' r hf hi hr
      refine ⟨st', l ++ [r.isSome], ?_, hi, by simp [h3], ?_⟩
      · rw [zstdFeed_snoc, h1]; simp only [Except.bind, hf, Except.map]
      · intro i hlt
        simp only [List.length_append, List.length_singleton] at hlt
        by_cases hit : i < t.length
        · rw [List.getElem?_append_left (by omega), h4 i hit, List.take_append_of_le_length (by omega)]
        · have : i = t.length := by omega
          subst this
          rw [List.getElem?_append_right (by omega), h3, Nat.sub_self,
            List.take_of_length_le (by simp), hr]
          rfl
    rcases push_spec hp st _ h2 [b] with ⟨st2, k1, k2, k3⟩ | ⟨st2, j, k1, k2, k3, k4⟩
    · refine fin st2 none k1 k2 ?_
      have := k3 1 (by omega) (by simp)
      simp only [List.take_of_length_le (show [b].length ≤ 1 by simp)] at this
      symm
      rw [Option.isSome_none, decide_eq_false_iff_not]
      intro hx
      exact this ⟨by simp; omega, hx.2⟩
    · have hj : j = 0 := by simpa using k2
      subst hj
      refine fin st2 (some 0) k1 (by simpa using k3) ?_
      have := k4.2.2.1
      simp only [List.take_of_length_le (show [b].length ≤ 0 + 1 by simp)] at this
      symm
      rw [Option.isSome_some, decide_eq_true_iff]
      exact ⟨by have := this.1; simp at this; omega, this.2⟩

example : (zstdFeed Ex.zstd zdata).map (fun x => x.2.findIdxs (·)) = .ok [32, 64] := by decide +kernel

/-! ## C46 -/

/-- Two streams with a common tail `t`: the cuts after more than 32 bytes of `t` are at the same places. -/
theorem C46_zstd {prof : Profile} {size : BitVec 64} {p : Zstd.Zstd}
    (h : Zstd.withTargetSectionSize prof size = .ok p) (x y t : Bytes) : ∃ st l st' l',
      zstdFeed p (x ++ t) = .ok (st, l) ∧ zstdFeed p (y ++ t) = .ok (st', l') ∧
      l.length = x.length + t.length ∧ l'.length = y.length + t.length ∧
      (l.drop x.length).drop 32 = (l'.drop y.length).drop 32 := by
  obtain ⟨st, l, h1, h2, h3⟩ := zstdFeed_eq h (x ++ t)
  obtain ⟨st', l', k1, k2, k3⟩ := zstdFeed_eq h (y ++ t)
  rw [List.length_append] at h2 h3 k2 k3
  refine ⟨st, l, st', l', h1, k1, h2, k2, ?_⟩
  have key : ∀ (z : Bytes) (i : Nat), 32 ≤ i →
      lastN 32 ((z ++ t).take (z.length + i + 1)) = lastN 32 (t.take (i + 1)) ∨ t.length ≤ i := by
    intro z i hi
    by_cases hlt : t.length ≤ i
    · exact .inr hlt
    left
    rw [List.take_append, List.take_of_length_le (by omega), show z.length + i + 1 - z.length = i + 1 by omega,
      lastN, lastN, List.drop_append, List.drop_eq_nil_of_le, List.nil_append]
    · congr 1
      simp only [List.length_append, List.length_take]; omega
    · simp only [List.length_append, List.length_take]; omega
  apply List.ext_getElem?
  intro i
  rw [List.getElem?_drop, List.getElem?_drop, List.getElem?_drop, List.getElem?_drop]
  by_cases hlt : 32 + i < t.length
  · rw [h3 _ (by omega), k3 _ (by omega)]
    rcases key x (32 + i) (by omega) with e1 | e1
    · rcases key y (32 + i) (by omega) with e2 | e2
      · rw [e1, e2]
        congr 2
        simp only [eq_iff_iff]
        constructor
        · rintro ⟨_, h⟩; exact ⟨by omega, h⟩
        · rintro ⟨_, h⟩; exact ⟨by omega, h⟩
      · omega
    · omega
  · rw [List.getElem?_eq_none (by omega), List.getElem?_eq_none (by omega)]
example : (zstdFeed Ex.zstd ([1, 2, 3] ++ zdata)).map (fun x => x.2.findIdxs (·)) = .ok [35, 67] := by
  decide +kernel

/-! ## Re-pushing after a cut -/

/-- default parameters: cuts after 33 and after 37 bytes -/
def zdata2 : Bytes := 0 :: zhit ++ [0, 85, 17, 0]

example : (zstdFeed Ex.zstd zdata2).map (fun x => x.2.findIdxs (·)) = .ok [32, 36] := by decide +kernel

/-- `push` has consumed the byte whose index it returns, so that `iter_slices`-style re-pushing feeds it twice:
the second cut of `zdata2` is missed. Re-pushing from the byte after it finds the cut. -/
theorem C30_repush : (do
      let (st, r) ← (ZstdIncr.from Ex.zstd).push zdata2
      let (_, again) ← st.push (zdata2.drop 32)
      let (_, after) ← st.push (zdata2.drop 33)
      pure (r, again, after) : R _) = .ok (some 32, none, some 3) := by
  decide +kernel

end HashRoll.Props
