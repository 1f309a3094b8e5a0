import Verif.Props.Resync
/-!
# C58 counters, C59 parameters that make Gzip and RollSum panic
-/

namespace HashRoll.Props

open Spec

/-! ## C58

`need - prev` (`pos - prev`) is the number of bytes presented (pushed) since the last cut. -/

theorem fast_push_l (p : FastCdc.FastCdc) (st : FastCdc.FastCdcState) (data : Bytes) :
    match st.push p data with
    | (st', none)   => st'.l = st.l + data.length
    | (st', some _) => st' = FastCdc.FastCdcState.default := by
  unfold FastCdc.FastCdcState.push
  dsimp only
  generalize (if st.l ≤ p.minSize then p.minSize - st.l else 0) = skip
  by_cases h : data.length + st.l ≤ p.minSize
  · rw [if_pos h]
    exact Nat.add_comm _ _
  · rw [if_neg h]
    cases FastCdc.loop1 p (data.drop skip) (st.l + skip) skip st.fp with
    | ret i => rfl
    | done gi i fp =>
      dsimp only
      cases FastCdc.loop2 p (data.drop i) gi i fp with
      | ret i => rfl
      | done _ _ fp => exact Nat.add_comm _ _

theorem C58_fastcdc_fce (p : FastCdc.FastCdc) {s : Bytes} {st : (FastCdc.chunk p).State} {base need prev : Nat}
    {cs : List Bytes} (hr : FceRun (FastCdc.chunk p) Any s st base need prev cs) :
    base = need ∧ prev ≤ need ∧ st.l = need - prev := by
  induction hr with
  | start => exact ⟨rfl, Nat.le_refl _, rfl⟩
  | @cut st base need prev cs e st' c d hr h1 h2 _ hf ih =>
    obtain ⟨rfl, i2, i3⟩ := ih
    change p.findChunkEdge st (Spec.sub s base e) = _ at hf
    have hl := fast_push_l p st (Spec.sub s base e)
    unfold FastCdc.FastCdc.findChunkEdge at hf
    generalize st.push p (Spec.sub s base e) = x at hf hl
    obtain ⟨st2, _ | i⟩ := x
    · cases hf
    · cases hf
      refine ⟨by omega, by omega, ?_⟩
      rw [show st' = _ from hl]
      show 0 = _
      omega
  | @more st base need prev cs e st' d hr h1 h2 _ hf ih =>
    obtain ⟨rfl, i2, i3⟩ := ih
    change p.findChunkEdge st (Spec.sub s base e) = _ at hf
    have hl := fast_push_l p st (Spec.sub s base e)
    unfold FastCdc.FastCdc.findChunkEdge at hf
    have hlen : (Spec.sub s base e).length = e - base := by rw [sub_length]; omega
    generalize st.push p (Spec.sub s base e) = x at hf hl
    obtain ⟨st2, _ | i⟩ := x
    · cases hf
      have hl : st'.l = st.l + (Spec.sub s base e).length := hl
      refine ⟨by omega, by omega, by omega⟩
    · cases hf
example : ∃ st b n p cs, FceRun (FastCdc.chunk Ex.fast) Any sample st b n p cs ∧ cs.length = 1 ∧ st.l = 2 :=
  ⟨_, _, _, _, _, .more (e := 7) (.cut (e := 20) .start (by decide) (by decide) trivial rfl)
    (by decide) (by decide) trivial rfl, rfl, rfl⟩

theorem C58_fastcdc_incr (p : FastCdc.FastCdc) {s : Bytes} {st : (FastCdc.incr p).State} {pos prev : Nat}
    {cs : List Bytes} (hr : IncrRun (FastCdc.incr p) s st pos prev cs) :
    prev ≤ pos ∧ st.state.l = pos - prev := by
  induction hr with
  | start => exact ⟨Nat.le_refl _, rfl⟩
  | @cut st pos prev cs e st' i hr h1 h2 hf ih =>
    change st.push (Spec.sub s pos e) = _ at hf
    have hl := fast_push_l st.params st.state (Spec.sub s pos e)
    unfold FastCdc.FastCdcIncr.push at hf
    generalize st.state.push st.params (Spec.sub s pos e) = x at hf hl
    obtain ⟨st2, _ | j⟩ := x
    · cases hf
    · cases hf
      refine ⟨by omega, ?_⟩
      show FastCdc.FastCdcState.l st2 = _
      rw [show st2 = _ from hl]
      show 0 = _
      omega
  | @more st pos prev cs e st' hr h1 h2 hf ih =>
    obtain ⟨i1, i2⟩ := ih
    change st.push (Spec.sub s pos e) = _ at hf
    have hl := fast_push_l st.params st.state (Spec.sub s pos e)
    unfold FastCdc.FastCdcIncr.push at hf
    have hlen : (Spec.sub s pos e).length = e - pos := by rw [sub_length]; omega
    generalize st.state.push st.params (Spec.sub s pos e) = x at hf hl
    obtain ⟨st2, _ | j⟩ := x
    · cases hf
      have hl : st2.l = st.state.l + (Spec.sub s pos e).length := hl
      refine ⟨by omega, ?_⟩
      show FastCdc.FastCdcState.l st2 = _
      omega
    · cases hf
example : ∃ st b p cs, IncrRun (FastCdc.incr Ex.fast) sample st b p cs ∧ cs.length = 1 ∧ st.state.l = 2 :=
  ⟨_, _, _, _, .more (e := 6) (.cut (e := 20) .start (by decide) (by decide) rfl) (by decide) (by decide) rfl, rfl, rfl⟩

theorem C58_ram_fce (p : Ram.Ram) {s : Bytes} {st : (Ram.chunk p).State} {base need prev : Nat}
    {cs : List Bytes} (hr : FceRun (Ram.chunk p) Any s st base need prev cs) : st.i = need - prev ∧ need ≤ s.length := by
  obtain ⟨h1, h2, h3, h4⟩ := (Ram.fceSpec p).run hr
  have := h4.1.1
  rw [sub_length] at this
  exact ⟨by omega, h3⟩
example : ∃ st b n p cs, FceRun (Ram.chunk (Ram.Ram.withW 2)) Any sample st b n p cs ∧ cs.length = 1 ∧ st.i = 4 :=
  ⟨_, _, _, _, _, .more (e := 9) (.cut (e := 20) .start (by decide) (by decide) trivial rfl)
    (by decide) (by decide) trivial rfl, rfl, rfl⟩

theorem C58_ram_incr (p : Ram.Ram) {s : Bytes} {st : (Ram.incr p).State} {pos prev : Nat}
    {cs : List Bytes} (hr : IncrRun (Ram.incr p) s st pos prev cs) : st.state.i = pos - prev ∧ pos ≤ s.length := by
  obtain ⟨h1, h2, h3⟩ := (Ram.before p).incrSpec.run hr
  have := h3.1.2.1
  rw [sub_length] at this
  exact ⟨by omega, h2⟩
example : ∃ st b p cs, IncrRun (Ram.incr (Ram.Ram.withW 2)) sample st b p cs ∧ cs.length = 1 ∧ st.state.i = 4 :=
  ⟨_, _, _, _, .more (e := 8) (.cut (e := 20) .start (by decide) (by decide) rfl) (by decide) (by decide) rfl, rfl, rfl⟩

theorem C58_zpaq_fce (p : Zpaq.Zpaq) {s : Bytes} {st : (Zpaq.chunk p).State} {base need prev : Nat}
    {cs : List Bytes} (hr : FceRun (Zpaq.chunk p) Any s st base need prev cs) : st.idx = need - prev ∧ need ≤ s.length := by
  obtain ⟨h1, h2, h3, h4⟩ := (Zpaq.fceLoop p).fceSpec.run hr
  have : st.idx = (Spec.sub s prev need).length := h4.1.2
  rw [sub_length] at this
  exact ⟨by omega, h3⟩
example : ∃ st b n p cs, FceRun (Zpaq.chunk Ex.zpaq) Any sample st b n p cs ∧ cs.length = 5 ∧ st.idx = 2 :=
  ⟨_, _, _, _, _, .more (e := 7) (.cut (e := 20) (.cut (e := 20) (.cut (e := 20) (.cut (e := 20) (.cut (e := 20) .start
    (by decide) (by decide) trivial rfl) (by decide) (by decide) trivial rfl) (by decide) (by decide) trivial rfl)
    (by decide) (by decide) trivial rfl) (by decide) (by decide) trivial rfl) (by decide) (by decide) trivial rfl, rfl, rfl⟩

theorem C58_zpaq_incr (p : Zpaq.Zpaq) {s : Bytes} {st : (Zpaq.incr p).State} {pos prev : Nat}
    {cs : List Bytes} (hr : IncrRun (Zpaq.incr p) s st pos prev cs) : st.idx = pos - prev ∧ pos ≤ s.length := by
  obtain ⟨h1, h2, h3⟩ := (Zpaq.incrLoop p).incrSpec.run hr
  have : st.idx = (Spec.sub s prev pos).length := h3.1.2.2
  rw [sub_length] at this
  exact ⟨by omega, h2⟩
example : ∃ st b p cs, IncrRun (Zpaq.incr Ex.zpaq) sample st b p cs ∧ cs.length = 1 ∧ st.idx = 2 :=
  ⟨_, _, _, _, .more (e := 4) (.cut (e := 20) .start (by decide) (by decide) rfl) (by decide) (by decide) rfl, rfl, rfl⟩

theorem C58_buzhash_incr (p : Buzhash.BuzHash) (hk : 0 < p.k) {s : Bytes} {st : (Buzhash.incr p).State} {pos prev : Nat}
    {cs : List Bytes} (hr : IncrRun (Buzhash.incr p) s st pos prev cs) :
    st.inputIdx = pos - prev ∧ pos ≤ s.length ∧ st.inputIdx ≤ p.maxChunkSize := by
  obtain ⟨h1, h2, h3⟩ := (Buzhash.incrLoop p hk).incrSpec.run hr
  have h4 : Buzhash.Inv p st (Spec.sub s prev pos) := h3.1
  have := h4.input
  have hno := h3.2
  have hl : (Spec.sub s prev pos).length = pos - prev := by rw [sub_length]; omega
  refine ⟨by omega, h2, ?_⟩
  rcases Nat.lt_or_ge p.maxChunkSize st.inputIdx with h | h
  · refine absurd ?_ (hno (pos - prev) (by omega) (by omega))
    right
    rw [List.length_take]
    omega
  · exact h
example : ∃ st b p cs, IncrRun (Buzhash.incr Ex.buz) sample st b p cs ∧ cs.length = 1 ∧ st.inputIdx = 2 :=
  ⟨_, _, _, _, .more (e := 9) (.cut (e := 20) .start (by decide) (by decide) rfl) (by decide) (by decide) rfl, rfl, rfl⟩

theorem run_increment {w : Nat} {st : Mii.MiiIncr} {q : Bytes} (h : Mii.Run w st q) : st.increment ≤ 255 := by
  have h1 := increasing_length h.run
  have h2 := h.le
  rw [lastN_length] at h1
  omega

theorem C58_mii_fce (p : Mii.Mii) {s : Bytes} {st : (Mii.chunk p).State} {base need prev : Nat}
    {cs : List Bytes} (hr : FceRun (Mii.chunk p) Any s st base need prev cs) :
    st.incr.increment ≤ 255 ∧ (p.w = 0 ∨ st.incr.increment < p.w) := by
  have h : Mii.Run p.w st.incr _ := ((Mii.fceSpec p).run hr).2.2.2.1
  exact ⟨run_increment h, h.lt⟩
example : ∃ st b n p cs, FceRun (Mii.chunk (Mii.Mii.withW 2)) Any sample st b n p cs ∧ cs.length = 1 ∧ st.incr.increment = 1 :=
  ⟨_, _, _, _, _, .more (e := 8) (.cut (e := 20) .start (by decide) (by decide) trivial rfl)
    (by decide) (by decide) trivial rfl, rfl, rfl⟩

theorem C58_mii_incr (p : Mii.Mii) {s : Bytes} {st : (Mii.incr p).State} {pos prev : Nat}
    {cs : List Bytes} (hr : IncrRun (Mii.incr p) s st pos prev cs) :
    st.increment ≤ 255 ∧ (p.w = 0 ∨ st.increment < p.w) := by
  have h : Mii.Run p.w st _ := ((Mii.incrLoop p).incrSpec.run hr).2.2.1
  exact ⟨run_increment h, h.lt⟩
example : ∃ st b p cs, IncrRun (Mii.incr (Mii.Mii.withW 2)) sample st b p cs ∧ cs.length = 1 ∧ st.increment = 1 :=
  ⟨_, _, _, _, .more (e := 7) (.cut (e := 20) .start (by decide) (by decide) rfl) (by decide) (by decide) rfl, rfl, rfl⟩

/-! ## C59 -/

/-- Gzip, modulus 0: the first byte panics in `find_chunk_edge`, whatever the window. -/
theorem C59_gzip_modulus_fce (w : Nat) (v : UInt8) (data : Bytes) :
    (Gzip.chunk { windowLen := w, modulus := 0 }).fce (Gzip.chunk { windowLen := w, modulus := 0 }).init (v :: data) =
      .error .remByZero := by
  show Gzip.GzipRsyncable.findChunkEdge _ Gzip.GzipRsyncableSearchState.default (v :: data) = _
  rw [Gzip.fce_eq]
  have hb : Gzip.fceBody { windowLen := w, modulus := 0 } (v :: data) 0 Gzip.GzipRsyncableSearchState.default =
      .error .remByZero := by
    unfold Gzip.fceBody Gzip.GzipRsyncableState.add
    by_cases hw : 0 ≥ w
    · simp [index, hw, Gzip.remIsZero]
    · simp [index, hw, Gzip.remIsZero]
  have : forRange (Gzip.fceBody { windowLen := w, modulus := 0 } (v :: data))
      ((v :: data).length - Gzip.GzipRsyncableSearchState.default.offset) Gzip.GzipRsyncableSearchState.default.offset
      Gzip.GzipRsyncableSearchState.default = .error .remByZero := by
    show forRange _ (data.length + 1) 0 _ = _
    rw [forRange, hb]
  rw [this]
example : sumDoc (Gzip.chunk { windowLen := 3, modulus := 0 }) sample = .error .remByZero := by decide +kernel

/-- … and in `push` (for a positive window; a zero window panics before that). -/
theorem C59_gzip_modulus_incr (w : Nat) (hw : 0 < w) (v : UInt8) (data : Bytes) :
    (Gzip.incr { windowLen := w, modulus := 0 }).push (Gzip.incr { windowLen := w, modulus := 0 }).init (v :: data) =
      .error .remByZero := by
  have hb : Gzip.pushBody 0 v (Gzip.GzipRsyncableIncr.from { windowLen := w, modulus := 0 }) = .error .remByZero := by
    have : ¬ 0 ≥ w := by omega
    unfold Gzip.pushBody Gzip.GzipRsyncableIncr.from
    simp only [List.length_nil, this, if_false]
    rfl
  show Gzip.GzipRsyncableIncr.push _ _ = _
  rw [Gzip.push_eq, forEnum, hb]
example : (0 : Nat) < 3 := by decide

/-- GzipRsyncableIncr, window 0: the first byte panics (`pop_front().unwrap()` on an empty queue). -/
theorem C59_gzip_window_incr (m : BitVec 64) (v : UInt8) (data : Bytes) :
    (Gzip.incr { windowLen := 0, modulus := m }).push (Gzip.incr { windowLen := 0, modulus := m }).init (v :: data) =
      .error .unwrapNone := by
  have hb : Gzip.pushBody 0 v (Gzip.GzipRsyncableIncr.from { windowLen := 0, modulus := m }) = .error .unwrapNone := rfl
  refine (Gzip.push_eq (Gzip.GzipRsyncableIncr.from { windowLen := 0, modulus := m }) (v :: data)).trans ?_
  rw [forEnum, hb]

theorem chunked_bytes {e : Bytes → Prop} (h : ∀ p, e p) (data : Bytes) (hist : Bytes) :
    Chunked (EdgeRule (Local e)) hist data (data.map fun b => [b]) [] := by
  induction data generalizing hist with
  | nil =>
    refine .rem fun n hn => ?_
    have h1 := hn.1
    have h2 : n ≤ 0 := hn.2.1
    omega
  | cons b data ih =>
    exact .cut (n := 1) ⟨Nat.le_refl _, by simp, h _, by intro m _ _; omega⟩ (ih _)

/-- GzipRsyncable, window 0: `find_chunk_edge` cuts after every byte. -/
theorem C59_gzip_window_fce (m : BitVec 64) (hm : m ≠ 0) (data : Bytes) :
    ∃ rest, sumDoc (Gzip.chunk { windowLen := 0, modulus := m }) data = .ok (data.map fun b => [b], some rest) := by
  obtain ⟨cs, r, rest, h1, h2, _⟩ := C08_gzip { windowLen := 0, modulus := m } hm data (data.length + 1) (Nat.lt_succ_self _)
  have := h2.det (EdgeRule.good _) (chunked_bytes (fun p => by simp [gzipEdge, lastN]) data [])
  refine ⟨rest, ?_⟩
  rw [sumDoc, h1, this.1]
example : (4096 : BitVec 64) ≠ 0 := by decide

/-- RollSumIncr, window 0: the first byte panics (`window[wofs]` out of bounds). -/
theorem C59_rollsum_incr (v : UInt8) (data : Bytes) :
    (Bup.incr (Bup.RollSum.withWindow 0)).push (Bup.incr (Bup.RollSum.withWindow 0)).init (v :: data) =
      .error .indexOutOfBounds := by
  have hb : Bup.pushBody 0 v (Bup.RollSumIncr.from (Bup.RollSum.withWindow 0)) = .error .indexOutOfBounds := rfl
  refine (Bup.push_eq (Bup.RollSumIncr.from (Bup.RollSum.withWindow 0)) (v :: data)).trans ?_
  rw [forEnum, hb]

/-- Windows of at most 6 bytes are too short for the sum to reach 8191. -/
theorem bup_small {W : Nat} (hW : W ≤ 6) (p : Bytes) : ¬ bupEdge W p := by
  have tight : ∀ (l : Bytes), l.length ≤ 6 →
      (l.zipIdx.map fun x => (x.2 + 1) * x.1.toNat).sum ≤ 255 * 21 := by
    intro l hl
    have hb : ∀ b : UInt8, b.toNat ≤ 255 := fun b => by have := b.toNat_lt; omega
    match l, hl with
    | [], _ => simp
    | [a], _ => have := hb a; simp; omega
    | [a, b], _ => have := hb a; have := hb b; simp; omega
    | [a, b, c], _ => have := hb a; have := hb b; have := hb c; simp; omega
    | [a, b, c, d], _ => have := hb a; have := hb b; have := hb c; have := hb d; simp; omega
    | [a, b, c, d, e], _ => have := hb a; have := hb b; have := hb c; have := hb d; have := hb e; simp; omega
    | [a, b, c, d, e, f], _ =>
      have := hb a; have := hb b; have := hb c; have := hb d; have := hb e; have := hb f; simp; omega
    | _ :: _ :: _ :: _ :: _ :: _ :: _ :: _, hl => simp only [List.length_cons] at hl; omega
  unfold bupEdge bupS2
  have h1 := tight (lastN W p).reverse (by rw [List.length_reverse, lastN_length]; omega)
  have h2 : 31 * W * (W - 1) ≤ 930 := by
    have : 31 * W ≤ 186 := by omega
    exact Nat.le_trans (Nat.mul_le_mul this (by omega : W - 1 ≤ 5)) (by decide)
  rw [Nat.mod_eq_of_lt (by omega)]
  omega

/-- RollSum, window 0: `find_chunk_edge` never cuts. -/
theorem C59_rollsum_fce {s : Bytes} {st : (Bup.chunk (Bup.RollSum.withWindow 0)).State} {base need prev : Nat}
    {cs : List Bytes} (hr : FceRun (Bup.chunk (Bup.RollSum.withWindow 0)) Any s st base need prev cs) : cs = [] := by
  cases cs with
  | nil => rfl
  | cons c cs =>
    obtain ⟨h, d, n, hrule, _⟩ := (Bup.fce_conforms _).run_mem (EdgeRule.good _) hr c List.mem_cons_self
    exact absurd hrule.2.2.1 (bup_small (by decide) _)
example : ∃ st b n p cs, FceRun (Bup.chunk (Bup.RollSum.withWindow 0)) Any sample st b n p cs ∧ n = 7 :=
  ⟨_, _, _, _, _, .more (e := 7) .start (by decide) (by decide) trivial rfl, rfl⟩

/-- All other parameters: no call panics, in any state (`find_chunk_edge`) or any reachable one (`push`). -/
theorem C59_no_panic :
    (∀ p : Gzip.GzipRsyncable, p.modulus ≠ 0 → Total (Gzip.chunk p)) ∧
    (∀ p : Gzip.GzipRsyncable, p.modulus ≠ 0 → 0 < p.windowLen → Safe (Gzip.incr p)) ∧
    (∀ p : Bup.RollSum, Total (Bup.chunk p)) ∧
    (∀ p : Bup.RollSum, 0 < p.windowLen → Safe (Bup.incr p)) :=
  ⟨Gzip.total, Gzip.safe, Bup.total, Bup.safe⟩

/-- `BuzHash::new` refuses `k = 0` (C54). Were `k` zero nevertheless, `push_byte` would panic in every state: at the
index when the ring buffer is empty (as `From<BuzHash>` makes it), at the remainder when it is not. -/
theorem C59_buzhash_zero (self : Buzhash.BuzHashIncr) (v : UInt8) (hk : self.params.k = 0) :
    self.pushByte v = .error (if self.bufIdx < self.buf.length then .remByZero else .indexOutOfBounds) := by
  unfold Buzhash.BuzHashIncr.pushByte
  have h1 : self.inputIdx ≥ self.params.k := by omega
  by_cases hb : self.bufIdx < self.buf.length
  · have hi : index self.buf self.bufIdx = .ok self.buf[self.bufIdx] := by simp [index, hb]
    simp [h1, hi, hb, Buzhash.remNat, hk]
  · have hi : index self.buf self.bufIdx = .error .indexOutOfBounds := by simp [index, hb]
    simp [h1, hi, hb]
example : (Buzhash.BuzHashIncr.from { Ex.buz with k := 0 }).params.k = 0 ∧
    ((Buzhash.incr { Ex.buz with k := 0 }).push (Buzhash.BuzHashIncr.from { Ex.buz with k := 0 }) sample).toBool = false := by
  exact ⟨rfl, rfl⟩

/-- C62. RollSum with a window of at most 6 bytes never cuts anything; with 7 it can. -/
theorem C62_small {W : Nat} (hW : W ≤ 6) {s : Bytes} {st : (Bup.chunk (Bup.RollSum.withWindow W)).State}
    {base need prev : Nat} {cs : List Bytes}
    (hr : FceRun (Bup.chunk (Bup.RollSum.withWindow W)) Any s st base need prev cs) : cs = [] := by
  cases cs with
  | nil => rfl
  | cons c cs =>
    obtain ⟨h, d, n, hrule, _⟩ := (Bup.fce_conforms _).run_mem (EdgeRule.good _) hr c List.mem_cons_self
    exact absurd hrule.2.2.1 (bup_small hW _)
example : ∃ st b n p cs, FceRun (Bup.chunk (Bup.RollSum.withWindow 6)) Any sample st b n p cs ∧ n = 7 :=
  ⟨_, _, _, _, _, .more (e := 7) .start (by decide) (by decide) trivial rfl, rfl⟩

theorem C62_seven : bupEdge 7 [232, 254, 252, 252, 249, 253, 220] := by
  show bupS2 7 _ % 8192 = 8191
  decide

end HashRoll.Props
