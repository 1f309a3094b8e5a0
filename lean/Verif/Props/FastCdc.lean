import Verif.Props.Conformance
/-!
# C12 (the out-of-range cut of FastCdc::find_chunk_edge), C36, C41, C56
-/

namespace HashRoll.Props

open Spec FastCdc

/-- Whenever the buffer is exactly `max_size` long and has no cut inside, `find_chunk_edge` on a fresh search
state reports a cut (and a discard) one past the end of the buffer. -/
theorem C12_out_of_range (p : FastCdc) (hnm : p.normalSize ≤ p.maxSize) (hmm : p.minSize < p.maxSize)
    (data : Bytes) (hl : data.length = p.maxSize)
    (hno : ∀ m, p.minSize < m → m ≤ data.length →
      ¬ fastHit (lookup p.gear) p.minSize p.normalSize (data.take m)) :
    (chunk p).fce (chunk p).init data = .ok ((chunk p).init, some (data.length + 1), data.length + 1) := by
  have hs := push_spec p hnm FastCdcState.default [] (stInv_default p) data
  simp only [List.nil_append, List.length_nil, Nat.zero_add] at hs
  rcases hs with ⟨st', _, _, h | ⟨_, h, _⟩⟩ | ⟨i, n, hp, hn, hle, hmin, hminl, hwhy, hearly⟩
  · omega
  · omega
  · have hi : i = data.length := by
      rcases hwhy with h | ⟨h1, h2⟩
      · omega
      · exact absurd h2 (hno (n + 1) (by omega) (by omega))
    show p.findChunkEdge FastCdcState.default data = _
    simp [FastCdc.findChunkEdge, hp, hi]

/-- a step of the gear fingerprint over zero bytes -/
def z (fp : BitVec 64) : BitVec 64 := (fp <<< 1) + lookup Tables.gear64 0

def zs : Nat → BitVec 64
  | 0     => 0
  | n + 1 => z (zs n)

theorem gearSum_zero : ∀ n, gearSum (lookup Tables.gear64) (List.replicate n 0) = zs n := by
  intro n
  induction n with
  | zero => simp [gearSum, zs]
  | succ n ih => rw [List.replicate_succ', gearSum_snoc, ih]; rfl

theorem zs_fix : ∀ n, zs (64 + n) = zs 64 := by
  intro n
  induction n with
  | zero => rfl
  | succ n ih =>
    show z (zs (64 + n)) = _
    rw [ih]
    decide +kernel

theorem zs_no_hit (n : Nat) (h : 1 ≤ n) :
    ¬ zs n &&& 0x0003590703530000 = 0 ∧ ¬ zs n &&& 0x0000d90003530000 = 0 := by
  have hs : ∀ k : Fin 64, ¬ zs (k.1 + 1) &&& 0x0003590703530000 = 0 ∧ ¬ zs (k.1 + 1) &&& 0x0000d90003530000 = 0 := by
    decide +kernel
  rcases Nat.lt_or_ge n 65 with h' | h'
  · have := hs ⟨n - 1, by omega⟩
    simp only [show n - 1 + 1 = n by omega] at this
    exact this
  · have := hs ⟨63, by omega⟩
    rw [show n = 64 + (n - 64) by omega, zs_fix]
    exact this

/-- With the built-in table and any sizes: a buffer of `max_size` zeros has its cut reported outside. -/
theorem C12_zeros (p : FastCdc) (hg : p.gear = Tables.gear64) (hnm : p.normalSize ≤ p.maxSize)
    (hmm : p.minSize < p.maxSize) :
    (chunk p).fce (chunk p).init (List.replicate p.maxSize 0) =
      .ok ((chunk p).init, some (p.maxSize + 1), p.maxSize + 1) := by
  have := C12_out_of_range p hnm hmm (List.replicate p.maxSize 0) (by simp)
    (by
      intro m h1 h2
      rw [List.length_replicate] at h2
      unfold fastHit
      rw [List.take_replicate, Nat.min_eq_left h2, List.drop_replicate, hg, gearSum_zero]
      have := zs_no_hit (m - p.minSize) (by omega)
      split
      · exact this.1
      · exact this.2)
  simpa using this

/-- The range part of C12 is false of the code, with the default parameters: on a buffer of 64 KiB of zeros,
`find_chunk_edge` returns a cut point and a discard count of 65537. -/
theorem C12_refuted : ∃ data : Bytes, data.length = 65536 ∧
    (chunk FastCdc.default).fce (chunk FastCdc.default).init data =
      .ok ((chunk FastCdc.default).init, some 65537, 65537) := by
  have h := C12_zeros FastCdc.default rfl (by decide) (by decide)
  have hm : FastCdc.default.maxSize = 65536 := rfl
  rw [hm] at h
  exact ⟨List.replicate 65536 0, List.length_replicate .., h⟩

/-- … and so the documented loop panics on it. -/
theorem C12_doc_panics : ∃ data : Bytes, data.length = 65536 ∧
    (chunk FastCdc.default).docLoop data 1 (chunk FastCdc.default).init data 0 = .error .sliceIndex := by
  obtain ⟨data, hl, h⟩ := C12_refuted
  refine ⟨data, hl, ?_⟩
  have h' : FastCdc.default.findChunkEdge FastCdcState.default data =
      .ok (FastCdcState.default, some 65537, 65537) := h
  simp only [Chunk.docLoop, h']
  simp [slice, hl]

/-! ## C36 -/

/-- For every slicing: every complete chunk of FastCdcIncr is between `min_size` and `max_size` long. -/
theorem C36_incr (p : FastCdc) (hnm : p.normalSize ≤ p.maxSize) (hmm : p.minSize < p.maxSize)
    {s : Bytes} {st pos prev cs} (hr : IncrRun (incr p) s st pos prev cs) :
    ∀ c ∈ cs, p.minSize ≤ c.length ∧ c.length ≤ p.maxSize := by
  intro c hc
  obtain ⟨h, d, n, hrule, rfl⟩ := (FastCdc.incr_conforms p hnm hmm).run_mem (fastIncrRule.good _ _ _ _) hr c hc
  obtain ⟨h1, h2, h3, _⟩ := hrule
  rw [List.length_take, Nat.min_eq_left h3]
  exact ⟨h1, h2⟩
example : ∃ st b p cs, IncrRun (FastCdc.incr Ex.fast) sample st b p cs ∧ cs.length = 1 :=
  ⟨_, _, _, _, .cut (e := 20) .start (by decide) (by decide) rfl, rfl⟩

/-- For every schedule without the out-of-range cut: every complete chunk of `find_chunk_edge` is longer than
`min_size` and at most `max_size + 1` long; if it is at most `max_size` long, it ends with a matching byte. -/
theorem C36_fce (p : FastCdc) (hnm : p.normalSize ≤ p.maxSize) (hmm : p.minSize < p.maxSize)
    {s : Bytes} {st base need prev cs}
    (hr : FceRun (chunk p) (fun prev _ e => e - prev ≠ p.maxSize) s st base need prev cs) :
    ∀ c ∈ cs, p.minSize < c.length ∧ c.length ≤ p.maxSize + 1 ∧
      (c.length ≤ p.maxSize → fastHit (lookup p.gear) p.minSize p.normalSize c) := by
  intro c hc
  obtain ⟨h, d, n, hrule, rfl⟩ := (FastCdc.fce_conforms p hnm).run_mem (EdgeRule.good _) hr c hc
  obtain ⟨h1, h2, ⟨h3, h4⟩, h5⟩ := hrule
  refine ⟨h3, ?_, fun h => h4.resolve_left (by omega)⟩
  rw [List.length_take, Nat.min_eq_left h2]
  by_contra hgt
  apply h5 (p.maxSize + 1) (by omega) (by omega)
  have hl : (d.take (p.maxSize + 1)).length = p.maxSize + 1 := by rw [List.length_take]; omega
  exact ⟨by omega, .inl (by omega)⟩

/-- With `max_size < normal_size` the chunks depend on the slicing: pushing six zeros at once cuts after six
bytes, pushing five and then one cuts after five. -/
theorem C36_max_lt_normal :
    let C := incr (FastCdc.new Tables.gear64 1 8 4)
    (C.push C.init [0, 0, 0, 0, 0, 0]).map (·.2) = .ok (some 6) ∧
    (C.push C.init [0, 0, 0, 0, 0]).map (·.2) = .ok (some 5) := by
  decide +kernel

/-! ## C41 -/

/-- Two chunks-so-far of equal length, at least `min_size + 64` long, ending with the same 64 bytes, get the
same decision from either API. -/
theorem C41_local (G : UInt8 → BitVec 64) (min normal max : Nat) (x y t : Bytes) (hxy : x.length = y.length)
    (hx : min ≤ x.length) (ht : t.length = 64) :
    (fastHit G min normal (x ++ t) ↔ fastHit G min normal (y ++ t)) ∧
    (fastFceEdge G min normal max (x ++ t) ↔ fastFceEdge G min normal max (y ++ t)) ∧
    (fastByteEdge G min normal max (x ++ t) ↔ fastByteEdge G min normal max (y ++ t)) := by
  have hd : ∀ z : Bytes, min ≤ z.length → gearSum G ((z ++ t).drop min) = gearSum G t := by
    intro z hz
    rw [List.drop_append_of_le_length hz, gearSum_lastN]
    congr 1
    unfold lastN
    simp [ht]
  have hl : (x ++ t).length = (y ++ t).length := by simp [hxy]
  have hh : fastHit G min normal (x ++ t) ↔ fastHit G min normal (y ++ t) := by
    unfold fastHit
    rw [hd x hx, hd y (by omega), hl]
  refine ⟨hh, ?_, ?_⟩
  · unfold fastFceEdge; rw [hh, hl]
  · unfold fastByteEdge; rw [hh, hl]
example : ∃ x y t : Bytes, x ≠ y ∧ x.length = y.length ∧ 2 ≤ x.length ∧ t.length = 64 :=
  ⟨[1, 2], [3, 4], List.replicate 64 9, by decide, rfl, by decide, by simp⟩

/-! ## C56 -/

theorem loop1_oracle (p : FastCdc) (hg : p.gear = Tables.gear64) (src : Bytes) :
    ∀ k i fp, i + k = Nat.min p.normalSize src.length →
      (∃ j, oracleLoop src maskS k i fp = .ok (.inl j) ∧ loop1 p (src.drop i) i i fp = .ret j) ∨
      (∃ fp', oracleLoop src maskS k i fp = .ok (.inr fp') ∧
        loop1 p (src.drop i) i i fp = .done (i + k) (i + k) fp') := by
  intro k
  induction k with
  | zero =>
    intro i fp h
    right
    refine ⟨fp, rfl, ?_⟩
    rcases Nat.lt_or_ge i src.length with hlt | hge
    · rw [List.drop_eq_getElem_cons hlt]
      have : i ≥ p.normalSize := by have : Nat.min p.normalSize src.length = min p.normalSize src.length := rfl; omega
      simp [loop1, this]
    · rw [List.drop_of_length_le hge]; simp [loop1]
  | succ k ih =>
    intro i fp h
    have hmin : Nat.min p.normalSize src.length = min p.normalSize src.length := rfl
    have hlt : i < src.length := by omega
    have hlt' : ¬ i ≥ p.normalSize := by omega
    have hidx : index src i = .ok src[i] := by simp [index, hlt]
    rw [List.drop_eq_getElem_cons hlt]
    simp only [oracleLoop, hidx, loop1, hlt', if_false, hg]
    by_cases hz : (fp <<< 1 + lookup Tables.gear64 src[i]) &&& maskS = 0
    · left; exact ⟨i, by simp [hz], by simp [hz]⟩
    · simp only [hz, if_false]
      have := ih (i + 1) (fp <<< 1 + lookup Tables.gear64 src[i]) (by omega)
      rwa [show i + 1 + k = i + (k + 1) by omega] at this

theorem loop2_oracle (p : FastCdc) (hg : p.gear = Tables.gear64) (src : Bytes) :
    ∀ k i fp, i + k = Nat.min p.maxSize src.length →
      (∃ j, oracleLoop src maskL k i fp = .ok (.inl j) ∧ loop2 p (src.drop i) i i fp = .ret j) ∨
      (∃ fp', oracleLoop src maskL k i fp = .ok (.inr fp') ∧
        loop2 p (src.drop i) i i fp =
          if p.maxSize ≤ src.length then .ret p.maxSize else .done (i + k) (i + k) fp') := by
  intro k
  induction k with
  | zero =>
    intro i fp h
    have hmin : Nat.min p.maxSize src.length = min p.maxSize src.length := rfl
    right
    refine ⟨fp, rfl, ?_⟩
    rcases Nat.lt_or_ge i src.length with hlt | hge
    · rw [List.drop_eq_getElem_cons hlt]
      have h1 : i = p.maxSize := by omega
      have h2 : p.maxSize ≤ src.length := by omega
      simp [loop2, h1, h2]
    · rw [List.drop_of_length_le hge]
      by_cases h2 : p.maxSize ≤ src.length
      · have h1 : i = p.maxSize := by omega
        simp [loop2, h1, h2]
      · have h1 : ¬ i ≥ p.maxSize := by omega
        simp only [loop2, h1, h2, if_false, Nat.add_zero]
  | succ k ih =>
    intro i fp h
    have hmin : Nat.min p.maxSize src.length = min p.maxSize src.length := rfl
    have hlt : i < src.length := by omega
    have hlt' : ¬ i ≥ p.maxSize := by omega
    have hidx : index src i = .ok src[i] := by simp [index, hlt]
    rw [List.drop_eq_getElem_cons hlt]
    simp only [oracleLoop, hidx, loop2, hlt', if_false, hg]
    by_cases hz : (fp <<< 1 + lookup Tables.gear64 src[i]) &&& maskL = 0
    · left; exact ⟨i, by simp [hz], by simp [hz]⟩
    · simp only [hz, if_false]
      have := ih (i + 1) (fp <<< 1 + lookup Tables.gear64 src[i]) (by omega)
      rwa [show i + 1 + k = i + (k + 1) by omega] at this

/-- The first push of a default FastCdcIncr returns what the reference implementation of the tests returns, `0`
standing for `None`. -/
theorem C56_oracle (src : Bytes) : ∃ st r,
    (incr FastCdc.default).push (incr FastCdc.default).init src = .ok (st, r) ∧
    fastCdc8kb src = .ok (r.getD 0) := by
  refine ⟨_, _, rfl, ?_⟩
  show fastCdc8kb src = .ok ((FastCdcState.default.push FastCdc.default src).2.getD 0)
  by_cases hmin : src.length ≤ 2 * 1024
  · simp [fastCdc8kb, FastCdcState.push, FastCdcState.default, FastCdc.default, hmin]
  · have hl0 : FastCdcState.default.l = 0 := rfl
    have hf0 : FastCdcState.default.fp = 0 := rfl
    have hle0 : 0 ≤ 2 * 1024 := Nat.zero_le _
    have hn : FastCdc.default.normalSize = 8 * 1024 := rfl
    have hm : FastCdc.default.minSize = 2 * 1024 := rfl
    have hx : FastCdc.default.maxSize = 64 * 1024 := rfl
    unfold FastCdcState.push
    simp only [hl0, hf0, Nat.add_zero, if_false, fastCdc8kb, hmin, hle0, if_true, Nat.sub_zero, Nat.zero_add, hm]
    -- the two sizes the oracle works with
    obtain ⟨N, L, hNL, hL, hN⟩ : ∃ N L, (if src.length ≥ 64 * 1024 then (64 * 1024, 8 * 1024)
        else if src.length ≤ 8 * 1024 then (src.length, src.length) else (src.length, 8 * 1024)) = (N, L) ∧
        L = Nat.min (8 * 1024) src.length ∧ N = Nat.min (64 * 1024) src.length := by
      rcases Nat.lt_or_ge src.length (64 * 1024) with h | h
      · by_cases h' : src.length ≤ 8 * 1024
        · exact ⟨src.length, src.length, by rw [if_neg (by omega), if_pos h'],
            (Nat.min_eq_right h').symm, (Nat.min_eq_right (by omega)).symm⟩
        · exact ⟨src.length, 8 * 1024, by rw [if_neg (by omega), if_neg h'],
            (Nat.min_eq_left (by omega)).symm, (Nat.min_eq_right (by omega)).symm⟩
      · exact ⟨64 * 1024, 8 * 1024, by rw [if_pos h],
          (Nat.min_eq_left (by omega)).symm, (Nat.min_eq_left h).symm⟩
    have hL' : L = min (8 * 1024) src.length := hL
    have hN' : N = min (64 * 1024) src.length := hN
    rw [hNL]
    simp only
    rcases loop1_oracle FastCdc.default rfl src (L - 2 * 1024) (2 * 1024) 0 (by rw [hn, ← hL]; omega) with
      ⟨j, h1, h2⟩ | ⟨fp', h1, h2⟩
    · simp only [maskS] at h1
      rw [h1, h2]
      simp
    · rw [show 2 * 1024 + (L - 2 * 1024) = L by omega] at h2
      simp only [maskS] at h1
      rw [h1, h2]
      simp only
      rcases loop2_oracle FastCdc.default rfl src (N - L) L fp' (by rw [hx, ← hN]; omega) with
        ⟨j, h3, h4⟩ | ⟨fp'', h3, h4⟩
      · simp only [maskL] at h3
        rw [h3, h4]
        simp
      · simp only [maskL] at h3
        rw [h3, h4]
        by_cases hmax : FastCdc.default.maxSize ≤ src.length
        · have : N = 64 * 1024 := by rw [hx] at hmax; omega
          simp only [hmax, if_true, this]
          rfl
        · have : N ≠ 64 * 1024 := by rw [hx] at hmax; omega
          simp only [hmax, if_false, this]
          rfl
example : fastCdc8kb (List.replicate 3 1) = .ok 0 := by decide +kernel

end HashRoll.Props
