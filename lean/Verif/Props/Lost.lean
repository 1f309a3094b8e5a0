import Verif.Props.Recover
/-!
# C76, continued: the algorithms that need not recover
-/

namespace HashRoll.Props

open Spec

variable {A : Chunk} {C : ChunkIncr}

/-- chunks of `P` bytes end at multiples of `P` -/
theorem cutAt_replicate {u : Bytes} {k p : Nat} (h : CutAt (List.replicate k u) p) : u.length ∣ p := by
  obtain ⟨a, b, h1, -, h2⟩ := h
  have : a = List.replicate a.length u := by
    apply List.eq_replicate_of_mem
    intro c hc
    exact List.eq_of_mem_replicate (h1 ▸ List.mem_append_left b hc)
  rw [this] at h2
  rw [← h2, List.length_flatten, List.map_replicate, List.sum_replicate_nat]
  exact Nat.dvd_mul_left _ _

theorem not_both {P q : Nat} (hP : 2 ≤ P) (h1 : P ∣ q) (h2 : P ∣ q + 1) : False := by
  have := (Nat.dvd_add_right h1).1 h2
  have := Nat.le_of_dvd (by omega) this
  omega

theorem lost_replicate {u v : Bytes} {P : Nat} (hP : 2 ≤ P) (hu : u.length = P) (hv : v.length = P) (k l q : Nat) :
    ¬ (CutAt (List.replicate k u) q ∧ CutAt (List.replicate l v) (q + 1)) := by
  rintro ⟨h1, h2⟩
  have h1 := cutAt_replicate h1
  have h2 := cutAt_replicate h2
  rw [hu] at h1
  rw [hv] at h2
  exact not_both hP h1 h2

/-- A run of one byte, cut every `P` bytes, and the same run one byte longer. -/
theorem docLost_of_const {b : UInt8} {P : Nat} (hP : 2 ≤ P) (h : ConstFce A b (some P)) : DocLost A := by
  refine ⟨b, fun k => ?_⟩
  obtain ⟨rx, h1⟩ := h.1 (k * P) (k * P + 2) (by omega)
  obtain ⟨ry, h2⟩ := h.1 (k * P + 1) (k * P + 2) (by omega)
  refine ⟨List.replicate (k * P) b, k * P + 2, runChunks b (k * P) (some P), runChunks b (k * P + 1) (some P), rx, ry, by simp, h1, ?_, ?_, ?_, ?_⟩
  · rw [← List.replicate_succ]; exact h2
  · rw [runChunks, List.length_replicate, Nat.mul_div_cancel _ (by omega)]
  · rw [runChunks, List.length_replicate, Nat.mul_comm, Nat.mul_add_div (by omega)]; exact Nat.le_add_right _ _
  · exact fun q => lost_replicate hP (by simp) (by simp) _ _ q

theorem strictLost_of_const {b : UInt8} {P : Nat} (hP : 2 ≤ P) (h : ConstIncr C b (some P)) : StrictLost C := by
  refine ⟨b, fun k => ?_⟩
  obtain ⟨rx, h1, -⟩ := h.1 (k * P) (k * P + 2) (by omega)
  obtain ⟨ry, h2, -⟩ := h.1 (k * P + 1) (k * P + 2) (by omega)
  refine ⟨List.replicate (k * P) b, k * P + 2, runChunks b (k * P) (some P), runChunks b (k * P + 1) (some P), rx, ry, by simp, h1, ?_, ?_, ?_, ?_⟩
  · rw [← List.replicate_succ]; exact h2
  · rw [runChunks, List.length_replicate, Nat.mul_div_cancel _ (by omega)]
  · rw [runChunks, List.length_replicate, Nat.mul_comm, Nat.mul_add_div (by omega)]; exact Nat.le_add_right _ _
  · exact fun q => lost_replicate hP (by simp) (by simp) _ _ q

/-! ## runs of one byte -/

/-- C76. Gear, default parameters: a run of the byte 170 is cut every 20 bytes. -/
theorem C76_gear (prof : Profile) : ∃ p, Gear.Gear32.default prof = .ok p ∧ DocLost (Gear.chunk p) := by
  obtain ⟨p, h1, h2⟩ := C72_gear prof 170
  exact ⟨p, h1, docLost_of_const (P := 20) (by decide) h2⟩
example : gearRun 170 = some 20 := by decide +kernel

/-- C76. Ram, every `w`. -/
theorem C76_ram (p : Ram.Ram) : DocLost (Ram.chunk p) := docLost_of_const (by omega) (C72_ram p 0)
example := C76_ram (Ram.Ram.withW 2)

/-- C76. `RamIncr`, every `w ≥ 1` (with `w = 0` a run of one byte is cut after every byte). -/
theorem C76_ram_incr (p : Ram.Ram) (hw : 1 ≤ p.w) : StrictLost (Ram.incr p) := by
  refine ⟨0, fun k => ?_⟩
  obtain ⟨rx, h1, -⟩ := C72_ram_incr p 0 (k * (p.w + 1) + 1) (k * (p.w + 1) + 3) (by omega)
  obtain ⟨ry, h2, -⟩ := C72_ram_incr p 0 (k * (p.w + 1) + 2) (k * (p.w + 1) + 3) (by omega)
  refine ⟨List.replicate (k * (p.w + 1) + 1) 0, k * (p.w + 1) + 3, List.replicate ((k * (p.w + 1) + 1 - 1) / (p.w + 1)) (List.replicate (p.w + 1) 0),
    List.replicate ((k * (p.w + 1) + 2 - 1) / (p.w + 1)) (List.replicate (p.w + 1) 0), rx, ry, by simp, h1, ?_, ?_, ?_, ?_⟩
  · rw [← List.replicate_succ]; exact h2
  · rw [List.length_replicate, Nat.add_sub_cancel, Nat.mul_div_cancel _ (by omega)]
  · rw [List.length_replicate, show k * (p.w + 1) + 2 - 1 = (p.w + 1) * k + 1 by rw [Nat.mul_comm]; omega,
      Nat.mul_add_div (by omega)]; exact Nat.le_add_right _ _
  · exact fun q => lost_replicate (P := p.w + 1) (by omega) (by simp) (by simp) _ _ q
example := C76_ram_incr (Ram.Ram.withW 2) (by decide)

/-- C76. Gzip, both APIs, every window that is at least as long as the modulus (as it is by default). -/
theorem C76_gzip (W : Nat) (m : BitVec 64) (hm : 2 ≤ m.toNat) (hmW : m.toNat ≤ W) (hW : 255 * W < 2 ^ 64) :
    DocLost (Gzip.chunk (Gzip.GzipRsyncable.withWindowAndModulus W m)) ∧
    StrictLost (Gzip.incr (Gzip.GzipRsyncable.withWindowAndModulus W m)) := by
  have h := C72_gzip W m 1 (by rintro rfl; simp at hm) (by omega) hW
  have hr : gzipRun W m.toNat 1 = some m.toNat := by
    unfold gzipRun
    have : m.toNat / Nat.gcd m.toNat (1 : UInt8).toNat = m.toNat := by
      rw [show (1 : UInt8).toNat = 1 from rfl, Nat.gcd_one_right, Nat.div_one]
    rw [this, if_pos hmW]
  rw [hr] at h
  exact ⟨docLost_of_const hm h.1, strictLost_of_const hm h.2⟩
example : DocLost (Gzip.chunk Gzip.GzipRsyncable.default) ∧ StrictLost (Gzip.incr Gzip.GzipRsyncable.default) :=
  C76_gzip 8192 4096 (by decide) (by decide) (by decide)

/-- C76. BuzHash, every salt: one of the bytes has runs that are cut every 32 bytes. -/
theorem C76_buzhash (salt : UInt8) : ∃ p, Buzhash.BuzHash.newNom salt = .ok p ∧
    DocLost (Buzhash.chunk p) ∧ StrictLost (Buzhash.incr p) := by
  obtain ⟨p, h1, h2, h3⟩ := C72_buzhash salt (3 ^^^ salt)
  have hs : 3 ^^^ salt ^^^ salt = 3 := by rw [UInt8.xor_assoc, UInt8.xor_self, UInt8.xor_zero]
  rw [hs] at h2 h3
  exact ⟨p, h1, docLost_of_const (P := 32) (by decide) h2, strictLost_of_const (P := 32) (by decide) h3⟩
example : buzRun 3 = some 32 ∧ buzIncrRun 3 = some 32 := by decide +kernel

/-- C76. FastCdc, default parameters, both APIs: the forced cuts of a run. -/
theorem C76_fastcdc : DocLost (FastCdc.chunk FastCdc.FastCdc.default) ∧
    StrictLost (FastCdc.incr FastCdc.FastCdc.default) := by
  refine ⟨⟨0, fun k => ?_⟩, strictLost_of_const (by decide) (C72_fastcdc_incr 0)⟩
  have h1 := C72_fastcdc 0 (k * 65537) (k * 65537 + 2) (by omega)
  have h2 := C72_fastcdc 0 (k * 65537 + 1) (k * 65537 + 2) (by omega)
  rw [if_neg (by omega)] at h1 h2
  refine ⟨List.replicate (k * 65537) 0, k * 65537 + 2, runChunks 0 (k * 65537) (some 65537),
    runChunks 0 (k * 65537 + 1) (some 65537), [], [], by rw [List.length_replicate]; omega, h1, ?_, ?_, ?_, ?_⟩
  · rw [← List.replicate_succ]; exact h2
  · rw [runChunks, List.length_replicate]; omega
  · rw [runChunks, List.length_replicate]; omega
  · exact fun q => lost_replicate (P := 65537) (by decide) (by rw [List.length_replicate]) (by rw [List.length_replicate]) _ _ q

/-! ## Zpaq -/

/-- the hash of `k` times the byte 124 -/
def zpaqRunHash (k : Nat) : Nat := (zpaqHashRev (List.replicate k 124)).toNat

theorem zpaqRunHash_step (k : Nat) : zpaqRunHash (k + 3) = (zpaqRunHash (k + 2) + 125) * 314159265 % 4294967296 := by
  have hp : zpaqPredict (List.replicate (k + 2) 124) = 124 := by
    simp [zpaqPredict, List.replicate_succ, List.findIdx?_cons]
  unfold zpaqRunHash
  rw [show k + 3 = (k + 2) + 1 from rfl, List.replicate_succ, zpaqHashRev, hp, if_pos rfl, BitVec.add_assoc,
    show word 32 124 + 1 = 125#32 by decide, BitVec.toNat_mul, BitVec.toNat_add]
  simp [Nat.mod_mul_mod]

/-- The hashes of the next `n` lengths are all at least `2^16`, and the one after these is less. -/
def zpaqScan : (n h : Nat) → Bool
  | 0,     h => Nat.ble ((h + 125) * 314159265 % 4294967296) 65535
  | n + 1, h => bif Nat.ble 65536 ((h + 125) * 314159265 % 4294967296)
      then zpaqScan n ((h + 125) * 314159265 % 4294967296) else false

theorem zpaqScan_spec (n k : Nat) (h : zpaqScan n (zpaqRunHash (k + 2)) = true) :
    zpaqRunHash (k + n + 3) < 65536 ∧ ∀ m, k + 2 < m → m < k + n + 3 → 65536 ≤ zpaqRunHash m := by
  induction n generalizing k with
  | zero =>
    rw [zpaqScan, ← zpaqRunHash_step] at h
    exact ⟨Nat.lt_succ_of_le (Nat.le_of_ble_eq_true h), by omega⟩
  | succ n ih =>
    rw [zpaqScan, ← zpaqRunHash_step] at h
    cases hb : Nat.ble 65536 (zpaqRunHash (k + 3)) with
    | false => rw [hb] at h; cases h
    | true =>
      rw [hb, cond_true] at h
      obtain ⟨h1, h2⟩ := ih (k + 1) h
      refine ⟨by rw [show k + (n + 1) + 3 = k + 1 + n + 3 by omega]; exact h1, ?_⟩
      intro m m1 m2
      rcases Nat.eq_or_lt_of_le (show k + 3 ≤ m by omega) with rfl | hm
      · exact Nat.le_of_ble_eq_true hb
      · exact h2 m (by omega) (by omega)

theorem zpaq_runCut (d : Nat) (hd : d ≤ 1) :
    RunCut (zpaqEdge (.included 4096) (.excluded 532676608) 65536 d) 124 (some 4272) := by
  have h2 : zpaqRunHash 2 = 3919799762 := by decide +kernel
  have h1 : zpaqRunHash 1 = 3913751678 := by decide +kernel
  have hs : zpaqScan 4269 (zpaqRunHash (0 + 2)) = true := by
    rw [show 0 + 2 = 2 from rfl, h2]; decide +kernel
  obtain ⟨k1, k2⟩ := zpaqScan_spec 4269 0 hs
  have hlt : ∀ k, zpaqHash (List.replicate k 124) < (65536 : BitVec 32) ↔ zpaqRunHash k < 65536 := by
    intro k
    unfold zpaqHash zpaqRunHash
    rw [List.reverse_replicate, BitVec.lt_def]
    rfl
  refine ⟨by decide, Or.inl ⟨(hlt _).2 k1, ?_⟩, ?_⟩
  · rw [List.length_replicate]; simp only [Below]; omega
  · rintro m m1 m2 (⟨h, -⟩ | h)
    · rw [hlt] at h
      rcases Nat.lt_or_ge 2 m with hm | hm
      · have := k2 m (by omega) (by omega); omega
      · obtain rfl | rfl : m = 1 ∨ m = 2 := by omega
        · omega
        · omega
    · rw [List.length_replicate] at h
      simp only [Beyond] at h
      omega

/-- C76. Zpaq, default parameters, both APIs: a run of the byte 124 is cut every 4272 bytes. -/
theorem C76_zpaq (prof : Profile) : ∃ p, Zpaq.Zpaq.default prof = .ok p ∧ DocLost (Zpaq.chunk p) ∧
    StrictLost (Zpaq.incr p) := by
  refine ⟨_, C52_default prof, ?_, ?_⟩
  · exact docLost_of_const (b := 124) (P := 4272) (by decide) (constFce (C17_zpaq _) (C08_zpaq _) (EdgeRule.good _)
      fun n => chunked_run (zpaq_runCut 1 (by decide)) n [])
  · exact strictLost_of_const (b := 124) (P := 4272) (by decide) (constIncr (C27_zpaq _) (C05_zpaq _) (EdgeRule.good _)
      fun n => chunked_run (zpaq_runCut 0 (by decide)) n [])

/-! ## RollSum `find_chunk_edge` -/

/-- A stream that repeats one chunk. -/
theorem chunked_units {e : Bytes → Prop} {u z : Bytes} (hu : FirstCut e u u.length) (hz : ∀ n, ¬ FirstCut e z n) (k : Nat)
    (hist : Bytes) : Chunked (EdgeRule (Local e)) hist ((List.replicate k u).flatten ++ z) (List.replicate k u) z := by
  induction k generalizing hist with
  | zero => exact .rem hz
  | succ k ih =>
    have h1 : EdgeRule (Local e) hist ((List.replicate (k + 1) u).flatten ++ z) u.length := by
      rw [List.replicate_succ, List.flatten_cons, List.append_assoc]
      exact (EdgeRule.good (Local e)).mono (hist := hist) _ hu
    have := Chunked.cut h1 (cs := List.replicate k u) (r := z) (by
      rw [List.replicate_succ, List.flatten_cons, List.append_assoc, List.drop_left, List.take_left]
      exact ih _)
    rw [List.replicate_succ, List.flatten_cons, List.append_assoc, List.take_left] at this
    rw [List.replicate_succ, List.flatten_cons, List.append_assoc]
    exact this

theorem rotate_units (b : UInt8) (u : Bytes) (k : Nat) :
    b :: (List.replicate k (u ++ [b])).flatten = (List.replicate k (b :: u)).flatten ++ [b] := by
  induction k with
  | zero => rfl
  | succ k ih =>
    rw [List.replicate_succ, List.flatten_cons, List.replicate_succ, List.flatten_cons,
      List.append_assoc (b :: u), ← ih]
    simp

/-- If a chunk and the chunk rotated by one byte are both cut at their end, repeating the chunk gives a stream that does
not recover from the insertion. -/
theorem docLost_of_units {e : Bytes → Prop} (hd : DocLoopChunks A (EdgeRule (Local e))) {b : UInt8} {u : Bytes}
    (h0 : u ≠ []) (h1 : FirstCut e (u ++ [b]) (u.length + 1)) (h2 : FirstCut e (b :: u) (u.length + 1)) : DocLost A := by
  have hpos : 0 < u.length := List.length_pos_iff.2 h0
  refine ⟨b, fun k => ?_⟩
  let t := (List.replicate k (u ++ [b])).flatten
  obtain ⟨cs, r, rx, k1, k2, -⟩ := hd t (t.length + 2) (by omega)
  obtain ⟨ds, r', ry, l1, l2, -⟩ := hd (b :: t) (t.length + 2) (by simp)
  have hz : ∀ n, ¬ FirstCut e [] n := by
    rintro n ⟨a, b, -⟩
    simp only [List.length_nil] at b
    omega
  have hz' : ∀ n, ¬ FirstCut e [b] n := by
    rintro n ⟨a1, a2, a3, -⟩
    obtain rfl : n = 1 := by simp only [List.length_singleton] at a2; omega
    exact h2.2.2.2 1 (by omega) (by omega) (by simpa using a3)
  have c1 := chunked_units (u := u ++ [b]) (by simpa using h1) hz k []
  have c2 := chunked_units (u := b :: u) (by simpa using h2) hz' k []
  rw [List.append_nil] at c1
  rw [← rotate_units] at c2
  obtain ⟨rfl, -⟩ := k2.det (EdgeRule.good _) c1
  obtain ⟨rfl, -⟩ := l2.det (EdgeRule.good _) c2
  refine ⟨t, t.length + 2, _, _, rx, ry, by omega, k1, l1, by simp, by simp, ?_⟩
  exact fun q => lost_replicate (P := u.length + 1) (by omega) (by simp) (by simp) _ _ q

instance (W : Nat) (p : Bytes) : Decidable (bupEdge W p) := inferInstanceAs (Decidable (_ = _))

instance (e : Bytes → Prop) [DecidablePred e] (d : Bytes) (n : Nat) : Decidable (FirstCut e d n) :=
  decidable_of_iff (1 ≤ n ∧ n ≤ d.length ∧ e (d.take n) ∧ ∀ m < n, 1 ≤ m → ¬ e (d.take m))
    (by unfold FirstCut; exact and_congr_right fun _ => and_congr_right fun _ => and_congr_right fun _ =>
      ⟨fun h m a b => h m b a, fun h m a b => h m b a⟩)

/-- C76. `RollSum::find_chunk_edge`, default window: it resets the sums at a cut, and then does not recover. -/
theorem C76_rollsum : DocLost (Bup.chunk Bup.RollSum.default) :=
  docLost_of_units (e := bupEdge 64) (C08_rollsum Bup.RollSum.default) (b := 174) (u := [114, 211, 129, 204, 187, 228, 145])
    (by decide) (by decide +kernel) (by decide +kernel)

/-! ## MiiIncr -/

/-- `1, 2, .., w` -/
def ascent (w : Nat) : Bytes := (List.range w).map fun i => UInt8.ofNat (i % w + 1)

/-- `k` times `1, 2, .., w` -/
def ascents (w k : Nat) : Bytes := (List.range (k * w)).map fun i => UInt8.ofNat (i % w + 1)

theorem ascents_succ (w k : Nat) : ascents w (k + 1) = ascent w ++ ascents w k := by
  unfold ascents ascent
  rw [Nat.add_mul, Nat.one_mul, Nat.add_comm, List.range_add, List.map_append, List.map_map]
  congr 1
  apply List.map_congr_left
  intro i _
  simp

theorem ascent_increasing {w : Nat} (hw : w ≤ 255) : Increasing (0 :: ascent w) := by
  refine List.pairwise_cons.2 ⟨?_, ?_⟩
  · intro x hx
    obtain ⟨i, hi, rfl⟩ := List.mem_map.1 hx
    rw [List.mem_range] at hi
    rw [UInt8.lt_iff_toNat_lt, Nat.mod_eq_of_lt hi, UInt8.toNat_ofNat', Nat.mod_eq_of_lt (by omega)]
    exact Nat.succ_pos i
  · rw [ascent, List.pairwise_map]
    refine List.Pairwise.imp_of_mem ?_ (List.pairwise_lt_range (n := w))
    intro i j hi hj hij
    rw [List.mem_range] at hi hj
    rw [UInt8.lt_iff_toNat_lt, Nat.mod_eq_of_lt hi, Nat.mod_eq_of_lt hj, UInt8.toNat_ofNat', UInt8.toNat_ofNat',
      Nat.mod_eq_of_lt (by omega), Nat.mod_eq_of_lt (by omega)]
    omega

theorem miiEdge_ascent {w : Nat} (h1 : 1 ≤ w) (hw : w ≤ 255) : miiEdge w (0 :: ascent w) := by
  have hl : (0 :: ascent w).length = w + 1 := by simp [ascent]
  refine ⟨h1, by omega, ?_⟩
  rw [lastN, hl, Nat.sub_self, List.drop_zero]
  exact ascent_increasing hw

/-- `MiiIncr` after a cut: `1, 2, .., w` is a chunk. -/
theorem ascent_chunked {w : Nat} (h1 : 1 ≤ w) (hw : w ≤ 255) (k : Nat) (hist : Bytes) (hh : hist ≠ []) :
    Chunked (EdgeRule (miiIncrEdge w)) hist (ascents w k) (List.replicate k (ascent w)) [] := by
  induction k generalizing hist with
  | zero =>
    rw [ascents, Nat.zero_mul]
    refine .rem ?_
    rintro n ⟨a, b, -⟩
    simp only [List.range_zero, List.map_nil, List.length_nil] at b
    omega
  | succ k ih =>
    have hl : (ascent w).length = w := by simp [ascent]
    have hr : EdgeRule (miiIncrEdge w) hist (ascent w ++ ascents w k) w := by
      refine ⟨h1, by rw [List.length_append]; omega, ?_, ?_⟩
      · rw [List.take_append, hl, Nat.sub_self, List.take_zero, List.append_nil, List.take_of_length_le (by omega),
          miiIncrEdge, if_neg hh]
        exact miiEdge_ascent h1 hw
      · rintro m m1 m2 h
        rw [miiIncrEdge, if_neg hh] at h
        have := h.2.1
        rw [List.length_cons, List.length_take] at this
        omega
    have := Chunked.cut hr (cs := List.replicate k (ascent w)) (r := []) (by
      rw [List.drop_append, hl, Nat.sub_self, List.drop_eq_nil_of_le (by omega), List.nil_append, List.drop_zero]
      exact ih _ (by simp [hh]))
    rw [List.take_append, hl, Nat.sub_self, List.take_zero, List.append_nil, List.take_of_length_le (by omega)] at this
    rw [ascents_succ, List.replicate_succ]
    exact this

/-- No `w + 1` bytes in a row are ascending in `1, 2, .., w, 1, 2, .., w, ..`. -/
theorem ascents_no_edge (w k m : Nat) : ¬ miiEdge w ((ascents w k).take m) := by
  rintro ⟨h1, h2, h3⟩
  generalize hd : (ascents w k).take m = d at h2 h3
  have hget : ∀ i (hi : i < d.length), d[i] = UInt8.ofNat (i % w + 1) := by
    intro i hi
    subst hd
    rw [List.getElem_take]
    simp [ascents]
  have hll : (lastN (w + 1) d).length = w + 1 := by unfold lastN; rw [List.length_drop]; omega
  have := List.pairwise_iff_getElem.1 h3 0 w (by omega) (by omega) (by omega)
  unfold lastN at this
  rw [List.getElem_drop, List.getElem_drop, hget, hget, Nat.add_zero, Nat.add_mod_right] at this
  exact absurd this (UInt8.lt_irrefl _)

/-- C76. `MiiIncr`: `k` times `1, 2, .., w` is not cut at all; with one byte inserted in front it is cut `k` times, at
every place where the period starts anew. -/
theorem C76_mii_incr (p : Mii.Mii) (h1 : 1 ≤ p.w) (hw : p.w ≤ 255) (k n : Nat) (hn : (k + 1) * p.w + 1 < n) : ∃ itx ity,
    ((Mii.incr p).iterSlicesStrict (Mii.incr p).init (ascents p.w (k + 1))).run n = .ok ([], itx, true) ∧
    ((Mii.incr p).iterSlicesStrict (Mii.incr p).init (0 :: ascents p.w (k + 1))).run n =
      .ok ((0 :: ascent p.w) :: List.replicate k (ascent p.w), ity, true) := by
  have hlen : (ascents p.w (k + 1)).length = (k + 1) * p.w := by simp [ascents]
  have hl : (ascent p.w).length = p.w := by simp [ascent]
  obtain ⟨it, cs, r, a1, a2, -⟩ := C05_mii p (ascents p.w (k + 1)) n (by omega)
  obtain ⟨it', ds, r', b1, b2, -⟩ := C05_mii p (0 :: ascents p.w (k + 1)) n (by rw [List.length_cons]; omega)
  have c1 : Chunked (EdgeRule (miiIncrEdge p.w)) [] (ascents p.w (k + 1)) [] (ascents p.w (k + 1)) := by
    refine .rem ?_
    rintro m ⟨-, -, h, -⟩
    rw [miiIncrEdge, if_pos rfl] at h
    exact ascents_no_edge _ _ _ h
  have hr : EdgeRule (miiIncrEdge p.w) [] ((0 :: ascent p.w) ++ ascents p.w k) (0 :: ascent p.w).length := by
    refine (EdgeRule.good _).mono _ ⟨by simp, Nat.le_refl _, ?_, ?_⟩
    · rw [List.take_length, miiIncrEdge, if_pos rfl]
      exact miiEdge_ascent h1 hw
    · rintro m m1 m2 h
      rw [miiIncrEdge, if_pos rfl] at h
      have := h.2.1
      rw [List.length_take] at this
      rw [List.length_cons] at m2
      omega
  have c2 := Chunked.cut hr (cs := List.replicate k (ascent p.w)) (r := []) (by
    rw [List.drop_left, List.take_left]
    exact ascent_chunked h1 hw k _ (by simp))
  rw [List.take_left, List.cons_append, ← ascents_succ] at c2
  obtain ⟨rfl, -⟩ := a2.det (EdgeRule.good _) c1
  obtain ⟨rfl, -⟩ := b2.det (EdgeRule.good _) c2
  exact ⟨it, it', a1, b1⟩
example := C76_mii_incr (Mii.Mii.withW 5) (by decide) (by decide) 100 1000 (by decide)
example : ascents 3 2 = [1, 2, 3, 1, 2, 3] := by decide

end HashRoll.Props
