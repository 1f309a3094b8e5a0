import Mathlib.Algebra.BigOperators.Field
import Verif.Props.Mean
import Verif.Props.Frequency
/-!
# C80: mean chunk size on uniformly random bytes, exactly (Pigz, Gzip, Ram)

For Mii see `MeanMii.lean`.
-/

namespace HashRoll.Props

open Spec

theorem pushFirst_of_conforms {C : ChunkIncr} {e : Bytes → Prop} (hC : IncrConforms C (EdgeRule (Local e))) : PushFirst C C.init e := by
  intro s
  obtain ⟨st', r, h1, h2⟩ := hC s C.init 0 0 [] .start s.length (by omega) (by omega)
  have hsub : Spec.sub s 0 s.length = s := by simp [Spec.sub]
  rw [hsub] at h1 h2
  refine ⟨st', r, h1, ?_⟩
  rcases r with _ | i
  · exact h2
  · have := h2.2
    rw [Nat.zero_add, Nat.sub_zero] at this
    exact this

theorem meanPush_of_conforms {C : ChunkIncr} {e : Bytes → Prop} (hC : IncrConforms C (EdgeRule (Local e))) {μ : ℝ}
    (hs : HasSum (uncutShare e) μ) : MeanPush C C.init μ := meanPush_of_uncut (pushFirst_of_conforms hC) hs

/-! ## Pigz -/

/-- the hash, started with `z`, hits -/
def pigzHit (bits hit z : Nat) (p : Bytes) : Prop := pigzNat bits z p = hit

theorem uncut_cons {e : Bytes → Prop} {b : UInt8} {s : Bytes} :
    Uncut e (b :: s) ↔ ¬ e [b] ∧ Uncut (fun p => e (b :: p)) s := by
  constructor
  · intro h
    refine ⟨?_, fun m h1 h2 => ?_⟩
    · have := h 1 (by omega) (by simp)
      simpa using this
    · have := h (m + 1) (by omega) (by simp; omega)
      simpa using this
  · rintro ⟨h1, h2⟩ m hm hm'
    rcases m with _ | _ | m
    · omega
    · simpa using h1
    · have := h2 (m + 1) (by omega) (by simp at hm'; omega)
      simpa using this

theorem pigzHit_cons (bits hit z : Nat) (b : UInt8) :
    (fun p => pigzHit bits hit z (b :: p)) = pigzHit bits hit ((2 * z ^^^ b.toNat) % 2 ^ bits) := rfl

open Classical in
/-- every hash is reached from 256 pairs of a hash and a byte -/
theorem pigz_preimages (bits : Nat) {t : Nat} (ht : t < 2 ^ bits) :
    ∑ z ∈ Finset.range (2 ^ bits), ∑ b ∈ bytes, (if (2 * z ^^^ b.toNat) % 2 ^ bits = t then 1 else 0) = 256 := by
  cases bits with
  | zero =>
    rw [pow_zero, Finset.sum_range_one]
    have : ∀ b ∈ bytes, (if (2 * 0 ^^^ b.toNat) % 1 = t then 1 else 0) = 1 := fun b _ => by
      rw [if_pos]; rw [Nat.mod_one]; simp at ht; exact ht.symm
    rw [Finset.sum_congr rfl this, Finset.sum_const, card_bytes]
    rfl
  | succ j =>
    rw [Finset.sum_comm]
    have h1 : ∀ b ∈ bytes, ∑ z ∈ Finset.range (2 ^ (j + 1)), (if (2 * z ^^^ b.toNat) % 2 ^ (j + 1) = t then 1 else 0) =
        if decide (b.toNat % 2 = t % 2) = true then 2 else 0 := by
      intro b _
      have e : ∀ z, (2 * z ^^^ b.toNat) % 2 ^ (j + 1) = t ↔ b.toNat % 2 = t % 2 ∧ z % 2 ^ j = (t / 2 ^^^ b.toNat / 2) % 2 ^ j :=
        fun z => xor_step z b.toNat t j ht
      have hpos : 0 < 2 ^ j := Nat.two_pow_pos j
      by_cases hb : b.toNat % 2 = t % 2
      · have hy : (t / 2 ^^^ b.toNat / 2) % 2 ^ j < 2 ^ j := Nat.mod_lt _ hpos
        generalize (t / 2 ^^^ b.toNat / 2) % 2 ^ j = y at e hy
        have hset : (Finset.range (2 ^ (j + 1))).filter (fun z => (2 * z ^^^ b.toNat) % 2 ^ (j + 1) = t) = {y, y + 2 ^ j} := by
          ext z
          simp only [Finset.mem_filter, Finset.mem_range, Finset.mem_insert, Finset.mem_singleton, e, hb, true_and]
          rw [pow_succ]
          generalize 2 ^ j = H at *
          constructor
          · rintro ⟨h1, h2⟩
            by_cases hz : z < H
            · rw [Nat.mod_eq_of_lt hz] at h2; omega
            · rw [Nat.mod_eq_sub_mod (by omega), Nat.mod_eq_of_lt (by omega)] at h2; omega
          · rintro (rfl | rfl)
            · exact ⟨by omega, Nat.mod_eq_of_lt hy⟩
            · exact ⟨by omega, by rw [Nat.add_mod_right, Nat.mod_eq_of_lt hy]⟩
        rw [← Finset.card_filter, hset, Finset.card_pair (by omega)]
        simp [hb]
      · rw [Finset.sum_eq_zero fun z _ => if_neg fun h => hb ((e z).1 h).1]
        simp [hb]
    have h2 : allBytes.countP (fun b => decide (b.toNat % 2 = t % 2)) = 128 := by
      have := count_low 1 ⟨t % 2, by omega⟩ (by show t % 2 < 2 ^ 1; omega)
      simpa using this
    rw [Finset.sum_congr rfl h1]
    rw [countP_bytes] at h2
    have h3 : ∀ b ∈ bytes, (if decide (b.toNat % 2 = t % 2) = true then 2 else 0) =
        2 * if decide (b.toNat % 2 = t % 2) = true then 1 else 0 := fun b _ => by split <;> rfl
    rw [Finset.sum_congr rfl h3, ← Finset.mul_sum]
    exact congrArg (2 * ·) h2

theorem pigz_sum (bits : Nat) (g : Nat → Nat) :
    ∑ z ∈ Finset.range (2 ^ bits), ∑ b ∈ bytes, g ((2 * z ^^^ b.toNat) % 2 ^ bits) =
      256 * ∑ t ∈ Finset.range (2 ^ bits), g t := by
  classical
  have h1 : ∀ z ∈ Finset.range (2 ^ bits), ∑ b ∈ bytes, g ((2 * z ^^^ b.toNat) % 2 ^ bits) =
      ∑ t ∈ Finset.range (2 ^ bits), ∑ b ∈ bytes, (if (2 * z ^^^ b.toNat) % 2 ^ bits = t then 1 else 0) * g t := by
    intro z _
    rw [Finset.sum_comm]
    refine Finset.sum_congr rfl fun b _ => ?_
    rw [Finset.sum_congr rfl (g := fun t => if (2 * z ^^^ b.toNat) % 2 ^ bits = t then g t else 0)
      (fun t _ => by split <;> simp), Finset.sum_ite_eq, if_pos (Finset.mem_range.2 (Nat.mod_lt _ (Nat.two_pow_pos _)))]
  rw [Finset.sum_congr rfl h1, Finset.sum_comm, Finset.mul_sum]
  refine Finset.sum_congr rfl fun t ht => ?_
  rw [← pigz_preimages bits (Finset.mem_range.1 ht), Finset.sum_mul]
  exact Finset.sum_congr rfl fun z _ => by rw [Finset.sum_mul]

/-- how the numbers of strings without a hit develop, summed over all hashes to start with -/
theorem pigz_total (bits hit : Nat) (hh : hit < 2 ^ bits) (n : Nat) :
    ∑ z ∈ Finset.range (2 ^ bits), howMany (n + 1) (Uncut (pigzHit bits hit z)) + 256 * howMany n (Uncut (pigzHit bits hit hit)) =
      256 * ∑ z ∈ Finset.range (2 ^ bits), howMany n (Uncut (pigzHit bits hit z)) := by
  classical
  have h1 : ∀ z, howMany (n + 1) (Uncut (pigzHit bits hit z)) = ∑ b ∈ bytes,
      (fun t => if t = hit then 0 else howMany n (Uncut (pigzHit bits hit t))) ((2 * z ^^^ b.toNat) % 2 ^ bits) := by
    intro z
    rw [howMany, sum_words_cons]
    refine Finset.sum_congr rfl fun b _ => ?_
    simp only [uncut_cons, pigzHit_cons]
    have e : pigzHit bits hit z [b] ↔ (2 * z ^^^ b.toNat) % 2 ^ bits = hit := Iff.rfl
    by_cases hb : (2 * z ^^^ b.toNat) % 2 ^ bits = hit
    · rw [if_pos hb]
      exact Finset.sum_eq_zero fun s _ => if_neg fun h => h.1 (e.2 hb)
    · rw [if_neg hb, howMany]
      refine Finset.sum_congr rfl fun s _ => ?_
      simp [e, hb]
  rw [Finset.sum_congr rfl fun z _ => h1 z,
    pigz_sum bits fun t => if t = hit then 0 else howMany n (Uncut (pigzHit bits hit t)), ← Nat.mul_add]
  congr 1
  have h2 : ∀ z ∈ Finset.range (2 ^ bits), howMany n (Uncut (pigzHit bits hit z)) =
      (if z = hit then 0 else howMany n (Uncut (pigzHit bits hit z))) +
        if z = hit then howMany n (Uncut (pigzHit bits hit z)) else 0 := fun z _ => by split <;> simp
  rw [Finset.sum_congr rfl h2, Finset.sum_add_distrib, Finset.sum_ite_eq', if_pos (Finset.mem_range.2 hh)]

theorem pigz_summable (bits hit z : Nat) (hh : hit < 2 ^ bits) : Summable (uncutShare (pigzHit bits hit z)) := by
  refine uncutShare_summable (L := bits + 1) (by omega) fun s _ => ?_
  have := pigzNat_uniform bits (pigzNat bits z s) (k := bits + 1) (by omega) (j := bits) (t := hit) le_rfl (by omega) hh
  have hp : 0 < (strings (bits + 1)).countP fun x => decide (pigzNat bits (pigzNat bits z s) x % 2 ^ bits = hit) := by
    rcases Nat.eq_zero_or_pos ((strings (bits + 1)).countP fun x => decide (pigzNat bits (pigzNat bits z s) x % 2 ^ bits = hit)) with h0 | h0
    · rw [h0, Nat.zero_mul] at this
      exact absurd this (Nat.pow_pos (by decide)).ne
    · exact h0
  obtain ⟨t, ht1, ht2⟩ := List.countP_pos_iff.1 hp
  have ht1 := mem_strings.1 ht1
  refine ⟨t, ht1, fun hu => hu (s ++ t).length (by simp; omega) le_rfl ?_⟩
  rw [List.take_length]
  have e : pigzNat bits z (s ++ t) = pigzNat bits (pigzNat bits z s) t := by rw [pigzNat, List.foldl_append]; rfl
  have hlt : pigzNat bits (pigzNat bits z s) t < 2 ^ bits := by
    rcases List.eq_nil_or_concat t with rfl | ⟨u, b, rfl⟩
    · simp at ht1
    · rw [List.concat_eq_append, pigzNat_snoc]; exact Nat.mod_lt _ (Nat.two_pow_pos _)
  rw [pigzHit, e]
  have := of_decide_eq_true ht2
  rwa [Nat.mod_eq_of_lt hlt] at this

/-- the mean time until the hash returns (the theorem of Kac, for this hash) -/
theorem pigz_mean (bits hit : Nat) (hh : hit < 2 ^ bits) : HasSum (uncutShare (pigzHit bits hit hit)) (2 ^ bits) := by
  let F : ℕ → ℝ := fun n => ∑ z ∈ Finset.range (2 ^ bits), uncutShare (pigzHit bits hit z) n
  have hF : ∀ n, uncutShare (pigzHit bits hit hit) n = F n - F (n + 1) := by
    intro n
    have h := pigz_total bits hit hh n
    have h' : (∑ z ∈ Finset.range (2 ^ bits), (howMany (n + 1) (Uncut (pigzHit bits hit z)) : ℝ)) +
        256 * howMany n (Uncut (pigzHit bits hit hit)) =
        256 * ∑ z ∈ Finset.range (2 ^ bits), (howMany n (Uncut (pigzHit bits hit z)) : ℝ) := by exact_mod_cast h
    simp only [F, uncutShare]
    rw [← Finset.sum_div, ← Finset.sum_div, pow_succ]
    field_simp
    linarith
  have h0 : F 0 = 2 ^ bits := by simp [F, uncutShare_zero]
  have hl : Filter.Tendsto F Filter.atTop (nhds 0) := by
    have : Filter.Tendsto F Filter.atTop (nhds (∑ z ∈ Finset.range (2 ^ bits), (0 : ℝ))) :=
      tendsto_finsetSum _ fun z _ => (pigz_summable bits hit z hh).tendsto_atTop_zero
    simpa using this
  rw [hasSum_iff_tendsto_nat_of_nonneg (uncutShare_nonneg _)]
  have : (fun n => ∑ i ∈ Finset.range n, uncutShare (pigzHit bits hit hit) i) = fun n => F 0 - F n := by
    funext n
    rw [← Finset.sum_range_sub' F n]
    exact Finset.sum_congr rfl fun i _ => hF i
  rw [this, ← h0]
  simpa using hl.const_sub (F 0)

theorem pigz_edge_nat {bits : Nat} {mask hit : BitVec 32} (hb : bits ≤ 32) (h3 : mask.toNat = 2 ^ bits - 1)
    (h4 : hit.toNat < 2 ^ bits) (p : Bytes) : pigzEdge mask hit p ↔ pigzHit bits hit.toNat hit.toNat p := by
  have key : (pigzHash hit p).toNat % 2 ^ bits = pigzNat bits hit.toNat p := by
    induction p using List.reverseRecOn with
    | nil => simp [pigzHash, wxor, pigzNat, Nat.mod_eq_of_lt h4]
    | append_singleton p b ih =>
      rw [Pigz.pigzHash_snoc, pigzNat_snoc, ← ih, BitVec.toNat_xor, toNat_word (by decide), BitVec.toNat_shiftLeft,
        Nat.shiftLeft_eq, pow_one, Nat.xor_mod_two_pow, Nat.mod_mod_of_dvd _ (Nat.pow_dvd_pow 2 hb), Nat.xor_mod_two_pow,
        Nat.mul_mod_mod, Nat.mul_comm]
  rw [pigzEdge, pigzHit, ← key, ← BitVec.toNat_inj, toNat_and_mask _ _ h3]

/-- C80. Pigz with `bits` bits: the mean chunk size is exactly `2^bits` (4096 for the default), both APIs. -/
theorem C80_pigz {prof : Profile} {bits : BitVec 8} {p : Pigz.PigzRsyncable}
    (h : Pigz.PigzRsyncable.withBits prof bits = .ok p) (hb : bits.toNat ≤ 31) :
    MeanChunk (Pigz.chunk p) (2 ^ bits.toNat) ∧ MeanPush (Pigz.incr p) (Pigz.incr p).init (2 ^ bits.toNat) := by
  obtain ⟨p', h1, -, h3, h4⟩ := C50_pigz prof bits hb
  rw [h] at h1
  cases h1
  have hlt : p.hit.toNat < 2 ^ bits.toNat := by
    have := Nat.two_pow_pos bits.toNat
    omega
  have he : pigzEdge p.mask p.hit = pigzHit bits.toNat p.hit.toNat p.hit.toNat := by
    funext q; exact propext (pigz_edge_nat (by omega) h3 hlt q)
  have hs : HasSum (uncutShare (pigzEdge p.mask p.hit)) (2 ^ bits.toNat) := by
    rw [he]; exact pigz_mean _ _ hlt
  exact ⟨meanChunk_of_uncut (Pigz.fce_conforms h) hs, meanPush_of_conforms (Pigz.incr_conforms h) hs⟩
example : ∃ p, Pigz.PigzRsyncable.default .debug = .ok p ∧ MeanChunk (Pigz.chunk p) (2 ^ 12) :=
  ⟨_, rfl, (C80_pigz (prof := .debug) (bits := 12) rfl (by decide)).1⟩

/-! ## a cut with the same probability at every byte -/

theorem geometric_step {e : Bytes → Prop} {c : Nat}
    (h : ∀ s, Uncut e s → ∑ b ∈ bytes, (open Classical in if e (s ++ [b]) then 1 else 0) = c) (n : Nat) :
    howMany (n + 1) (Uncut e) + c * howMany n (Uncut e) = 256 * howMany n (Uncut e) := by
  classical
  rw [howMany, sum_words_snoc, howMany, Finset.mul_sum, Finset.mul_sum, ← Finset.sum_add_distrib]
  refine Finset.sum_congr rfl fun s _ => ?_
  by_cases hu : Uncut e s
  · have h2 := h s hu
    rw [if_pos hu, Nat.mul_one, Nat.mul_one, ← card_bytes, Finset.card_eq_sum_ones, ← h2, ← Finset.sum_add_distrib]
    refine Finset.sum_congr rfl fun b _ => ?_
    by_cases hb : e (s ++ [b]) <;> simp [uncut_snoc, hu, hb]
  · rw [if_neg hu, Nat.mul_zero, Nat.mul_zero, Nat.add_zero]
    exact Finset.sum_eq_zero fun b _ => if_neg fun h' => hu (uncut_snoc.1 h').1

theorem geometric_mean {e : Bytes → Prop} {c : Nat} (hc : 0 < c) (hc' : c ≤ 256)
    (h : ∀ s, Uncut e s → ∑ b ∈ bytes, (open Classical in if e (s ++ [b]) then 1 else 0) = c) :
    HasSum (uncutShare e) (256 / c) := by
  have h1 := geometric_step h
  have h2 : ∀ n, uncutShare e n = (1 - c / 256) ^ n := by
    intro n
    induction n with
    | zero => rw [uncutShare_zero, pow_zero]
    | succ n ih =>
      rw [pow_succ, ← ih, uncutShare, uncutShare]
      have h' : (howMany (n + 1) (Uncut e) : ℝ) + c * howMany n (Uncut e) = 256 * howMany n (Uncut e) := by
        exact_mod_cast h1 n
      rw [pow_succ]
      field_simp
      linarith
  have hc1 : (0 : ℝ) < c := by exact_mod_cast hc
  have hc2 : (c : ℝ) ≤ 256 := by exact_mod_cast hc'
  have h3 := hasSum_geometric_of_lt_one (r := 1 - (c : ℝ) / 256) (by rw [sub_nonneg, div_le_one (by norm_num)]; exact hc2)
    (by have : 0 < (c : ℝ) / 256 := by positivity
        linarith)
  rw [sub_sub_cancel, inv_div] at h3
  rw [funext h2]
  exact h3

/-- the same number of next bytes cut, whatever came before -/
theorem gzip_next {w m c : Nat} (hw : 0 < w) (h0 : 0 < m) (hc : 256 = m * c) (s : Bytes) :
    ∑ b ∈ bytes, (open Classical in if gzipEdge w m (s ++ [b]) then 1 else 0) = c := by
  have hm : m ∣ 256 := ⟨c, hc⟩
  have hle : m ≤ 256 := Nat.le_of_dvd (by decide) hm
  have hlast : ∀ b, gzipEdge w m (s ++ [b]) ↔ (((lastN (w - 1) s).map UInt8.toNat).sum % m + b.toNat) % m = 0 := by
    intro b
    have : lastN w (s ++ [b]) = lastN (w - 1) s ++ [b] := by
      unfold lastN
      rw [List.length_append, List.length_singleton, List.drop_append_of_le_length (by omega)]
      congr 2
      omega
    rw [gzipEdge, this, Nat.mod_mod_of_dvd _ (Nat.dvd_trans hm (by decide))]
    simp
  have hcount := count_dvd ⟨m, by omega⟩ hm h0
    ⟨((lastN (w - 1) s).map UInt8.toNat).sum % m, lt_of_lt_of_le (Nat.mod_lt _ h0) hle⟩ (Nat.mod_lt _ h0)
  have h256 : 256 / m = c := by rw [hc, Nat.mul_div_cancel_left _ h0]
  simp only [h256] at hcount
  rw [← hcount]
  have e : (List.range 256).countP (fun b => decide ((((lastN (w - 1) s).map UInt8.toNat).sum % m + b) % m = 0)) =
      allBytes.countP (fun b => decide ((((lastN (w - 1) s).map UInt8.toNat).sum % m + b.toNat) % m = 0)) := by
    rw [allBytes, List.countP_map]
    refine List.countP_congr fun b hb => ?_
    have : b < 256 := List.mem_range.1 hb
    simp [Nat.mod_eq_of_lt this]
  rw [e, countP_bytes]
  refine Finset.sum_congr rfl fun b _ => ?_
  simp only [hlast, decide_eq_true_iff]

/-- C80. Gzip with a modulus that divides 256: the chunk lengths are geometrically distributed, with mean `modulus`. -/
theorem C80_gzip (p : Gzip.GzipRsyncable) (hm : p.modulus.toNat ∣ 256) (hw : 0 < p.windowLen) :
    MeanChunk (Gzip.chunk p) p.modulus.toNat ∧ MeanPush (Gzip.incr p) (Gzip.incr p).init p.modulus.toNat := by
  have h0 : 0 < p.modulus.toNat := Nat.pos_of_ne_zero fun h => by rw [h] at hm; simp at hm
  have hm0 : p.modulus ≠ 0 := fun h => by rw [h] at h0; simp at h0
  obtain ⟨c, hc⟩ := id hm
  have hc0 : 0 < c := Nat.pos_of_ne_zero fun h => by rw [h] at hc; simp at hc
  have hmean : HasSum (uncutShare (gzipEdge p.windowLen p.modulus.toNat)) (256 / c) :=
    geometric_mean hc0 (Nat.le_of_dvd (by decide) ⟨_, hc.trans (Nat.mul_comm _ _)⟩) fun s _ => gzip_next hw h0 hc s
  have he : (256 : ℝ) / c = p.modulus.toNat := by
    have : (256 : ℝ) = p.modulus.toNat * c := by exact_mod_cast hc
    rw [this]
    field_simp
  rw [he] at hmean
  exact ⟨meanChunk_of_uncut (Gzip.fce_conforms p hm0) hmean, meanPush_of_conforms (Gzip.incr_conforms p hm0 hw) hmean⟩
example : MeanChunk (Gzip.chunk { windowLen := 3, modulus := 64 }) (64 : BitVec 64).toNat :=
  (C80_gzip { windowLen := 3, modulus := 64 } (by decide) (by decide)).1

/-! ## Ram -/

/-- the largest byte, as a number -/
def top (x : Bytes) : Nat := (x.map UInt8.toNat).foldr max 0

theorem top_cons (b : UInt8) (x : Bytes) : top (b :: x) = max b.toNat (top x) := rfl

theorem top_le {x : Bytes} {v : Nat} : top x ≤ v ↔ ∀ c ∈ x, c.toNat ≤ v := by
  induction x with
  | nil => simp [top]
  | cons b x ih => rw [top_cons, max_le_iff, ih]; simp

theorem lt_top {x : Bytes} {v : Nat} : v < top x ↔ ∃ c ∈ x, v < c.toNat := by
  rw [← not_le, top_le]; simp

theorem count_lt {m : Nat} (hm : m ≤ 256) : ∑ b ∈ bytes, (if b.toNat < m then 1 else 0) = m := by
  have h : ∀ m : Fin 257, (List.range 256).countP (fun b => decide (b < m.1)) = m.1 := by decide +kernel
  have := h ⟨m, by omega⟩
  have e : (List.range 256).countP (fun b => decide (b < m)) = allBytes.countP (fun b => decide (b.toNat < m)) := by
    rw [allBytes, List.countP_map]
    refine List.countP_congr fun b hb => ?_
    have : b < 256 := List.mem_range.1 hb
    simp [Nat.mod_eq_of_lt this]
  rw [e, countP_bytes] at this
  simpa using this

/-- strings of bytes below `m` -/
theorem howMany_below (n : Nat) {m : Nat} (hm : m ≤ 256) : howMany n (fun y => ∀ c ∈ y, c.toNat < m) = m ^ n := by
  classical
  induction n with
  | zero =>
    have : words 0 = {[]} := by ext s; simp [mem_words]
    rw [howMany, this, Finset.sum_singleton]
    simp
  | succ n ih =>
    have h0 : m * howMany n (fun y => ∀ c ∈ y, c.toNat < m) =
        (∑ b ∈ bytes, if b.toNat < m then 1 else 0) * howMany n (fun y => ∀ c ∈ y, c.toNat < m) := by rw [count_lt hm]
    rw [howMany, sum_words_cons, pow_succ, Nat.mul_comm, ← ih, h0, Finset.sum_mul]
    refine Finset.sum_congr rfl fun b _ => ?_
    rw [howMany, Finset.mul_sum]
    refine Finset.sum_congr rfl fun y _ => ?_
    by_cases h1 : b.toNat < m <;> by_cases h2 : ∀ c ∈ y, c.toNat < m <;> simp [h1, h2]

/-- strings whose largest byte is `v` -/
theorem howMany_top {W : Nat} (hW : 1 ≤ W) {v : Nat} (hv : v < 256) :
    howMany W (fun x => top x = v) = (v + 1) ^ W - v ^ W := by
  have h1 : howMany W (fun x => top x = v ∨ ∀ c ∈ x, c.toNat < v) = howMany W (fun x => ∀ c ∈ x, c.toNat < v + 1) := by
    refine howMany_congr fun x hx => ?_
    have hne : x ≠ [] := fun h => by rw [h] at hx; simp at hx; omega
    have e1 : (∀ c ∈ x, c.toNat < v + 1) ↔ top x ≤ v := by rw [top_le]; simp only [Nat.lt_succ_iff]
    have e2 : (∀ c ∈ x, c.toNat < v) ↔ top x < v := by
      cases v with
      | zero =>
        obtain ⟨c, cs, rfl⟩ := List.exists_cons_of_ne_nil hne
        exact ⟨fun h => absurd (h c List.mem_cons_self) (by omega), fun h => absurd h (by omega)⟩
      | succ v => rw [Nat.lt_succ_iff, top_le]; simp only [Nat.lt_succ_iff]
    rw [e1, e2]
    omega
  rw [howMany_or, howMany_below W (by omega), howMany_below W (by omega)] at h1
  · omega
  · intro x hx h h'
    have hne : x ≠ [] := fun h => by rw [h] at hx; simp at hx; omega
    cases v with
    | zero =>
      obtain ⟨c, cs, rfl⟩ := List.exists_cons_of_ne_nil hne
      have := h' c List.mem_cons_self
      omega
    | succ v =>
      have : top x ≤ v := top_le.2 fun c hc => Nat.lt_succ_iff.1 (h' c hc)
      omega

theorem top_lt (x : Bytes) : top x < 256 := Nat.lt_succ_iff.2 (top_le.2 fun c _ => Nat.lt_succ_iff.1 c.toNat_lt)

/-- no cut in the first `w + 1` bytes -/
theorem ram_uncut_short {w : Nat} {s : Bytes} (h : s.length ≤ w + 1) : Uncut (ramEdge w) s := by
  rintro m h1 h2 ⟨b, -, h3, -⟩
  rw [List.length_take] at h3
  omega

theorem ram_uncut_long {w : Nat} {x y : Bytes} (hx : x.length = w + 1) :
    Uncut (ramEdge w) (x ++ y) ↔ ∀ c ∈ y, c.toNat < top x := by
  induction y using List.reverseRecOn with
  | nil => simpa using ram_uncut_short (by omega)
  | append_singleton y b ih =>
    rw [← List.append_assoc, uncut_snoc, ih, Ram.edge_snoc]
    have e : (∀ c ∈ y ++ [b], c.toNat < top x) ↔ (∀ c ∈ y, c.toNat < top x) ∧ b.toNat < top x := by
      constructor
      · intro h; exact ⟨fun c hc => h c (by simp [hc]), h b (by simp)⟩
      · rintro ⟨h1, h2⟩ c hc
        rcases List.mem_append.1 hc with hc | hc
        · exact h1 c hc
        · rw [List.mem_singleton.1 hc]; exact h2
    rw [e]
    refine and_congr_right fun _ => ?_
    rw [List.take_append_of_le_length (by omega), List.take_of_length_le (by omega), lt_top, List.length_append]
    constructor
    · intro h
      by_contra hne
      refine h ⟨by omega, fun c hc => ?_⟩
      by_contra hlt
      exact hne ⟨c, hc, by simpa [UInt8.le_iff_toNat_le] using hlt⟩
    · rintro ⟨c, hc, h⟩ ⟨-, h'⟩
      have := h' c hc
      rw [UInt8.le_iff_toNat_le] at this
      omega

/-- the number of strings of length `w + 1 + j` without a cut -/
theorem ram_howMany (w j : Nat) :
    howMany (w + 1 + j) (Uncut (ramEdge w)) = ∑ v ∈ Finset.range 256, ((v + 1) ^ (w + 1) - v ^ (w + 1)) * v ^ j := by
  classical
  rw [howMany, sum_words_add]
  have h1 : ∀ x ∈ words (w + 1), (∑ y ∈ words j, if Uncut (ramEdge w) (x ++ y) then 1 else 0) =
      ∑ v ∈ Finset.range 256, (if top x = v then 1 else 0) * v ^ j := by
    intro x hx
    have h2 : (∑ y ∈ words j, if Uncut (ramEdge w) (x ++ y) then 1 else 0) = top x ^ j := by
      rw [← howMany_below j (top_lt x).le, howMany]
      exact Finset.sum_congr rfl fun y _ => by simp only [ram_uncut_long (mem_words.1 hx)]; congr
    rw [h2, Finset.sum_congr rfl (g := fun v => if top x = v then v ^ j else 0) (fun v _ => by split <;> simp),
      Finset.sum_ite_eq, if_pos (Finset.mem_range.2 (top_lt x))]
  rw [Finset.sum_congr rfl h1, Finset.sum_comm]
  refine Finset.sum_congr rfl fun v hv => ?_
  rw [← howMany_top (by omega) (Finset.mem_range.1 hv), howMany, Finset.sum_mul]
  exact Finset.sum_congr rfl fun x _ => by congr

/-- the mean chunk size of Ram -/
noncomputable def ramMean (w : Nat) : ℝ :=
  (w + 1) + ∑ v ∈ Finset.range 256, (((v : ℝ) + 1) ^ (w + 1) - (v : ℝ) ^ (w + 1)) / 256 ^ (w + 1) * (256 / (256 - v))

theorem ram_mean (w : Nat) : HasSum (uncutShare (ramEdge w)) (ramMean w) := by
  have hshort : ∀ n, n ≤ w + 1 → uncutShare (ramEdge w) n = 1 := by
    intro n hn
    have : howMany n (Uncut (ramEdge w)) = 256 ^ n := by
      rw [← howMany_true n]
      exact howMany_congr fun s hs => ⟨fun _ => trivial, fun _ => ram_uncut_short (by omega)⟩
    rw [uncutShare, this]
    push_cast
    exact div_self (by positivity)
  rw [← hasSum_nat_add_iff' (w + 1), Finset.sum_congr rfl fun n hn => hshort n (Finset.mem_range.1 hn).le, ramMean]
  simp only [Finset.sum_const, Finset.card_range, nsmul_eq_mul, mul_one]
  push_cast
  rw [add_sub_cancel_left]
  have h1 : ∀ j, uncutShare (ramEdge w) (j + (w + 1)) =
      ∑ v ∈ Finset.range 256, (((v : ℝ) + 1) ^ (w + 1) - (v : ℝ) ^ (w + 1)) / 256 ^ (w + 1) * ((v : ℝ) / 256) ^ j := by
    intro j
    rw [Nat.add_comm, uncutShare, ram_howMany]
    push_cast
    rw [Finset.sum_div]
    refine Finset.sum_congr rfl fun v _ => ?_
    rw [Nat.cast_sub (Nat.pow_le_pow_left (by omega) _), pow_add, div_pow]
    push_cast
    rw [← pow_add, pow_add (256 : ℝ) (w + 1) j, mul_div_mul_comm]
  rw [funext h1]
  refine hasSum_sum fun v hv => ?_
  have hv' : (v : ℝ) < 256 := by exact_mod_cast Finset.mem_range.1 hv
  have := (hasSum_geometric_of_lt_one (r := (v : ℝ) / 256) (by positivity) (by rw [div_lt_one (by norm_num)]; exact hv')).mul_left
    ((((v : ℝ) + 1) ^ (w + 1) - (v : ℝ) ^ (w + 1)) / 256 ^ (w + 1))
  have he : (1 - (v : ℝ) / 256)⁻¹ = 256 / (256 - v) := by
    have : (256 : ℝ) - v ≠ 0 := by linarith
    field_simp
  rwa [he] at this

/-- C80. Ram: `find_chunk_edge`. -/
theorem C80_ram (p : Ram.Ram) : MeanChunk (Ram.chunk p) (ramMean p.w) :=
  meanChunk_of_uncut (Ram.fce_conforms p) (ram_mean p.w)
example : MeanChunk (Ram.chunk (Ram.Ram.withW 2)) (ramMean 2) := C80_ram (Ram.Ram.withW 2)

end HashRoll.Props
