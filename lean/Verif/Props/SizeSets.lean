import Verif.Props.Recover
/-!
# C77: which chunk sizes an algorithm can produce

The documentation of the algorithms speaks about average, minimum and maximum sizes. Here the exact set of possible sizes is
determined, for every value of the parameters: `n` is in the set iff some input has a chunk of `n` bytes. None of the
algorithms in this file has an upper bound.
-/

namespace HashRoll.Spec

/-- C77. Some input makes the documented `find_chunk_edge` loop emit a chunk of `n` bytes. -/
def DocSize (A : Chunk) (n : Nat) : Prop :=
  ∃ (data : Bytes) (N : Nat) (cs : List Bytes) (rest : Bytes), data.length < N ∧
    A.docLoop data N A.init data 0 = .ok (cs, some rest) ∧ ∃ c ∈ cs, c.length = n

/-- The same for `iter_slices_strict`. -/
def StrictSize (C : ChunkIncr) (n : Nat) : Prop :=
  ∃ (data : Bytes) (N : Nat) (cs : List Bytes) (it : IterSlicesStrict C), data.length < N ∧
    (C.iterSlicesStrict C.init data).run N = .ok (cs, it, true) ∧ ∃ c ∈ cs, c.length = n

variable {A : Chunk} {C : ChunkIncr} {rule : Rule}

theorem Chunked.sizes {hist data : Bytes} {cs : List Bytes} {r : Bytes} (hg : rule.Good)
    (h : Chunked rule hist data cs r) {c : Bytes} (hc : c ∈ cs) : ∃ h' d', rule h' d' c.length := by
  obtain ⟨h', d', n, hr, rfl⟩ := h.mem c hc
  have := hg.le hr
  exact ⟨h', d', by rwa [List.length_take, Nat.min_eq_left this]⟩

theorem docSize_iff (h : DocLoopChunks A rule) (hg : rule.Good) (hf : rule.Fresh) (n : Nat) :
    DocSize A n ↔ ∃ data, rule [] data n := by
  constructor
  · rintro ⟨data, N, cs, rest, hN, hl, c, hc, rfl⟩
    obtain ⟨cs', r, rest', h1, h2, -⟩ := h data N hN
    rw [hl] at h1
    cases h1
    obtain ⟨h', d', hr⟩ := h2.sizes hg hc
    exact ⟨d', hf _ _ _ _ hr⟩
  · rintro ⟨data, hr⟩
    obtain ⟨cs, r, rest, h1, h2, -⟩ := h data (data.length + 1) (by omega)
    refine ⟨data, _, cs, rest, by omega, h1, ?_⟩
    cases h2 with
    | rem hn => exact absurd hr (hn n)
    | @cut _ _ m _ _ hr' _ =>
      refine ⟨_, List.mem_cons_self, ?_⟩
      rw [List.length_take, hg.det hr hr', Nat.min_eq_left (hg.le hr')]

theorem strictSize_of_mem (h : StrictChunks C rule) (hg : rule.Good) {data : Bytes} {cs : List Bytes} {r c : Bytes}
    (hc : Chunked rule [] data cs r) (hm : c ∈ cs) : StrictSize C c.length := by
  obtain ⟨it, cs', r', h1, h2, -⟩ := h data (data.length + 1) (by omega)
  obtain ⟨rfl, -⟩ := h2.det hg hc
  exact ⟨data, _, cs', it, by omega, h1, c, hm, rfl⟩

theorem StrictSize.exists (h : StrictChunks C rule) (hg : rule.Good) {n : Nat} (hs : StrictSize C n) :
    ∃ h' d', rule h' d' n := by
  obtain ⟨data, N, cs, it, hN, hl, c, hc, rfl⟩ := hs
  obtain ⟨it', cs', r, h1, h2, -⟩ := h data N hN
  rw [hl] at h1
  cases h1
  exact h2.sizes hg hc

theorem strictSize_of_first (h : StrictChunks C rule) (hg : rule.Good) {data : Bytes} {n : Nat} (hr : rule [] data n) :
    StrictSize C n := by
  obtain ⟨it, cs, r, h1, h2, -⟩ := h data (data.length + 1) (by omega)
  refine ⟨data, _, cs, it, by omega, h1, ?_⟩
  cases h2 with
  | rem hn => exact absurd hr (hn n)
  | @cut _ _ m _ _ hr' _ =>
    refine ⟨_, List.mem_cons_self, ?_⟩
    rw [List.length_take, hg.det hr hr', Nat.min_eq_left (hg.le hr')]

theorem strictSize_iff (h : StrictChunks C rule) (hg : rule.Good) (hf : rule.Fresh) (n : Nat) :
    StrictSize C n ↔ ∃ data, rule [] data n := by
  constructor
  · intro hs
    obtain ⟨h', d', hr⟩ := hs.exists h hg
    exact ⟨d', hf _ _ _ _ hr⟩
  · rintro ⟨data, hr⟩
    exact strictSize_of_first h hg hr

end HashRoll.Spec

namespace HashRoll.Props

open Spec

/-! ## Ram -/

theorem ram_size (w n : Nat) : (∃ data, FirstCut (ramEdge w) data n) ↔ w + 2 ≤ n := by
  constructor
  · rintro ⟨data, -, h2, ⟨b, -, h3, -⟩, -⟩
    rw [List.length_take] at h3
    omega
  · intro hn
    obtain ⟨k, rfl⟩ : ∃ k, n = k + 2 := ⟨n - 2, by omega⟩
    refine ⟨(255 :: List.replicate k 0) ++ [255], by omega, by simp, ?_, ?_⟩
    · rw [List.take_of_length_le (by simp)]
      exact ⟨255, List.getLast?_concat, (by simp; omega), fun x _ => by rw [UInt8.le_iff_toNat_le]; have := x.toNat_lt; change x.toNat ≤ 255; omega⟩
    · rintro m h1 h2 ⟨b, hb, hl, hx⟩
      rw [List.take_append_of_le_length (by simp; omega)] at hb hl hx
      obtain ⟨m, rfl⟩ : ∃ j, m = j + 1 := ⟨m - 1, by omega⟩
      rw [List.take_succ_cons, List.take_replicate] at hb hl hx
      have h255 := hx 255 (by rw [List.take_succ_cons]; exact List.mem_cons_self)
      simp only [List.length_cons, List.length_replicate] at hl
      obtain ⟨j, hj⟩ : ∃ j, min m k = j + 1 := ⟨min m k - 1, by omega⟩
      rw [hj, List.replicate_succ', List.getLast?_cons, List.getLast?_append] at hb
      simp at hb
      subst hb
      exact absurd h255 (by decide)

/-- C77. Ram, `find_chunk_edge`: every size from `w + 2` on. -/
theorem C77_ram (p : Ram.Ram) (n : Nat) : DocSize (Ram.chunk p) n ↔ p.w + 2 ≤ n := by
  rw [docSize_iff (C08_ram p) (EdgeRule.good _) (EdgeRule.fresh _)]
  exact ram_size p.w n

/-- C77. RamIncr: every size from `w + 1` on. -/
theorem C77_ram_incr (p : Ram.Ram) (n : Nat) : StrictSize (Ram.incr p) n ↔ p.w + 1 ≤ n := by
  rw [strictSize_iff (C05_ram p) (BeforeRule.good _) (BeforeRule.fresh _)]
  have := ram_size p.w (n + 1)
  exact this.trans (by omega)
example : DocSize (Ram.chunk (Ram.Ram.withW 2)) 4 ∧ ¬ DocSize (Ram.chunk (Ram.Ram.withW 2)) 3 :=
  ⟨(C77_ram _ _).2 (by decide), fun h => absurd ((C77_ram _ _).1 h) (by decide)⟩

/-! ## Mii -/

/-- the bytes `a, a + 1, …` (`w` of them) -/
def ramp (a w : Nat) : Bytes := (List.range' a w).map UInt8.ofNat

theorem ramp_length (a w : Nat) : (ramp a w).length = w := by simp [ramp]

theorem ramp_increasing {a w : Nat} (h : a + w ≤ 256) : Increasing (ramp a w) := by
  unfold Increasing ramp
  rw [List.pairwise_map]
  refine (List.pairwise_lt_range' (s := a) (n := w)).imp_of_mem ?_
  intro x y hx hy hxy
  rw [List.mem_range'_1] at hx hy
  rw [UInt8.lt_iff_toNat_lt, UInt8.toNat_ofNat', UInt8.toNat_ofNat', Nat.mod_eq_of_lt (by omega), Nat.mod_eq_of_lt (by omega)]
  exact hxy

theorem mii_edge_bound {w : Nat} {p : Bytes} (h : miiEdge w p) : 1 ≤ w ∧ w ≤ 255 ∧ w + 1 ≤ p.length := by
  obtain ⟨h1, h2, h3⟩ := h
  have := increasing_length h3
  rw [lastN_length] at this
  omega

/-- zeros in front of `0, 1, …, w` -/
theorem mii_first {w n : Nat} (h1 : 1 ≤ w) (h2 : w ≤ 255) (h3 : w + 1 ≤ n) :
    FirstCut (miiEdge w) (List.replicate (n - (w + 1)) 0 ++ ramp 0 (w + 1)) n := by
  have hlen : (List.replicate (n - (w + 1)) (0 : UInt8) ++ ramp 0 (w + 1)).length = n := by
    rw [List.length_append, ramp_length, List.length_replicate]; omega
  refine ⟨by omega, by omega, ⟨h1, by rw [List.length_take]; omega, ?_⟩, ?_⟩
  · rw [List.take_of_length_le (by omega), lastN_append_right _ (by rw [ramp_length]), lastN_of_le (by rw [ramp_length])]
    exact ramp_increasing (by omega)
  · rintro m hm1 hm2 ⟨-, hl, hi⟩
    rw [List.length_take] at hl
    have hd : ∀ i, i < n - w → (List.replicate (n - (w + 1)) (0 : UInt8) ++ ramp 0 (w + 1))[i]? = some 0 := by
      intro i hi
      by_cases h : i < n - (w + 1)
      · rw [List.getElem?_append_left (by simpa using h), List.getElem?_replicate, if_pos h]
      · have : i = n - (w + 1) := by omega
        subst this
        rw [List.getElem?_append_right (by simp)]
        simp [ramp, List.range'_succ]
    have hg : ∀ j, j < w + 1 → (lastN (w + 1) ((List.replicate (n - (w + 1)) (0 : UInt8) ++ ramp 0 (w + 1)).take m))[j]? =
        (List.replicate (n - (w + 1)) (0 : UInt8) ++ ramp 0 (w + 1))[m - (w + 1) + j]? := by
      intro j hj
      rw [lastN, List.getElem?_drop, List.length_take, Nat.min_eq_left (by omega), List.getElem?_take_of_lt (by omega)]
    have e0 := hg 0 (by omega)
    have e1 := hg 1 (by omega)
    rw [hd _ (by omega)] at e0 e1
    have hlen2 : 1 < (lastN (w + 1) ((List.replicate (n - (w + 1)) (0 : UInt8) ++ ramp 0 (w + 1)).take m)).length := by
      rw [lastN_length, List.length_take]; omega
    have := List.pairwise_iff_getElem.1 hi 0 1 (by omega) hlen2 (by omega)
    rw [List.getElem?_eq_getElem (by omega)] at e0
    rw [List.getElem?_eq_getElem hlen2] at e1
    rw [Option.some.inj e0, Option.some.inj e1] at this
    exact absurd this (by decide)

/-- C77. Mii, `find_chunk_edge`: every size from `w + 1` on, and nothing unless `1 <= w <= 255`. -/
theorem C77_mii (p : Mii.Mii) (n : Nat) : DocSize (Mii.chunk p) n ↔ 1 ≤ p.w ∧ p.w ≤ 255 ∧ p.w + 1 ≤ n := by
  rw [docSize_iff (C08_mii p) (EdgeRule.good _) (EdgeRule.fresh _)]
  constructor
  · rintro ⟨data, h1, h2, h3, -⟩
    have := mii_edge_bound h3
    rw [List.length_take] at this
    omega
  · rintro ⟨h1, h2, h3⟩
    exact ⟨_, mii_first h1 h2 h3⟩

/-- C77. MiiIncr: also chunks of `w` bytes (not the first one). -/
theorem C77_mii_incr (p : Mii.Mii) (n : Nat) : StrictSize (Mii.incr p) n ↔ 1 ≤ p.w ∧ p.w ≤ 255 ∧ p.w ≤ n := by
  constructor
  · intro hs
    obtain ⟨h', d', h1, h2, h3, -⟩ := hs.exists (C05_mii p) (EdgeRule.good _)
    unfold miiIncrEdge at h3
    split at h3
    · have := mii_edge_bound h3
      rw [List.length_take] at this
      omega
    · have := mii_edge_bound h3
      rw [List.length_cons, List.length_take] at this
      omega
  · rintro ⟨h1, h2, h3⟩
    by_cases hn : p.w + 1 ≤ n
    · refine strictSize_of_first (C05_mii p) (EdgeRule.good _) (data := List.replicate (n - (p.w + 1)) 0 ++ ramp 0 (p.w + 1)) ?_
      have := mii_first h1 h2 hn
      refine (FirstCut.congr fun x _ => ?_).1 this
      unfold miiIncrEdge
      rw [if_pos rfl]
    · obtain rfl : n = p.w := by omega
      have f1 : EdgeRule (miiIncrEdge p.w) [] (ramp 0 (p.w + 1) ++ ramp 1 p.w) (p.w + 1) := by
        have := (mii_first h1 h2 (Nat.le_refl _)).mono (ramp 1 p.w)
        rw [Nat.sub_self, List.replicate_zero, List.nil_append] at this
        refine (FirstCut.congr fun x _ => ?_).1 this
        unfold miiIncrEdge
        rw [if_pos rfl]
      have ht : (ramp 0 (p.w + 1) ++ ramp 1 p.w).take (p.w + 1) = ramp 0 (p.w + 1) := by
        rw [List.take_append_of_le_length (by rw [ramp_length]), List.take_of_length_le (by rw [ramp_length])]
      have hd : (ramp 0 (p.w + 1) ++ ramp 1 p.w).drop (p.w + 1) = ramp 1 p.w := by
        rw [List.drop_append_of_le_length (by rw [ramp_length]), List.drop_of_length_le (by rw [ramp_length]), List.nil_append]
      have hne : ramp 0 (p.w + 1) ≠ [] := by
        intro h
        have := congrArg List.length h
        rw [ramp_length, List.length_nil] at this
        omega
      have f2 : EdgeRule (miiIncrEdge p.w) (ramp 0 (p.w + 1)) (ramp 1 p.w) p.w := by
        refine ⟨h1, by rw [ramp_length], ?_, ?_⟩
        · unfold miiIncrEdge
          rw [if_neg hne, List.take_of_length_le (by rw [ramp_length])]
          have e : (0 : UInt8) :: ramp 1 p.w = ramp 0 (p.w + 1) := by
            simp [ramp, List.range'_succ]
          rw [e]
          exact ⟨h1, by rw [ramp_length], by rw [lastN_of_le (by rw [ramp_length])]; exact ramp_increasing (by omega)⟩
        · intro m hm1 hm2 he
          unfold miiIncrEdge at he
          rw [if_neg hne] at he
          have := he.2.1
          rw [List.length_cons, List.length_take] at this
          omega
      obtain ⟨cs, r, hc⟩ := Chunked.exists (EdgeRule.good (miiIncrEdge p.w)) (EdgeRule.pos _)
        (ramp 0 (p.w + 1) ++ ramp 1 p.w) []
      have c2 : Chunked (EdgeRule (miiIncrEdge p.w)) (ramp 0 (p.w + 1)) (ramp 1 p.w) (ramp 1 p.w :: cs) r := by
        have := Chunked.cut f2 (cs := cs) (r := r) (by
          rw [List.take_of_length_le (by rw [ramp_length]), List.drop_of_length_le (by rw [ramp_length])]; exact hc)
        rwa [List.take_of_length_le (by rw [ramp_length])] at this
      have c1 := Chunked.cut f1 (cs := ramp 1 p.w :: cs) (r := r) (by rw [ht, hd]; exact c2)
      have := strictSize_of_mem (C05_mii p) (EdgeRule.good _) c1 (List.mem_cons_of_mem _ List.mem_cons_self)
      rwa [ramp_length] at this
example : StrictSize (Mii.incr (Mii.Mii.withW 5)) 5 ∧ ¬ DocSize (Mii.chunk (Mii.Mii.withW 5)) 5 :=
  ⟨(C77_mii_incr _ _).2 (by decide), fun h => absurd ((C77_mii _ _).1 h) (by decide)⟩

/-! ## Pigz -/

theorem pigz_bit_snoc (hit : BitVec 32) (q : Bytes) (v : UInt8) {i : Nat} (hi : i < 32) :
    (pigzHash hit (q ++ [v])).getLsbD i =
      ((decide (1 ≤ i) && (pigzHash hit q).getLsbD (i - 1)) ^^ (word 32 v).getLsbD i) := by
  rw [Pigz.pigzHash_snoc, BitVec.getLsbD_xor, BitVec.getLsbD_shiftLeft]
  by_cases h : i < 1
  · simp [hi, show ¬ 1 ≤ i by omega, h]
  · simp [hi, show 1 ≤ i by omega, h]

theorem word_bit_high (v : UInt8) {i : Nat} (h : 8 ≤ i) : (word 32 v).getLsbD i = false := by
  unfold word
  rw [BitVec.getLsbD_setWidth, BitVec.getLsbD_of_ge _ _ h, Bool.and_false]

theorem pigz_high (hit : BitVec 32) (q : Bytes) {i : Nat} (h : q.length + 7 ≤ i) (hi : i < 32) :
    (pigzHash hit q).getLsbD i = hit.getLsbD (i - q.length) := by
  induction q using List.reverseRecOn generalizing i with
  | nil => simp [pigzHash, wxor]
  | append_singleton q v ih =>
    rw [List.length_append, List.length_singleton] at h ⊢
    rw [pigz_bit_snoc _ _ _ hi, word_bit_high v (by omega), ih (i := i - 1) (by omega) (by omega), Bool.xor_false,
      decide_eq_true (by omega : 1 ≤ i), Bool.true_and, show i - 1 - q.length = i - (q.length + 1) by omega]

theorem pigz_params {prof : Profile} {bits : BitVec 8} {p : Pigz.PigzRsyncable}
    (h : Pigz.PigzRsyncable.withBits prof bits = .ok p) (hb : bits.toNat ≤ 31) (i : Nat) (hi : i < 32) :
    p.mask.getLsbD i = decide (i < bits.toNat) ∧ p.hit.getLsbD i = decide (i + 1 < bits.toNat) := by
  obtain ⟨-, h2, h3⟩ := Pigz.withBits_mask h
  rw [Nat.mod_eq_of_lt (by omega)] at h2
  have key : ∀ i, p.mask.getLsbD i = (decide (i < 32) && decide (i < bits.toNat)) := by
    intro i
    rw [h2, BitVec.getLsbD_ofNat, Nat.testBit_two_pow_sub_one]
  constructor
  · rw [key, decide_eq_true hi, Bool.true_and]
  · rw [h3, BitVec.getLsbD_ushiftRight, key, Nat.add_comm 1 i]
    by_cases h : i + 1 < bits.toNat
    · simp [h, show i + 1 < 32 by omega]
    · simp [h]

/-- the edge, bit by bit -/
theorem pigz_edge_bits {prof : Profile} {bits : BitVec 8} {p : Pigz.PigzRsyncable}
    (h : Pigz.PigzRsyncable.withBits prof bits = .ok p) (hb : bits.toNat ≤ 31) (q : Bytes) :
    pigzEdge p.mask p.hit q ↔ ∀ i, i < bits.toNat → (pigzHash p.hit q).getLsbD i = decide (i + 1 < bits.toNat) := by
  have hp := pigz_params h hb
  constructor
  · intro he i hi
    have := congrArg (fun x => x.getLsbD i) he
    simp only [BitVec.getLsbD_and] at this
    rw [(hp i (by omega)).1, (hp i (by omega)).2, decide_eq_true hi, Bool.and_true] at this
    exact this
  · intro he
    unfold pigzEdge
    apply BitVec.eq_of_getLsbD_eq
    intro i hi
    rw [BitVec.getLsbD_and, (hp i hi).1, (hp i hi).2]
    by_cases h' : i < bits.toNat
    · rw [he i h', decide_eq_true h', Bool.and_true]
    · rw [decide_eq_false h', Bool.and_false, decide_eq_false (by omega)]

/-- the byte that clears bit `t` of an all-one state -/
def flip (t : Nat) : UInt8 := UInt8.ofNat (1 ^^^ 2 ^ t)

theorem flip_bits : ∀ (t : Fin 8) (i : Fin 32), (word 32 (flip t.1)).getLsbD i.1 = (decide (i.1 = 0) ^^ decide (i.1 = t.1)) := by
  decide +kernel

theorem one_bits : ∀ (i : Fin 32), (word 32 1).getLsbD i.1 = decide (i.1 = 0) := by
  decide +kernel

theorem pigz_size {prof : Profile} {bits : BitVec 8} {p : Pigz.PigzRsyncable}
    (h : Pigz.PigzRsyncable.withBits prof bits = .ok p) (h1 : 1 ≤ bits.toNat) (hb : bits.toNat ≤ 31) (n : Nat) :
    (∃ data, FirstCut (pigzEdge p.mask p.hit) data n) ↔ 1 ≤ n ∧ bits.toNat ≤ n + 7 := by
  have hp := pigz_params h hb
  constructor
  · rintro ⟨data, k1, k2, k3, -⟩
    refine ⟨k1, ?_⟩
    by_contra hlt
    have := (pigz_edge_bits h hb _).1 k3 (bits.toNat - 1) (by omega)
    have hl : (data.take n).length = n := by rw [List.length_take]; omega
    rw [pigz_high _ _ (by omega) (by omega), hl, (hp _ (by omega)).2, decide_eq_true (by omega),
      decide_eq_false (by omega)] at this
    cases this
  · rintro ⟨k1, k2⟩
    -- the last `m` bytes do it
    obtain ⟨m, hm1, hm2, hm3, hm4⟩ : ∃ m, 1 ≤ m ∧ m ≤ n ∧ m ≤ bits.toNat ∧ bits.toNat ≤ m + 7 :=
      ⟨max 1 (bits.toNat - 7), by omega, by omega, by omega, by omega⟩
    have hones : ∀ j i, i < bits.toNat → (j = 0 → i + 1 < bits.toNat) →
        (pigzHash p.hit (List.replicate j 1)).getLsbD i = true := by
      intro j
      induction j with
      | zero =>
        intro i hi hj
        have : pigzHash p.hit (List.replicate 0 1) = p.hit := by simp [pigzHash, wxor]
        rw [this, (hp i (by omega)).2, decide_eq_true (hj rfl)]
      | succ j ih =>
        intro i hi _
        rw [List.replicate_succ', pigz_bit_snoc _ _ _ (by omega), one_bits ⟨i, by omega⟩]
        by_cases h0 : i = 0
        · simp [h0]
        · rw [ih (i - 1) (by omega) (fun _ => by omega), decide_eq_true (by omega : 1 ≤ i), decide_eq_false h0]; rfl
    have hflip : ∀ t i, t < m → i < bits.toNat →
        (pigzHash p.hit (List.replicate (n - m) 1 ++ [flip (bits.toNat - m)] ++ List.replicate t 1)).getLsbD i =
          !decide (i = bits.toNat - m + t) := by
      intro t
      induction t with
      | zero =>
        intro i _ hi
        rw [List.replicate_zero, List.append_nil, pigz_bit_snoc _ _ _ (by omega),
          flip_bits ⟨bits.toNat - m, by omega⟩ ⟨i, by omega⟩, Nat.add_zero]
        by_cases h0 : i = 0
        · simp [h0]
        · rw [hones _ (i - 1) (by omega) (fun _ => by omega), decide_eq_true (by omega : 1 ≤ i), decide_eq_false h0]
          simp
      | succ t ih =>
        intro i ht hi
        rw [List.replicate_succ', ← List.append_assoc, pigz_bit_snoc _ _ _ (by omega), one_bits ⟨i, by omega⟩]
        by_cases h0 : i = 0
        · subst h0
          rw [decide_eq_false (by omega : ¬ 0 = bits.toNat - m + (t + 1))]
          rfl
        · rw [ih (i - 1) (by omega) (by omega), decide_eq_true (by omega : 1 ≤ i), decide_eq_false h0, Bool.true_and,
            Bool.xor_false]
          congr 1
          exact decide_eq_decide.2 (by omega)
    have hn1 : NoEdge (pigzEdge p.mask p.hit) (List.replicate (n - m) 1) := by
      intro j hj1 hj2 he
      rw [List.length_replicate] at hj2
      rw [List.take_replicate, Nat.min_eq_left hj2] at he
      have := (pigz_edge_bits h hb _).1 he (bits.toNat - 1) (by omega)
      rw [hones _ _ (by omega) (fun _ => by omega), decide_eq_false (by omega)] at this
      cases this
    have hf : FirstCut (fun x => pigzEdge p.mask p.hit (List.replicate (n - m) 1 ++ x))
        ([flip (bits.toNat - m)] ++ List.replicate (m - 1) 1) m := by
      have htake : ∀ j, 1 ≤ j → j ≤ m → List.replicate (n - m) (1 : UInt8) ++
          ([flip (bits.toNat - m)] ++ List.replicate (m - 1) 1).take j =
          List.replicate (n - m) 1 ++ [flip (bits.toNat - m)] ++ List.replicate (j - 1) 1 := by
        intro j hj1 hj2
        obtain ⟨j, rfl⟩ : ∃ i, j = i + 1 := ⟨j - 1, by omega⟩
        rw [List.append_assoc, List.singleton_append, List.take_succ_cons, List.take_replicate, Nat.min_eq_left (by omega)]
        rfl
      refine ⟨hm1, by simp; omega, ?_, ?_⟩
      · show pigzEdge _ _ _
        rw [htake m hm1 (Nat.le_refl _), pigz_edge_bits h hb]
        intro i hi
        rw [hflip _ _ (by omega) hi, ← decide_not]
        exact decide_eq_decide.2 (by omega)
      · intro j hj1 hj2 he
        change pigzEdge _ _ _ at he
        rw [htake j hj1 (by omega), pigz_edge_bits h hb] at he
        have := he (bits.toNat - 1) (by omega)
        rw [hflip _ _ (by omega) (by omega), decide_eq_false (by omega), decide_eq_false (by omega)] at this
        cases this
    have := hn1.firstCut_append hf
    rw [List.length_replicate, Nat.sub_add_cancel hm2] at this
    exact ⟨_, this⟩

/-- C77. Pigz: every size from `bits - 7` on (at least 1). For the default of 12 bits the shortest chunk has 5 bytes. -/
theorem C77_pigz {prof : Profile} {bits : BitVec 8} {p : Pigz.PigzRsyncable}
    (h : Pigz.PigzRsyncable.withBits prof bits = .ok p) (h1 : 1 ≤ bits.toNat) (hb : bits.toNat ≤ 31) (n : Nat) :
    (DocSize (Pigz.chunk p) n ↔ 1 ≤ n ∧ bits.toNat ≤ n + 7) ∧
    (StrictSize (Pigz.incr p) n ↔ 1 ≤ n ∧ bits.toNat ≤ n + 7) := by
  constructor
  · rw [docSize_iff (C08_pigz h) (EdgeRule.good _) (EdgeRule.fresh _)]
    exact pigz_size h h1 hb n
  · rw [strictSize_iff (C05_pigz h) (EdgeRule.good _) (EdgeRule.fresh _)]
    exact pigz_size h h1 hb n
example : ∃ p, Pigz.PigzRsyncable.default .debug = .ok p ∧ DocSize (Pigz.chunk p) 5 ∧ ¬ DocSize (Pigz.chunk p) 4 := by
  obtain ⟨p, h, -⟩ := C50_pigz .debug 12 (by decide)
  exact ⟨p, h, (C77_pigz h (by decide) (by decide) _).1.2 (by decide),
    fun h' => absurd ((C77_pigz h (by decide) (by decide) _).1.1 h') (by decide)⟩

/-! ## Gzip -/

theorem winSum_whole {W : Nat} {q : Bytes} (h : q.length ≤ W) : Gzip.winSum W q = Gzip.bsum q := by
  rw [Gzip.winSum, lastN_of_le h]

theorem bsum_le (q : Bytes) : Gzip.bsum q ≤ 255 * q.length := by
  induction q with
  | nil => simp [Gzip.bsum]
  | cons b q ih =>
    have := b.toNat_lt
    simp only [Gzip.bsum, List.map_cons, List.sum_cons, List.length_cons] at ih ⊢
    omega

theorem gzip_edge_nat {W m : Nat} (hW : W ≤ 2 ^ 48) (q : Bytes) : gzipEdge W m q ↔ Gzip.winSum W q % m = 0 := by
  have h1 := bsum_le (lastN W q)
  rw [lastN_length] at h1
  have h2 : Gzip.winSum W q < 2 ^ 64 := by
    have : 255 * min W q.length ≤ 255 * 2 ^ 48 := Nat.mul_le_mul_left _ (by omega)
    show Gzip.bsum _ < _
    omega
  show Gzip.winSum W q % 2 ^ 64 % m = 0 ↔ _
  rw [Nat.mod_eq_of_lt h2]

/-- `n` bytes with a given sum, the first of them not 0 -/
theorem bytes_with_sum (n : Nat) : ∀ s, 1 ≤ s → s ≤ 255 * n →
    ∃ q : Bytes, q.length = n ∧ Gzip.bsum q = s ∧ ∃ b q', q = b :: q' ∧ 1 ≤ b.toNat := by
  induction n with
  | zero => intro s h1 h2; omega
  | succ n ih =>
    intro s h1 h2
    have hb : ∀ x, x ≤ 255 → (UInt8.ofNat x).toNat = x := by
      intro x hx; rw [UInt8.toNat_ofNat', Nat.mod_eq_of_lt (by omega)]
    by_cases hs : s ≤ 255
    · refine ⟨UInt8.ofNat s :: List.replicate n 0, by simp, ?_, _, _, rfl, by rw [hb s hs]; exact h1⟩
      simp only [Gzip.bsum, List.map_cons, List.sum_cons, hb s hs, List.map_replicate, List.sum_replicate_nat]
      simp
    · obtain ⟨q, k1, k2, -⟩ := ih (s - 255) (by omega) (by omega)
      refine ⟨255 :: q, by simp [k1], ?_, _, _, rfl, by decide⟩
      simp only [Gzip.bsum, List.map_cons, List.sum_cons] at k2 ⊢
      rw [k2]
      show 255 + (s - 255) = s
      omega

/-- the bytes `f 0, …, f (t - 1)` -/
def tab (f : Nat → UInt8) (t : Nat) : Bytes := (List.range t).map f

theorem tab_length (f : Nat → UInt8) (t : Nat) : (tab f t).length = t := by simp [tab]

theorem tab_succ (f : Nat → UInt8) (t : Nat) : tab f (t + 1) = tab f t ++ [f t] := by
  simp [tab, List.range_succ]

theorem tab_take (f : Nat → UInt8) {t n : Nat} (h : t ≤ n) : (tab f n).take t = tab f t := by
  rw [tab, ← List.map_take, List.take_range, Nat.min_eq_left h, tab]

theorem tab_winSum_grow (f : Nat → UInt8) {W t : Nat} (h : t < W) :
    Gzip.winSum W (tab f (t + 1)) = Gzip.winSum W (tab f t) + (f t).toNat := by
  rw [tab_succ, Gzip.winSum_grow (by rw [tab_length]; exact h)]

theorem tab_winSum_roll (f : Nat → UInt8) {W t : Nat} (h : W ≤ t) :
    (if W = 0 then f t else f (t - W)).toNat + Gzip.winSum W (tab f (t + 1)) = Gzip.winSum W (tab f t) + (f t).toNat := by
  rw [tab_succ]
  refine Gzip.winSum_roll (by rw [tab_length]; exact h) ?_
  rw [tab_length]
  by_cases hW : W = 0
  · subst hW
    rw [if_pos rfl, Nat.sub_zero, List.getElem?_append_right (by rw [tab_length]), tab_length, Nat.sub_self]
    rfl
  · rw [if_neg hW, List.getElem?_append_left (by rw [tab_length]; omega), tab, List.getElem?_map, List.getElem?_range (by omega)]
    rfl

theorem gzip_size {W m : Nat} (hW1 : 1 ≤ W) (hW : W ≤ 2 ^ 48) (hm : 2 ≤ m) (n : Nat) :
    (∃ data, FirstCut (gzipEdge W m) data n) ↔ n = 1 ∨ 2 ≤ n ∧ (m ≤ 255 * n ∨ W < n) := by
  constructor
  · rintro ⟨data, h1, h2, h3, h4⟩
    by_cases hn : n = 1
    · exact .inl hn
    refine .inr ⟨by omega, ?_⟩
    by_contra hno
    have hl : (data.take n).length = n := by rw [List.length_take]; omega
    rw [gzip_edge_nat hW, winSum_whole (by omega)] at h3
    have hle := bsum_le (data.take n)
    rw [hl] at hle
    rw [Nat.mod_eq_of_lt (by omega)] at h3
    apply h4 1 (by omega) (by omega)
    rw [gzip_edge_nat hW, winSum_whole (by rw [List.length_take]; omega)]
    cases data with
    | nil => simp at h2; omega
    | cons b data =>
      obtain ⟨n, rfl⟩ : ∃ k, n = k + 1 := ⟨n - 1, by omega⟩
      simp only [Gzip.bsum, List.take_succ_cons, List.map_cons, List.sum_cons, List.take_zero, List.map_nil, List.sum_nil] at h3 ⊢
      rw [show b.toNat = 0 by omega]
      simp
  · intro h
    by_cases hn1 : n = 1
    · subst hn1
      refine ⟨[0], by omega, by simp, ?_, fun k h1 h2 => by omega⟩
      rw [gzip_edge_nat hW, winSum_whole (by simpa using hW1)]
      simp [Gzip.bsum]
    have hn : 2 ≤ n := by omega
    by_cases hnW : n ≤ W
    · have hmn : m ≤ 255 * n := by omega
      -- bytes with the sum `m`, the first and the last of them not 0
      obtain ⟨q, k1, k2, b, q', rfl, k3⟩ := bytes_with_sum (n - 1) (m - min 255 (m - 1)) (by omega) (by omega)
      have hz : (UInt8.ofNat (min 255 (m - 1))).toNat = min 255 (m - 1) := by
        rw [UInt8.toNat_ofNat', Nat.mod_eq_of_lt (by omega)]
      have hlen : (b :: q' ++ [UInt8.ofNat (min 255 (m - 1))]).length = n := by
        rw [List.length_append, k1, List.length_singleton]; omega
      refine ⟨b :: q' ++ [UInt8.ofNat (min 255 (m - 1))], by omega, by omega, ?_, ?_⟩
      · rw [gzip_edge_nat hW, List.take_of_length_le (by omega), winSum_whole (by omega), Gzip.bsum_snoc, k2, hz,
          Nat.sub_add_cancel (by omega), Nat.mod_self]
      · intro j hj1 hj2
        rw [gzip_edge_nat hW, List.take_append_of_le_length (by omega), winSum_whole (by rw [List.length_take]; omega)]
        obtain ⟨j, rfl⟩ : ∃ k, j = k + 1 := ⟨j - 1, by omega⟩
        have hs : Gzip.bsum ((b :: q').take (j + 1)) + Gzip.bsum ((b :: q').drop (j + 1)) = Gzip.bsum (b :: q') := by
          rw [Gzip.bsum, Gzip.bsum, Gzip.bsum, ← List.sum_append, ← List.map_append, List.take_append_drop]
        have hpos : 1 ≤ Gzip.bsum ((b :: q').take (j + 1)) := by
          simp only [Gzip.bsum, List.take_succ_cons, List.map_cons, List.sum_cons]; omega
        rw [Nat.mod_eq_of_lt (by omega)]
        omega
    · -- a 1 in every window
      obtain ⟨t, rfl⟩ : ∃ t, n = t + 1 := ⟨n - 1, by omega⟩
      have hWt : W ≤ t := by omega
      have hr : t % W < W := Nat.mod_lt _ hW1
      by_cases hcase : t % W = 0 ∨ m = 2
      · -- ones at the multiples of `W`, the last byte is `0` or `1`
        have hf : ∀ (c : UInt8) i, i ≤ t → 1 ≤ i →
            Gzip.winSum W (tab (fun i => if i = t then c else if i % W = 0 then 1 else 0) i) = 1 := by
          intro c i hi h1
          induction i with
          | zero => omega
          | succ i ih =>
            by_cases hiW : i < W
            · rw [tab_winSum_grow _ hiW]
              by_cases h0 : i = 0
              · subst h0
                simp only [show (0 : Nat) ≠ t by omega, if_false, Nat.zero_mod, if_true, tab, List.range_zero, List.map_nil,
                  Gzip.winSum_nil]
                decide
              · rw [ih (by omega) (by omega)]
                simp only [show i ≠ t by omega, if_false, Nat.mod_eq_of_lt hiW, h0]
                decide
            · have := tab_winSum_roll (fun i => if i = t then c else if i % W = 0 then 1 else 0) (W := W) (t := i) (by omega)
              rw [ih (by omega) (by omega)] at this
              simp only [show W ≠ 0 by omega, if_false, show i - W ≠ t by omega, show i ≠ t by omega,
                ← Nat.mod_eq_sub_mod (by omega : i ≥ W)] at this
              omega
        refine ⟨tab (fun i => if i = t then (if t % W = 0 then 0 else 1) else if i % W = 0 then 1 else 0) (t + 1), by omega,
          by rw [tab_length], ?_, ?_⟩
        · rw [gzip_edge_nat hW, tab_take _ (Nat.le_refl _)]
          have := tab_winSum_roll (fun i => if i = t then (if t % W = 0 then 0 else 1) else if i % W = 0 then 1 else 0) hWt
          rw [hf _ t (Nat.le_refl _) (by omega)] at this
          simp only [show W ≠ 0 by omega, if_false, show t - W ≠ t by omega, if_true, ← Nat.mod_eq_sub_mod hWt] at this
          by_cases h0 : t % W = 0
          · simp only [h0, if_true] at this ⊢
            have h2 : ∀ x, (1 : UInt8).toNat + x = 1 + (0 : UInt8).toNat → x = 0 := by
              intro x hx; change 1 + x = 1 + 0 at hx; omega
            rw [h2 _ this, Nat.zero_mod]
          · simp only [h0, if_false] at this ⊢
            have h2 : ∀ x, (0 : UInt8).toNat + x = 1 + (1 : UInt8).toNat → x = 2 := by
              intro x hx; change 0 + x = 1 + 1 at hx; omega
            rw [h2 _ this, hcase.resolve_left h0]
        · intro j hj1 hj2
          rw [gzip_edge_nat hW, tab_take _ (by omega), hf _ j (by omega) hj1, Nat.mod_eq_of_lt (by omega)]
          omega
      · -- ones at 0 and at the places congruent to `t`; the last byte is 0
        have hr1 : 1 ≤ t % W := by omega
        have hm3 : 3 ≤ m := by omega
        have hf : ∀ i, i ≤ t → 1 ≤ i →
            Gzip.winSum W (tab (fun i => if i = 0 then 1 else if i = t then 0 else if i % W = t % W then 1 else 0) i) =
              if t % W < i ∧ i ≤ W then 2 else 1 := by
          intro i hi h1
          induction i with
          | zero => omega
          | succ i ih =>
            by_cases hiW : i < W
            · rw [tab_winSum_grow _ hiW]
              by_cases h0 : i = 0
              · subst h0
                simp only [if_true, tab, List.range_zero, List.map_nil, Gzip.winSum_nil]
                rw [if_neg (by omega)]
                decide
              · rw [ih (by omega) (by omega)]
                simp only [show i ≠ t by omega, if_false, Nat.mod_eq_of_lt hiW, h0]
                by_cases hit : i = t % W
                · rw [if_neg (by omega), if_pos hit, if_pos (by omega)]; decide
                · rw [if_neg hit]
                  by_cases hlt : t % W < i
                  · rw [if_pos (by omega), if_pos (by omega)]; decide
                  · rw [if_neg (by omega), if_neg (by omega)]; decide
            · have := tab_winSum_roll (fun i => if i = 0 then 1 else if i = t then 0 else if i % W = t % W then 1 else 0)
                (W := W) (t := i) (by omega)
              rw [ih (by omega) (by omega)] at this
              rw [if_neg (by omega : ¬ (t % W < i + 1 ∧ i + 1 ≤ W))]
              by_cases hW' : i = W
              · subst hW'
                simp only [show i ≠ 0 by omega, if_false, Nat.sub_self, if_true, show i ≠ t by omega, Nat.mod_self,
                  show (0 : Nat) ≠ t % i by omega] at this
                rw [if_pos (by omega)] at this
                change 1 + _ = 2 + 0 at this
                omega
              · simp only [show W ≠ 0 by omega, if_false, show i - W ≠ 0 by omega, show i - W ≠ t by omega, show i ≠ t by omega,
                  show i ≠ 0 by omega, ← Nat.mod_eq_sub_mod (by omega : i ≥ W)] at this
                rw [if_neg (show ¬ (t % W < i ∧ i ≤ W) by omega)] at this
                omega
        refine ⟨tab (fun i => if i = 0 then 1 else if i = t then 0 else if i % W = t % W then 1 else 0) (t + 1), by omega,
          by rw [tab_length], ?_, ?_⟩
        · rw [gzip_edge_nat hW, tab_take _ (Nat.le_refl _)]
          have := tab_winSum_roll (fun i => if i = 0 then 1 else if i = t then 0 else if i % W = t % W then 1 else 0) hWt
          have htW : t ≠ W := by rintro rfl; rw [Nat.mod_self] at hr1; omega
          rw [hf t (Nat.le_refl _) (by omega), if_neg (show ¬ (t % W < t ∧ t ≤ W) by omega)] at this
          simp only [show W ≠ 0 by omega, if_false, show t - W ≠ t by omega, show t - W ≠ 0 by omega, show t ≠ 0 by omega, if_true,
            ← Nat.mod_eq_sub_mod hWt] at this
          change 1 + _ = 1 + 0 at this
          rw [Nat.add_left_cancel this]
          exact Nat.zero_mod _
        · intro j hj1 hj2
          rw [gzip_edge_nat hW, tab_take _ (by omega), hf j (by omega) hj1]
          split
          · rw [Nat.mod_eq_of_lt (by omega)]; omega
          · rw [Nat.mod_eq_of_lt (by omega)]; omega

/-- C77. Gzip: size 1 (a byte 0), then every size that can reach the modulus or is longer than the window. For the default
window (8192) and modulus (4096) these are 1 and every size from 17 on. -/
theorem C77_gzip (p : Gzip.GzipRsyncable) (hW1 : 1 ≤ p.windowLen) (hW : p.windowLen ≤ 2 ^ 48) (hm : 2 ≤ p.modulus.toNat)
    (n : Nat) :
    (DocSize (Gzip.chunk p) n ↔ n = 1 ∨ 2 ≤ n ∧ (p.modulus.toNat ≤ 255 * n ∨ p.windowLen < n)) ∧
    (StrictSize (Gzip.incr p) n ↔ n = 1 ∨ 2 ≤ n ∧ (p.modulus.toNat ≤ 255 * n ∨ p.windowLen < n)) := by
  have h0 : p.modulus ≠ 0 := by
    intro h; rw [h] at hm; simp at hm
  constructor
  · rw [docSize_iff (C08_gzip p h0) (EdgeRule.good _) (EdgeRule.fresh _)]
    exact gzip_size hW1 hW hm n
  · rw [strictSize_iff (C05_gzip p h0 (by omega)) (EdgeRule.good _) (EdgeRule.fresh _)]
    exact gzip_size hW1 hW hm n
example : DocSize (Gzip.chunk Gzip.GzipRsyncable.default) 17 ∧ ¬ DocSize (Gzip.chunk Gzip.GzipRsyncable.default) 16 :=
  ⟨(C77_gzip _ (by decide) (by decide) (by decide) _).1.2 (by decide),
    fun h => absurd ((C77_gzip _ (by decide) (by decide) (by decide) _).1.1 h) (by decide)⟩

/-! ## RollSum -/

/-- `1 + 2 + … + k` -/
def tri (k : Nat) : Nat := k * (k + 1) / 2

theorem tri_succ (k : Nat) : tri (k + 1) = tri k + (k + 1) := by
  unfold tri
  rw [show (k + 1) * (k + 1 + 1) = k * (k + 1) + (k + 1) * 2 by ring, Nat.add_mul_div_right _ _ (by omega)]

theorem tri_mono {a b : Nat} (h : a ≤ b) : tri a ≤ tri b :=
  Nat.div_le_div_right (Nat.mul_le_mul h (by omega))

theorem tsum_le (q : Bytes) : Bup.tsum q ≤ 255 * tri q.length := by
  induction q with
  | nil => simp [Bup.tsum]
  | cons b q ih =>
    rw [Bup.tsum_cons, List.length_cons, tri_succ, Nat.mul_add]
    have h1 := b.toNat_lt
    have h2 : (q.length + 1) * b.toNat ≤ (q.length + 1) * 255 := Nat.mul_le_mul_left _ (by omega)
    omega

/-- `k` bytes with a given weighted sum -/
theorem bytes_with_tsum (k : Nat) : ∀ s, s ≤ 255 * tri k → ∃ q : Bytes, q.length = k ∧ Bup.tsum q = s := by
  induction k with
  | zero => intro s hs; exact ⟨[], rfl, by simp [tri] at hs; simp [Bup.tsum, hs]⟩
  | succ k ih =>
    intro s hs
    rw [tri_succ, Nat.mul_add] at hs
    have hle : (k + 1) * min 255 (s / (k + 1)) ≤ s :=
      Nat.le_trans (Nat.mul_le_mul_left _ (Nat.min_le_right _ _)) (Nat.mul_div_le _ _)
    have hrest : s - (k + 1) * min 255 (s / (k + 1)) ≤ 255 * tri k := by
      rcases Nat.le_total 255 (s / (k + 1)) with h | h
      · rw [Nat.min_eq_left h]; omega
      · rw [Nat.min_eq_right h]
        have h1 : s - (k + 1) * (s / (k + 1)) = s % (k + 1) := by
          have := Nat.div_add_mod s (k + 1); omega
        have h2 : s % (k + 1) < k + 1 := Nat.mod_lt _ (by omega)
        have h3 : k ≤ tri k := by
          cases k with
          | zero => exact Nat.zero_le _
          | succ j => rw [tri_succ]; omega
        omega
    obtain ⟨q, h1, h2⟩ := ih _ hrest
    refine ⟨UInt8.ofNat (min 255 (s / (k + 1))) :: q, by simp [h1], ?_⟩
    rw [Bup.tsum_cons, h1, h2, UInt8.toNat_ofNat', Nat.mod_eq_of_lt (by omega)]
    omega

/-- `31 * W * (W - 1)` is even, so it is not 8191 modulo 8192 -/
theorem bup_base_lt (W : Nat) : 31 * W * (W - 1) % 8192 < 8191 := by
  have h : 31 * W * (W - 1) % 2 = 0 := by
    rcases Nat.even_or_odd' W with ⟨c, rfl | rfl⟩
    · rw [show 31 * (2 * c) * (2 * c - 1) = 2 * (31 * c * (2 * c - 1)) by ring]; omega
    · rw [Nat.add_sub_cancel, show 31 * (2 * c + 1) * (2 * c) = 2 * (31 * (2 * c + 1) * c) by ring]; omega
  omega

theorem bup_size (W n : Nat) : (∃ data, FirstCut (bupEdge W) data n) ↔
    8191 ≤ 31 * W * (W - 1) % 8192 + 255 * tri (min W n) := by
  have hb := bup_base_lt W
  constructor
  · rintro ⟨data, h1, h2, h3, -⟩
    change bupS2 W (data.take n) % 8192 = 8191 at h3
    rw [Bup.bupS2_eq] at h3
    have := tsum_le (lastN W (data.take n))
    rw [lastN_length, List.length_take, Nat.min_eq_left h2] at this
    omega
  · intro h
    -- the least number of bytes that suffices
    have hex : ∃ j, 8191 ≤ 31 * W * (W - 1) % 8192 + 255 * tri j := ⟨_, h⟩
    obtain ⟨j, hj1, hj2⟩ : ∃ j, 8191 ≤ 31 * W * (W - 1) % 8192 + 255 * tri j ∧
        ∀ i, i < j → ¬ 8191 ≤ 31 * W * (W - 1) % 8192 + 255 * tri i :=
      ⟨Nat.find hex, Nat.find_spec hex, fun i hi => Nat.find_min hex hi⟩
    have hjk : j ≤ min W n := by
      by_contra hlt
      exact hj2 _ (by omega) h
    have hj0 : 1 ≤ j := by
      rcases Nat.eq_zero_or_pos j with rfl | h0
      · simp [tri] at hj1; omega
      · exact h0
    obtain ⟨q, hq1, hq2⟩ := bytes_with_tsum j (8191 - 31 * W * (W - 1) % 8192) (by omega)
    have hS : ∀ k (x : Bytes), x.length ≤ W → bupS2 W (List.replicate k 0 ++ x) = 31 * W * (W - 1) + Bup.tsum x := by
      intro k x hx
      rw [Bup.bupS2_eq, lastN]
      by_cases hk : (List.replicate k (0 : UInt8) ++ x).length - W ≤ k
      · rw [List.drop_append_of_le_length (by simpa using hk), List.drop_replicate, Bup.tsum_replicate]
      · rw [List.length_append, List.length_replicate] at hk; omega
    have hno : NoEdge (bupEdge W) (List.replicate (n - j) 0) := by
      intro m hm1 hm2 he
      rw [List.length_replicate] at hm2
      rw [List.take_replicate, Nat.min_eq_left hm2] at he
      change bupS2 W _ % 8192 = 8191 at he
      have := hS m [] (Nat.zero_le _)
      rw [List.append_nil] at this
      rw [this] at he
      simp [Bup.tsum] at he
      omega
    have hf : FirstCut (fun x => bupEdge W (List.replicate (n - j) 0 ++ x)) q j := by
      refine ⟨hj0, by omega, ?_, ?_⟩
      · show bupS2 W _ % 8192 = 8191
        rw [hS _ _ (by rw [List.length_take]; omega), List.take_of_length_le (by omega), hq2]
        omega
      · intro m hm1 hm2 he
        change bupS2 W _ % 8192 = 8191 at he
        rw [hS _ _ (by rw [List.length_take]; omega)] at he
        have h3 := tsum_le (q.take m)
        rw [List.length_take, Nat.min_eq_left (by omega)] at h3
        have h4 := hj2 m hm2
        omega
    have := hno.firstCut_append hf
    rw [List.length_replicate, Nat.sub_add_cancel (by omega)] at this
    exact ⟨_, this⟩

/-- C77. RollSum, `find_chunk_edge`, any window: every size from some point on, or none (then the window is too short to
reach 8191). For the default window of 64 the sizes are those from 7 on. -/
theorem C77_rollsum (p : Bup.RollSum) (n : Nat) : DocSize (Bup.chunk p) n ↔
    8191 ≤ 31 * p.windowLen * (p.windowLen - 1) % 8192 + 255 * tri (min p.windowLen n) := by
  rw [docSize_iff (C08_rollsum p) (EdgeRule.good _) (EdgeRule.fresh _)]
  exact bup_size p.windowLen n

theorem C77_rollsum_default (n : Nat) : DocSize (Bup.chunk Bup.RollSum.default) n ↔ 7 ≤ n := by
  rw [C77_rollsum]
  show 8191 ≤ 31 * 64 * (64 - 1) % 8192 + 255 * tri (min 64 n) ↔ _
  constructor
  · intro h
    by_contra hn
    have h1 := tri_mono (show min 64 n ≤ 6 by omega)
    have h2 : tri 6 = 21 := by decide
    omega
  · intro h
    have h1 := tri_mono (show 7 ≤ min 64 n by omega)
    have h2 : tri 7 = 28 := by decide
    omega
example : DocSize (Bup.chunk Bup.RollSum.default) 7 := (C77_rollsum_default 7).2 (by decide)

end HashRoll.Props
