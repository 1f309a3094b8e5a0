import Verif.Props.BoundaryStrings
import Verif.Props.Constant
import Verif.Props.Sizes
/-!
# C88: how many past bytes a decision depends on, exactly
-/

namespace HashRoll.Spec

/-- C88. What `find_chunk_edge` will find in new bytes is determined by the last `W` bytes of the current chunk exactly
for `W ≥ M`: `M` bytes are enough, `M - 1` are not. -/
def FceMemory (A : Chunk) (M : Nat) : Prop := ∀ W, Props.FceDecidesAlike W A ↔ M ≤ W

/-- C88. The same for `push`. -/
def IncrMemory (view : Bytes → Bytes → Bytes) (C : ChunkIncr) (M : Nat) : Prop :=
  ∀ W, Props.IncrDecidesAlike W view C ↔ M ≤ W

end HashRoll.Spec

namespace HashRoll.Props

open Spec

variable {A : Chunk} {C : ChunkIncr} {rule : Rule} {e : Bytes → Prop}

/-! ## generic -/

theorem lastN_mono {V W : Nat} (h : V ≤ W) {p q : Bytes} (hpq : lastN W p = lastN W q) : lastN V p = lastN V q := by
  have : ∀ x : Bytes, lastN V (lastN W x) = lastN V x := by
    intro x
    unfold lastN
    rw [List.length_drop, List.drop_drop]
    congr 1
    omega
  rw [← this p, ← this q, hpq]

theorem FceDecidesAlike.mono {V W : Nat} (h : V ≤ W) (hd : FceDecidesAlike V A) : FceDecidesAlike W A :=
  fun s st base need prev cs hr s' st' base' need' prev' cs' hr' hl =>
    hd s st base need prev cs hr s' st' base' need' prev' cs' hr' (lastN_mono h hl)

theorem IncrDecidesAlike.mono {V W : Nat} {view : Bytes → Bytes → Bytes} (h : V ≤ W) (hd : IncrDecidesAlike V view C) :
    IncrDecidesAlike W view C :=
  fun s st pos prev cs hr s' st' pos' prev' cs' hr' hl =>
    hd s st pos prev cs hr s' st' pos' prev' cs' hr' (lastN_mono h hl)

/-- `p` has been presented and no cut was found -/
theorem fce_quiet (hc : FceConforms A Any rule) {p t : Bytes} (hp : ∀ n, ¬ rule [] p n) :
    ∃ st base, FceRun A Any (p ++ t) st base p.length 0 [] := by
  obtain ⟨st', r, d, h1, h2, h3⟩ := hc _ _ _ _ _ _ (.start (s := p ++ t)) p.length (Nat.zero_le _) (by simp) trivial
  have he : Spec.sub (p ++ t) 0 p.length = p := by simp [Spec.sub]
  cases r with
  | none => exact ⟨_, _, .more .start (Nat.zero_le _) (by simp) trivial h1⟩
  | some c =>
    obtain ⟨-, -, h⟩ := h3
    rw [he] at h
    exact absurd h (hp _)

theorem not_fceAlike (hc : FceConforms A Any rule) {W : Nat} {p q t : Bytes} (hp : ∀ n, ¬ rule [] p n)
    (hq : ∀ n, ¬ rule [] q n) (hl : lastN W p = lastN W q) (n : Nat) (h1 : rule [] (p ++ t) n)
    (h2 : ∀ n, ¬ rule [] (q ++ t) n) : ¬ FceDecidesAlike W A := by
  intro hd
  obtain ⟨st, base, hr⟩ := fce_quiet hc (t := t) hp
  obtain ⟨st', base', hr'⟩ := fce_quiet hc (t := t) hq
  have hs : ∀ p : Bytes, Spec.sub (p ++ t) 0 p.length = p := by intro p; simp [Spec.sub]
  have hs' : ∀ p : Bytes, Spec.sub (p ++ t) 0 (p ++ t).length = p ++ t := by intro p; simp [Spec.sub]
  have hn : ∀ p : Bytes, Spec.sub (p ++ t) p.length (p ++ t).length = t := by
    intro p; rw [Spec.sub, List.take_length, List.drop_left]
  obtain ⟨st1, r, d, st1', r', d', k1, k2, k3⟩ := hd _ _ _ _ _ _ hr _ _ _ _ _ _ hr' (by rw [hs, hs]; exact hl)
    (p ++ t).length (q ++ t).length (by simp) (Nat.le_refl _) (by simp) (Nat.le_refl _) (by rw [hn, hn])
  obtain ⟨_, _, _, m1, -, m2⟩ := hc _ _ _ _ _ _ hr (p ++ t).length (by simp) (Nat.le_refl _) trivial
  obtain ⟨_, _, _, m1', -, m2'⟩ := hc _ _ _ _ _ _ hr' (q ++ t).length (by simp) (Nat.le_refl _) trivial
  rw [k1] at m1
  rw [k2] at m1'
  cases m1
  cases m1'
  rw [hs', List.take_zero] at m2 m2'
  cases r with
  | none => exact m2 n h1
  | some c =>
    cases r' with
    | none => cases k3
    | some c' => exact h2 _ m2'.2.2

theorem incr_quiet (hc : IncrConforms C rule) {p t : Bytes} (hp : ∀ n, ¬ rule [] p n) :
    ∃ st, IncrRun C (p ++ t) st p.length 0 [] := by
  obtain ⟨st', r, h1, h3⟩ := hc _ _ _ _ _ (.start (s := p ++ t)) p.length (Nat.zero_le _) (by simp)
  have he : Spec.sub (p ++ t) 0 p.length = p := by simp [Spec.sub]
  cases r with
  | none => exact ⟨_, .more .start (Nat.zero_le _) (by simp) h1⟩
  | some c =>
    obtain ⟨-, h⟩ := h3
    rw [he] at h
    exact absurd h (hp _)

theorem not_incrAlike (hc : IncrConforms C rule) {W : Nat} {view : Bytes → Bytes → Bytes} {p q t : Bytes}
    (hp : ∀ n, ¬ rule [] p n) (hq : ∀ n, ¬ rule [] q n) (hl : lastN W (view [] p) = lastN W (view [] q)) (n : Nat)
    (h1 : rule [] (p ++ t) n) (h2 : ∀ n, ¬ rule [] (q ++ t) n) : ¬ IncrDecidesAlike W view C := by
  intro hd
  obtain ⟨st, hr⟩ := incr_quiet hc (t := t) hp
  obtain ⟨st', hr'⟩ := incr_quiet hc (t := t) hq
  have hs : ∀ p : Bytes, Spec.sub (p ++ t) 0 p.length = p := by intro p; simp [Spec.sub]
  have hs' : ∀ p : Bytes, Spec.sub (p ++ t) 0 (p ++ t).length = p ++ t := by intro p; simp [Spec.sub]
  have hn : ∀ p : Bytes, Spec.sub (p ++ t) p.length (p ++ t).length = t := by
    intro p; rw [Spec.sub, List.take_length, List.drop_left]
  obtain ⟨st1, st1', r, k1, k2⟩ := hd _ _ _ _ _ hr _ _ _ _ _ hr' (by rw [hs, hs]; exact hl)
    (p ++ t).length (q ++ t).length (by simp) (Nat.le_refl _) (by simp) (Nat.le_refl _) (by rw [hn, hn])
  obtain ⟨_, _, m1, m2⟩ := hc _ _ _ _ _ hr (p ++ t).length (by simp) (Nat.le_refl _)
  obtain ⟨_, _, m1', m2'⟩ := hc _ _ _ _ _ hr' (q ++ t).length (by simp) (Nat.le_refl _)
  rw [k1] at m1
  rw [k2] at m1'
  cases m1
  cases m1'
  rw [hs', List.take_zero] at m2 m2'
  cases r with
  | none => exact m2 n h1
  | some c => exact h2 _ m2'.2

/-- Two chunks so far that end with the same `M - 1` bytes and are told apart by the byte `c`. -/
structure Tells (e : Bytes → Prop) (M : Nat) (p q : Bytes) (c : UInt8) : Prop where
  left  : NoEdge e p
  right : NoEdge e q
  last  : lastN (M - 1) p = lastN (M - 1) q
  cut   : e (p ++ [c])
  keep  : ¬ e (q ++ [c])

theorem Tells.firstCut {M : Nat} {p q : Bytes} {c : UInt8} (h : Tells e M p q c) : FirstCut e (p ++ [c]) (p.length + 1) :=
  h.left.firstCut_append ⟨Nat.le_refl _, Nat.le_refl _, h.cut, by omega⟩

theorem fceMemory (S : FceSpec A (fun _ => True) (FirstCut e)) {M : Nat} (h : PastLocal M e)
    (hn : 0 < M → ∃ p q c, Tells e M p q c) : FceMemory A M := by
  intro W
  constructor
  · intro hd
    rcases Nat.lt_or_ge W M with hlt | hge
    · obtain ⟨p, q, c, ht⟩ := hn (by omega)
      have hc : FceConforms A Any (EdgeRule (Local e)) := S.conforms
      exact absurd (hd.mono (by omega : W ≤ M - 1)) (not_fceAlike hc (fun n => ht.left.not_firstCut n)
        (fun n => ht.right.not_firstCut n) ht.last _ ht.firstCut (fun n => (ht.right.snoc ht.keep).not_firstCut n))
    · exact hge
  · exact fun hM => (fceDecidesAlike_past S h).mono hM

theorem incrMemory_local (hc : IncrConforms C (EdgeRule (Local e))) {M : Nat} (h : PastLocal M e)
    (hn : 0 < M → ∃ p q c, Tells e M p q c) : IncrMemory chunkView C M := by
  intro W
  constructor
  · intro hd
    rcases Nat.lt_or_ge W M with hlt | hge
    · obtain ⟨p, q, c, ht⟩ := hn (by omega)
      exact absurd (hd.mono (by omega : W ≤ M - 1)) (not_incrAlike hc (fun n => ht.left.not_firstCut n)
        (fun n => ht.right.not_firstCut n) ht.last _ ht.firstCut (fun n => (ht.right.snoc ht.keep).not_firstCut n))
    · exact hge
  · exact fun hM => (incrAlike_local_past hc h).mono hM

theorem incrMemory_before (hc : IncrConforms C (BeforeRule (Local e))) {M : Nat} (h : PastLocal M e)
    (hn : 0 < M → ∃ p q c, Tells e M p q c) : IncrMemory chunkView C M := by
  intro W
  constructor
  · intro hd
    rcases Nat.lt_or_ge W M with hlt | hge
    · obtain ⟨p, q, c, ht⟩ := hn (by omega)
      exact absurd (hd.mono (by omega : W ≤ M - 1)) (not_incrAlike hc (fun n => ht.left.not_firstCut (n + 1))
        (fun n => ht.right.not_firstCut (n + 1)) ht.last p.length ht.firstCut
        (fun n => (ht.right.snoc ht.keep).not_firstCut (n + 1)))
    · exact hge
  · exact fun hM => (incrAlike_before_past hc h).mono hM

theorem WindowLocal.pred {W : Nat} (h : WindowLocal (W + 1) e) : PastLocal W e := by
  intro p q hpq t ht
  apply h
  have hl : 1 ≤ t.length := List.length_pos_iff.2 ht
  rcases Nat.lt_or_ge W t.length with hw | hw
  · have : ∀ x : Bytes, lastN (W + 1) (x ++ t) = lastN (W + 1) t := by
      intro x
      rw [lastN, lastN, List.length_append, List.drop_append, List.drop_eq_nil_of_le (by omega), List.nil_append]
      congr 1
      omega
    rw [this, this]
  · have : ∀ x : Bytes, lastN (W + 1) (x ++ t) = lastN (W + 1 - t.length) x ++ t := by
      intro x
      unfold lastN
      rw [List.length_append, List.drop_append,
        show x.length + t.length - (W + 1) - x.length = 0 by omega, List.drop_zero,
        show x.length + t.length - (W + 1) = x.length - (W + 1 - t.length) by omega]
    rw [this, this, lastN_mono (by omega : W + 1 - t.length ≤ W) hpq]

/-! ## Gzip -/

theorem gzip_pulse {W m j : Nat} (hm : 2 ≤ m) (hj : j + 1 ≤ W) : ¬ gzipEdge W m (1 :: List.replicate j 0) := by
  unfold gzipEdge
  rw [lastN_of_le (by simpa using hj)]
  simp
  omega

theorem gzip_pulse_quiet {W m j : Nat} (hm : 2 ≤ m) (hj : j + 1 ≤ W) : NoEdge (gzipEdge W m) (1 :: List.replicate j 0) := by
  intro i h1 h2
  obtain ⟨i, rfl⟩ : ∃ i', i = i' + 1 := ⟨i - 1, by omega⟩
  simp only [List.length_cons, List.length_replicate] at h2
  rw [List.take_succ_cons, List.take_replicate, Nat.min_eq_left (by omega)]
  exact gzip_pulse hm (by omega)

theorem lastN_replicate_append (W : Nat) (x : Bytes) (b : UInt8) : lastN W (x ++ List.replicate W b) = List.replicate W b := by
  rw [lastN_append_right _ (by simp), lastN_of_le (by simp)]

theorem gzip_tells {W m : Nat} (hm : 2 ≤ m) (hW : 2 ≤ W) :
    Tells (gzipEdge W m) (W - 1) (1 :: List.replicate (W - 1) 0) (1 :: List.replicate (W - 2) 0) 0 where
  left := gzip_pulse_quiet hm (by omega)
  right := gzip_pulse_quiet hm (by omega)
  last := by
    have h1 : (1 :: List.replicate (W - 1) 0 : Bytes) = [1, 0] ++ List.replicate (W - 1 - 1) 0 := by
      rw [show W - 1 = (W - 1 - 1) + 1 by omega, List.replicate_succ]; rfl
    have h2 : (1 :: List.replicate (W - 2) 0 : Bytes) = [1] ++ List.replicate (W - 1 - 1) 0 := rfl
    rw [h1, h2, lastN_replicate_append, lastN_replicate_append]
  cut := by
    have : (1 :: List.replicate (W - 1) 0 ++ [0] : Bytes) = [1] ++ List.replicate W 0 := by
      obtain ⟨V, rfl⟩ : ∃ V, W = V + 1 := ⟨W - 1, by omega⟩
      rw [Nat.add_sub_cancel, List.replicate_succ', List.cons_append]; rfl
    unfold gzipEdge
    rw [this, lastN_replicate_append]
    simp
  keep := by
    rw [List.cons_append, ← List.replicate_succ']
    exact gzip_pulse hm (by omega)

theorem gzip_past {W m : Nat} (hm : m ≠ 0) : PastLocal (if m = 1 then 0 else W - 1) (gzipEdge W m) := by
  split
  · rename_i h
    subst h
    intro p q _ t _
    simp [gzipEdge, Nat.mod_one]
  · cases W with
    | zero =>
      intro p q _ t _
      unfold gzipEdge
      have : ∀ x : Bytes, lastN 0 x = [] := by intro x; simp [lastN]
      rw [this, this]
    | succ W => exact (C43_edge (W + 1) m).pred

theorem gzip_needs {W m : Nat} (hm : m ≠ 0) (h : 0 < if m = 1 then 0 else W - 1) :
    ∃ p q c, Tells (gzipEdge W m) (if m = 1 then 0 else W - 1) p q c := by
  rcases Nat.lt_or_ge 1 m with h1 | h1
  · rw [if_neg (by omega)] at h ⊢
    exact ⟨_, _, _, gzip_tells h1 (by omega)⟩
  · rw [if_pos (by omega)] at h
    exact absurd h (by decide)

/-- C88 for Gzip, any window and modulus, both APIs: one byte less than the window (nothing for modulus 1, which always
cuts). -/
theorem C88_gzip (p : Gzip.GzipRsyncable) (hm : p.modulus ≠ 0) :
    FceMemory (Gzip.chunk p) (if p.modulus = 1 then 0 else p.windowLen - 1) ∧
    (0 < p.windowLen → IncrMemory chunkView (Gzip.incr p) (if p.modulus = 1 then 0 else p.windowLen - 1)) := by
  have h0 : p.modulus.toNat ≠ 0 := fun h => hm (BitVec.eq_of_toNat_eq h)
  have h1 : p.modulus = 1 ↔ p.modulus.toNat = 1 := ⟨fun h => by rw [h]; rfl, fun h => BitVec.eq_of_toNat_eq h⟩
  simp only [h1]
  exact ⟨fceMemory (Gzip.fceWindow p hm).fceSpec (gzip_past h0) (gzip_needs h0),
    fun hw => incrMemory_local (Gzip.incr_conforms p hm hw) (gzip_past h0) (gzip_needs h0)⟩
example : Ex.gzip3.modulus ≠ 0 ∧ Ex.gzip3.modulus ≠ 1 ∧ Ex.gzip3.windowLen = 3 := by decide

/-! ## Pigz -/

/-- Ones: all the bits in the mask stay ones. -/
theorem pigz_ones {hit : BitVec 32} {b : Nat} (hb : b < 32) (hhit : ∀ j < 32, hit.getLsbD j = decide (j + 1 < b)) :
    ∀ i, ∀ j < b, (pigzHash hit (List.replicate (i + 1) 1)).getLsbD j = true := by
  have hw : ∀ j, (word 32 1).getLsbD j = decide (j = 0) := by
    intro j
    have : word 32 1 = 1#32 := rfl
    rw [this, BitVec.getLsbD_one]; simp
  have step : ∀ i, ∀ j < 32, (pigzHash hit (List.replicate (i + 1) 1)).getLsbD j =
      if j = 0 then true else (pigzHash hit (List.replicate i 1)).getLsbD (j - 1) := by
    intro i j hj
    rw [List.replicate_succ', Pigz.pigzHash_snoc, BitVec.getLsbD_xor, BitVec.getLsbD_shiftLeft, hw]
    rcases Nat.eq_zero_or_pos j with rfl | hj'
    · simp
    · simp [hj, show ¬ j < 1 by omega, show j ≠ 0 by omega]
  intro i
  induction i with
  | zero =>
    intro j hj
    rw [step 0 j (by omega)]
    split
    · rfl
    · have : pigzHash hit (List.replicate 0 1) = hit := by simp [pigzHash, wxor]
      rw [this, hhit _ (by omega)]
      simp
      omega
  | succ i ih =>
    intro j hj
    rw [step _ j (by omega)]
    split
    · rfl
    · exact ih _ (by omega)

theorem pigz_tells {prof : Profile} {bits : BitVec 8} {p : Pigz.PigzRsyncable}
    (h : Pigz.PigzRsyncable.withBits prof bits = .ok p) (hb : 2 ≤ bits.toNat % 32) :
    Tells (pigzEdge p.mask p.hit) (bits.toNat % 32 - 1) (0 :: List.replicate (bits.toNat % 32 - 2) 1)
      (List.replicate (bits.toNat % 32 - 1) 1) 1 := by
  obtain ⟨-, hm, hh⟩ := Pigz.withBits_mask h
  have h32 : bits.toNat % 32 < 32 := Nat.mod_lt _ (by omega)
  generalize bits.toNat % 32 = b at hm h32 hb
  have hhit : ∀ j < 32, p.hit.getLsbD j = decide (j + 1 < b) := by
    intro j hj
    rw [hh, hm, BitVec.getLsbD_ushiftRight, BitVec.getLsbD_ofNat, Nat.testBit_two_pow_sub_one, Nat.add_comm 1 j]
    by_cases h1 : j + 1 < b
    · simp [h1]; omega
    · simp [h1]
  have hmask : ∀ j < 32, p.mask.getLsbD j = decide (j < b) := by
    intro j hj
    rw [hm, BitVec.getLsbD_ofNat, Nat.testBit_two_pow_sub_one]
    simp [hj]
  have ones : ∀ i, ¬ pigzEdge p.mask p.hit (List.replicate (i + 1) 1) := by
    intro i he
    have := congrArg (fun x => x.getLsbD (b - 1)) he
    simp only [BitVec.getLsbD_and] at this
    rw [pigz_ones h32 hhit i (b - 1) (by omega), hhit _ (by omega), hmask _ (by omega)] at this
    simp at this
    omega
  refine ⟨?_, ?_, ?_, ?_, ?_⟩
  · intro i hi hi'
    rw [List.length_cons, List.length_replicate] at hi'
    obtain ⟨i, rfl⟩ : ∃ i', i = i' + 1 := ⟨i - 1, by omega⟩
    rw [List.take_succ_cons, List.take_replicate, Nat.min_eq_left (by omega)]
    intro he
    have := congrArg (fun x => x.getLsbD i) he
    simp only [BitVec.getLsbD_and] at this
    have hk := (pigz_marker p.hit [] i (by omega)).2
    rw [List.nil_append] at hk
    rw [hk, hhit i (by omega)] at this
    simp at this
    omega
  · intro i hi hi'
    rw [List.length_replicate] at hi'
    obtain ⟨i, rfl⟩ : ∃ i', i = i' + 1 := ⟨i - 1, by omega⟩
    rw [List.take_replicate, Nat.min_eq_left hi']
    exact ones i
  · have h1 : (0 :: List.replicate (b - 2) 1 : Bytes) = [0] ++ List.replicate (b - 1 - 1) 1 := rfl
    have h2 : (List.replicate (b - 1) 1 : Bytes) = [1] ++ List.replicate (b - 1 - 1) 1 := by
      rw [show b - 1 = (b - 1 - 1) + 1 by omega, List.replicate_succ]; rfl
    rw [h1, h2, lastN_replicate_append, lastN_replicate_append]
  · have e : (0 :: List.replicate (b - 2) 1 ++ [1] : Bytes) = [] ++ 0 :: List.replicate (b - 1) 1 := by
      rw [List.cons_append, ← List.replicate_succ', show b - 2 + 1 = b - 1 by omega, List.nil_append]
    unfold pigzEdge
    rw [e]
    obtain ⟨h1, h2⟩ := pigz_marker p.hit [] (b - 1) (by omega)
    apply BitVec.eq_of_getLsbD_eq
    intro j hj
    rw [BitVec.getLsbD_and, hhit j hj, hmask j hj]
    rcases Nat.lt_trichotomy j (b - 1) with hj' | hj' | hj'
    · rw [h1 j hj']; simp; omega
    · rw [hj', h2]; simp; omega
    · simp [show ¬ j < b by omega, show ¬ j + 1 < b by omega]
  · have e : (List.replicate (b - 1) 1 ++ [1] : Bytes) = List.replicate (b - 1 + 1) 1 := List.replicate_succ'.symm
    rw [e]
    exact ones _

theorem pigz_past {prof : Profile} {bits : BitVec 8} {p : Pigz.PigzRsyncable}
    (h : Pigz.PigzRsyncable.withBits prof bits = .ok p) : PastLocal (bits.toNat % 32 - 1) (pigzEdge p.mask p.hit) := by
  have hw := C42_edge h
  generalize bits.toNat % 32 = b at hw
  cases b with
  | zero => exact hw.past
  | succ b => exact hw.pred

/-- C88 for Pigz, any number of bits, both APIs. -/
theorem C88_pigz {prof : Profile} {bits : BitVec 8} {p : Pigz.PigzRsyncable}
    (h : Pigz.PigzRsyncable.withBits prof bits = .ok p) :
    FceMemory (Pigz.chunk p) (bits.toNat % 32 - 1) ∧ IncrMemory chunkView (Pigz.incr p) (bits.toNat % 32 - 1) :=
  ⟨fceMemory (Pigz.fceLoop p (Pigz.withBits_maskOk h).1 (Pigz.withBits_maskOk h).2).fceSpec (pigz_past h)
      fun hb => ⟨_, _, _, pigz_tells h (by omega)⟩,
    incrMemory_local (Pigz.incr_conforms h) (pigz_past h) fun hb => ⟨_, _, _, pigz_tells h (by omega)⟩⟩
example : Pigz.PigzRsyncable.default .debug = .ok { bits := 12, mask := 0xfff, hit := 0x7ff } ∧
    (12 : BitVec 8).toNat % 32 - 1 = 11 := ⟨C50_default _, by decide⟩

/-! ## Mii -/

/-- what `MiiIncr` looks at: after a cut, as if a zero byte preceded the chunk -/
def miiView (hist cur : Bytes) : Bytes := if hist = [] then cur else 0 :: cur

theorem mii_local (w : Nat) : WindowLocal (w + 1) (miiEdge w) := by
  refine lastN_of_ge fun p q hp hq h => ?_
  unfold miiEdge
  rw [h]
  exact ⟨fun k => ⟨k.1, hq, k.2.2⟩, fun k => ⟨k.1, hp, k.2.2⟩⟩

theorem mii_never {w : Nat} (h : ¬ (1 ≤ w ∧ w ≤ 255)) (p : Bytes) : ¬ miiEdge w p := by
  rintro ⟨h1, h2, h3⟩
  have := increasing_length h3
  rw [lastN_length] at this
  have : Nat.min (w + 1) p.length = min (w + 1) p.length := rfl
  omega

theorem mii_past (w : Nat) : PastLocal (if 1 ≤ w ∧ w ≤ 255 then w else 0) (miiEdge w) := by
  split
  · exact (mii_local w).pred
  · rename_i h
    exact fun p q _ t _ => ⟨fun k => absurd k (mii_never h _), fun k => absurd k (mii_never h _)⟩

theorem mii_tells {w : Nat} (h1 : 1 ≤ w) (h2 : w ≤ 255) :
    Tells (miiEdge w) w ((upTo w).take w) (255 :: ((upTo w).take w).drop 1) (UInt8.ofNat w) := by
  have hl := upTo_length w
  have short : ∀ p : Bytes, p.length ≤ w → NoEdge (miiEdge w) p := by
    intro p hp i hi hi' he
    have := he.2.1
    rw [List.length_take] at this
    omega
  refine ⟨short _ (by simp), short _ (by simp [hl]; omega), ?_, ?_, ?_⟩
  · unfold lastN
    have e1 : ((upTo w).take w).length = w := by simp [hl]
    have e2 : (255 :: ((upTo w).take w).drop 1 : Bytes).length = w := by simp [hl]; omega
    rw [e1, e2, show w - (w - 1) = 1 by omega]
    rfl
  · have : (upTo w).take w ++ [UInt8.ofNat w] = [] ++ upTo w := by
      unfold upTo
      rw [List.range_succ, List.map_append, List.take_append_of_le_length (by simp), List.take_of_length_le (by simp)]
      rfl
    rw [this]
    exact mii_hit h1 h2 []
  · rintro ⟨-, -, h⟩
    rw [lastN_of_le (by simp [hl]; omega), List.cons_append, Increasing, List.pairwise_cons] at h
    have := h.1 (UInt8.ofNat w) (by simp)
    rw [UInt8.lt_iff_toNat_lt] at this
    have h3 := (UInt8.ofNat w).toNat_lt
    have h4 : (255 : UInt8).toNat = 255 := rfl
    omega

/-- C88 for Mii, any `w`: `w` bytes of the chunk (none for those `w` that never cut). -/
theorem C88_mii (p : Mii.Mii) : FceMemory (Mii.chunk p) (if 1 ≤ p.w ∧ p.w ≤ 255 then p.w else 0) := by
  refine fceMemory (Mii.fceSpec p) (mii_past p.w) ?_
  intro h
  split at h
  · rename_i hw
    rw [if_pos hw]
    exact ⟨_, _, _, mii_tells hw.1 hw.2⟩
  · exact absurd h (by decide)
example : (if 1 ≤ Mii.Mii.default.w ∧ Mii.Mii.default.w ≤ 255 then Mii.Mii.default.w else 0) = 5 := by decide

/-- C88 for `MiiIncr`. -/
theorem C88_mii_incr (p : Mii.Mii) : IncrMemory miiView (Mii.incr p) (if 1 ≤ p.w ∧ p.w ≤ 255 then p.w else 0) := by
  have hv : ∀ hist q t, t ≠ [] → (miiIncrEdge p.w hist (q ++ t) ↔ miiEdge p.w (miiView hist q ++ t)) := by
    intro hist q t _
    unfold miiIncrEdge miiView
    split <;> rfl
  intro W
  constructor
  · intro hd
    rcases Nat.lt_or_ge W (if 1 ≤ p.w ∧ p.w ≤ 255 then p.w else 0) with hlt | hge
    · split at hlt
      · rename_i hw
        have ht := mii_tells hw.1 hw.2
        have e : ∀ q n, EdgeRule (miiIncrEdge p.w) [] q n ↔ FirstCut (miiEdge p.w) q n := by
          intro q n
          exact FirstCut.congr fun c _ => by rw [miiIncrEdge, if_pos rfl]
        refine absurd (hd.mono (by omega : W ≤ p.w - 1)) (not_incrAlike (Mii.incr_conforms p)
          (fun n => ?_) (fun n => ?_) ht.last _ ((e _ _).2 ht.firstCut) (fun n => ?_))
        · rw [e]; exact ht.left.not_firstCut n
        · rw [e]; exact ht.right.not_firstCut n
        · rw [e]; exact (ht.right.snoc ht.keep).not_firstCut n
      · exact absurd hlt (Nat.not_lt_zero _)
    · exact hge
  · intro hM
    refine IncrDecidesAlike.mono hM (incrAlike_edge_past (Mii.incr_conforms p) fun hist q hist' q' hl t ht => ?_)
    rw [hv _ _ _ ht, hv _ _ _ ht]
    exact mii_past p.w _ _ hl t ht

/-! ## Ram -/

theorem ram_tells (w W : Nat) : Tells (ramEdge w) (W + 1) (List.replicate (w + 1) 1 ++ List.replicate W 0)
    (List.replicate (w + 1) 255 ++ List.replicate W 0) 1 := by
  have mem : ∀ (b : UInt8) (t : Bytes), b ∈ (List.replicate (w + 1) b ++ t).take (w + 1) := by
    intro b t
    rw [List.take_left' (by simp)]
    simp
  have quiet : ∀ b : UInt8, 1 ≤ b.toNat → NoEdge (ramEdge w) (List.replicate (w + 1) b ++ List.replicate W 0) := by
    intro b hb m h1 h2 ⟨x, k1, k2, k3⟩
    rw [List.length_take] at k2
    have e : (List.replicate (w + 1) b ++ List.replicate W 0 : Bytes).take m =
        List.replicate (w + 1) b ++ List.replicate (m - (w + 1)) 0 := by
      rw [List.take_append, List.take_of_length_le (by simp; omega), List.length_replicate, List.take_replicate]
      congr 2
      simp only [List.length_append, List.length_replicate] at h2
      omega
    rw [e] at k1 k3
    rw [List.getLast?_append, List.getLast?_replicate, if_neg (by omega), Option.some_or, Option.some.injEq] at k1
    have := k3 b (mem b _)
    rw [← k1, UInt8.le_iff_toNat_le] at this
    have h0 : (0 : UInt8).toNat = 0 := rfl
    omega
  refine ⟨quiet 1 (by decide), quiet 255 (by decide), ?_, ?_, ?_⟩
  · rw [Nat.add_sub_cancel, lastN_replicate_append, lastN_replicate_append]
  · refine ⟨1, by simp, by simp, ?_⟩
    intro x hx
    rw [List.append_assoc, List.take_left' (by simp)] at hx
    rw [List.eq_of_mem_replicate hx]
    exact UInt8.le_refl _
  · rintro ⟨x, k1, -, k3⟩
    rw [List.getLast?_append] at k1
    have k1 : some 1 = some x := k1
    cases k1
    rw [List.append_assoc] at k3
    exact absurd (k3 255 (mem 255 _)) (by decide)

/-- C88 for Ram: no number of past bytes is enough (the maximum of the first bytes of the chunk is remembered). -/
theorem C88_ram (p : Ram.Ram) (W : Nat) : ¬ FceDecidesAlike W (Ram.chunk p) ∧ ¬ IncrDecidesAlike W chunkView (Ram.incr p) := by
  have ht := ram_tells p.w W
  have hl := ht.last
  rw [Nat.add_sub_cancel] at hl
  have hc : FceConforms (Ram.chunk p) Any (EdgeRule (Local (ramEdge p.w))) := (Ram.fceSpec p).conforms
  exact ⟨not_fceAlike hc (fun n => ht.left.not_firstCut n) (fun n => ht.right.not_firstCut n) hl _ ht.firstCut
      (fun n => (ht.right.snoc ht.keep).not_firstCut n),
    not_incrAlike (Ram.incr_conforms p) (fun n => ht.left.not_firstCut (n + 1)) (fun n => ht.right.not_firstCut (n + 1))
      hl _ ht.firstCut (fun n => (ht.right.snoc ht.keep).not_firstCut (n + 1))⟩
example : Tells (ramEdge 1) 3 [1, 1, 0, 0] [255, 255, 0, 0] 1 := ram_tells 1 2

/-! ## the default instances of Gear32, RollSum, BuzHash -/

/-- no edge, by running the hash -/
theorem noEdge_run {σ : Type} {step : σ → UInt8 → σ} {bad : σ → Bool} {f : Bytes → σ} {K : Nat}
    (hf : ∀ p v, p.length < K → f (p ++ [v]) = step (f p) v) {y : Bytes} (hy : y.length ≤ K)
    (hq : quietBy step bad (f []) y = true) (he : ∀ p, p.length ≤ K → e p → bad (f p) = true) : NoEdge e y := by
  intro m h1 h2 hm
  have h3 := quietBy_spec hf y [] (by simpa using hy) hq m h1 h2
  rw [List.nil_append, he _ (by rw [List.length_take]; omega) hm] at h3
  cases h3

theorem gear_tells : Tells (gearEdge (lookup Tables.gear32) 0xfff80000 0) 31 (gearMark.take 31) (99 :: (gearMark.take 31).drop 1)
    122 where
  left := noEdge_run (gearStep_spec (lookup Tables.gear32) 31) (by decide)
    (bad := fun fp => fp &&& 0xfff80000 == 0) (by decide +kernel) (fun p _ h => by rw [gearEdge] at h; rw [h]; rfl)
  right := noEdge_run (gearStep_spec (lookup Tables.gear32) 31) (by decide)
    (bad := fun fp => fp &&& 0xfff80000 == 0) (by decide +kernel) (fun p _ h => by rw [gearEdge] at h; rw [h]; rfl)
  last := by decide
  cut := gear_mark_hit
  keep := by unfold gearEdge; decide +kernel

/-- C88 for `Gear32::default`, both APIs. -/
theorem C88_gear (prof : Profile) : ∃ p, Gear.Gear32.default prof = .ok p ∧ FceMemory (Gear.chunk p) 31 ∧
    IncrMemory chunkView (Gear.incr p) 31 :=
  ⟨_, C49_default prof, fceMemory (Gear.fceLoop Ex.gear).fceSpec (C40_edge _ _ _).pred fun _ => ⟨_, _, _, gear_tells⟩,
    incrMemory_before (Gear.incr_conforms Ex.gear) (C40_edge _ _ _).pred fun _ => ⟨_, _, _, gear_tells⟩⟩

theorem bup_tells : Tells (bupEdge 64) 63 (bupMark.take 63) (97 :: (bupMark.take 63).drop 1) 121 where
  left := noEdge_run (f := fun p => (Bup.bsum p, Bup.tsum p)) (bupStep_spec 63) (by decide)
    (bad := fun st => (31 * 64 * 63 + st.2) % 8192 == 8191) (by decide +kernel)
    (fun p hp h => by rw [bup_short (by omega)] at h; rw [h]; rfl)
  right := noEdge_run (f := fun p => (Bup.bsum p, Bup.tsum p)) (bupStep_spec 63) (by decide)
    (bad := fun st => (31 * 64 * 63 + st.2) % 8192 == 8191) (by decide +kernel)
    (fun p hp h => by rw [bup_short (by omega)] at h; rw [h]; rfl)
  last := by decide
  cut := (bup_short (by decide)).2 bup_mark_hit
  keep := by rw [bup_short (by decide)]; decide +kernel

/-- C88 for `RollSum::default`, both APIs; `RollSumIncr` looks back over cuts. -/
theorem C88_rollsum : FceMemory (Bup.chunk Bup.RollSum.default) 63 ∧ IncrMemory streamView (Bup.incr Bup.RollSum.default) 63 := by
  refine ⟨fceMemory (Bup.fceWindow _).fceSpec bup_local.pred fun _ => ⟨_, _, _, bup_tells⟩, fun W => ⟨fun hd => ?_, fun h => ?_⟩⟩
  · rcases Nat.lt_or_ge W 63 with hlt | hge
    · have ht := bup_tells
      exact absurd (hd.mono (by omega : W ≤ 63 - 1)) (not_incrAlike (Bup.incr_conforms 6)
        (fun n => ht.left.not_firstCut n) (fun n => ht.right.not_firstCut n) ht.last _ ht.firstCut
        (fun n => (ht.right.snoc ht.keep).not_firstCut n))
    · exact hge
  · refine IncrDecidesAlike.mono h (incrAlike_edge_past (Bup.incr_conforms 6) fun hist q hist' q' hl t ht => ?_)
    show bupEdge 64 (hist ++ (q ++ t)) ↔ bupEdge 64 (hist' ++ (q' ++ t))
    rw [← List.append_assoc, ← List.append_assoc]
    exact bup_local.pred _ _ hl t ht

theorem buz_tells (salt : UInt8) : Tells (buzEdge 67 (fun b => lookup Tables.goBuzhash (b ^^^ salt)) 0xfff) 66
    ((buzMark.take 66).map (· ^^^ salt)) ((97 :: (buzMark.take 66).drop 1).map (· ^^^ salt)) (114 ^^^ salt) := by
  have quiet : ∀ y : Bytes, y.length ≤ 67 → quietBy (buzStep (lookup Tables.goBuzhash)) (fun h => h &&& 0xfff == 0xfff)
      (buzHash 67 (lookup Tables.goBuzhash) []) y = true →
      NoEdge (buzEdge 67 (fun b => lookup Tables.goBuzhash (b ^^^ salt)) 0xfff) (y.map (· ^^^ salt)) := by
    intro y hy hq m h1 h2 h3
    rw [List.length_map] at h2
    rw [← List.map_take, buzEdge, buz_salt 67 (lookup Tables.goBuzhash)] at h3
    have := quietBy_spec (buzStep_spec (lookup Tables.goBuzhash)) y [] (by simpa using hy) hq m h1 h2
    rw [List.nil_append, h3] at this
    exact absurd this (by decide)
  have snoc : ∀ y : Bytes, y.map (· ^^^ salt) ++ [114 ^^^ salt] = (y ++ [114]).map (· ^^^ salt) := by
    intro y; rw [List.map_append]; rfl
  refine ⟨quiet _ (by decide) (by decide +kernel), quiet _ (by decide) (by decide +kernel), ?_, ?_, ?_⟩
  · unfold lastN
    rw [← List.map_drop, ← List.map_drop]
    congr 1
  · rw [snoc, buzEdge, buz_salt 67 (lookup Tables.goBuzhash)]
    exact buz_mark_hit
  · rw [snoc, buzEdge, buz_salt 67 (lookup Tables.goBuzhash)]
    decide +kernel

theorem buz_local (salt : UInt8) : WindowLocal 67 (buzEdge 67 (fun b => lookup Tables.goBuzhash (b ^^^ salt)) 0xfff) := by
  intro u v h
  unfold buzEdge
  rw [C45_rolling _ _ (by decide) u v h]

/-- C88 for `BuzHash::new_nom`: 66 bytes for `find_chunk_edge`; `BuzHashIncr` also counts the bytes of the chunk, so only the
whole chunk so far is enough. -/
theorem C88_buzhash (salt : UInt8) : ∃ p, Buzhash.BuzHash.newNom salt = .ok p ∧ FceMemory (Buzhash.chunk p) 66 ∧
    IncrMemory chunkView (Buzhash.incr p) 16777216 := by
  refine ⟨{ k := 67, h := fun b => lookup Tables.goBuzhash (b ^^^ salt), mask := 0xfff, maxChunkSize := 16777216 },
    rfl, fceMemory (Buzhash.fceWindow _ (by show 0 < 67; decide)).fceSpec (buz_local salt).pred fun _ => ⟨_, _, _, buz_tells salt⟩, ?_⟩
  have hc : IncrConforms (Buzhash.incr
      { k := 67, h := fun b => lookup Tables.goBuzhash (b ^^^ salt), mask := 0xfff, maxChunkSize := 16777216 })
      (EdgeRule (Local (buzIncrEdge 67 (fun b => lookup Tables.goBuzhash (b ^^^ salt)) 0xfff 16777216))) :=
    Buzhash.incr_conforms _ (by show 0 < 67; decide)
  intro W
  constructor
  · intro hd
    rcases Nat.lt_or_ge W 16777216 with hlt | hge
    · have hr := buz_incr_runCut salt salt
      rw [UInt8.xor_self, show buzIncrRun 0 = some 16777217 by decide +kernel] at hr
      obtain ⟨-, r1, r2⟩ := hr
      have no : ∀ k, k < 16777217 → NoEdge (buzIncrEdge 67 (fun b => lookup Tables.goBuzhash (b ^^^ salt)) 0xfff 16777216)
          (List.replicate k salt) := by
        intro k hk m h1 h2 h3
        rw [List.length_replicate] at h2
        rw [List.take_replicate, Nat.min_eq_left h2] at h3
        exact r2 m h1 (by omega) h3
      have snoc : ∀ k, List.replicate k salt ++ [salt] = List.replicate (k + 1) salt := fun k =>
        List.replicate_succ'.symm
      refine absurd hd (not_incrAlike hc (p := List.replicate 16777216 salt) (q := List.replicate 16777215 salt) (t := [salt])
        (fun n => (no _ (by decide)).not_firstCut n) (fun n => (no _ (by decide)).not_firstCut n) ?_ 16777217 ?_ (fun n => ?_))
      · show lastN W (List.replicate _ _) = lastN W (List.replicate _ _)
        unfold lastN
        rw [List.drop_replicate, List.drop_replicate, List.length_replicate, List.length_replicate]
        congr 1
        omega
      · rw [snoc]
        refine ⟨by decide, by rw [List.length_replicate], ?_, ?_⟩
        · show buzIncrEdge _ _ _ _ _
          rw [List.take_replicate]
          exact r1
        · intro m h1 h2 h3
          have h3 : buzIncrEdge _ _ _ _ _ := h3
          rw [List.take_replicate, Nat.min_eq_left (by omega)] at h3
          exact r2 m h1 h2 h3
      · rw [snoc]
        exact (no _ (by decide)).not_firstCut n
    · exact hge
  · intro hM
    refine IncrDecidesAlike.mono hM (incrDecidesAlike (EdgeRule.good _) hc ?_)
    intro hist p hist' q new n hend hp hq hr
    have short : ∀ {h p : Bytes}, (p = [] ∨ ∀ n, ¬ EdgeRule (Local (buzIncrEdge 67
        (fun b => lookup Tables.goBuzhash (b ^^^ salt)) 0xfff 16777216)) h p n) → p.length ≤ 16777216 := by
      intro h p hp
      rcases Nat.lt_or_ge 16777216 p.length with hlt | hge
      · have := (noEdge_of hp) p.length (by omega) (Nat.le_refl _)
        rw [List.take_length] at this
        exact absurd (.inr hlt) this
      · exact hge
    have hend : lastN 16777216 p = lastN 16777216 q := hend
    rw [lastN_of_le (short hp), lastN_of_le (short hq)] at hend
    subst hend
    exact hr
example : Tells (buzEdge 67 (fun b => lookup Tables.goBuzhash (b ^^^ 7)) 0xfff) 66
    ((buzMark.take 66).map (· ^^^ 7)) ((97 :: (buzMark.take 66).drop 1).map (· ^^^ 7)) (114 ^^^ 7) := buz_tells 7

/-! ## Zstd -/

/-- C88 for Zstd: the 32 bytes of C46 cannot be made 31. Whatever the section size, there are a tail and two beginnings such
that the 32nd byte of the tail reports a cut after one and not after the other. -/
theorem C88_zstd {prof : Profile} {size : BitVec 64} {p : Zstd.Zstd} (h : Zstd.Zstd.withTargetSectionSize prof size = .ok p) :
    ∃ x y t st l st' l', zstdFeed p (x ++ t) = .ok (st, l) ∧ zstdFeed p (y ++ t) = .ok (st', l') ∧
      (l.drop x.length)[31]? = some true ∧ (l'.drop y.length)[31]? = some false := by
  obtain ⟨st, l, h1, h2⟩ := C83_zstd h [0] [] (by decide)
  obtain ⟨st', l', k1, -, k3⟩ := zstdFeed_eq h ([] ++ zstdMark)
  rw [List.append_nil] at h1
  refine ⟨[0], [], zstdMark, st, l, st', l', h1, k1, ?_, ?_⟩
  · rw [List.getElem?_drop]
    exact h2
  · rw [List.getElem?_drop, List.length_nil, Nat.zero_add, k3 31 (by decide), Option.some.injEq, decide_eq_false_iff_not]
    omega
example : ∃ p, Zstd.Zstd.withTargetSectionSize .debug 0x100000 = .ok p := ⟨_, rfl⟩

/-! ## FastCdc -/

theorem gearSum_append {w : Nat} (G : UInt8 → BitVec w) (x t : Bytes) :
    gearSum G (x ++ t) = (gearSum G x <<< t.length) + gearSum G t := by
  induction t using List.reverseRecOn with
  | nil => simp [gearSum]
  | append_singleton t v ih =>
    rw [← List.append_assoc, gearSum_snoc, ih, gearSum_snoc, List.length_append, List.length_singleton,
      BitVec.shiftLeft_add]
    generalize gearSum G x <<< t.length = a
    generalize gearSum G t = b
    rw [BitVec.shiftLeft_eq_mul_twoPow, BitVec.shiftLeft_eq_mul_twoPow, BitVec.shiftLeft_eq_mul_twoPow, BitVec.add_mul,
      BitVec.add_assoc]

/-- bits below `k` of a sum do not see what was shifted by `k` -/
theorem add_shift_and {k : Nat} (a b m : BitVec 64) (hm : m.toNat < 2 ^ k) : ((a <<< k) + b) &&& m = b &&& m := by
  have h : ((a <<< k) + b).setWidth k = b.setWidth k := by
    apply BitVec.eq_of_toNat_eq
    rw [BitVec.toNat_setWidth, BitVec.toNat_setWidth, BitVec.toNat_add, BitVec.toNat_shiftLeft, Nat.shiftLeft_eq]
    rcases Nat.lt_or_ge k 64 with hk | hk
    · have hd : 2 ^ k ∣ 2 ^ 64 := Nat.pow_dvd_pow 2 (by omega)
      rw [Nat.mod_mod_of_dvd _ hd, Nat.add_mod, Nat.mod_mod_of_dvd _ hd, Nat.mul_mod_left, Nat.zero_add, Nat.mod_mod]
    · have hd : 2 ^ 64 ∣ a.toNat * 2 ^ k := Dvd.dvd.mul_left (Nat.pow_dvd_pow 2 hk) _
      rw [Nat.mod_eq_zero_of_dvd hd, Nat.zero_add, Nat.mod_eq_of_lt b.isLt]
  apply BitVec.eq_of_getLsbD_eq
  intro i _
  rw [BitVec.getLsbD_and, BitVec.getLsbD_and]
  rcases Nat.lt_or_ge i k with hi | hi
  · have := congrArg (fun v => v.getLsbD i) h
    simp only [BitVec.getLsbD_setWidth, hi, decide_true, Bool.true_and] at this
    rw [this]
  · have : m.getLsbD i = false := by
      rw [BitVec.getLsbD, Nat.testBit_lt_two_pow (Nat.lt_of_lt_of_le hm (Nat.pow_le_pow_right (by decide) hi))]
    rw [this, Bool.and_false, Bool.and_false]

/-- C88 for FastCdc, any gear table and sizes: of the 64 bytes of C41 only the last 50 matter, and beyond `normal_size` only the
last 48. -/
theorem C88_fastcdc (G : UInt8 → BitVec 64) (min normal max : Nat) (x y t : Bytes) (hxy : x.length = y.length)
    (hx : min ≤ x.length) (ht : t.length = 50 ∨ t.length = 48 ∧ normal < x.length + 48) :
    (fastHit G min normal (x ++ t) ↔ fastHit G min normal (y ++ t)) ∧
    (fastFceEdge G min normal max (x ++ t) ↔ fastFceEdge G min normal max (y ++ t)) ∧
    (fastByteEdge G min normal max (x ++ t) ↔ fastByteEdge G min normal max (y ++ t)) := by
  have hl : (x ++ t).length = (y ++ t).length := by simp [hxy]
  have hh : fastHit G min normal (x ++ t) ↔ fastHit G min normal (y ++ t) := by
    unfold fastHit
    rw [← hl, List.drop_append_of_le_length hx, List.drop_append_of_le_length (by omega), gearSum_append, gearSum_append,
      List.length_append]
    rcases ht with ht | ⟨ht, hn⟩
    · rw [ht, add_shift_and, add_shift_and] <;> (split <;> decide)
    · rw [ht, if_neg (by omega), add_shift_and _ _ _ (by decide), add_shift_and _ _ _ (by decide)]
  refine ⟨hh, ?_, ?_⟩
  · unfold fastFceEdge; rw [hh, hl]
  · unfold fastByteEdge; rw [hh, hl]
example : ∃ x y t : Bytes, x ≠ y ∧ x.length = y.length ∧ 2 ≤ x.length ∧ t.length = 48 ∧ 3 < x.length + 48 :=
  ⟨[1, 2], [3, 4], List.replicate 48 9, by decide, rfl, by decide, by simp, by decide⟩

/-- 50 bytes at whose end the first mask matches -/
def fastEndS : Bytes :=
  [102, 100, 118, 119, 112, 119, 98, 109, 119, 111, 117, 116, 107, 118, 99, 103, 104, 102, 106, 113, 116, 104, 107, 106, 117, 117, 112, 119, 116, 117, 107, 110, 104, 101, 100, 118, 118, 109, 120, 109, 97, 100, 110, 112, 109, 99, 102, 119, 110, 108]

/-- 48 bytes at whose end the second mask matches -/
def fastEndL : Bytes :=
  [109, 109, 122, 98, 111, 99, 122, 101, 121, 116, 108, 113, 118, 120, 106, 110, 115, 121, 113, 122, 116, 104, 103, 116, 119, 122, 106, 110, 102, 117, 102, 116, 117, 97, 104, 112, 117, 118, 108, 113, 104, 108, 112, 101, 121, 112, 121, 116]

theorem fast_take {a m : Nat} {t : Bytes} (ha : 2048 ≤ a) (h : a < m) (hm : m ≤ (List.replicate a (0 : UInt8) ++ t).length) :
    fastHit G64 2048 8192 ((List.replicate a 0 ++ t).take m) ↔ gearSum G64 (List.replicate (a - 2048) 0 ++ t.take (m - a)) &&&
      (if m ≤ 8192 then 0x0003590703530000 else 0x0000d90003530000) = 0 := by
  unfold fastHit
  rw [List.length_take, Nat.min_eq_left hm, List.take_append, List.take_of_length_le (by rw [List.length_replicate]; omega),
    List.length_replicate, List.drop_append_of_le_length (by rw [List.length_replicate]; exact ha), List.drop_replicate]

theorem noEdge_append_fast {a : Nat} {t : Bytes} {mask : BitVec 64} (ha : 2048 ≤ a) (ha' : a ≤ 8192)
    (hm : ∀ m, a < m → m ≤ a + t.length → (if m ≤ 8192 then 0x0003590703530000 else 0x0000d90003530000) = mask)
    (ht : t.length ≤ 64)
    (hq : quietBy (gearStep G64) (fun fp => fp &&& mask == 0) (gearSum G64 (List.replicate (a - 2048) 0)) t = true) :
    NoEdge (fastFceEdge G64 2048 8192 65536) (List.replicate a 0 ++ t) := by
  intro m h1 h2 ⟨h3, h4⟩
  have hl : ((List.replicate a (0 : UInt8) ++ t).take m).length = m := by rw [List.length_take]; omega
  rw [hl] at h3 h4
  have h2' := h2
  rw [List.length_append, List.length_replicate] at h2'
  rcases h4 with h4 | h4
  · omega
  · rcases Nat.lt_or_ge a m with h | h
    · rw [fast_take ha h h2, hm m h h2'] at h4
      have := quietBy_spec (gearStep_spec G64 10000) t (List.replicate (a - 2048) 0)
        (by rw [List.length_replicate]; omega) hq (m - a) (by omega) (by omega)
      rw [h4] at this
      exact absurd this (by decide)
    · rw [List.take_append_of_le_length (by rw [List.length_replicate]; exact h), List.take_replicate, Nat.min_eq_left h] at h4
      exact fast_run 0 m h3 h4

/-- What the first call on a whole buffer returns. -/
theorem fast_first (data : Bytes) (hd : data.length ≠ 65536) : ∃ st r d,
    (FastCdc.chunk FastCdc.FastCdc.default).fce (FastCdc.chunk FastCdc.FastCdc.default).init data = .ok (st, r, d) ∧
    (∀ n, r = some n → FirstCut (fastFceEdge G64 2048 8192 65536) data n) ∧
    (r = none → ∀ n, ¬ FirstCut (fastFceEdge G64 2048 8192 65536) data n) := by
  obtain ⟨st, r, d, h1, -, h3⟩ := FastCdc.fce_conforms FastCdc.FastCdc.default (by decide) _ _ _ _ _ _
    (.start (s := data)) data.length (Nat.zero_le _) (Nat.le_refl _) hd
  have he : Spec.sub data 0 data.length = data := by simp [Spec.sub]
  rw [he] at h1 h3
  refine ⟨st, r, d, h1, ?_, ?_⟩
  · rintro n rfl
    have := h3.2.2
    rwa [Nat.zero_add] at this
  · rintro rfl
    exact h3

theorem fast_sharp {a : Nat} {t t' : Bytes} {c : UInt8} {mask : BitVec 64} (ha : 2048 ≤ a) (ha' : a ≤ 8192)
    (hm : ∀ m, a < m → m ≤ a + 50 → (if m ≤ 8192 then 0x0003590703530000 else 0x0000d90003530000) = mask)
    (ht : t.length < 50) (ht' : t'.length ≤ 50)
    (h1 : quietBy (gearStep G64) (fun fp => fp &&& mask == 0) (gearSum G64 (List.replicate (a - 2048) 0)) t = true)
    (h2 : gearSum G64 (List.replicate (a - 2048) 0 ++ (t ++ [c])) &&& mask = 0)
    (h3 : quietBy (gearStep G64) (fun fp => fp &&& mask == 0) (gearSum G64 (List.replicate (a - 2048) 0)) t' = true) :
    (∃ st d, (FastCdc.chunk FastCdc.FastCdc.default).fce (FastCdc.chunk FastCdc.FastCdc.default).init
        (List.replicate a 0 ++ (t ++ [c])) = .ok (st, some (a + (t ++ [c]).length), d)) ∧
    (∃ st d, (FastCdc.chunk FastCdc.FastCdc.default).fce (FastCdc.chunk FastCdc.FastCdc.default).init
        (List.replicate a 0 ++ t') = .ok (st, none, d)) := by
  have hc : FirstCut (fastFceEdge G64 2048 8192 65536) (List.replicate a 0 ++ (t ++ [c])) (a + (t ++ [c]).length) := by
    have hn := noEdge_append_fast ha ha' (fun m k1 k2 => hm m k1 (by omega)) (by omega) h1
    have hl : a + (t ++ [c]).length = (List.replicate a (0 : UInt8) ++ t).length + 1 := by
      simp only [List.length_append, List.length_replicate, List.length_singleton]; omega
    rw [← List.append_assoc, hl]
    refine hn.firstCut_append ⟨Nat.le_refl _, Nat.le_refl _, ?_, by omega⟩
    have e : (List.replicate a (0 : UInt8) ++ t) ++ [c] =
        ((List.replicate a 0 ++ (t ++ [c])).take (a + (t ++ [c]).length)) := by
      rw [List.append_assoc, List.take_of_length_le (by rw [List.length_append, List.length_replicate])]
    show fastFceEdge G64 2048 8192 65536 ((List.replicate a 0 ++ t) ++ [c])
    rw [e]
    have hs : 0 < (t ++ [c]).length := by rw [List.length_append, List.length_singleton]; omega
    refine ⟨?_, .inr ?_⟩
    · simp only [List.length_take, List.length_append, List.length_replicate, List.length_singleton]; omega
    · rw [fast_take ha (by omega) (by simp), hm _ (by omega)
        (by rw [List.length_append, List.length_singleton]; omega), Nat.add_sub_cancel_left, List.take_length]
      exact h2
  constructor
  · obtain ⟨st, r, d, k1, k2, k3⟩ := fast_first (List.replicate a 0 ++ (t ++ [c]))
      (by simp only [List.length_append, List.length_replicate, List.length_singleton]; omega)
    cases r with
    | none => exact absurd hc (k3 rfl _)
    | some n => rw [(k2 n rfl).det hc] at k1; exact ⟨st, d, k1⟩
  · obtain ⟨st, r, d, k1, k2, k3⟩ := fast_first (List.replicate a 0 ++ t')
      (by simp only [List.length_append, List.length_replicate]; omega)
    cases r with
    | none => exact ⟨st, d, k1⟩
    | some n =>
      exact absurd (k2 n rfl) ((noEdge_append_fast ha ha' (fun m k1 k2 => hm m k1 (by omega)) (by omega) h3).not_firstCut n)

/-- The numbers of C88 cannot be lowered for `FastCdc::default`: `find_chunk_edge` on two buffers that end with the same 49 (47)
bytes, one with a cut, the other without. -/
theorem C88_fastcdc_sharp (a : Nat) (t : Bytes) (h : a = 2048 ∧ t = fastEndS ∨ a = 8192 ∧ t = fastEndL) :
    (∃ st d, (FastCdc.chunk FastCdc.FastCdc.default).fce (FastCdc.chunk FastCdc.FastCdc.default).init
        (List.replicate a 0 ++ t) = .ok (st, some (a + t.length), d)) ∧
    (∃ st d, (FastCdc.chunk FastCdc.FastCdc.default).fce (FastCdc.chunk FastCdc.FastCdc.default).init
        (List.replicate a 0 ++ 99 :: t.drop 1) = .ok (st, none, d)) := by
  rcases h with ⟨rfl, rfl⟩ | ⟨rfl, rfl⟩
  · have := fast_sharp (a := 2048) (t := fastEndS.dropLast) (c := 108) (t' := 99 :: fastEndS.drop 1) (mask := 0x0003590703530000)
      (by decide) (by decide) (fun m k1 k2 => if_pos (by omega)) (by decide) (by decide) (by decide +kernel)
      (by decide +kernel) (by decide +kernel)
    exact this
  · have hz : gearSum G64 (List.replicate (8192 - 2048) 0) = gearSum G64 (List.replicate 64 0) := by
      rw [gearSum_lastN]
      unfold lastN
      rw [List.drop_replicate, List.length_replicate]
    have hz' : ∀ y, gearSum G64 (List.replicate (8192 - 2048) 0 ++ y) = gearSum G64 (List.replicate 64 0 ++ y) := by
      intro y
      rw [show 8192 - 2048 = 6080 + 64 from rfl, ← List.replicate_append_replicate, List.append_assoc,
        gearSum64_append _ (by rw [List.length_append, List.length_replicate]; omega)]
    have := fast_sharp (a := 8192) (t := fastEndL.dropLast) (c := 116) (t' := 99 :: fastEndL.drop 1) (mask := 0x0000d90003530000)
      (by decide) (by decide) (fun m k1 k2 => if_neg (by omega)) (by decide) (by decide) (by rw [hz]; decide +kernel)
      (by rw [hz']; decide +kernel) (by rw [hz]; decide +kernel)
    exact this
example : fastEndS.length = 50 ∧ fastEndL.length = 48 := by decide

end HashRoll.Props
