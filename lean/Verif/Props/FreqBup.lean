import Verif.Props.Mean
import Verif.Props.Frequency
import Verif.Props.Renew
/-!
# C75: exact frequency of the cuts of `RollSumIncr`, and cuts per byte on average
-/

namespace HashRoll.Props

open Spec Bup

/-- how many of the bytes `a`, ..., `n` of `x` are cuts (fed one byte at a time) -/
def cutsFrom (C : ChunkIncr) (st : C.State) (a : Nat) (x : Bytes) : Nat :=
  (List.range' a (x.length + 1 - a)).countP fun m => endsWithCut C st false (x.take m)

theorem tsum_append (b c : Bytes) : tsum (b ++ c) = tsum b + c.length * bsum b + tsum c := by
  induction b with
  | nil => simp [Bup.tsum, bsum]
  | cons x b ih =>
    rw [List.cons_append, tsum_cons, ih, tsum_cons, bsum_cons, List.length_append]
    ring

theorem lastN_append_le {W : Nat} {c : Bytes} (p : Bytes) (h : c.length ≤ W) : lastN W (p ++ c) = lastN (W - c.length) p ++ c := by
  rw [lastN, lastN, List.length_append, List.drop_append_of_le_length (by omega)]
  congr 2
  omega

/-- what the last and the 32nd byte from the end contribute -/
theorem bupS2_pair {W : Nat} (hW : 32 ≤ W) (p m : Bytes) (hm : m.length = 30) (u v : UInt8) :
    bupS2 W (p ++ ([u] ++ (m ++ [v]))) = bupS2 W (p ++ ([0] ++ (m ++ [0]))) + 32 * u.toNat + v.toNat := by
  have h : ∀ u v : UInt8, ([u] ++ (m ++ [v])).length = 32 := fun u v => by simp [hm]
  have e : ∀ u v : UInt8, bupS2 W (p ++ ([u] ++ (m ++ [v]))) = 31 * W * (W - 1) + (tsum (lastN (W - 32) p) + 32 * bsum (lastN (W - 32) p) +
      (tsum m + (bsum m + v.toNat) + 32 * u.toNat)) := by
    intro u v
    rw [bupS2_eq, lastN_append_le p (by rw [h]; exact hW), tsum_append, h, List.singleton_append, tsum_cons, tsum_snoc, bsum_snoc]
    simp [hm]
  rw [e u v, e 0 0]
  simp only [UInt8.toNat_zero]
  omega

theorem howMany_sum (n : Nat) (P : Bytes → Prop) [DecidablePred P] : howMany n P = ∑ s ∈ words n, if P s then 1 else 0 := by
  rw [howMany]
  refine Finset.sum_congr rfl fun s _ => ?_
  congr

theorem sum_one_byte {c : Nat} (hc : c < 256) : (∑ u ∈ bytes, if u.toNat = c then 1 else 0) = 1 := by
  rw [Finset.sum_eq_single (UInt8.ofNat c)]
  · rw [if_pos]
    simp [Nat.mod_eq_of_lt hc]
  · intro b _ hb
    rw [if_neg]
    rintro rfl
    exact hb (by simp)
  · intro h
    exact absurd (mem_bytes _) h

/-- the bytes with given low 5 bits -/
theorem sum_low_five (t : Fin 32) : (∑ v ∈ bytes, if v.toNat % 32 = t.val then 1 else 0) = 8 := by
  have h := countP_bytes fun v => decide (v.toNat % 32 = t.val)
  simp only [decide_eq_true_eq] at h
  rw [← h]
  revert t
  decide +kernel

/-- Of the 65536 pairs of bytes exactly 8 complete a sum to 8191 modulo 8192. -/
theorem sum_pairs (K : Nat) : (∑ u ∈ bytes, ∑ v ∈ bytes, if (K + 32 * u.toNat + v.toNat) % 8192 = 8191 then 1 else 0) = 8 := by
  rw [Finset.sum_comm]
  rw [← sum_low_five ⟨(8191 - K % 8192) % 32, Nat.mod_lt _ (by decide)⟩]
  refine Finset.sum_congr rfl fun v _ => ?_
  have hv := v.toNat_lt
  have hK : K % 8192 < 8192 := Nat.mod_lt _ (by decide)
  have hmod : ∀ u : UInt8, (K + 32 * u.toNat + v.toNat) % 8192 = (K % 8192 + 32 * u.toNat + v.toNat) % 8192 := fun u => by omega
  simp only [hmod]
  generalize K % 8192 = k at *
  by_cases h : v.toNat % 32 = (8191 - k) % 32
  · rw [if_pos h]
    refine Eq.trans ?_ (sum_one_byte (c := ((8191 - k) / 32 + 256 - v.toNat / 32) % 256) (by omega))
    refine Finset.sum_congr rfl fun u _ => ?_
    have hu := u.toNat_lt
    refine if_congr ?_ rfl rfl
    omega
  · rw [if_neg h]
    refine Finset.sum_eq_zero fun u _ => ?_
    rw [if_neg]
    intro h'
    apply h
    omega

theorem bup_push_byte {n : Nat} {st : RollSumIncr} {h : Bytes} (hi : RingInv (2 ^ n) st h) (b : UInt8) :
    ∃ st' r, (Bup.incr (RollSum.withWindow (2 ^ n))).push st [b] = .ok (st', r) ∧ RingInv (2 ^ n) st' (h ++ [b]) ∧
      (r.isSome = true ↔ bupEdge (2 ^ n) (h ++ [b])) := by
  obtain ⟨st', hroll, hi'⟩ := rollByte_spec hi b
  have hs : st'.atSplit = true ↔ bupEdge (2 ^ n) (h ++ [b]) := by
    rw [RollSumIncr.atSplit, atSplit_iff hi'.2.2.2]
  by_cases hh : bupEdge (2 ^ n) (h ++ [b])
  · have hb : pushBody 0 b st = .ok (.ret st' (some 1)) := by simp [pushBody, hroll, hs.2 hh]
    refine ⟨st', some 1, (push_eq st [b]).trans ?_, hi', by simp [hh]⟩
    rw [forEnum, hb]
  · have h' : st'.atSplit = false := by rw [← hs] at hh; simpa using hh
    have hb : pushBody 0 b st = .ok (.next st') := by simp [pushBody, hroll, h']
    refine ⟨st', none, (push_eq st [b]).trans ?_, hi', by simp [hh]⟩
    rw [forEnum, hb]
    rfl

theorem bup_endsWithCut {n : Nat} {st : RollSumIncr} {h : Bytes} (hi : RingInv (2 ^ n) st h) (x : Bytes) (hx : x ≠ []) (r : Bool) :
    endsWithCut (Bup.incr (RollSum.withWindow (2 ^ n))) st r x = true ↔ bupEdge (2 ^ n) (h ++ x) := by
  induction x generalizing st h r with
  | nil => exact absurd rfl hx
  | cons b bs ih =>
    obtain ⟨st', r', h1, h2, h3⟩ := bup_push_byte hi b
    rw [endsWithCut, h1]
    show endsWithCut _ st' r'.isSome bs = true ↔ _
    cases bs with
    | nil => rw [endsWithCut, h3]
    | cons c cs => rw [ih h2 (by simp), List.append_assoc]; rfl

theorem bup_reachable {n : Nat} {st} (hr : Reachable (Bup.incr (RollSum.withWindow (2 ^ n))) st) :
    ∃ h, RingInv (2 ^ n) st h := by
  induction hr with
  | init => exact ⟨[], ring_init n⟩
  | @push st data st' r _ hp ih =>
    have hk := forEnum_inv (body := pushBody) (I := fun s => ∃ h, RingInv (2 ^ n) s h) (Q := fun s _ => ∃ h, RingInv (2 ^ n) s h)
      (data := data) (i := 0) (s := st) ?_ ?_ ih
    · change st.push data = _ at hp
      rw [push_eq] at hp
      rcases hf : forEnum pushBody 0 data st with e | (s' | ⟨s', r'⟩)
      · rw [hf] at hp; cases hp
      · rw [hf] at hp; cases hp; exact hk.2 _ hf
      · rw [hf] at hp; cases hp; exact hk.1 _ _ hf
    · rintro i v s s' ⟨h, hi⟩ hb
      obtain ⟨s1, hroll, hi'⟩ := rollByte_spec hi v
      rw [pushBody, hroll] at hb
      dsimp only at hb
      split at hb <;> cases hb
      exact ⟨_, hi'⟩
    · rintro i v s s' r ⟨h, hi⟩ hb
      obtain ⟨s1, hroll, hi'⟩ := rollByte_spec hi v
      rw [pushBody, hroll] at hb
      dsimp only at hb
      split at hb <;> cases hb
      exact ⟨_, hi'⟩

/-- C75. `RollSumIncr` with a window of `2^n ≥ 32` bytes: of the strings of `k ≥ 32` bytes exactly one in 8192 ends with a cut,
whatever was pushed before. -/
theorem C75_rollsum {n : Nat} (hn : 5 ≤ n) {st : RollSumIncr} (hr : Reachable (Bup.incr (RollSum.withWindow (2 ^ n))) st)
    {k : Nat} (hk : 32 ≤ k) :
    (strings k).countP (endsWithCut (Bup.incr (RollSum.withWindow (2 ^ n))) st false) * 8192 = 256 ^ k := by
  obtain ⟨h, hi⟩ := bup_reachable hr
  have hW : 32 ≤ 2 ^ n := (by norm_num : 32 = 2 ^ 5) ▸ Nat.pow_le_pow_right (by decide) hn
  obtain ⟨a, c, hc, rfl⟩ : ∃ a c, c = 30 ∧ k = a + (1 + (c + 1)) := ⟨k - 32, 30, rfl, by omega⟩
  rw [countP_strings, howMany_sum, sum_words_add]
  have : ∀ x ∈ words a, (∑ y ∈ words (1 + (c + 1)),
      if endsWithCut (Bup.incr (RollSum.withWindow (2 ^ n))) st false (x ++ y) = true then 1 else 0) = 256 ^ c * 8 := by
    intro x hx
    rw [sum_words_add, sum_words_one]
    rw [Finset.sum_congr rfl fun u _ => sum_words_snoc c _]
    rw [Finset.sum_comm, ← card_words c, ← smul_eq_mul, ← Finset.sum_const]
    refine Finset.sum_congr rfl fun m hm => ?_
    rw [← sum_pairs (bupS2 (2 ^ n) ((h ++ x) ++ ([0] ++ (m ++ [0]))))]
    refine Finset.sum_congr rfl fun u _ => Finset.sum_congr rfl fun v _ => ?_
    refine if_congr ?_ rfl rfl
    rw [bup_endsWithCut hi _ (by simp), ← List.append_assoc, bupEdge, bupS2_pair hW _ m ((mem_words.1 hm).trans hc)]
  rw [Finset.sum_congr rfl this, Finset.sum_const, card_words, smul_eq_mul]
  rw [pow_add 256 a]
  ring

/-- the default window -/
example : (strings 100).countP (endsWithCut (Bup.incr (RollSum.withWindow (2 ^ 6))) (Bup.incr (RollSum.withWindow (2 ^ 6))).init false) *
    8192 = 256 ^ 100 := C75_rollsum (by decide) .init (by decide)

theorem sum_cutsFrom {C : ChunkIncr} {st : C.State} {a N : Nat} (h : ∀ k, a ≤ k → (strings k).countP (endsWithCut C st false) * N = 256 ^ k)
    (n : Nat) : ((strings n).map (cutsFrom C st a)).sum * N = (n + 1 - a) * 256 ^ n := by
  classical
  have hsum : ((strings n).map (cutsFrom C st a)).sum = ∑ x ∈ words n, cutsFrom C st a x := by
    rw [words, List.sum_toFinset _ (nodup_strings n)]
  have hc : ∀ x ∈ words n, cutsFrom C st a x = ∑ m ∈ Finset.range (n + 1 - a), if endsWithCut C st false (x.take (a + m)) = true then 1 else 0 := by
    intro x hx
    rw [cutsFrom, mem_words.1 hx, List.range'_eq_map_range, List.countP_map, List.countP_eq_length_filter,
      ← Finset.card_filter]
    rw [← List.toFinset_card_of_nodup (List.nodup_range.filter _)]
    congr 1
    ext i
    simp
  rw [hsum, Finset.sum_congr rfl hc, Finset.sum_comm, Finset.sum_mul]
  rw [Finset.sum_congr rfl (g := fun _ => 256 ^ n)]
  · rw [Finset.sum_const, Finset.card_range, smul_eq_mul]
  · intro m hm
    have hm := Finset.mem_range.1 hm
    obtain ⟨d, rfl⟩ : ∃ d, n = (a + m) + d := ⟨n - (a + m), by omega⟩
    rw [sum_words_add, pow_add, ← h (a + m) (by omega), countP_strings, howMany_sum]
    rw [Finset.sum_congr rfl (g := fun x => 256 ^ d * if endsWithCut C st false x = true then 1 else 0)]
    · rw [← Finset.mul_sum]; ring
    · intro x hx
      rw [Finset.sum_congr rfl (g := fun _ => if endsWithCut C st false x = true then 1 else 0)]
      · rw [Finset.sum_const, card_words, smul_eq_mul]
      · intro y _
        rw [List.take_left' (mem_words.1 hx)]

/-- C75. Averaged over all strings of `k` bytes, `RollSumIncr` cuts after the bytes 32, ..., `k` exactly `(k - 31) / 8192` times. -/
theorem C75_rollsum_average {n : Nat} (hn : 5 ≤ n) {st : RollSumIncr} (hr : Reachable (Bup.incr (RollSum.withWindow (2 ^ n))) st) (k : Nat) :
    ((strings k).map (cutsFrom (Bup.incr (RollSum.withWindow (2 ^ n))) st 32)).sum * 8192 = (k - 31) * 256 ^ k := by
  rw [sum_cutsFrom (fun k hk => C75_rollsum hn hr hk) k]
  rfl

/-- C75. The same for Pigz: exactly `k + 8 - bits` cuts (`bits ≥ 8`) after the bytes from `bits - 7` on, in `2^bits` strings. -/
theorem C75_pigz_average {prof : Profile} {bits : BitVec 8} {p : Pigz.PigzRsyncable}
    (h : Pigz.PigzRsyncable.withBits prof bits = .ok p) (hb : bits.toNat ≤ 31) (hb' : 8 ≤ bits.toNat) (st : Pigz.PigzRsyncableIncr)
    (hst : st.params = p) (k : Nat) :
    ((strings k).map (cutsFrom (Pigz.incr p) st (bits.toNat - 7))).sum * 2 ^ bits.toNat = (k + 8 - bits.toNat) * 256 ^ k := by
  rw [sum_cutsFrom (fun k hk => C75_pigz h hb st hst k (by omega) (by omega)) k]
  congr 1
  omega

/-- `RollSumIncr` with a shorter window does not have that frequency: with a window of 2 bytes it never cuts. -/
theorem C75_rollsum_short {st : RollSumIncr} (hr : Reachable (Bup.incr (RollSum.withWindow (2 ^ 1))) st) (k : Nat) :
    (strings k).countP (endsWithCut (Bup.incr (RollSum.withWindow (2 ^ 1))) st false) = 0 := by
  obtain ⟨h, hi⟩ := bup_reachable hr
  rw [List.countP_eq_zero]
  intro x _ hx
  by_cases hne : x = []
  · subst hne; cases hx
  rw [bup_endsWithCut hi x hne, bupEdge, bupS2_eq] at hx
  have hlen := lastN_length (2 ^ 1) (h ++ x)
  have hb : Bup.tsum (lastN (2 ^ 1) (h ++ x)) ≤ 765 := by
    rcases hl : lastN (2 ^ 1) (h ++ x) with _ | ⟨a, _ | ⟨b, _ | ⟨c, t⟩⟩⟩
    · simp [Bup.tsum]
    · have := a.toNat_lt; simp [Bup.tsum]; omega
    · have := a.toNat_lt; have := b.toNat_lt; simp [Bup.tsum]; omega
    · rw [hl] at hlen; simp at hlen; omega
  omega

end HashRoll.Props
