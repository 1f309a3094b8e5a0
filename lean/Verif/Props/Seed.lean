import Verif.Props.Coarse
/-!
# C86: what the seed of the borg table changes

`borg_buzhash_table(seed)` (src/buzhash_table.rs:77-84) exists to make the cuts depend on a secret: an observer of chunk
sizes should not recognise files. Every table entry is xored with the seed. Here: what does this change in the hash?
-/

namespace HashRoll.Spec

/-- `seed ^ rotl(seed, 1) ^ ... ^ rotl(seed, n - 1)` -/
def seedMix (seed : BitVec 32) : Nat → BitVec 32
  | 0     => 0
  | n + 1 => seedMix seed n ^^^ seed.rotateLeft n

/-- The same, with what the code does to bytes that leave the window of `k` bytes. -/
def seedPart (k : Nat) (seed : BitVec 32) : Nat → BitVec 32
  | 0     => 0
  | n + 1 => seedPart k seed n ^^^ (seed.rotateLeft n ^^^ if n < k then 0 else seed.rotateLeft (n - k + k % 8))

end HashRoll.Spec

namespace HashRoll.Props
open Spec

/-- C86. For every window: the seed changes the hash by a word that depends on the seed and the number of bytes since the last
cut only, not on the data. -/
theorem C86_seed (k : Nat) (H : UInt8 → BitVec 32) (seed : BitVec 32) (p : Bytes) :
    buzHash k (fun b => H b ^^^ seed) p = buzHash k H p ^^^ seedPart k seed p.length := by
  have h1 : seedPart k seed p.length =
      wxor (fun _ j => seed.rotateLeft j ^^^ if j < k then 0 else seed.rotateLeft (j - k + k % 8)) p := by
    induction p with
    | nil => rfl
    | cons d t ih => rw [wxor_cons, ← ih]; rfl
  rw [h1]
  unfold buzHash
  rw [← wxor_xor]
  apply wxor_congr
  intro b j _
  have hx : ∀ a b c d : BitVec 32, a ^^^ b ^^^ (c ^^^ d) = a ^^^ c ^^^ (b ^^^ d) := by
    intro a b c d
    rw [BitVec.xor_assoc, ← BitVec.xor_assoc b c d, BitVec.xor_comm b c, BitVec.xor_assoc c b d, ← BitVec.xor_assoc]
  split
  · have h0 : ∀ x : BitVec 32, x ^^^ 0 = x := fun _ => BitVec.xor_zero
    rw [rotateLeft_xor, h0, h0, h0]
  · rw [rotateLeft_xor, rotateLeft_xor, hx]

/-- C86. For the windows for which the hash rolls (C45), a full window: one word for all positions. -/
theorem C86_constant (k : Nat) (hk : k % 32 < 8) (H : UInt8 → BitVec 32) (seed : BitVec 32) (p : Bytes) (hp : k ≤ p.length) :
    buzHash k (fun b => H b ^^^ seed) p = buzHash k H p ^^^ seedMix seed k := by
  rw [Buzhash.buzHash_window _ hk, Buzhash.buzHash_window _ hk]
  unfold buzWindow
  have hl : (lastN k p).length = k := by unfold lastN; rw [List.length_drop]; omega
  have h1 : ∀ q : Bytes, seedMix seed q.length = wxor (fun _ j => seed.rotateLeft j) q := by
    intro q
    induction q with
    | nil => rfl
    | cons d t ih => rw [wxor_cons, ← ih]; rfl
  rw [← hl, h1, hl, ← wxor_xor]
  apply wxor_congr
  intro b j _
  rw [rotateLeft_xor]
example : 67 % 32 < 8 ∧ seedMix 1 67 = 7 := by decide +kernel

theorem rotateLeft_32 (x : BitVec 32) (m : Nat) : x.rotateLeft (32 * m) = x := by
  rw [rotateLeft_mod32, Nat.mul_mod_right, rotateLeft_zero_right]

theorem seedMix_add (seed : BitVec 32) (a b : Nat) : seedMix seed (a + b) = seedMix seed a ^^^ (seedMix seed b).rotateLeft a := by
  induction b with
  | zero =>
    show seedMix seed a = seedMix seed a ^^^ (0 : BitVec 32).rotateLeft a
    rw [rotateLeft_zero]
    exact BitVec.xor_zero.symm
  | succ b ih =>
    show seedMix seed (a + b) ^^^ seed.rotateLeft (a + b) = _
    rw [ih, seedMix, rotateLeft_xor, rotateLeft_add, Nat.add_comm b a, BitVec.xor_assoc]

theorem seedMix_64 (seed : BitVec 32) (m : Nat) : seedMix seed (64 * m) = 0 := by
  induction m with
  | zero => rfl
  | succ m ih =>
    have h64 : seedMix seed 64 = 0 := by
      have := seedMix_add seed 32 32
      have h32 := rotateLeft_32 (seedMix seed 32) 1
      rw [Nat.mul_one] at h32
      rw [h32, BitVec.xor_self] at this
      exact this
    rw [Nat.mul_succ, seedMix_add, ih, h64, rotateLeft_zero]
    rfl

theorem rotate_fixed {x : BitVec 32} (h : x.rotateLeft 1 = x) : x = 0 ∨ x = BitVec.allOnes 32 := by
  have step : ∀ i, i + 1 < 32 → x.getLsbD (i + 1) = x.getLsbD i := by
    intro i hi
    have := congrArg (fun y => BitVec.getLsbD y (i + 1)) h
    simp only [BitVec.getLsbD_rotateLeft] at this
    simp at this
    rw [← this, decide_eq_true hi, Bool.true_and]
  have all : ∀ i, i < 32 → x.getLsbD i = x.getLsbD 0 := by
    intro i
    induction i with
    | zero => intro _; rfl
    | succ i ih => intro hi; rw [step i hi, ih (by omega)]
  cases h0 : x.getLsbD 0
  · left
    apply BitVec.eq_of_getLsbD_eq
    intro i hi
    rw [all i hi, h0]
    simp
  · right
    apply BitVec.eq_of_getLsbD_eq
    intro i hi
    rw [all i hi, h0, BitVec.getLsbD_allOnes]
    simp [hi]

theorem seedMix_32 (seed : BitVec 32) (m : Nat) : seedMix seed (64 * m + 32) = 0 ∨
    seedMix seed (64 * m + 32) = BitVec.allOnes 32 := by
  rw [seedMix_add, seedMix_64, show ∀ x : BitVec 32, 0 ^^^ x = x from fun _ => BitVec.zero_xor, show 64 * m = 32 * (2 * m) by omega, rotateLeft_32]
  apply rotate_fixed
  have h1 := seedMix_add seed 1 32
  have h2 := seedMix_add seed 32 1
  have h3 : seedMix seed 1 = seed := by
    show seedMix seed 0 ^^^ seed.rotateLeft 0 = seed
    rw [rotateLeft_zero_right]
    exact BitVec.zero_xor
  rw [h3] at h1 h2
  have h4 := rotateLeft_32 seed 1
  rw [Nat.mul_one] at h4
  rw [h4, Nat.add_comm 32 1, h1, BitVec.xor_comm _ seed] at h2
  have := congrArg (seed ^^^ ·) h2
  simpa [← BitVec.xor_assoc] using this

/-- `BuzHash::new(k, mask, borg_buzhash_table(seed), max)` -/
def borg (k : Nat) (mask : BitVec 32) (t : Vector (BitVec 32) 256) (max : Nat) : Buzhash.BuzHash :=
  { k := k, h := Buzhash.tableHash t, mask := mask, maxChunkSize := max }
example (t : Vector (BitVec 32) 256) : Buzhash.BuzHash.new 64 0xfff (Buzhash.tableHash t) 1000 = .ok (borg 64 0xfff t 1000) := rfl

theorem borg_hash {seed : BitVec 32} {t : Vector (BitVec 32) 256} (ht : Buzhash.borgBuzhashTable seed = .ok t) :
    Buzhash.tableHash t = fun b => lookup Tables.borgBuzhashBase b ^^^ seed := by
  obtain ⟨t', h1, h2, -⟩ := C61_borg seed
  rw [ht] at h1
  cases h1
  funext b
  exact h2 b

/-- C86. A window whose length is a multiple of 64: all seeds cut at the same places, except within `k` bytes after a cut. -/
theorem C86_borg (k : Nat) (hk : 0 < k) (h64 : k % 64 = 0) (mask : BitVec 32) (max : Nat) (s s' : BitVec 32)
    {t t' : Vector (BitVec 32) 256} (ht : Buzhash.borgBuzhashTable s = .ok t) (ht' : Buzhash.borgBuzhashTable s' = .ok t') :
    DocNestedAfter (Buzhash.chunk (borg k mask t max)) (Buzhash.chunk (borg k mask t' max)) k := by
  have h32 : k % 32 < 8 := by omega
  refine docNestedAfter hk ?_ ?_ (C08_buzhash (borg k mask t max) hk) (C08_buzhash (borg k mask t' max) hk)
  · intro u v h
    unfold buzEdge
    rw [C45_rolling _ _ (show (borg k mask t max).k % 32 < 8 from h32) u v h]
  · intro p hp
    show buzHash k (Buzhash.tableHash t') p &&& mask = mask → buzHash k (Buzhash.tableHash t) p &&& mask = mask
    have hz : ∀ s, seedMix s k = 0 := fun s => by
      rw [show k = 64 * (k / 64) by omega]
      exact seedMix_64 s _
    rw [borg_hash ht, borg_hash ht', C86_constant k h32 _ _ p hp, C86_constant k h32 _ _ p hp, hz, hz]
    exact id
example : ∃ t t', Buzhash.borgBuzhashTable 0 = .ok t ∧ Buzhash.borgBuzhashTable 0xdeadbeef = .ok t' ∧ t ≠ t' := by
  obtain ⟨t, h1, h2, -⟩ := C61_borg 0
  obtain ⟨t', h3, h4, -⟩ := C61_borg 0xdeadbeef
  refine ⟨t, t', h1, h3, ?_⟩
  rintro rfl
  have := (h2 0).symm.trans (h4 0)
  revert this
  decide +kernel

/-- C86. A window of 32 modulo 64 bytes: the seed complements the hash or leaves it alone; at least two of any three seeds cut
at the same places. -/
theorem C86_borg_32 (k : Nat) (h64 : k % 64 = 32) (mask : BitVec 32) (max : Nat) (s1 s2 s3 : BitVec 32)
    {t1 t2 t3 : Vector (BitVec 32) 256} (h1 : Buzhash.borgBuzhashTable s1 = .ok t1) (h2 : Buzhash.borgBuzhashTable s2 = .ok t2)
    (h3 : Buzhash.borgBuzhashTable s3 = .ok t3) :
    DocNestedAfter (Buzhash.chunk (borg k mask t1 max)) (Buzhash.chunk (borg k mask t2 max)) k ∨
    DocNestedAfter (Buzhash.chunk (borg k mask t2 max)) (Buzhash.chunk (borg k mask t3 max)) k ∨
    DocNestedAfter (Buzhash.chunk (borg k mask t1 max)) (Buzhash.chunk (borg k mask t3 max)) k := by
  have h32 : k % 32 < 8 := by omega
  have hk : 0 < k := by omega
  have key : ∀ {s s' : BitVec 32} {t t' : Vector (BitVec 32) 256}, Buzhash.borgBuzhashTable s = .ok t →
      Buzhash.borgBuzhashTable s' = .ok t' → seedMix s k = seedMix s' k →
      DocNestedAfter (Buzhash.chunk (borg k mask t max)) (Buzhash.chunk (borg k mask t' max)) k := by
    intro s s' t t' ht ht' hs
    refine docNestedAfter hk ?_ ?_ (C08_buzhash (borg k mask t max) hk) (C08_buzhash (borg k mask t' max) hk)
    · intro u v h
      unfold buzEdge
      rw [C45_rolling _ _ (show (borg k mask t max).k % 32 < 8 from h32) u v h]
    · intro p hp
      show buzHash k (Buzhash.tableHash t') p &&& mask = mask → buzHash k (Buzhash.tableHash t) p &&& mask = mask
      rw [borg_hash ht, borg_hash ht', C86_constant k h32 _ _ p hp, C86_constant k h32 _ _ p hp, hs]
      exact id
  have hm : ∀ s, seedMix s k = 0 ∨ seedMix s k = BitVec.allOnes 32 := by
    intro s
    rw [show k = 64 * (k / 64) + 32 by omega]
    exact seedMix_32 s _
  rcases hm s1 with a | a <;> rcases hm s2 with b | b <;> rcases hm s3 with c | c
  · exact Or.inl (key h1 h2 (a.trans b.symm))
  · exact Or.inl (key h1 h2 (a.trans b.symm))
  · exact Or.inr (Or.inr (key h1 h3 (a.trans c.symm)))
  · exact Or.inr (Or.inl (key h2 h3 (b.trans c.symm)))
  · exact Or.inr (Or.inl (key h2 h3 (b.trans c.symm)))
  · exact Or.inr (Or.inr (key h1 h3 (a.trans c.symm)))
  · exact Or.inl (key h1 h2 (a.trans b.symm))
  · exact Or.inl (key h1 h2 (a.trans b.symm))
example : seedMix 1 32 = BitVec.allOnes 32 ∧ seedMix 3 32 = 0 := by decide +kernel

end HashRoll.Props
