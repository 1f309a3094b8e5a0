import Verif.Props.Slices
import Verif.Props.IterMore
/-!
# Counting bytes and strings (for C74, C75)
-/

namespace HashRoll.Spec

/-- all byte values -/
def allBytes : List UInt8 := (List.range 256).map UInt8.ofNat

/-- pushing the byte `b` finds a cut -/
def cutsOn (C : ChunkIncr) (st : C.State) (b : UInt8) : Bool :=
  match C.push st [b] with
  | .ok (_, some _) => true
  | _ => false

/-- how many next bytes cut -/
def cutCount (C : ChunkIncr) (st : C.State) : Nat := allBytes.countP (cutsOn C st)

/-- all byte strings of length `k` -/
def strings : Nat → List Bytes
  | 0 => [[]]
  | k + 1 => allBytes.flatMap fun b => (strings k).map (· ++ [b])

/-- fed one byte at a time, cuts or not, the chunker finds a cut at the last byte (`r`: at the byte before) -/
def endsWithCut (C : ChunkIncr) : C.State → Bool → Bytes → Bool
  | _, r, [] => r
  | st, _, b :: bs =>
    match C.push st [b] with
    | .error _ => false
    | .ok (st', r) => endsWithCut C st' r.isSome bs

theorem mem_allBytes (b : UInt8) : b ∈ allBytes := by
  rw [allBytes, List.mem_map]
  exact ⟨b.toNat, List.mem_range.2 b.toNat_lt, by simp⟩

theorem nodup_allBytes : allBytes.Nodup := by decide +kernel

theorem mem_strings {k : Nat} {x : Bytes} : x ∈ strings k ↔ x.length = k := by
  induction k generalizing x with
  | zero => simp [strings]
  | succ k ih =>
    simp only [strings, List.mem_flatMap, List.mem_map]
    constructor
    · rintro ⟨b, -, y, hy, rfl⟩
      simp [ih.1 hy]
    · intro h
      rcases List.eq_nil_or_concat x with rfl | ⟨y, b, rfl⟩
      · simp at h
      · exact ⟨b, mem_allBytes b, y, ih.2 (by simpa using h), by rw [List.concat_eq_append]⟩

theorem length_strings (k : Nat) : (strings k).length = 256 ^ k := by
  induction k with
  | zero => rfl
  | succ k ih =>
    simp only [strings, List.length_flatMap, List.length_map, ih]
    rw [List.map_const', List.sum_replicate_nat, show allBytes.length = 256 by simp [allBytes], pow_succ, Nat.mul_comm]

theorem nodup_strings (k : Nat) : (strings k).Nodup := by
  induction k with
  | zero => simp [strings]
  | succ k ih =>
    rw [strings, List.nodup_flatMap]
    refine ⟨fun b _ => ?_, ?_⟩
    · refine List.Nodup.map ?_ ih
      intro x y h
      exact List.append_cancel_right h
    · refine List.Nodup.pairwise_of_forall_ne nodup_allBytes ?_
      intro a _ b _ hab x hx hx'
      simp only [List.mem_map] at hx hx'
      obtain ⟨y, -, rfl⟩ := hx
      obtain ⟨z, -, hz⟩ := hx'
      have := List.append_inj_right' hz rfl
      simp at this
      exact hab this.symm

/-! ### counting -/

theorem countP_le_of_mem {P : UInt8 → Bool} {M : Nat} (S : UInt8 → List UInt8) (hS : ∀ b, (S b).length ≤ M)
    (h : ∀ b b', P b = true → P b' = true → b' ∈ S b) : allBytes.countP P ≤ M := by
  rw [List.countP_eq_length_filter]
  rcases hf : allBytes.filter P with _ | ⟨b, bs⟩
  · simp
  · rw [← hf]
    have hb : P b = true := by
      have : b ∈ allBytes.filter P := by rw [hf]; exact List.mem_cons_self
      exact (List.mem_filter.1 this).2
    refine Nat.le_trans (List.subperm_of_subset (nodup_allBytes.filter _) ?_).length_le (hS b)
    intro b' hb'
    exact h b b' hb (List.mem_filter.1 hb').2

theorem countP_le_one {P : UInt8 → Bool} (h : ∀ b b', P b = true → P b' = true → b = b') : allBytes.countP P ≤ 1 :=
  countP_le_of_mem (fun b => [b]) (fun _ => by simp) fun b b' hb hb' => by simp [h b b' hb hb']

theorem xor_perm (s : UInt8) : (allBytes.map (· ^^^ s)).Perm allBytes := by
  refine (List.perm_ext_iff_of_nodup ?_ nodup_allBytes).2 fun b => ?_
  · refine List.Nodup.map ?_ nodup_allBytes
    intro x y h
    have := congrArg (· ^^^ s) h
    simpa [UInt8.xor_assoc] using this
  · refine ⟨fun _ => mem_allBytes b, fun _ => List.mem_map.2 ⟨b ^^^ s, mem_allBytes _, ?_⟩⟩
    simp [UInt8.xor_assoc]

theorem countP_xor (P : UInt8 → Bool) (s : UInt8) : allBytes.countP (fun b => P (b ^^^ s)) = allBytes.countP P := by
  rw [← (xor_perm s).countP_eq P, List.countP_map]
  rfl

theorem toNat_and_mask {w : Nat} (x m : BitVec w) {k : Nat} (hm : m.toNat = 2 ^ k - 1) :
    (x &&& m).toNat = x.toNat % 2 ^ k := by
  rw [BitVec.toNat_and, hm, Nat.and_two_pow_sub_one_eq_mod]

theorem toNat_word {w : Nat} (h : 8 ≤ w) (b : UInt8) : (word w b).toNat = b.toNat := by
  rw [word, BitVec.toNat_setWidth, UInt8.toNat_toBitVec]
  exact Nat.mod_eq_of_lt (Nat.lt_of_lt_of_le b.toNat_lt (Nat.pow_le_pow_right (by decide) h))

/-- adding different bytes gives different remainders -/
theorem add_word_inj {w k : Nat} (h8 : 8 ≤ k) (hk : k ≤ w) (x : BitVec w) {b b' : UInt8}
    (h : (x + word w b).toNat % 2 ^ k = (x + word w b').toNat % 2 ^ k) : b = b' := by
  have hd : 2 ^ k ∣ 2 ^ w := Nat.pow_dvd_pow 2 hk
  rw [BitVec.toNat_add, BitVec.toNat_add, Nat.mod_mod_of_dvd _ hd, Nat.mod_mod_of_dvd _ hd, toNat_word (by omega),
    toNat_word (by omega)] at h
  have h256 : 256 ≤ 2 ^ k := Nat.pow_le_pow_right (n := 2) (i := 8) (by decide) h8
  have := Nat.ModEq.add_left_cancel' x.toNat h
  rw [Nat.ModEq, Nat.mod_eq_of_lt (Nat.lt_of_lt_of_le b.toNat_lt h256),
    Nat.mod_eq_of_lt (Nat.lt_of_lt_of_le b'.toNat_lt h256)] at this
  exact UInt8.toNat_inj.1 this

theorem cutsOn_loop {C : ChunkIncr} (body : Nat → UInt8 → C.State → R (Flow C.State (Option Nat)))
    (hp : ∀ st data, C.push st data = finish (forEnum body 0 data st)) (st : C.State) (b : UInt8) :
    cutsOn C st b = true ↔ ∃ s' k, body 0 b st = .ok (.ret s' (some k)) := by
  rw [cutsOn, hp, forEnum]
  rcases body 0 b st with e | (s' | ⟨s', _ | r⟩) <;> simp [finish, forEnum]

end HashRoll.Spec

namespace HashRoll.Props
open HashRoll.Spec

theorem xor_word_mod (x : Nat) (b : UInt8) {j : Nat} (h : j ≤ 8) :
    (x ^^^ b.toNat) % 2 ^ j = (b ^^^ UInt8.ofNat x).toNat % 2 ^ j := by
  rw [UInt8.toNat_xor, UInt8.toNat_ofNat', Nat.xor_mod_two_pow, Nat.xor_mod_two_pow,
    Nat.mod_mod_of_dvd _ (Nat.pow_dvd_pow 2 h), Nat.xor_comm]

theorem count_low (j : Fin 9) (t : Fin 256) (h : t.1 < 2 ^ j.1) :
    allBytes.countP (fun b => b.toNat % 2 ^ j.1 = t.1) = 2 ^ (8 - j.1) := by
  have : ∀ j : Fin 9, ∀ t : Fin 256, t.1 < 2 ^ j.1 →
    (List.range 256).countP (fun b => b % 2 ^ j.1 = t.1) = 2 ^ (8 - j.1) := by decide +kernel
  rw [← this j t h, allBytes, List.countP_map]
  refine List.countP_congr fun b hb => ?_
  have : b < 256 := List.mem_range.1 hb
  simp [Nat.mod_eq_of_lt this]

/-- of the 256 bytes, `256 / 2^j` give a chosen remainder mod `2^j` when combined with `x` -/
theorem count_xor_low (x : Nat) {j t : Nat} (hj : j ≤ 8) (ht : t < 2 ^ j) :
    allBytes.countP (fun b => (x ^^^ b.toNat) % 2 ^ j = t) = 2 ^ (8 - j) := by
  have e : (fun b : UInt8 => decide ((x ^^^ b.toNat) % 2 ^ j = t)) =
      fun b => (fun b : UInt8 => decide (b.toNat % 2 ^ j = t)) (b ^^^ UInt8.ofNat x) := by
    funext b; simp only [xor_word_mod x b hj]
  rw [e, countP_xor (fun b : UInt8 => decide (b.toNat % 2 ^ j = t))]
  have h256 : 2 ^ j ≤ 2 ^ 8 := Nat.pow_le_pow_right (by decide) hj
  exact count_low ⟨j, by omega⟩ ⟨t, by omega⟩ ht

theorem count_ge (m : UInt8) : allBytes.countP (fun b => decide (b ≥ m)) = 256 - m.toNat :=
  byte_all (P := fun m => allBytes.countP (fun b => decide (b ≥ m)) = 256 - m.toNat) (by decide +kernel) m

theorem count_gt (m : UInt8) : allBytes.countP (fun b => decide (b > m)) = 255 - m.toNat :=
  byte_all (P := fun m => allBytes.countP (fun b => decide (b > m)) = 255 - m.toNat) (by decide +kernel) m

/-- a divisor `m` of 256 divides `256 / m` of 256 successive numbers -/
theorem count_dvd (m : Fin 257) (h : m.1 ∣ 256) (h0 : 0 < m.1) (r : Fin 256) (hr : r.1 < m.1) :
    (List.range 256).countP (fun b => (r.1 + b) % m.1 = 0) = 256 / m.1 := by
  have : ∀ m : Fin 257, m.1 ∣ 256 → 0 < m.1 → ∀ r : Fin 256, r.1 < m.1 →
    (List.range 256).countP (fun b => (r.1 + b) % m.1 = 0) = 256 / m.1 := by decide +kernel
  exact this m h h0 r hr

end HashRoll.Props
