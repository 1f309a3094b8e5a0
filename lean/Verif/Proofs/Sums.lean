import Verif.Spec.Edges
import Mathlib.Data.BitVec
import Mathlib.Tactic.Ring
/-!
# Algebra of the closed forms
-/

namespace HashRoll.Spec

/-! ## lastN -/

theorem lastN_length (n : Nat) (p : Bytes) : (lastN n p).length = min n p.length := by
  simp [lastN]; omega

theorem lastN_of_le {n : Nat} {p : Bytes} (h : p.length ≤ n) : lastN n p = p := by
  simp [lastN, Nat.sub_eq_zero_of_le h]

theorem lastN_append_right {n : Nat} (x : Bytes) {w : Bytes} (h : n ≤ w.length) :
    lastN n (x ++ w) = lastN n w := by
  simp only [lastN, List.length_append]
  rw [show x.length + w.length - n = x.length + (w.length - n) by omega, ← List.drop_drop]
  simp

/-- A full window rolls: the oldest byte leaves, the new one enters. -/
theorem lastN_roll {n : Nat} {p : Bytes} {d v : UInt8} (hn : n ≤ p.length)
    (hd : (p ++ [v])[p.length - n]? = some d) :
    lastN n p ++ [v] = d :: lastN n (p ++ [v]) := by
  have h : p.length - n < (p ++ [v]).length := by simp; omega
  have : lastN n p ++ [v] = (p ++ [v]).drop (p.length - n) := by
    rw [lastN, List.drop_append_of_le_length (by omega)]
  rw [this, List.drop_eq_getElem_cons h]
  congr 1
  · simpa [List.getElem?_eq_getElem h] using hd
  · simp only [lastN, List.length_append, List.length_singleton]
    congr 1; omega

theorem lastN_grow {n : Nat} {p : Bytes} {v : UInt8} (hn : p.length < n) :
    lastN n (p ++ [v]) = lastN n p ++ [v] := by
  rw [lastN_of_le (by simp; omega), lastN_of_le (by omega)]

/-! ## wsum, wxor -/

variable {w : Nat}

@[simp] theorem wsum_nil (F : UInt8 → Nat → BitVec w) : wsum F [] = 0 := rfl
@[simp] theorem wxor_nil (F : UInt8 → Nat → BitVec w) : wxor F [] = 0 := rfl

theorem wsum_snoc (F : UInt8 → Nat → BitVec w) (p : Bytes) (v : UInt8) :
    wsum F (p ++ [v]) = F v 0 + wsum (fun b j => F b (j + 1)) p := by
  simp only [wsum, List.reverse_append, List.reverse_cons, List.reverse_nil, List.nil_append,
    List.singleton_append, List.zipIdx_cons, Nat.zero_add, List.map_cons, List.sum_cons]
  rw [show (1 : Nat) = 0 + 1 from rfl, List.zipIdx_succ, List.map_map]
  rfl

theorem wxor_snoc (F : UInt8 → Nat → BitVec w) (p : Bytes) (v : UInt8) :
    wxor F (p ++ [v]) = F v 0 ^^^ wxor (fun b j => F b (j + 1)) p := by
  simp only [wxor, List.reverse_append, List.reverse_cons, List.reverse_nil, List.nil_append,
    List.singleton_append, List.zipIdx_cons, Nat.zero_add, List.map_cons, List.foldr_cons]
  rw [show (1 : Nat) = 0 + 1 from rfl, List.zipIdx_succ, List.map_map]
  rfl

/-- induction on a byte string growing at its end -/
theorem snoc_induction {P : Bytes → Prop} (nil : P []) (snoc : ∀ p v, P p → P (p ++ [v])) (p : Bytes) :
    P p := by
  have : ∀ l : Bytes, P l.reverse := by
    intro l
    induction l with
    | nil => exact nil
    | cons v l ih => rw [List.reverse_cons]; exact snoc _ _ ih
  simpa using this p.reverse

theorem wsum_cons (F : UInt8 → Nat → BitVec w) (d : UInt8) (t : Bytes) :
    wsum F (d :: t) = wsum F t + F d t.length := by
  induction t using snoc_induction generalizing F with
  | nil => simpa [wsum_nil] using wsum_snoc F [] d
  | snoc p v ih =>
    rw [← List.cons_append, wsum_snoc, wsum_snoc, ih, List.length_append, List.length_singleton]
    ring

theorem wxor_cons (F : UInt8 → Nat → BitVec w) (d : UInt8) (t : Bytes) :
    wxor F (d :: t) = wxor F t ^^^ F d t.length := by
  induction t using snoc_induction generalizing F with
  | nil => simpa [wxor_nil] using wxor_snoc F [] d
  | snoc p v ih =>
    rw [← List.cons_append, wxor_snoc, wxor_snoc, ih, List.length_append, List.length_singleton,
      BitVec.xor_assoc]

theorem wsum_congr {F F' : UInt8 → Nat → BitVec w} {p : Bytes}
    (h : ∀ b j, j < p.length → F b j = F' b j) : wsum F p = wsum F' p := by
  induction p using snoc_induction generalizing F F' with
  | nil => rfl
  | snoc p v ih =>
    rw [wsum_snoc, wsum_snoc, h v 0 (by simp), ih]
    intro b j hj; exact h b (j + 1) (by simpa using hj)

theorem wxor_congr {F F' : UInt8 → Nat → BitVec w} {p : Bytes}
    (h : ∀ b j, j < p.length → F b j = F' b j) : wxor F p = wxor F' p := by
  induction p using snoc_induction generalizing F F' with
  | nil => rfl
  | snoc p v ih =>
    rw [wxor_snoc, wxor_snoc, h v 0 (by simp), ih]
    intro b j hj; exact h b (j + 1) (by simpa using hj)

/-- a homomorphism goes through the sum -/
theorem wsum_map (f : BitVec w → BitVec w) (h0 : f 0 = 0) (ha : ∀ x y, f (x + y) = f x + f y)
    (F : UInt8 → Nat → BitVec w) (p : Bytes) : f (wsum F p) = wsum (fun b j => f (F b j)) p := by
  induction p using snoc_induction generalizing F with
  | nil => exact h0
  | snoc p v ih => rw [wsum_snoc, wsum_snoc, ha, ih]

theorem wxor_map (f : BitVec w → BitVec w) (h0 : f 0 = 0) (ha : ∀ x y, f (x ^^^ y) = f x ^^^ f y)
    (F : UInt8 → Nat → BitVec w) (p : Bytes) : f (wxor F p) = wxor (fun b j => f (F b j)) p := by
  induction p using snoc_induction generalizing F with
  | nil => exact h0
  | snoc p v ih => rw [wxor_snoc, wxor_snoc, ha, ih]

theorem wxor_xor (F F' : UInt8 → Nat → BitVec w) (p : Bytes) :
    wxor (fun b j => F b j ^^^ F' b j) p = wxor F p ^^^ wxor F' p := by
  induction p using snoc_induction generalizing F F' with
  | nil => simp
  | snoc p v ih =>
    rw [wxor_snoc, wxor_snoc, wxor_snoc, ih]
    simp only [BitVec.xor_assoc]
    congr 1
    rw [← BitVec.xor_assoc, BitVec.xor_comm (F' v 0), BitVec.xor_assoc]

/-- Terms that vanish beyond distance `n` leave only the last `n` bytes. -/
theorem wsum_lastN (F : UInt8 → Nat → BitVec w) (n : Nat) (h : ∀ b j, n ≤ j → F b j = 0) (p : Bytes) :
    wsum F p = wsum F (lastN n p) := by
  induction p with
  | nil => simp [lastN]
  | cons d t ih =>
    by_cases hn : t.length < n
    · rw [lastN_of_le (by simp; omega)]
    · rw [wsum_cons, h _ _ (by omega), ih]
      have : lastN n (d :: t) = lastN n t := lastN_append_right [d] (by omega)
      rw [this]; ring

theorem wxor_lastN (F : UInt8 → Nat → BitVec w) (n : Nat) (h : ∀ b j, n ≤ j → F b j = 0) (p : Bytes) :
    wxor F p = wxor F (lastN n p) := by
  induction p with
  | nil => simp [lastN]
  | cons d t ih =>
    by_cases hn : t.length < n
    · rw [lastN_of_le (by simp; omega)]
    · rw [wxor_cons, h _ _ (by omega), ih]
      have : lastN n (d :: t) = lastN n t := lastN_append_right [d] (by omega)
      rw [this]; simp

/-! ## gear -/

theorem gearSum_snoc (G : UInt8 → BitVec w) (p : Bytes) (v : UInt8) :
    gearSum G (p ++ [v]) = (gearSum G p <<< 1) + G v := by
  unfold gearSum
  rw [wsum_snoc, wsum_map (· <<< 1) (by simp) (fun x y => BitVec.shiftLeft_add_distrib)]
  simp only [BitVec.shiftLeft_zero, BitVec.shiftLeft_add]
  rw [BitVec.add_comm]

theorem gearSum_lastN (G : UInt8 → BitVec w) (p : Bytes) : gearSum G p = gearSum G (lastN w p) :=
  wsum_lastN _ w (fun b j hj => by simp [BitVec.shiftLeft_eq_zero hj]) p

/-! ## rotations -/

theorem rotateLeft_xor (x y : BitVec w) (n : Nat) :
    (x ^^^ y).rotateLeft n = x.rotateLeft n ^^^ y.rotateLeft n := by
  ext i hi
  simp only [BitVec.getElem_rotateLeft, BitVec.getElem_xor]
  split <;> rfl

theorem rotateLeft_zero_right (x : BitVec w) : x.rotateLeft 0 = x := by
  ext i hi
  simp [BitVec.getElem_rotateLeft]

theorem rotateLeft_succ (x : BitVec 32) (n : Nat) : (x.rotateLeft n).rotateLeft 1 = x.rotateLeft (n + 1) := by
  rw [← BitVec.rotateLeft_mod_eq_rotateLeft (r := n), ← BitVec.rotateLeft_mod_eq_rotateLeft (r := n + 1)]
  have h : (n + 1) % 32 = (n % 32 + 1) % 32 := by omega
  rw [h]
  have hn : n % 32 < 32 := Nat.mod_lt _ (by omega)
  generalize n % 32 = m at hn
  ext i hi
  simp only [BitVec.getElem_rotateLeft]
  have h1 : 1 % 32 = 1 := rfl
  have h2 : m % 32 = m := Nat.mod_eq_of_lt hn
  simp only [h1, h2, Nat.mod_mod]
  by_cases hm : m = 31
  · subst hm
    repeat' split
    all_goals first | omega | (congr 1; omega)
  · have h3 : (m + 1) % 32 = m + 1 := Nat.mod_eq_of_lt (by omega)
    simp only [h3]
    repeat' split
    all_goals first | omega | (congr 1; omega)

theorem rotateLeft_zero (n : Nat) : (0 : BitVec w).rotateLeft n = 0 := by
  ext i hi
  simp [BitVec.getElem_rotateLeft]

end HashRoll.Spec
