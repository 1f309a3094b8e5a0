import Mathlib.Algebra.BigOperators.Intervals
import Mathlib.Algebra.Order.BigOperators.Group.Finset
import Mathlib.Algebra.Ring.GeomSum
import Mathlib.Tactic.Ring
import Mathlib.Tactic.Linarith
import Verif.Props.Mean
import Verif.Props.WalshDefs
import Verif.Proofs.Buzhash
import Verif.Props.Seed
/-!
# C90: how often BuzHash's condition for a cut holds
-/

namespace HashRoll.Spec

/-- the character `a` of words of `m` bits -/
def chi : Nat → Nat → BitVec 32 → Int
  | 0, _, _ => 1
  | m + 1, a, x => if a < 2 ^ m then chi m a x else bsign x m * chi m (a - 2 ^ m) x

theorem bsign_xor (x y : BitVec 32) (i : Nat) : bsign (x ^^^ y) i = bsign x i * bsign y i := by
  rw [bsign, bsign, bsign, BitVec.getLsbD_xor]
  cases x.getLsbD i <;> cases y.getLsbD i <;> rfl

theorem chi_xor (m a : Nat) (x y : BitVec 32) : chi m a (x ^^^ y) = chi m a x * chi m a y := by
  induction m generalizing a with
  | zero => rfl
  | succ m ih =>
    rw [chi, chi, chi]
    split
    · exact ih a
    · rw [ih, bsign_xor]; ring

theorem abs_bsign (x : BitVec 32) (i : Nat) : |bsign x i| = 1 := by
  rw [bsign]; split <;> rfl

theorem abs_chi (m a : Nat) (x : BitVec 32) : |chi m a x| = 1 := by
  induction m generalizing a with
  | zero => rfl
  | succ m ih =>
    rw [chi]
    split
    · exact ih a
    · rw [abs_mul, abs_bsign, ih, one_mul]

theorem chi_zero (m : Nat) (x : BitVec 32) : chi m 0 x = 1 := by
  induction m with
  | zero => rfl
  | succ m ih => rw [chi, if_pos (Nat.two_pow_pos m), ih]

/-- for fewer bits -/
theorem chi_le {m M a : Nat} (h : m ≤ M) (ha : a < 2 ^ m) (x : BitVec 32) : chi M a x = chi m a x := by
  induction M with
  | zero => rw [Nat.le_zero.1 h]
  | succ M ih =>
    rcases Nat.eq_or_lt_of_le h with rfl | h
    · rfl
    · have hM : m ≤ M := by omega
      rw [chi, if_pos (Nat.lt_of_lt_of_le ha (Nat.pow_le_pow_right (by decide) hM)), ih hM]

theorem sum_range_pow (m : Nat) (f : Nat → Int) :
    ∑ a ∈ Finset.range (2 ^ (m + 1)), f a = ∑ a ∈ Finset.range (2 ^ m), f a + ∑ a ∈ Finset.range (2 ^ m), f (2 ^ m + a) := by
  rw [pow_succ, Nat.mul_two, Finset.sum_range_add]

theorem chi_low {m a : Nat} (h : a < 2 ^ m) (x : BitVec 32) : chi (m + 1) a x = chi m a x := by rw [chi, if_pos h]

theorem chi_high (m a : Nat) (x : BitVec 32) : chi (m + 1) (2 ^ m + a) x = bsign x m * chi m a x := by
  rw [chi, if_neg (by omega), Nat.add_sub_cancel_left]

/-- the characters separate the words whose first `m` bits are zero from the others -/
theorem sum_chi (m : Nat) (x : BitVec 32) :
    ∑ a ∈ Finset.range (2 ^ m), chi m a x = if ∀ i < m, x.getLsbD i = false then 2 ^ m else 0 := by
  induction m with
  | zero => simp [chi]
  | succ m ih =>
    rw [sum_range_pow, Finset.sum_congr rfl fun a ha => chi_low (Finset.mem_range.1 ha) x,
      Finset.sum_congr rfl fun a _ => chi_high m a x, ← Finset.mul_sum, ih]
    by_cases h : ∀ i < m, x.getLsbD i = false
    · rw [if_pos h]
      cases hm : x.getLsbD m with
      | false =>
        rw [if_pos]
        · rw [bsign, hm, if_neg (by decide)]; ring
        · intro i hi
          rcases Nat.lt_succ_iff_lt_or_eq.1 hi with hi | rfl
          · exact h i hi
          · exact hm
      | true =>
        rw [if_neg fun h' => by rw [h' m (Nat.lt_succ_self m)] at hm; cases hm]
        rw [bsign, hm, if_pos rfl]; ring
    · rw [if_neg h, if_neg fun h' => h fun i hi => h' i (by omega)]; ring

theorem walshPoly_eq (x : BitVec 32) (m : Nat) : walshPoly x m = ∑ a ∈ Finset.range (2 ^ m), chi m a x * 1024 ^ a := by
  induction m with
  | zero => simp [walshPoly, chi]
  | succ m ih =>
    have h1 : ∑ a ∈ Finset.range (2 ^ m), chi (m + 1) a x * 1024 ^ a = ∑ a ∈ Finset.range (2 ^ m), chi m a x * 1024 ^ a :=
      Finset.sum_congr rfl fun a ha => by rw [chi_low (Finset.mem_range.1 ha) x]
    have h2 : ∑ a ∈ Finset.range (2 ^ m), chi (m + 1) (2 ^ m + a) x * 1024 ^ (2 ^ m + a) =
        bsign x m * 1024 ^ 2 ^ m * ∑ a ∈ Finset.range (2 ^ m), chi m a x * 1024 ^ a := by
      rw [Finset.mul_sum]
      refine Finset.sum_congr rfl fun a _ => ?_
      rw [chi_high m a x, pow_add]; ring
    rw [walshPoly, sum_range_pow, h1, h2, ih]
    ring

theorem walshSum_eq (t : List (BitVec 32)) (m : Nat) :
    walshSum t m = ∑ a ∈ Finset.range (2 ^ m), (t.map (chi m a)).sum * 1024 ^ a := by
  induction t with
  | nil => simp [walshSum]
  | cons x t ih =>
    have : walshSum (x :: t) m = walshPoly x m + walshSum t m := by simp [walshSum]
    rw [this, ih, walshPoly_eq, ← Finset.sum_add_distrib]
    refine Finset.sum_congr rfl fun a _ => ?_
    rw [List.map_cons, List.sum_cons, add_mul]

theorem abs_sum_chi (t : List (BitVec 32)) (m a : Nat) : |(t.map (chi m a)).sum| ≤ t.length := by
  induction t with
  | nil => simp
  | cons x t ih =>
    rw [List.map_cons, List.sum_cons, List.length_cons]
    have := abs_add_le (chi m a x) (t.map (chi m a)).sum
    rw [abs_chi] at this
    push_cast
    omega

theorem digitsWithin_sum (lo hi n : Nat) (f : Nat → Nat) (hf : ∀ a, f a < 1024)
    (h : digitsWithin lo hi n (∑ a ∈ Finset.range n, f a * 1024 ^ a) = true) (a : Nat) (ha : a < n) : lo ≤ f a ∧ f a ≤ hi := by
  induction n generalizing f a with
  | zero => omega
  | succ n ih =>
    have e : ∑ a ∈ Finset.range (n + 1), f a * 1024 ^ a = 1024 * (∑ a ∈ Finset.range n, f (a + 1) * 1024 ^ a) + f 0 := by
      rw [Finset.sum_range_succ', Finset.mul_sum]
      simp only [pow_zero, mul_one]
      refine congrArg (· + f 0) (Finset.sum_congr rfl fun a _ => ?_)
      rw [pow_succ]; ring
    have h0 := hf 0
    have e1 : (1024 * (∑ a ∈ Finset.range n, f (a + 1) * 1024 ^ a) + f 0) % 1024 = f 0 := by
      rw [Nat.mul_add_mod, Nat.mod_eq_of_lt h0]
    have e2 : (1024 * (∑ a ∈ Finset.range n, f (a + 1) * 1024 ^ a) + f 0) / 1024 = ∑ a ∈ Finset.range n, f (a + 1) * 1024 ^ a := by
      omega
    rw [e, digitsWithin, e1, e2, Bool.and_eq_true, Bool.and_eq_true] at h
    obtain ⟨⟨h1, h2⟩, h3⟩ := h
    cases a with
    | zero => exact ⟨Nat.le_of_ble_eq_true h1, Nat.le_of_ble_eq_true h2⟩
    | succ a => exact ih (fun a => f (a + 1)) (fun a => hf _) h3 a (by omega)

/-- what the check of the table says -/
theorem walsh_bound {t : Vector (BitVec 32) 256} {B r : Nat} (hB : B ≤ 256) (h : walshOk t B r = true) {m a : Nat} (hm : m ≤ 12)
    (h0 : 0 < a) (ha : a < 2 ^ m) : |((t.toList.map (·.rotateLeft r)).map (chi m a)).sum| ≤ B := by
  have e : ∀ x, chi m a x = chi 12 a x := fun x => (chi_le hm ha x).symm
  rw [List.map_congr_left fun x _ => e x]
  have ha : a < 4096 := Nat.lt_of_lt_of_le ha (Nat.pow_le_pow_right (n := 2) (i := m) (j := 12) (by decide) hm)
  have hlen : (t.toList.map (·.rotateLeft r)).length = 256 := by simp
  generalize hl : t.toList.map (·.rotateLeft r) = l at hlen ⊢
  have hb : ∀ a, |(l.map (chi 12 a)).sum| ≤ 256 := fun a => by
    have := abs_sum_chi l 12 a
    rw [hlen] at this
    exact this
  set f : Nat → Nat := fun a => ((l.map (chi 12 a)).sum + 256).toNat with hf
  have hfi : ∀ a, ((f a : Nat) : Int) = (l.map (chi 12 a)).sum + 256 := fun a => by
    have := abs_le.1 (hb a)
    rw [hf]
    simp only []
    omega
  have hlt : ∀ a, f a < 1024 := fun a => by
    have := abs_le.1 (hb a)
    have := hfi a
    omega
  have hgeom : ∀ n, ((1024 ^ n - 1) / 1023 : Nat) = ∑ a ∈ Finset.range n, 1024 ^ a := fun n => (Nat.geomSum_eq (by decide) n).symm
  have hz : ∀ n, 2 ^ 12 = n → walshDigits l n = ∑ a ∈ Finset.range n, f a * 1024 ^ a := by
    intro n hn
    rw [walshDigits, walshSum_eq, hgeom, hn]
    have : ((∑ a ∈ Finset.range n, f a * 1024 ^ a : Nat) : Int) =
        ∑ a ∈ Finset.range n, (l.map (chi 12 a)).sum * 1024 ^ a + 256 * ((∑ a ∈ Finset.range n, 1024 ^ a : Nat) : Int) := by
      push_cast
      rw [Finset.mul_sum, ← Finset.sum_add_distrib]
      refine Finset.sum_congr rfl fun a _ => ?_
      rw [hfi]; ring
    rw [← this]
    exact Int.toNat_natCast _
  rw [walshOk, hl, hz 4096 rfl, Finset.sum_range_succ'] at h
  have h0lt := hlt 0
  have e2 : (∑ a ∈ Finset.range 4095, f (a + 1) * 1024 ^ (a + 1) + f 0 * 1024 ^ 0) / 1024 = ∑ a ∈ Finset.range 4095, f (a + 1) * 1024 ^ a := by
    have : ∑ a ∈ Finset.range 4095, f (a + 1) * 1024 ^ (a + 1) = 1024 * ∑ a ∈ Finset.range 4095, f (a + 1) * 1024 ^ a := by
      rw [Finset.mul_sum]
      refine Finset.sum_congr rfl fun a _ => ?_
      rw [pow_succ]; ring
    rw [this, pow_zero, mul_one]
    omega
  rw [e2] at h
  obtain ⟨a, rfl⟩ : ∃ c, a = c + 1 := ⟨a - 1, by omega⟩
  have := digitsWithin_sum _ _ 4095 (fun a => f (a + 1)) (fun _ => hlt _) h a (by omega)
  have e3 := hfi (a + 1)
  rw [abs_le]
  omega

/-! ## counting strings -/

theorem sum_bytes_eq (g : UInt8 → Int) : ∑ b ∈ bytes, g b = (allBytes.map g).sum := by
  rw [bytes, List.sum_toFinset _ nodup_allBytes]

theorem sum_bytes_lookup (t : Vector (BitVec 32) 256) (g : BitVec 32 → Int) : ∑ b ∈ bytes, g (lookup t b) = (t.toList.map g).sum := by
  rw [sum_bytes_eq]
  congr 1
  refine List.ext_getElem (by simp [allBytes]) fun i h1 h2 => ?_
  have h2 : i < 256 := by simpa using h2
  simp [allBytes, lookup, Nat.mod_eq_of_lt h2]

theorem sum_bytes_xor (s : UInt8) (g : UInt8 → Int) : ∑ b ∈ bytes, g (b ^^^ s) = ∑ b ∈ bytes, g b := by
  rw [sum_bytes_eq, sum_bytes_eq, ← ((xor_perm s).map g).sum_eq, List.map_map]
  rfl

/-- the sum of a character over all strings -/
theorem abs_sum_words {m a B : Nat} (n : Nat) (F : UInt8 → Nat → BitVec 32) (h : ∀ j < n, |∑ b ∈ bytes, chi m a (F b j)| ≤ B) :
    |∑ x ∈ words n, chi m a (wxor F x)| ≤ B ^ n := by
  induction n generalizing F with
  | zero =>
    rw [show words 0 = {[]} by ext s; simp [mem_words], Finset.sum_singleton, abs_chi, pow_zero]
  | succ n ih =>
    rw [sum_words_snoc, Finset.sum_congr rfl fun s _ => Finset.sum_congr rfl fun b _ => by rw [wxor_snoc, chi_xor]]
    rw [Finset.sum_congr rfl fun s _ => by rw [← Finset.sum_mul], ← Finset.mul_sum, abs_mul, pow_succ, mul_comm]
    exact mul_le_mul (ih _ fun j hj => h (j + 1) (by omega)) (h 0 (by omega)) (abs_nonneg _) (by positivity)

/-- If the coefficients of every position are at most `B`, each value of the first `m` bits is taken by about one string in `2^m`. -/
theorem abs_howMany {m B : Nat} (n : Nat) (F : UInt8 → Nat → BitVec 32) (T : BitVec 32)
    (h : ∀ a, 0 < a → a < 2 ^ m → ∀ j < n, |∑ b ∈ bytes, chi m a (F b j)| ≤ B) :
    |(2 : Int) ^ m * howMany n (fun x => ∀ i < m, (wxor F x ^^^ T).getLsbD i = false) - 256 ^ n| ≤ (2 ^ m - 1) * (B : Int) ^ n := by
  classical
  have e1 : (2 : Int) ^ m * howMany n (fun x => ∀ i < m, (wxor F x ^^^ T).getLsbD i = false) =
      ∑ x ∈ words n, ∑ a ∈ Finset.range (2 ^ m), chi m a (wxor F x ^^^ T) := by
    rw [howMany, Nat.cast_sum, Finset.mul_sum]
    refine Finset.sum_congr rfl fun x _ => ?_
    rw [sum_chi]
    by_cases hx : ∀ i < m, (wxor F x ^^^ T).getLsbD i = false
    · rw [if_pos hx, if_pos hx]; simp
    · rw [if_neg hx, if_neg hx]; simp
  obtain ⟨M, hM⟩ : ∃ M, 2 ^ m = M + 1 := ⟨2 ^ m - 1, by have := Nat.two_pow_pos m; omega⟩
  have hM' : (2 : Int) ^ m - 1 = M := by
    have : ((2 ^ m : Nat) : Int) = ((M + 1 : Nat) : Int) := by rw [hM]
    push_cast at this
    omega
  rw [e1, Finset.sum_comm, hM, Finset.sum_range_succ', hM']
  have e0 : ∑ x ∈ words n, chi m 0 (wxor F x ^^^ T) = 256 ^ n := by
    rw [Finset.sum_congr rfl fun x _ => chi_zero m _, Finset.sum_const, card_words]
    simp
  rw [e0, add_sub_cancel_right]
  refine le_trans (Finset.abs_sum_le_sum_abs _ _) ?_
  refine le_trans (Finset.sum_le_sum (g := fun _ => (B : Int) ^ n) fun a ha => ?_) ?_
  · rw [Finset.sum_congr rfl fun x _ => chi_xor m (a + 1) _ _, ← Finset.sum_mul, abs_mul, abs_chi, mul_one]
    exact abs_sum_words n F fun j hj => h (a + 1) (by omega) (by have := Finset.mem_range.1 ha; omega) j hj
  · rw [Finset.sum_const, Finset.card_range, nsmul_eq_mul]

theorem wxor_append {w : Nat} (F : UInt8 → Nat → BitVec w) (p x : Bytes) :
    wxor F (p ++ x) = wxor F x ^^^ wxor (fun b j => F b (j + x.length)) p := by
  induction x using snoc_induction generalizing F with
  | nil => simp
  | snoc x v ih =>
    rw [← List.append_assoc, wxor_snoc, ih, wxor_snoc, BitVec.xor_assoc]
    simp [Nat.add_assoc]

/-- the mask covers the first `m` bits -/
theorem and_mask_eq {m : Nat} (x mask : BitVec 32) (h : mask.toNat = 2 ^ m - 1) :
    x &&& mask = mask ↔ ∀ i < m, (x ^^^ mask).getLsbD i = false := by
  have hb : ∀ i, mask.getLsbD i = decide (i < m) := fun i => by
    rw [BitVec.getLsbD, h, Nat.testBit_two_pow_sub_one]
  constructor
  · intro hx i hi
    have := congrArg (fun y => y.getLsbD i) hx
    simp only [BitVec.getLsbD_and, hb, hi, decide_true, Bool.and_true] at this
    rw [BitVec.getLsbD_xor, this, hb]
    simp [hi]
  · intro hx
    apply BitVec.eq_of_getLsbD_eq
    intro i _
    rw [BitVec.getLsbD_and, hb]
    by_cases hi : i < m
    · have := hx i hi
      rw [BitVec.getLsbD_xor, hb] at this
      simp [hi] at this ⊢
      exact this
    · simp [hi]

theorem abs_buzEdge {m B k : Nat} (H : UInt8 → BitVec 32) (mask : BitVec 32) (h : mask.toNat = 2 ^ m - 1)
    (hB : ∀ a, 0 < a → a < 2 ^ m → ∀ r < 32, |∑ b ∈ bytes, chi m a ((H b).rotateLeft r)| ≤ B) (p : Bytes) {n : Nat} (hn : n ≤ k) :
    |(2 : Int) ^ m * howMany n (fun x => buzEdge k H mask (p ++ x)) - 256 ^ n| ≤ (2 ^ m - 1) * (B : Int) ^ n := by
  have := abs_howMany (m := m) (B := B) n (fun b j => (H b).rotateLeft j)
    (wxor (fun b j => (H b).rotateLeft (j + n) ^^^ if j + n < k then 0 else (H b).rotateLeft (j + n - k + k % 8)) p ^^^ mask) ?_
  · rw [howMany_congr (Q := fun x => ∀ i < m, (wxor (fun b j => (H b).rotateLeft j) x ^^^
      (wxor (fun b j => (H b).rotateLeft (j + n) ^^^ if j + n < k then 0 else (H b).rotateLeft (j + n - k + k % 8)) p ^^^
        mask)).getLsbD i = false)]
    · exact this
    · intro x hx
      rw [buzEdge, and_mask_eq _ _ h, buzHash, wxor_append, ← BitVec.xor_assoc, hx]
      rw [wxor_congr (F' := fun b j => (H b).rotateLeft j) (p := x) fun b j hj => by rw [if_pos (by omega)]; simp]
  · intro a h0 ha j _
    rw [Finset.sum_congr rfl fun b _ => by rw [← BitVec.rotateLeft_mod_eq_rotateLeft]]
    exact hB a h0 ha (j % 32) (Nat.mod_lt _ (by decide))

/-- Of the strings of `n` bytes, as many as `N` of them make up about one in `2^m`. -/
def AboutOneIn (m B n N : Nat) : Prop := |(2 : Int) ^ m * N - 256 ^ n| ≤ (2 ^ m - 1) * (B : Int) ^ n

/-- after `push_byte` for every byte of `x`, the condition for a cut is met -/
def hitsAfter (st : Buzhash.BuzHashIncr) (x : Bytes) : Bool :=
  match x.foldlM (fun st v => st.pushByte v) st with
  | .ok st' => decide (st'.state.h &&& st'.params.mask = st'.params.mask)
  | .error _ => false

end HashRoll.Spec

namespace HashRoll.Props
open HashRoll.Spec HashRoll.Buzhash

theorem hitsAfter_eq {p : BuzHash} (hk : 0 < p.k) {st : BuzHashIncr} {c : Bytes} (hi : Inv p st c) (x : Bytes) :
    hitsAfter st x = true ↔ buzEdge p.k p.h p.mask (c ++ x) := by
  have : ∃ st', x.foldlM (fun st v => st.pushByte v) st = .ok st' ∧ Inv p st' (c ++ x) := by
    induction x generalizing st c with
    | nil => exact ⟨st, rfl, by simpa using hi⟩
    | cons v x ih =>
      obtain ⟨st1, h1, h2⟩ := pushByte_spec hk hi v
      obtain ⟨st2, h3, h4⟩ := ih h2
      refine ⟨st2, ?_, by simpa using h4⟩
      rw [List.foldlM_cons, h1]
      exact h3
  obtain ⟨st', h1, h2⟩ := this
  rw [hitsAfter, h1]
  simp only [h2.params, h2.hash, decide_eq_true_eq, buzEdge]

theorem buzhash_reachable {p : BuzHash} (hk : 0 < p.k) {st} (hr : Reachable (incr p) st) : ∃ c, Buzhash.Inv p st c := by
  have : ∃ c, Inv p st c ∧ NoEdge (incrEdge p) c := by
    induction hr with
    | init => exact ⟨[], (incrLoop p hk).init, NoEdge.nil _⟩
    | @push st data st' r _ hp ih =>
      obtain ⟨c, hi, hno⟩ := ih
      rcases (incrLoop p hk).push_spec st [] c hi hno data with ⟨s, h1, h2, h3⟩ | ⟨s, i, h1, _, h2, _⟩
      · rw [hp] at h1; cases h1; exact ⟨_, h2, h3⟩
      · rw [hp] at h1; cases h1; exact ⟨_, h2, NoEdge.nil _⟩
  obtain ⟨c, h, -⟩ := this
  exact ⟨c, h⟩

theorem freq_of_table {p : BuzHash} (hk : 0 < p.k) {m B : Nat} (hmask : p.mask.toNat = 2 ^ m - 1)
    (hB : ∀ a, 0 < a → a < 2 ^ m → ∀ r < 32, |∑ b ∈ bytes, chi m a ((p.h b).rotateLeft r)| ≤ B)
    {st : BuzHashIncr} (hr : Reachable (incr p) st) {n : Nat} (hn : n ≤ p.k) :
    AboutOneIn m B n ((strings n).countP (hitsAfter st)) := by
  obtain ⟨c, hi⟩ := buzhash_reachable hk hr
  rw [AboutOneIn, countP_strings, howMany_congr fun x _ => hitsAfter_eq hk hi x]
  exact abs_buzEdge p.h p.mask hmask hB c hn

/-- C90. `BuzHash` with the table of the Go project, any salt and a mask of `m ≤ 12` low bits: after any `n ≤ k` bytes following any
bytes, one string in `2^m` meets the condition for a cut, up to `(2^m - 1) * (76 / 256)^n`. -/
theorem C90_go {p : BuzHash} (salt : UInt8) (hh : p.h = tableByteSaltHash salt Tables.goBuzhash) (hk : 0 < p.k) {m : Nat} (hm : m ≤ 12)
    (hmask : p.mask.toNat = 2 ^ m - 1) {st : BuzHashIncr} (hr : Reachable (incr p) st) {n : Nat} (hn : n ≤ p.k) :
    AboutOneIn m 76 n ((strings n).countP (hitsAfter st)) := by
  refine freq_of_table hk hmask (fun a h0 ha r hr => ?_) hr hn
  rw [hh]
  have e := sum_bytes_xor salt fun b => chi m a ((lookup Tables.goBuzhash b).rotateLeft r)
  have e' := sum_bytes_lookup Tables.goBuzhash fun x => chi m a (x.rotateLeft r)
  have := walsh_bound (by decide) (walshOk_go r hr) hm h0 ha
  rw [List.map_map] at this
  exact (e.trans e').symm ▸ this

/-- C90. The chunker `new_nom(salt)` makes: one string in 4096. -/
theorem C90_buzhash (salt : UInt8) {p : BuzHash} (hp : BuzHash.newNom salt = .ok p) {st : BuzHashIncr} (hr : Reachable (incr p) st)
    {n : Nat} (hn : n ≤ 67) : |4096 * ((strings n).countP (hitsAfter st) : Int) - 256 ^ n| ≤ 4095 * 76 ^ n := by
  cases hp
  exact C90_go salt rfl (show 0 < 67 by decide) (m := 12) (by decide) rfl hr hn

/-- C90. For a full window the frequency is 1/4096 to 31 digits. -/
theorem C90_buzhash_window (salt : UInt8) {p : BuzHash} (hp : BuzHash.newNom salt = .ok p) {st : BuzHashIncr} (hr : Reachable (incr p) st) :
    |4096 * ((strings 67).countP (hitsAfter st) : Int) - 256 ^ 67| * 10 ^ 31 ≤ 256 ^ 67 := by
  refine le_trans (mul_le_mul_of_nonneg_right (C90_buzhash salt hp hr (le_refl 67)) (by positivity)) ?_
  norm_num

/-- C90. With the table of borg, for every seed. -/
theorem C90_borg (k : Nat) (hk : 0 < k) (mask : BitVec 32) {m : Nat} (hm : m ≤ 12) (hmask : mask.toNat = 2 ^ m - 1) (max : Nat)
    (seed : BitVec 32) {t : Vector (BitVec 32) 256} (ht : borgBuzhashTable seed = .ok t) {st : BuzHashIncr}
    (hr : Reachable (incr (borg k mask t max)) st) {n : Nat} (hn : n ≤ k) :
    AboutOneIn m 72 n ((strings n).countP (hitsAfter st)) := by
  refine freq_of_table (p := borg k mask t max) hk hmask (fun a h0 ha r hr => ?_) hr hn
  have e : ∀ b, chi m a (((borg k mask t max).h b).rotateLeft r) =
      chi m a ((lookup Tables.borgBuzhashBase b).rotateLeft r) * chi m a (seed.rotateLeft r) := fun b => by
    show chi m a ((tableHash t b).rotateLeft r) = _
    rw [borg_hash ht, rotateLeft_xor, chi_xor]
  rw [Finset.sum_congr rfl fun b _ => e b, ← Finset.sum_mul, abs_mul, abs_chi, mul_one]
  have e' := sum_bytes_lookup Tables.borgBuzhashBase fun x => chi m a (x.rotateLeft r)
  have := walsh_bound (by decide) (walshOk_borg r hr) hm h0 ha
  rw [List.map_map] at this
  exact e'.symm ▸ this

/-- C90. It is a property of the tables: with a table of zeros the condition is never met. -/
theorem C90_zeros {k : Nat} (hk : 0 < k) {mask : BitVec 32} (hmask : mask ≠ 0) (max : Nat) {st : BuzHashIncr}
    (hr : Reachable (incr { k := k, h := fun _ => 0, mask := mask, maxChunkSize := max }) st) (n : Nat) :
    (strings n).countP (hitsAfter st) = 0 := by
  obtain ⟨c, hi⟩ := buzhash_reachable hk hr
  rw [List.countP_eq_zero]
  intro x _ h
  have h := (hitsAfter_eq hk hi x).1 h
  have hz : ∀ p : Bytes, buzHash k (fun _ => 0) p = 0 := fun p => by
    induction p using snoc_induction with
    | nil => rfl
    | snoc p v ih =>
      rw [buzHash_snoc hk, ih]
      split
      · rw [rotateLeft_zero, rotateLeft_zero]; rfl
      · rw [rotateLeft_zero]; rfl
  rw [buzEdge] at h
  simp only [hz] at h
  exact hmask (by simpa using h.symm)

/-- the hypotheses are met -/
example : ∃ p, BuzHash.newNom 7 = .ok p ∧ Reachable (incr p) (incr p).init := ⟨_, rfl, .init⟩

end HashRoll.Props
