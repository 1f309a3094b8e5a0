import Verif.Proofs.Window
import Verif.Proofs.Ring
import Verif.Model.Bup
/-!
# RollSum conforms to its rules
-/

namespace HashRoll.Bup

open Spec

/-- sum of bytes -/
def bsum (l : Bytes) : Nat := (l.map UInt8.toNat).sum

/-- sum of bytes weighted by their distance from the end, the newest has weight 1 -/
def tsum (l : Bytes) : Nat := (l.reverse.zipIdx.map fun x => (x.2 + 1) * x.1.toNat).sum

theorem bsum_snoc (l : Bytes) (v : UInt8) : bsum (l ++ [v]) = bsum l + v.toNat := by simp [bsum]

theorem bsum_cons (d : UInt8) (l : Bytes) : bsum (d :: l) = d.toNat + bsum l := by simp [bsum]

/-- weights shifted by `k` -/
theorem tsum_shift (l : Bytes) (k : Nat) :
    ((l.zipIdx k).map fun x => (x.2 + 1) * x.1.toNat).sum =
      (l.zipIdx.map fun x => (x.2 + 1) * x.1.toNat).sum + k * (l.map UInt8.toNat).sum := by
  induction l generalizing k with
  | nil => simp
  | cons x l ih =>
    simp only [List.zipIdx_cons, List.map_cons, List.sum_cons, ih (k + 1), ih (0 + 1)]
    ring

theorem tsum_snoc (l : Bytes) (v : UInt8) : tsum (l ++ [v]) = tsum l + bsum (l ++ [v]) := by
  unfold tsum
  simp only [List.reverse_append, List.reverse_cons, List.reverse_nil, List.nil_append,
    List.singleton_append, List.zipIdx_cons, List.map_cons, List.sum_cons, tsum_shift _ (0 + 1), bsum_snoc]
  have : (l.reverse.map UInt8.toNat).sum = bsum l := by simp [bsum]
  rw [this]; ring

theorem tsum_cons (d : UInt8) (l : Bytes) : tsum (d :: l) = tsum l + (l.length + 1) * d.toNat := by
  unfold tsum
  rw [List.reverse_cons, List.zipIdx_append, List.map_append, List.sum_append]
  simp

theorem bsum_replicate (n : Nat) (l : Bytes) : bsum (List.replicate n 0 ++ l) = bsum l := by
  induction n with
  | zero => simp
  | succ n ih => rw [List.replicate_succ, List.cons_append, bsum_cons, ih]; simp

theorem tsum_replicate (n : Nat) (l : Bytes) : tsum (List.replicate n 0 ++ l) = tsum l := by
  induction n with
  | zero => simp
  | succ n ih => rw [List.replicate_succ, List.cons_append, tsum_cons, ih]; simp

theorem bupS1_eq (W : Nat) (p : Bytes) : bupS1 W p = 31 * W + bsum (lastN W p) := rfl
theorem bupS2_eq (W : Nat) (p : Bytes) : bupS2 W p = 31 * W * (W - 1) + tsum (lastN W p) := rfl

/-- The byte that leaves the window of `p` when one more is added: `0` while the window is not full. -/
def dropped (W : Nat) (p : Bytes) (v : UInt8) : UInt8 :=
  if W ≤ p.length then (p ++ [v]).getD (p.length - W) 0 else 0

theorem s1_step (W : Nat) (p : Bytes) (v : UInt8) :
    (dropped W p v).toNat + bsum (lastN W (p ++ [v])) = bsum (lastN W p) + v.toNat := by
  unfold dropped
  split
  · rename_i h
    have hlt : p.length - W < (p ++ [v]).length := by simp; omega
    have hd := List.getElem?_eq_getElem hlt
    have := congrArg bsum (lastN_roll h hd)
    rw [bsum_snoc, bsum_cons] at this
    simp only [List.getD_eq_getElem?_getD, hd, Option.getD_some]
    omega
  · rename_i h
    rw [lastN_grow (by omega), bsum_snoc]; simp

theorem s2_step (W : Nat) (p : Bytes) (v : UInt8) :
    W * (dropped W p v).toNat + tsum (lastN W (p ++ [v])) =
      tsum (lastN W p) + bsum (lastN W (p ++ [v])) := by
  unfold dropped
  split
  · rename_i h
    have hlt : p.length - W < (p ++ [v]).length := by simp; omega
    have hd := List.getElem?_eq_getElem hlt
    have h1 := congrArg tsum (lastN_roll h hd)
    have h2 := congrArg bsum (lastN_roll h hd)
    rw [tsum_snoc, tsum_cons, lastN_length] at h1
    rw [bsum_cons] at h2
    simp only [List.getD_eq_getElem?_getD, hd, Option.getD_some]
    have hmin : min W (p ++ [v]).length = W := by simp; omega
    rw [hmin, h2] at h1
    generalize ((p ++ [v])[p.length - W]).toNat = d at h1 ⊢
    have : (W + 1) * d = W * d + d := by ring
    omega
  · rename_i h
    rw [lastN_grow (by omega), tsum_snoc]; simp

/-- the state describes the window of `p` -/
def Good (W : Nat) (st : RollSumState) (p : Bytes) : Prop :=
  st.s1 = BitVec.ofNat 32 (bupS1 W p) ∧ st.s2 = BitVec.ofNat 32 (bupS2 W p)

theorem good_init (r : RollSum) : Good r.windowLen (RollSumState.from r) [] := by
  have h : lastN r.windowLen [] = [] := by simp [lastN]
  constructor
  · rw [bupS1_eq, h]
    show BitVec.ofNat 32 r.windowLen * 31 = _
    simp only [bsum, List.map_nil, List.sum_nil, Nat.add_zero, BitVec.ofNat_mul]
    rw [BitVec.mul_comm]; rfl
  · rw [bupS2_eq, h]
    show BitVec.ofNat 32 r.windowLen * (BitVec.ofNat 32 r.windowLen - 1) * 31 = _
    have ht : tsum [] = 0 := rfl
    rw [ht, Nat.add_zero]
    cases hw : r.windowLen with
    | zero => simp
    | succ n =>
      rw [Nat.add_sub_cancel, BitVec.ofNat_mul, BitVec.ofNat_mul, BitVec.ofNat_add]
      show (BitVec.ofNat 32 n + 1) * ((BitVec.ofNat 32 n + 1) - 1) * 31 =
        31 * (BitVec.ofNat 32 n + 1) * BitVec.ofNat 32 n
      ring

theorem byte_word (v : UInt8) : v.toBitVec.setWidth 32 = BitVec.ofNat 32 v.toNat := by
  apply BitVec.eq_of_toNat_eq
  simp

theorem good_add {W : Nat} {st : RollSumState} {p : Bytes} (h : Good W st p) (v : UInt8) :
    Good W (st.add W (dropped W p v) v) (p ++ [v]) := by
  have e1 := congrArg (BitVec.ofNat 32) (s1_step W p v)
  have e2 := congrArg (BitVec.ofNat 32) (s2_step W p v)
  obtain ⟨h1, h2⟩ := h
  rw [bupS1_eq] at h1
  rw [bupS2_eq] at h2
  unfold Good
  rw [bupS1_eq, bupS2_eq]
  simp only [RollSumState.add, byte_word, h1, h2]
  simp only [BitVec.ofNat_add, BitVec.ofNat_mul] at e1 e2 ⊢
  generalize BitVec.ofNat 32 (dropped W p v).toNat = d at *
  generalize BitVec.ofNat 32 v.toNat = a at *
  generalize BitVec.ofNat 32 (bsum (lastN W (p ++ [v]))) = b' at *
  generalize BitVec.ofNat 32 (bsum (lastN W p)) = b at *
  generalize BitVec.ofNat 32 (tsum (lastN W (p ++ [v]))) = t' at *
  generalize BitVec.ofNat 32 (tsum (lastN W p)) = t at *
  have hb : b' = b + a - d := by rw [← e1]; ring
  have ht : t' = t + b' - BitVec.ofNat 32 W * d := by rw [← e2]; ring
  constructor
  · rw [hb]; ring
  · rw [ht, hb]
    show _ + (_ + a - d) - BitVec.ofNat 32 W * (d + 31#32) = _
    ring

theorem atSplit_iff {W : Nat} {st : RollSumState} {p : Bytes} (h : Good W st p) :
    st.atSplit = true ↔ bupEdge W p := by
  unfold RollSumState.atSplit RollSumState.digest
  rw [beq_iff_eq, h.2]
  unfold bupEdge
  have hmask : (blobsize - 1 : BitVec 32) = BitVec.ofNat 32 (2 ^ 13 - 1) := by decide
  rw [hmask]
  have : ((st.s1 <<< 16) ||| (BitVec.ofNat 32 (bupS2 W p) &&& 0xffff)) &&& BitVec.ofNat 32 (2 ^ 13 - 1) =
      BitVec.ofNat 32 (bupS2 W p % 8192) := by
    apply BitVec.eq_of_getLsbD_eq
    intro i hi
    have h16 : (0xffff : BitVec 32) = BitVec.ofNat 32 (2 ^ 16 - 1) := by decide
    rw [h16, show 8192 = 2 ^ 13 from rfl]
    simp only [BitVec.getLsbD_and, BitVec.getLsbD_or, BitVec.getLsbD_shiftLeft, BitVec.getLsbD_ofNat,
      Nat.testBit_two_pow_sub_one, Nat.testBit_mod_two_pow, hi, decide_true, Bool.true_and]
    by_cases h13 : i < 13
    · simp [h13, show i < 16 by omega]
    · simp [h13]
  rw [this]
  have hlt : bupS2 W p % 8192 < 8192 := Nat.mod_lt _ (by omega)
  constructor
  · intro h
    have := congrArg BitVec.toNat h
    simp only [BitVec.toNat_ofNat] at this
    omega
  · intro h; rw [h]; rfl

/-- body of the loop of `find_chunk_edge` -/
def fceBody (p : RollSum) (data : Bytes) (i : Nat) (state : RollSumSearchState) :
    R (Flow RollSumSearchState (Option Nat × Nat)) :=
  match index data i with
  | .error e => .error e
  | .ok a =>
    match (if i ≥ p.windowLen then index data (i - p.windowLen) else .ok 0) with
    | .error e => .error e
    | .ok d =>
      let state := { state with state := state.state.add p.windowLen d a }
      if state.state.atSplit then .ok (.ret (state.reset p) (some (i + 1), i + 1))
      else .ok (.next state)

theorem fce_eq (p : RollSum) (st : RollSumSearchState) (data : Bytes) : p.findChunkEdge st data =
    match forRange (fceBody p data) (data.length - st.offset) st.offset st with
    | .error e => .error e
    | .ok (.ret state r) => .ok (state, r)
    | .ok (.next state)  =>
      .ok ({ state with offset := data.length - (data.length - p.windowLen) }, none,
        data.length - p.windowLen) := rfl

def fceWindow (p : RollSum) : FceWindowSpec (chunk p) p.windowLen (bupEdge p.windowLen) where
  offset := fun st => st.offset
  setOffset := fun st o => { st with offset := o }
  offset_set := fun _ _ => rfl
  body := fceBody p
  fce_ret := fun st data st' r h => (fce_eq p st data).trans (by rw [h])
  fce_next := fun st data st' h => (fce_eq p st data).trans (by rw [h])
  Inv st c := Good p.windowLen st.state c
  inv_set := fun _ _ _ h => h
  init := ⟨good_init p, rfl⟩
  step := by
    intro buf i v st c hi hv hiff hdrop
    have hg := good_add hi v
    have hs := atSplit_iff hg
    have hd : (if i ≥ p.windowLen then index buf (i - p.windowLen) else .ok 0) =
        .ok (dropped p.windowLen c v) := by
      by_cases hw : p.windowLen ≤ i
      · obtain ⟨d, hd1, hd2⟩ := hdrop hw
        simp [dropped, hw, index_of hd1, show p.windowLen ≤ c.length by omega, hd2]
      · simp [dropped, hw, show ¬ p.windowLen ≤ c.length by omega]
    by_cases h : bupEdge p.windowLen (c ++ [v])
    · right
      refine ⟨RollSumSearchState.from p, ?_, good_init p, rfl, h⟩
      simp only [fceBody, index_of hv, hd, hs.2 h, if_true]
      rfl
    · left
      refine ⟨{ st with state := st.state.add p.windowLen (dropped p.windowLen c v) v }, ?_, hg, h⟩
      have h' : (st.state.add p.windowLen (dropped p.windowLen c v) v).atSplit = false := by
        rw [← hs] at h; simpa using h
      simp only [fceBody, index_of hv, hd, h', if_false, Bool.false_eq_true]

theorem fce_conforms (p : RollSum) :
    FceConforms (chunk p) Any (EdgeRule (Local (bupEdge p.windowLen))) := (fceWindow p).conforms

/-! ## incremental -/

/-- The ring buffer holds the last `W` bytes of the stream, preceded by zeros. -/
def RingInv (W : Nat) (st : RollSumIncr) (s : Bytes) : Prop :=
  st.window.length = W ∧ st.wofs < W ∧ rot st.window st.wofs = lastN W (List.replicate W 0 ++ s) ∧
  Good W st.state s

theorem lastN_zeros {W : Nat} {s : Bytes} (h : W ≤ s.length) :
    lastN W (List.replicate W 0 ++ s) = lastN W s := lastN_append_right _ h

theorem dropped_zeros {W : Nat} (hW : 0 < W) (s : Bytes) (v d : UInt8) {t : Bytes}
    (h : lastN W (List.replicate W 0 ++ s) = d :: t) : d = dropped W s v := by
  unfold dropped
  have hd : (List.replicate W 0 ++ s)[s.length]? = some d := by
    have := congrArg (·[0]?) h
    simp only [lastN, List.getElem?_drop, List.length_append, List.length_replicate,
      List.getElem?_cons_zero, Nat.add_zero, Nat.add_sub_cancel_left] at this
    exact this
  split
  · rename_i hw
    rw [List.getElem?_append_right (by simpa using hw), List.length_replicate] at hd
    rw [List.getD_eq_getElem?_getD, List.getElem?_append_left (by omega), hd]; rfl
  · rename_i hw
    rw [List.getElem?_append_left (by simpa using hw)] at hd
    rw [List.getElem?_replicate] at hd
    split at hd
    · simpa using hd.symm
    · simp at hd

theorem land_pow (n x : Nat) : x &&& (2 ^ n - 1) = x % 2 ^ n := Nat.and_two_pow_sub_one_eq_mod x n

/-- `roll_byte` on a power-of-two window. -/
theorem rollByte_spec {n : Nat} {st : RollSumIncr} {s : Bytes} (h : RingInv (2 ^ n) st s) (v : UInt8) :
    ∃ st', st.rollByte v = .ok st' ∧ RingInv (2 ^ n) st' (s ++ [v]) := by
  obtain ⟨hlen, hofs, hrot, hgood⟩ := h
  obtain ⟨d, t, hd, hr, hr', ht⟩ := rot_step v (by omega : st.wofs < st.window.length)
  have hW : 0 < 2 ^ n := Nat.two_pow_pos n
  have hdrop : d = dropped (2 ^ n) s v := dropped_zeros hW s v d (by rw [← hrot, hr])
  refine ⟨{ state := st.state.add (2 ^ n) d v, window := st.window.set st.wofs v,
            wofs := (st.wofs + 1) % 2 ^ n }, ?_, ?_⟩
  · simp [RollSumIncr.rollByte, index_of hd, RollSumIncr.add, hlen]
  · refine ⟨by simpa using hlen, Nat.mod_lt _ hW, ?_, by rw [hdrop]; exact good_add hgood v⟩
    rw [hlen] at hr'
    simp only [hr']
    rw [hrot] at hr
    have hget : ((List.replicate (2 ^ n) 0 ++ s) ++ [v])[(List.replicate (2 ^ n) 0 ++ s).length - 2 ^ n]? =
        some d := by
      have := congrArg (·[0]?) hr
      simp only [lastN, List.getElem?_drop, List.getElem?_cons_zero, Nat.add_zero] at this
      rw [List.getElem?_append_left (by simp)]
      exact this
    have := lastN_roll (n := 2 ^ n) (p := List.replicate (2 ^ n) 0 ++ s) (by simp) hget
    rw [hr, List.cons_append, List.cons.injEq] at this
    rw [this.2, List.append_assoc]

theorem ring_init (n : Nat) : RingInv (2 ^ n) (RollSumIncr.from (RollSum.withWindow (2 ^ n))) [] := by
  refine ⟨by simp [RollSumIncr.from, RollSum.withWindow], Nat.two_pow_pos n, ?_, good_init _⟩
  simp [RollSumIncr.from, RollSum.withWindow, rot, lastN]

/-- body of the loop of `push` -/
def pushBody (i : Nat) (v : UInt8) (self : RollSumIncr) : R (Flow RollSumIncr (Option Nat)) :=
  match self.rollByte v with
  | .error e => .error e
  | .ok self =>
    if self.atSplit then .ok (.ret self (some (i + 1)))
    else .ok (.next self)

theorem push_eq (st : RollSumIncr) (data : Bytes) : st.push data =
    match forEnum pushBody 0 data st with
    | .error e => .error e
    | .ok (.ret self r) => .ok (self, r)
    | .ok (.next self)  => .ok (self, none) := rfl

def incrLoop (n : Nat) : LoopSpec (incr (RollSum.withWindow (2 ^ n))) (bupIncrEdge (2 ^ n)) where
  body := pushBody
  push_ret := fun st data st' r h => (push_eq st data).trans (by rw [h])
  push_next := fun st data st' h => (push_eq st data).trans (by rw [h])
  Inv st h c := RingInv (2 ^ n) st (h ++ c)
  init := ring_init n
  step := by
    intro i v st h c hi
    obtain ⟨st', hroll, hi'⟩ := rollByte_spec hi v
    have hs : st'.atSplit = true ↔ bupIncrEdge (2 ^ n) h (c ++ [v]) := by
      rw [RollSumIncr.atSplit, atSplit_iff hi'.2.2.2, bupIncrEdge, List.append_assoc]
    by_cases hh : bupIncrEdge (2 ^ n) h (c ++ [v])
    · right
      refine ⟨st', ?_, ?_, hh⟩
      · simp [pushBody, hroll, hs.2 hh]
      · simpa using hi'
    · left
      have h' : st'.atSplit = false := by rw [← hs] at hh; simpa using hh
      refine ⟨st', ?_, ?_, hh⟩
      · simp [pushBody, hroll, h']
      · simpa using hi'

theorem incr_conforms (n : Nat) :
    IncrConforms (incr (RollSum.withWindow (2 ^ n))) (EdgeRule (bupIncrEdge (2 ^ n))) :=
  (incrLoop n).conforms

theorem bytewise_conforms (n : Nat) :
    BytewiseConforms (incr (RollSum.withWindow (2 ^ n))) (EdgeRule (bupIncrEdge (2 ^ n))) :=
  (incrLoop n).bytewise

end HashRoll.Bup
