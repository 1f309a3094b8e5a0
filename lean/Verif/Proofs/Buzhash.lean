import Verif.Proofs.Window
import Verif.Proofs.Ring
import Verif.Model.Buzhash
/-!
# BuzHash conforms to its rules
-/

namespace HashRoll.Spec

theorem wxor_zero {w : Nat} (p : Bytes) : wxor (fun _ _ => (0 : BitVec w)) p = 0 := by
  induction p using snoc_induction with
  | nil => rfl
  | snoc p v ih => rw [wxor_snoc, ih]; simp

/-- Only the byte at distance `n` contributes. -/
theorem wxor_single {w : Nat} (f : UInt8 → BitVec w) (n : Nat) (p : Bytes) :
    wxor (fun b j => if j = n then f b else 0) p =
      match p.reverse[n]? with
      | some d => f d
      | none   => 0 := by
  induction p using snoc_induction generalizing n with
  | nil => rfl
  | snoc p v ih =>
    rw [wxor_snoc]
    cases n with
    | zero =>
      have : (fun (b : UInt8) (j : Nat) => if j + 1 = 0 then f b else 0) = fun _ _ => 0 := by
        funext b j; simp
      rw [this, wxor_zero]; simp
    | succ n =>
      have : (fun (b : UInt8) (j : Nat) => if j + 1 = n + 1 then f b else 0) =
          fun b j => if j = n then f b else 0 := by
        funext b j; simp
      rw [this, ih]
      simp

end HashRoll.Spec

namespace HashRoll.Buzhash

open Spec

/-- contribution of a byte at distance `j` -/
def term (k : Nat) (H : UInt8 → BitVec 32) (b : UInt8) (j : Nat) : BitVec 32 :=
  (H b).rotateLeft j ^^^ if j < k then 0 else (H b).rotateLeft (j - k + k % 8)

theorem term_succ {k : Nat} (hk : 0 < k) (H : UInt8 → BitVec 32) (b : UInt8) (j : Nat) :
    term k H b (j + 1) =
      (term k H b j).rotateLeft 1 ^^^ if j = k - 1 then (H b).rotateLeft (k % 8) else 0 := by
  unfold term
  rw [rotateLeft_xor, rotateLeft_succ]
  by_cases h1 : j + 1 < k
  · rw [if_pos h1, if_pos (by omega), if_neg (by omega), rotateLeft_zero]; simp
  · by_cases h2 : j = k - 1
    · subst h2
      have e : k - 1 + 1 - k + k % 8 = k % 8 := by omega
      rw [if_neg h1, if_pos (by omega), if_pos rfl, e, rotateLeft_zero]; simp
    · rw [if_neg h1, if_neg (by omega), if_neg h2, rotateLeft_succ]
      have e : j + 1 - k + k % 8 = j - k + k % 8 + 1 := by omega
      rw [e]; simp

/-- One byte: rotate, remove the byte that leaves the window (as the code does it), add. -/
theorem buzHash_snoc {k : Nat} (hk : 0 < k) (H : UInt8 → BitVec 32) (p : Bytes) (v : UInt8) :
    buzHash k H (p ++ [v]) = (buzHash k H p).rotateLeft 1 ^^^
      (match p.reverse[k - 1]? with
        | some d => (H d).rotateLeft (k % 8)
        | none   => 0) ^^^ H v := by
  show wxor (term k H) (p ++ [v]) = (wxor (term k H) p).rotateLeft 1 ^^^ _ ^^^ _
  have h0 : term k H v 0 = H v := by simp [term, hk, rotateLeft_zero_right]
  have h1 : (fun b j => term k H b (j + 1)) = fun b j => (term k H b j).rotateLeft 1 ^^^
      if j = k - 1 then (H b).rotateLeft (k % 8) else 0 := by
    funext b j; exact term_succ hk H b j
  rw [wxor_snoc, h0, h1, wxor_xor, wxor_single (fun b => (H b).rotateLeft (k % 8)),
    ← wxor_map (·.rotateLeft 1) (rotateLeft_zero 1) (fun x y => rotateLeft_xor x y 1), BitVec.xor_comm]

theorem buzHash_add {p : BuzHash} (hk : 0 < p.k) {st : BuzHashState} {c : Bytes}
    (h : st.h = buzHash p.k p.h c) (v : UInt8) (hc : c.length < p.k) :
    (st.add p v).h = buzHash p.k p.h (c ++ [v]) := by
  rw [buzHash_snoc hk, List.getElem?_eq_none (by simp; omega)]
  simp [BuzHashState.add, h]

theorem buzHash_addOverflow {p : BuzHash} (hk : 0 < p.k) {st : BuzHashState} {c : Bytes}
    (h : st.h = buzHash p.k p.h c) {v d : UInt8} (hc : p.k ≤ c.length)
    (hd : (c ++ [v])[c.length - p.k]? = some d) :
    (st.addOverflow p v d).h = buzHash p.k p.h (c ++ [v]) := by
  have : c.reverse[p.k - 1]? = some d := by
    rw [List.getElem?_append_left (by omega)] at hd
    rw [List.getElem?_reverse (by omega), show c.length - 1 - (p.k - 1) = c.length - p.k by omega, hd]
  rw [buzHash_snoc hk, this]
  simp [BuzHashState.addOverflow, h]

/-- the edge predicate of `find_chunk_edge` -/
abbrev fceEdge (p : BuzHash) : Bytes → Prop := buzEdge p.k p.h p.mask
/-- the edge predicate of `push` -/
abbrev incrEdge (p : BuzHash) : Bytes → Prop := buzIncrEdge p.k p.h p.mask p.maxChunkSize

/-- body of the loop of `find_chunk_edge` -/
def fceBody (p : BuzHash) (data : Bytes) (i : Nat) (state : BuzHashSearchState) :
    R (Flow BuzHashSearchState (Option Nat × Nat)) :=
  match state.state.addBuf data p i with
  | .error e => .error e
  | .ok st =>
    let state := { state with state := st }
    if state.state.h &&& p.mask = p.mask then .ok (.ret state.reset (some (i + 1), i + 1))
    else .ok (.next state)

theorem fce_eq (p : BuzHash) (st : BuzHashSearchState) (data : Bytes) : p.findChunkEdge st data =
    match forRange (fceBody p data) (data.length - st.offset) st.offset st with
    | .error e => .error e
    | .ok (.ret state r) => .ok (state, r)
    | .ok (.next state)  =>
      .ok ({ state with offset := data.length - (data.length - p.k) }, none, data.length - p.k) := rfl

theorem buzHash_nil (k : Nat) (H : UInt8 → BitVec 32) : buzHash k H [] = 0 := rfl

def fceWindow (p : BuzHash) (hk : 0 < p.k) : FceWindowSpec (chunk p) p.k (fceEdge p) where
  offset := fun st => st.offset
  setOffset := fun st o => { st with offset := o }
  offset_set := fun _ _ => rfl
  body := fceBody p
  fce_ret := fun st data st' r h => (fce_eq p st data).trans (by rw [h])
  fce_next := fun st data st' h => (fce_eq p st data).trans (by rw [h])
  Inv st c := st.state.h = buzHash p.k p.h c
  inv_set := fun _ _ _ h => h
  init := ⟨rfl, rfl⟩
  step := by
    intro buf i v st c hi hv hiff hdrop
    have hadd : ∃ st', st.state.addBuf buf p i = .ok st' ∧ st'.h = buzHash p.k p.h (c ++ [v]) := by
      by_cases hw : p.k ≤ i
      · obtain ⟨d, hd1, hd2⟩ := hdrop hw
        refine ⟨_, by simp [BuzHashState.addBuf, hw, index_of hd1, index_of hv],
          buzHash_addOverflow hk hi (by omega) hd2⟩
      · refine ⟨_, by simp [BuzHashState.addBuf, hw, index_of hv],
          buzHash_add hk hi v (by omega)⟩
    obtain ⟨st', ha, hh⟩ := hadd
    by_cases h : fceEdge p (c ++ [v])
    · right
      have h' : st'.h &&& p.mask = p.mask := by rw [hh]; exact h
      refine ⟨BuzHashSearchState.default, ?_, rfl, rfl, h⟩
      simp [fceBody, ha, h', BuzHashSearchState.reset, BuzHashState.reset, BuzHashSearchState.default]
    · left
      have h' : ¬ st'.h &&& p.mask = p.mask := by rw [hh]; exact h
      refine ⟨{ st with state := st' }, ?_, hh, h⟩
      simp [fceBody, ha, h']

theorem fce_conforms (p : BuzHash) (hk : 0 < p.k) :
    FceConforms (chunk p) Any (EdgeRule (Local (fceEdge p))) := (fceWindow p hk).conforms

/-! ## incremental -/

/-- The newest `min |c| k` entries of the ring buffer are the last bytes of the chunk; what older chunks
left there is not read. -/
structure Inv (p : BuzHash) (st : BuzHashIncr) (c : Bytes) : Prop where
  params : st.params = p
  hash : st.state.h = buzHash p.k p.h c
  len  : st.buf.length = p.k
  idx  : st.bufIdx < p.k
  input : st.inputIdx = c.length
  ring : lastN (min p.k c.length) (rot st.buf st.bufIdx) = lastN p.k c

theorem Inv.reset {p : BuzHash} (hk : 0 < p.k) {st : BuzHashIncr} (h1 : st.params = p)
    (h2 : st.buf.length = p.k) : Inv p st.reset [] where
  params := h1
  hash := rfl
  len := h2
  idx := hk
  input := rfl
  ring := by simp [lastN]

theorem pushByte_spec {p : BuzHash} (hk : 0 < p.k) {st : BuzHashIncr} {c : Bytes} (h : Inv p st c)
    (v : UInt8) : ∃ st', st.pushByte v = .ok st' ∧ Inv p st' (c ++ [v]) := by
  obtain ⟨d, t, hd, hr, hr', ht⟩ := rot_step v (by rw [h.len]; exact h.idx : st.bufIdx < st.buf.length)
  have hring := h.ring
  rw [hr] at hring
  have hlen := h.len
  have hparams := h.params
  by_cases hw : p.k ≤ c.length
  · -- the window is full
    rw [Nat.min_eq_left hw, lastN_of_le (by simp; omega)] at hring
    have hdc : (c ++ [v])[c.length - p.k]? = some d := by
      have := congrArg (·[0]?) hring
      simp only [lastN, List.getElem?_drop, List.getElem?_cons_zero, Nat.add_zero] at this
      rw [List.getElem?_append_left (by omega)]
      exact this.symm
    have hroll := lastN_roll hw hdc
    rw [← hring, List.cons_append, List.cons.injEq] at hroll
    refine ⟨{ params := p, state := st.state.addOverflow p v d, buf := st.buf.set st.bufIdx v,
              bufIdx := (st.bufIdx + 1) % p.k, inputIdx := st.inputIdx + 1 }, ?_, ?_⟩
    · have h1 : p.k ≤ st.inputIdx := by rw [h.input]; exact hw
      simp [BuzHashIncr.pushByte, hparams, h1, index_of hd, remNat, show p.k ≠ 0 by omega]
    · refine ⟨rfl, buzHash_addOverflow hk h.hash hw hdc, by simpa using hlen, Nat.mod_lt _ hk,
        by simp [h.input], ?_⟩
      rw [hlen] at hr'
      simp only [hr']
      rw [lastN_of_le (by simp; omega), hroll.2]
  · -- the window is filling up
    rw [Nat.min_eq_right (by omega), lastN_of_le (n := p.k) (by omega)] at hring
    refine ⟨{ params := p, state := st.state.add p v, buf := st.buf.set st.bufIdx v,
              bufIdx := (st.bufIdx + 1) % p.k, inputIdx := st.inputIdx + 1 }, ?_, ?_⟩
    · have h1 : ¬ p.k ≤ st.inputIdx := by rw [h.input]; exact hw
      simp [BuzHashIncr.pushByte, hparams, h1, index_of hd, remNat, show p.k ≠ 0 by omega]
    · refine ⟨rfl, buzHash_add hk h.hash v (by omega), by simpa using hlen, Nat.mod_lt _ hk,
        by simp [h.input], ?_⟩
      rw [hlen] at hr'
      simp only [hr']
      rw [lastN_of_le (n := p.k) (p := c ++ [v]) (by simp; omega)]
      have hm : min p.k (c ++ [v]).length = c.length + 1 := by simp; omega
      rw [hm]
      have h2 : lastN c.length t = c := by
        rw [show d :: t = [d] ++ t from rfl, lastN_append_right _ (by omega)] at hring
        exact hring
      unfold lastN at h2 ⊢
      rw [List.length_append, List.length_singleton, List.drop_append_of_le_length (by omega),
        show t.length + 1 - (c.length + 1) = t.length - c.length by omega, h2]

/-- body of the loop of `push` -/
def pushBody (i : Nat) (v : UInt8) (self : BuzHashIncr) : R (Flow BuzHashIncr (Option Nat)) :=
  match self.pushByte v with
  | .error e => .error e
  | .ok self =>
    if self.state.h &&& self.params.mask = self.params.mask then
      .ok (.ret self.reset (some (i + 1)))
    else if self.inputIdx > self.params.maxChunkSize then
      .ok (.ret self.reset (some (i + 1)))
    else .ok (.next self)

theorem push_eq (st : BuzHashIncr) (data : Bytes) : st.push data =
    match forEnum pushBody 0 data st with
    | .error e => .error e
    | .ok (.ret self r) => .ok (self, r)
    | .ok (.next self)  => .ok (self, none) := rfl

def incrLoop (p : BuzHash) (hk : 0 < p.k) : LoopSpec (incr p) (Local (incrEdge p)) where
  body := pushBody
  push_ret := fun st data st' r h => (push_eq st data).trans (by rw [h])
  push_next := fun st data st' h => (push_eq st data).trans (by rw [h])
  Inv st _ c := Inv p st c
  init := ⟨rfl, rfl, by simp [BuzHashIncr.from], hk, rfl, by simp [lastN]⟩
  step := by
    intro i v st _ c hi
    obtain ⟨st', hpb, hi'⟩ := pushByte_spec hk hi v
    have hreset := Inv.reset hk hi'.params hi'.len
    by_cases h1 : buzEdge p.k p.h p.mask (c ++ [v])
    · right
      have h' : st'.state.h &&& p.mask = p.mask := by rw [hi'.hash]; exact h1
      refine ⟨st'.reset, ?_, hreset, .inl h1⟩
      simp [pushBody, hpb, hi'.params, h']
    · have h' : ¬ st'.state.h &&& p.mask = p.mask := by rw [hi'.hash]; exact h1
      by_cases h2 : p.maxChunkSize < (c ++ [v]).length
      · right
        refine ⟨st'.reset, ?_, hreset, .inr h2⟩
        have h3 : p.maxChunkSize < st'.inputIdx := by rw [hi'.input]; exact h2
        simp [pushBody, hpb, hi'.params, h', h3]
      · left
        refine ⟨st', ?_, hi', fun h => h.elim h1 h2⟩
        have h3 : ¬ p.maxChunkSize < st'.inputIdx := by rw [hi'.input]; exact h2
        simp only [pushBody, hpb, hi'.params, h', h3, if_false]

theorem incr_conforms (p : BuzHash) (hk : 0 < p.k) :
    IncrConforms (incr p) (EdgeRule (Local (incrEdge p))) := (incrLoop p hk).conforms

theorem bytewise_conforms (p : BuzHash) (hk : 0 < p.k) :
    BytewiseConforms (incr p) (EdgeRule (Local (incrEdge p))) := (incrLoop p hk).bytewise

/-- With `k % 32 < 8` the two contributions of an old byte cancel: the hash is the textbook one. -/
theorem buzHash_window {k : Nat} (H : UInt8 → BitVec 32) (hk : k % 32 < 8) (p : Bytes) :
    buzHash k H p = buzWindow k H p := by
  show wxor (term k H) p = wxor _ (lastN k p)
  rw [wxor_lastN (term k H) k]
  · apply wxor_congr
    intro b j hj
    rw [lastN_length] at hj
    unfold term
    rw [if_pos (by omega)]; simp
  · intro b j hj
    unfold term
    rw [if_neg (by omega)]
    have h8 : k % 8 = k % 32 := by omega
    have : (j - k + k % 8) % 32 = j % 32 := by omega
    rw [← BitVec.rotateLeft_mod_eq_rotateLeft (r := j), ← BitVec.rotateLeft_mod_eq_rotateLeft
      (r := j - k + k % 8), this]
    simp

end HashRoll.Buzhash
