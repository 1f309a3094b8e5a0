import Verif.Proofs.Window
import Verif.Proofs.Ring
import Verif.Model.Gzip
/-!
# Gzip rsyncable conforms to its rule
-/

namespace HashRoll.Gzip

open Spec

/-- sum of bytes -/
abbrev bsum (l : Bytes) : Nat := (l.map UInt8.toNat).sum

/-- sum of the last `w` bytes -/
abbrev winSum (w : Nat) (p : Bytes) : Nat := bsum (lastN w p)

theorem winSum_nil (w : Nat) : winSum w [] = 0 := by simp [winSum, bsum, lastN]

theorem bsum_snoc (l : Bytes) (v : UInt8) : bsum (l ++ [v]) = bsum l + v.toNat := by
  simp [bsum]

theorem ofByte_eq (v : UInt8) : ofByte v = BitVec.ofNat 64 v.toNat := by
  apply BitVec.eq_of_toNat_eq
  simp [ofByte]

theorem winSum_grow {w : Nat} {p : Bytes} {v : UInt8} (h : p.length < w) :
    winSum w (p ++ [v]) = winSum w p + v.toNat := by
  rw [winSum, lastN_grow h, bsum_snoc]

theorem winSum_roll {w : Nat} {p : Bytes} {d v : UInt8} (h : w ≤ p.length)
    (hd : (p ++ [v])[p.length - w]? = some d) :
    d.toNat + winSum w (p ++ [v]) = winSum w p + v.toNat := by
  have := congrArg bsum (lastN_roll h hd)
  rw [bsum_snoc] at this
  have h2 : bsum (d :: lastN w (p ++ [v])) = d.toNat + winSum w (p ++ [v]) := by simp [winSum, bsum]
  rw [← h2, ← this]

theorem roll_word {a b c d : Nat} (h : d + a = b + c) :
    BitVec.ofNat 64 b - BitVec.ofNat 64 d + BitVec.ofNat 64 c = BitVec.ofNat 64 a := by
  have := congrArg (BitVec.ofNat 64) h
  rw [BitVec.ofNat_add, BitVec.ofNat_add] at this
  calc _ = (BitVec.ofNat 64 b + BitVec.ofNat 64 c) - BitVec.ofNat 64 d := by ring
    _ = _ := by rw [← this]; ring

/-- the edge predicate of an instance -/
abbrev edge (p : GzipRsyncable) : Bytes → Prop := gzipEdge p.windowLen p.modulus.toNat

theorem remIsZero_eq (p : GzipRsyncable) (hm : p.modulus ≠ 0) (c : Bytes) :
    ∃ z, remIsZero (BitVec.ofNat 64 (winSum p.windowLen c)) p.modulus = .ok z ∧ (z = true ↔ edge p c) := by
  refine ⟨_, by simp only [remIsZero, hm, if_false]; rfl, ?_⟩
  rw [beq_iff_eq]
  unfold edge gzipEdge
  rw [← BitVec.toNat_inj]
  simp [BitVec.toNat_umod, BitVec.toNat_ofNat]

/-- body of the loop of `find_chunk_edge` -/
def fceBody (p : GzipRsyncable) (data : Bytes) (i : Nat) (state : GzipRsyncableSearchState) :
    R (Flow GzipRsyncableSearchState (Option Nat × Nat)) :=
  match index data i with
  | .error e => .error e
  | .ok v =>
    match state.state.add data p i v with
    | .error e => .error e
    | .ok (st, hit) =>
      let state := { state with state := st }
      if hit then .ok (.ret state.reset (some (i + 1), i + 1))
      else .ok (.next state)

theorem fce_eq (p : GzipRsyncable) (st : GzipRsyncableSearchState) (data : Bytes) :
    p.findChunkEdge st data =
    match forRange (fceBody p data) (data.length - st.offset) st.offset st with
    | .error e => .error e
    | .ok (.ret state r) => .ok (state, r)
    | .ok (.next state)  =>
      .ok ({ state with offset := data.length - (data.length - p.windowLen) }, none,
        data.length - p.windowLen) := rfl




def fceWindow (p : GzipRsyncable) (hm : p.modulus ≠ 0) : FceWindowSpec (chunk p) p.windowLen (edge p) where
  offset := fun st => st.offset
  setOffset := fun st o => { st with offset := o }
  offset_set := fun _ _ => rfl
  body := fceBody p
  fce_ret := fun st data st' r h => (fce_eq p st data).trans (by rw [h])
  fce_next := fun st data st' h => (fce_eq p st data).trans (by rw [h])
  Inv st c := st.state.accum = BitVec.ofNat 64 (winSum p.windowLen c)
  inv_set := fun _ _ _ h => h
  init := by
    refine ⟨?_, rfl⟩
    show (0 : BitVec 64) = _
    rw [winSum_nil]; rfl
  step := by
    intro buf i v st c hi hv hiff hdrop
    obtain ⟨z, hz, hze⟩ := remIsZero_eq p hm (c ++ [v])
    have hadd : st.state.add buf p i v =
        .ok ({ accum := BitVec.ofNat 64 (winSum p.windowLen (c ++ [v])) }, z) := by
      by_cases hw : p.windowLen ≤ i
      · obtain ⟨d, hd1, hd2⟩ := hdrop hw
        have := winSum_roll (by omega) hd2
        simp [GzipRsyncableState.add, hw, index_of hd1, hi, ofByte_eq, roll_word this, hz]
      · have hc : c.length < p.windowLen := hiff.1 (by omega)
        simp [GzipRsyncableState.add, hw, hi, ofByte_eq, ← BitVec.ofNat_add, ← winSum_grow hc, hz]
    cases z with
    | true =>
      right
      refine ⟨GzipRsyncableSearchState.default, ?_, by show (0 : BitVec 64) = _; rw [winSum_nil]; rfl, rfl,
        hze.1 rfl⟩
      simp [fceBody, index_of hv, hadd, GzipRsyncableSearchState.reset, GzipRsyncableState.reset,
        GzipRsyncableSearchState.default]
    | false =>
      left
      refine ⟨{ st with state := { accum := BitVec.ofNat 64 (winSum p.windowLen (c ++ [v])) } }, ?_, rfl,
        fun h => by simpa using hze.2 h⟩
      simp [fceBody, index_of hv, hadd]

theorem fce_conforms (p : GzipRsyncable) (hm : p.modulus ≠ 0) :
    FceConforms (chunk p) Any (EdgeRule (Local (edge p))) := (fceWindow p hm).conforms

/-- body of the loop of `push` -/
def pushBody (i : Nat) (v : UInt8) (self : GzipRsyncableIncr) : R (Flow GzipRsyncableIncr (Option Nat)) :=
  let popped : R GzipRsyncableIncr :=
    if self.window.length ≥ self.params.windowLen then
      match self.window with
      | []      => .error .unwrapNone
      | d :: ds => .ok { self with accum := self.accum - ofByte d, window := ds }
    else .ok self
  match popped with
  | .error e => .error e
  | .ok self =>
    let self := { self with accum := self.accum + ofByte v, window := self.window ++ [v] }
    match remIsZero self.accum self.params.modulus with
    | .error e => .error e
    | .ok true  => .ok (.ret self.reset (some (i + 1)))
    | .ok false => .ok (.next self)

theorem push_eq (st : GzipRsyncableIncr) (data : Bytes) : st.push data =
    match forEnum pushBody 0 data st with
    | .error e => .error e
    | .ok (.ret self r) => .ok (self, r)
    | .ok (.next self)  => .ok (self, none) := rfl

def incrLoop (p : GzipRsyncable) (hm : p.modulus ≠ 0) (hw : 0 < p.windowLen) :
    LoopSpec (incr p) (Local (edge p)) where
  body := pushBody
  push_ret := fun st data st' r h => (push_eq st data).trans (by rw [h])
  push_next := fun st data st' h => (push_eq st data).trans (by rw [h])
  Inv st _ c := st.params = p ∧ st.window = lastN p.windowLen c ∧
    st.accum = BitVec.ofNat 64 (winSum p.windowLen c)
  init := ⟨rfl, by simp [GzipRsyncableIncr.from, lastN], by show (0 : BitVec 64) = _; rw [winSum_nil]; rfl⟩
  step := by
    rintro i v ⟨params, accum, window⟩ h c ⟨hp, hwin, hacc⟩
    simp only at hp hwin hacc
    subst hp hwin hacc
    obtain ⟨z, hz, hze⟩ := remIsZero_eq params hm (c ++ [v])
    have hlen := lastN_length params.windowLen c
    have hbody : pushBody i v ⟨params, BitVec.ofNat 64 (winSum params.windowLen c), lastN params.windowLen c⟩ =
        if z then .ok (.ret ⟨params, 0, []⟩ (some (i + 1)))
        else .ok (.next ⟨params, BitVec.ofNat 64 (winSum params.windowLen (c ++ [v])),
          lastN params.windowLen (c ++ [v])⟩) := by
      by_cases hc : params.windowLen ≤ c.length
      · have hge : params.windowLen ≤ (lastN params.windowLen c).length := by omega
        have hlt : c.length - params.windowLen < (c ++ [v]).length := by simp; omega
        have hd : (c ++ [v])[c.length - params.windowLen]? = some (c ++ [v])[c.length - params.windowLen] :=
          List.getElem?_eq_getElem hlt
        generalize (c ++ [v])[c.length - params.windowLen] = d at hd
        have hroll := lastN_roll hc hd
        have hsum := winSum_roll hc hd
        obtain ⟨ds, hds⟩ : ∃ ds, lastN params.windowLen c = d :: ds := by
          cases hl : lastN params.windowLen c with
          | nil => rw [hl] at hge; simp at hge; omega
          | cons x xs =>
            rw [hl, List.cons_append, List.cons.injEq] at hroll
            exact ⟨xs, by rw [hroll.1]⟩
        have hds2 : ds ++ [v] = lastN params.windowLen (c ++ [v]) := by
          rw [hds, List.cons_append, List.cons.injEq] at hroll
          exact hroll.2
        have hr := roll_word hsum
        have hge2 : params.windowLen ≤ (d :: ds).length := by rw [← hds]; exact hge
        rw [hds]
        unfold pushBody
        simp only [ge_iff_le, hge2, if_true, ofByte_eq, hr, hz, hds2]
        cases z <;> rfl
      · have hge : ¬ params.windowLen ≤ (lastN params.windowLen c).length := by omega
        unfold pushBody
        simp only [ge_iff_le, hge, if_false]
        rw [ofByte_eq, ← BitVec.ofNat_add, ← winSum_grow (by omega), hz, ← lastN_grow (by omega)]
        cases z <;> rfl
    cases z with
    | true =>
      right
      exact ⟨⟨params, 0, []⟩, hbody, ⟨rfl, by simp [lastN], by rw [winSum_nil]; rfl⟩, hze.1 rfl⟩
    | false =>
      left
      exact ⟨_, hbody, ⟨rfl, rfl, rfl⟩, fun h => by simpa using hze.2 h⟩

theorem incr_conforms (p : GzipRsyncable) (hm : p.modulus ≠ 0) (hw : 0 < p.windowLen) :
    IncrConforms (incr p) (EdgeRule (Local (edge p))) := (incrLoop p hm hw).conforms

theorem bytewise_conforms (p : GzipRsyncable) (hm : p.modulus ≠ 0) (hw : 0 < p.windowLen) :
    BytewiseConforms (incr p) (EdgeRule (Local (edge p))) := (incrLoop p hm hw).bytewise

end HashRoll.Gzip
