import Verif.Proofs.Conform
import Verif.Proofs.Ring
import Verif.Model.Zstd
/-!
# Zstd and its rule
-/

namespace HashRoll.Zstd

open Spec

/-- `prime_power` is what the constructor computes -/
def Zstd.Wf (p : Zstd) : Prop := p.primePower = wrappingPow prime8Bytes 31

theorem wrappingPow_eq (x : BitVec 64) (n : Nat) : wrappingPow x n = x ^ n := by
  induction n with
  | zero => rfl
  | succ n ih => rw [wrappingPow, ih, BitVec.pow_succ]

theorem zstdHash_snoc (t : Bytes) (v : UInt8) : zstdHash (t ++ [v]) = zstdHash t * prime8Bytes + ofByte v := by
  unfold zstdHash
  rw [wsum_snoc, wsum_map (· * prime8Bytes) (by simp) (fun x y => by ring)]
  have : ∀ b j, (word 64 b + 10) * (0xCF1BBCDCB7A56463 : BitVec 64) ^ (j + 1) =
      (word 64 b + 10) * 0xCF1BBCDCB7A56463 ^ j * prime8Bytes := by
    intro b j
    rw [BitVec.pow_succ, ← BitVec.mul_assoc]; rfl
  simp only [this]
  have h0 : (word 64 v + 10) * (0xCF1BBCDCB7A56463 : BitVec 64) ^ 0 = ofByte v := by
    rw [BitVec.pow_zero, BitVec.mul_one]; rfl
  rw [h0, BitVec.add_comm]

theorem zstdHash_cons (d : UInt8) (t : Bytes) (h : t.length = 31) :
    zstdHash (d :: t) = zstdHash t + ofByte d * wrappingPow prime8Bytes 31 := by
  unfold zstdHash
  rw [wsum_cons, h, wrappingPow_eq]; rfl

theorem append_hash (bs : Bytes) : ∀ (st : ZstdState) (t : Bytes), st.hash = zstdHash t →
    (st.append bs).hash = zstdHash (t ++ bs) := by
  induction bs with
  | nil => intro st t h; simpa [ZstdState.append] using h
  | cons b bs ih =>
    intro st t h
    rw [ZstdState.append, ih _ (t ++ [b])]
    · simp
    · rw [zstdHash_snoc, h]

theorem rotate_hash {p : Zstd} (hp : p.Wf) {st : ZstdState} {d v : UInt8} {t : Bytes} (ht : t.length = 31)
    (h : st.hash = zstdHash (d :: t)) : (st.rotate d v p.primePower).hash = zstdHash (t ++ [v]) := by
  rw [zstdHash_cons d t ht] at h
  rw [zstdHash_snoc]
  simp only [ZstdState.rotate, h]
  rw [hp]; ring

theorem atSplit_iff {p : Zstd} {st : ZstdState} {t : Bytes} (h : st.hash = zstdHash t) :
    st.atSplit p = true ↔ zstdHash t &&& p.hitMask = p.hitMask := by
  rw [ZstdState.atSplit, beq_iff_eq, h]

/-- a cut after the whole stream prefix `x` -/
abbrev cutAt (p : Zstd) (x : Bytes) : Prop := 32 < x.length ∧ zstdHash (lastN 32 x) &&& p.hitMask = p.hitMask

/-! ## incremental -/

/-- `st` is the state after the stream `s`. -/
def StInv (p : Zstd) (st : ZstdIncr) (s : Bytes) : Prop :=
  st.params = p ∧ st.window.length = 32 ∧
  ((s.length < 32 ∧ st.windowFull = false ∧ st.windowOffs = s.length ∧ st.window.take s.length = s ∧
      st.state.hash = 0) ∨
   (32 ≤ s.length ∧ st.windowFull = true ∧ st.windowOffs < 32 ∧ rot st.window st.windowOffs = lastN 32 s ∧
      st.state.hash = zstdHash (lastN 32 s)))

/-- the second alternative -/
def Full (p : Zstd) (st : ZstdIncr) (s : Bytes) : Prop :=
  st.params = p ∧ st.window.length = 32 ∧ 32 ≤ s.length ∧ st.windowFull = true ∧ st.windowOffs < 32 ∧
  rot st.window st.windowOffs = lastN 32 s ∧ st.state.hash = zstdHash (lastN 32 s)

theorem Full.stInv {p : Zstd} {st : ZstdIncr} {s : Bytes} (h : Full p st s) : StInv p st s :=
  ⟨h.1, h.2.1, .inr h.2.2⟩

/-- loop body of `push` -/
def pushBody (useLen : Nat) (i : Nat) (v : UInt8) (self : ZstdIncr) : R (Flow ZstdIncr (Option Nat)) :=
  match index self.window self.windowOffs with
  | .error e => .error e
  | .ok toRemove =>
    let self := { self with
      state := self.state.rotate toRemove v self.params.primePower
      window := self.window.set self.windowOffs v
      windowOffs := (self.windowOffs + 1) % self.window.length }
    if self.state.atSplit self.params then .ok (.ret self (some (i + useLen)))
    else .ok (.next self)

theorem pushFull_eq (st : ZstdIncr) (data : Bytes) (useLen : Nat) : st.pushFull data useLen =
    match slice data useLen data.length with
    | .error e => .error e
    | .ok rest =>
      match forEnum (pushBody useLen) 0 rest st with
      | .error e => .error e
      | .ok (.ret self r) => .ok (self, r)
      | .ok (.next self)  => .ok (self, none) := rfl

theorem lastN_next {x : Bytes} {d v : UInt8} {t : Bytes} (hx : 32 ≤ x.length) (h : lastN 32 x = d :: t) :
    lastN 32 (x ++ [v]) = t ++ [v] := by
  have hget : (x ++ [v])[x.length - 32]? = some d := by
    have := congrArg (·[0]?) h
    simp only [lastN, List.getElem?_drop, List.getElem?_cons_zero, Nat.add_zero] at this
    rw [List.getElem?_append_left (by omega)]; exact this
  have := lastN_roll hx hget
  rw [h, List.cons_append, List.cons.injEq] at this
  exact this.2.symm

theorem body_spec {p : Zstd} (hp : p.Wf) (u i : Nat) (v : UInt8) (st : ZstdIncr) (s : Bytes)
    (h : Full p st s) :
    (∃ st', pushBody u i v st = .ok (.next st') ∧ Full p st' (s ++ [v]) ∧ ¬ cutAt p (s ++ [v])) ∨
    (∃ st', pushBody u i v st = .ok (.ret st' (some (i + u))) ∧ Full p st' (s ++ [v]) ∧ cutAt p (s ++ [v])) := by
  obtain ⟨hpar, hlen, hs, hfull, hofs, hrot, hhash⟩ := h
  obtain ⟨d, t, hd, hr, hr', ht⟩ := rot_step v (by omega : st.windowOffs < st.window.length)
  have hl : lastN 32 s = d :: t := by rw [← hrot, hr]
  have hl' : lastN 32 (s ++ [v]) = t ++ [v] := lastN_next hs hl
  have hh : (st.state.rotate d v p.primePower).hash = zstdHash (lastN 32 (s ++ [v])) := by
    rw [hl']; exact rotate_hash hp (by omega) (by rw [hhash, hl])
  have hsp := atSplit_iff (p := p) hh
  have hinv : Full p { st with
      state := st.state.rotate d v p.primePower
      window := st.window.set st.windowOffs v
      windowOffs := (st.windowOffs + 1) % st.window.length } (s ++ [v]) := by
    refine ⟨hpar, by simpa using hlen, by simp; omega, hfull, ?_, ?_, hh⟩
    · show (st.windowOffs + 1) % st.window.length < 32
      rw [hlen]; exact Nat.mod_lt _ (by omega)
    · show rot (st.window.set st.windowOffs v) _ = _
      rw [hr', hl']
  have h32 : 32 < (s ++ [v]).length := by simp; omega
  by_cases hc : cutAt p (s ++ [v])
  · right
    refine ⟨_, ?_, hinv, hc⟩
    simp only [pushBody, index_of hd, hpar, hsp.2 hc.2, if_true]
  · left
    refine ⟨_, ?_, hinv, hc⟩
    have : (st.state.rotate d v p.primePower).atSplit p = false := by
      rw [Bool.eq_false_iff]; intro h; exact hc ⟨h32, hsp.1 h⟩
    simp only [pushBody, index_of hd, hpar, this, if_false, Bool.false_eq_true]

theorem pushFull_spec {p : Zstd} (hp : p.Wf) (st : ZstdIncr) (s : Bytes) (h : Full p st s) (data : Bytes)
    (u : Nat) (hu : u ≤ data.length) :
    (∃ st', st.pushFull data u = .ok (st', none) ∧ Full p st' (s ++ data.drop u) ∧
      NoEdge (fun x => cutAt p (s ++ x)) (data.drop u)) ∨
    (∃ st' i, st.pushFull data u = .ok (st', some (i + u)) ∧ i + u < data.length ∧
      Full p st' (s ++ (data.drop u).take (i + 1)) ∧
      FirstCut (fun x => cutAt p (s ++ x)) (data.drop u) (i + 1)) := by
  have hsl : slice data u data.length = .ok (data.drop u) := by simp [slice, hu]
  rcases forEnum_edge (body := pushBody u) (e := cutAt p) (Inv := Full p)
      (Q := fun i v c s' r => r = some (i + u) ∧ Full p s' (c ++ [v]))
      (by
        intro i v s c hi
        rcases body_spec hp u i v s c hi with ⟨s', h1, h2, h3⟩ | ⟨s', h1, h2, h3⟩
        · exact .inl ⟨s', h1, h2, h3⟩
        · exact .inr ⟨s', _, h1, h3, rfl, h2⟩)
      (data.drop u) 0 st s h with ⟨s', hf, hi', hno'⟩ | ⟨i, s', r, v, hf, hv, hcut, hr, hi'⟩
  · left
    exact ⟨s', by rw [pushFull_eq, hsl]; simp only [hf], hi', hno'⟩
  · right
    subst hr
    have hlt : i < (data.drop u).length := by
      rw [List.getElem?_eq_some_iff] at hv; exact hv.1
    refine ⟨s', i, by rw [pushFull_eq, hsl]; simp only [hf, Nat.zero_add], by simp at hlt; omega, ?_, hcut⟩
    rw [List.take_add_one, hv]
    simpa using hi'

/-- What one `push` does after the stream `s`: it finds the first cut and stops after the byte at which it
occurs, although it returns the index of that byte. -/
theorem push_spec {p : Zstd} (hp : p.Wf) (st : ZstdIncr) (s : Bytes) (h : StInv p st s) (new : Bytes) :
    (∃ st', st.push new = .ok (st', none) ∧ StInv p st' (s ++ new) ∧
      NoEdge (fun x => cutAt p (s ++ x)) new) ∨
    (∃ st' i, st.push new = .ok (st', some i) ∧ i < new.length ∧ StInv p st' (s ++ new.take (i + 1)) ∧
      FirstCut (fun x => cutAt p (s ++ x)) new (i + 1)) := by
  obtain ⟨hpar, hlen, hcase⟩ := h
  rcases hcase with ⟨hs, hf, hofs, hwin, hhash⟩ | ⟨hs, hf, hofs, hrot, hhash⟩
  · by_cases hn : s.length + new.length < 32
    · left
      refine ⟨{ st with window := st.window.take st.windowOffs ++ new ++ st.window.drop (st.windowOffs + new.length),
                        windowOffs := st.windowOffs + new.length }, ?_, ⟨hpar, ?_, .inl ⟨?_, hf, ?_, ?_, hhash⟩⟩, ?_⟩
      · have h1 : min (st.window.length - st.windowOffs) new.length = new.length := by omega
        simp only [ZstdIncr.push, hf, Bool.not_false, if_true, h1, slice, Nat.zero_le, Nat.le_refl, and_self,
          List.take_length, List.drop_zero, copyInto, show st.windowOffs + new.length ≤ st.window.length by omega]
        rw [if_pos]
        simp; omega
      · simp; omega
      · simp; omega
      · simp [hofs]
      · show (st.window.take st.windowOffs ++ new ++ _).take _ = _
        rw [hofs, hwin, List.take_append_of_le_length (by simp), List.take_of_length_le (by simp)]
      · intro m h1 h2 hc
        have := hc.1
        simp at this; omega
    · -- the window gets filled
      obtain ⟨u, hu⟩ : ∃ u, u = 32 - s.length := ⟨_, rfl⟩
      have hule : u ≤ new.length := by omega
      have hwl : st.window.take s.length ++ new.take u ++ st.window.drop (s.length + u) = s ++ new.take u := by
        rw [hwin, List.drop_of_length_le (by omega), List.append_nil]
      have hsu : (s ++ new.take u).length = 32 := by simp; omega
      have hfull : Full p { st with
          window := s ++ new.take u
          windowOffs := 0
          windowFull := true
          state := st.state.append (s ++ new.take u) } (s ++ new.take u) := by
        refine ⟨hpar, hsu, by omega, rfl, by show 0 < 32; omega, ?_, ?_⟩
        · simp [rot, lastN_of_le (Nat.le_of_eq hsu)]
        · rw [lastN_of_le (Nat.le_of_eq hsu)]
          have := append_hash (s ++ new.take u) st.state [] (by rw [hhash]; rfl)
          simpa using this
      have hpush : st.push new = ZstdIncr.pushFull { st with
            window := s ++ new.take u
            windowOffs := 0
            windowFull := true
            state := st.state.append (s ++ new.take u) } new u := by
        have h1 : min (st.window.length - st.windowOffs) new.length = u := by omega
        have h2 : slice new 0 u = .ok (new.take u) := by simp [slice, hule]
        have h3 : copyInto st.window st.windowOffs (new.take u) = .ok (s ++ new.take u) := by
          have h4 : (new.take u).length = u := by simp; omega
          rw [copyInto, h4, if_pos (by omega), hofs, hwl]
        simp only [ZstdIncr.push, hf, Bool.not_false, if_true, h1, h2, h3]
        rw [if_neg]
        rw [hsu]; omega
      rw [hpush]
      -- no cut within the first 32 bytes of the stream
      have hpre : NoEdge (fun x => cutAt p (s ++ x)) (new.take u) := by
        intro m h1 h2 hc
        have := hc.1
        simp at this h2; omega
      have hsplit : new = new.take u ++ new.drop u := by simp
      have hassoc : ∀ x, s ++ new.take u ++ x = s ++ (new.take u ++ x) := fun x => List.append_assoc ..
      rcases pushFull_spec hp _ _ hfull new u hule with ⟨st', h1, h2, h3⟩ | ⟨st', i, h1, h2, h3, h4⟩
      · left
        refine ⟨st', h1, ?_, ?_⟩
        · have := h2.stInv
          rwa [List.append_assoc, ← hsplit] at this
        · rw [hsplit]
          simp only [hassoc] at h3
          exact hpre.append h3
      · right
        refine ⟨st', i + u, h1, h2, ?_, ?_⟩
        · have := h3.stInv
          rw [hassoc] at this
          have e : new.take (i + u + 1) = new.take u ++ (new.drop u).take (i + 1) := by
            rw [show i + u + 1 = u + (i + 1) by omega, List.take_add]
          rwa [e]
        · simp only [hassoc] at h4
          have := hpre.firstCut_append h4
          rw [← hsplit] at this
          have e : (new.take u).length + (i + 1) = i + u + 1 := by simp; omega
          rwa [e] at this
  · have hfull : Full p st s := ⟨hpar, hlen, hs, hf, hofs, hrot, hhash⟩
    have hpush : st.push new = st.pushFull new 0 := by simp [ZstdIncr.push, hf]
    rw [hpush]
    rcases pushFull_spec hp _ _ hfull new 0 (Nat.zero_le _) with ⟨st', h1, h2, h3⟩ | ⟨st', i, h1, h2, h3, h4⟩
    · left; exact ⟨st', h1, by simpa using h2.stInv, by simpa using h3⟩
    · right; exact ⟨st', i, by simpa using h1, by simpa using h2, by simpa using h3.stInv, by simpa using h4⟩

theorem init_inv (p : Zstd) : StInv p (ZstdIncr.from p) [] :=
  ⟨rfl, by simp [ZstdIncr.from, rsyncLength], .inl ⟨by simp, rfl, rfl, rfl, rfl⟩⟩

theorem edge_eq (p : Zstd) (h c : Bytes) : (fun x => cutAt p (h ++ c ++ x)) = fun x => zstdEdge p.hitMask h (c ++ x) := by
  funext x
  simp only [cutAt, zstdEdge, List.append_assoc]

def byteSpec (p : Zstd) (hp : p.Wf) : ByteSpec (incr p) (EdgeRule (zstdEdge p.hitMask)) where
  Inv st h c := StInv p st (h ++ c) ∧ NoEdge (zstdEdge p.hitMask h) c
  init := ⟨init_inv p, NoEdge.nil _⟩
  step := by
    rintro st h c ⟨hi, hno⟩ v
    have hpush := push_spec hp st (h ++ c) hi [v]
    rw [edge_eq] at hpush
    rcases hpush with ⟨st', h1, h2, h3⟩ | ⟨st', i, h1, h2, h3, h4⟩
    · have hno' := hno.append h3
      exact ⟨st', none, h1, ⟨by simpa using h2, hno'⟩, hno'.not_firstCut⟩
    · have : i = 0 := by simpa using h2
      subst this
      exact ⟨st', some 0, h1, ⟨by simpa using h3, NoEdge.nil _⟩, hno.firstCut_append h4⟩

theorem bytewise_conforms (p : Zstd) (hp : p.Wf) :
    BytewiseConforms (incr p) (EdgeRule (zstdEdge p.hitMask)) := (byteSpec p hp).conforms

/-! ## `find_chunk_edge` -/

/-- The search state fits what was presented: the caller keeps the last 32 bytes before `need`, the hash
covers them. -/
def Good (s : Bytes) (st : ZstdSearchState) (base need : Nat) : Prop :=
  base = need - 32 ∧ need ≤ s.length ∧ st.offset = min need 32 ∧
  st.state.hash = zstdHash (lastN 32 (s.take need))

/-- loop body of `find_chunk_edge` -/
def fceBody (p : Zstd) (data : Bytes) (i : Nat) (state : ZstdSearchState) :
    R (Flow ZstdSearchState (Option Nat × Nat)) :=
  if i < rsyncLength then .error .overflow
  else
    match index data (i - rsyncLength) with
    | .error e => .error e
    | .ok toRemove =>
      match index data i with
      | .error e => .error e
      | .ok toAdd =>
        let state := { state with state := state.state.rotate toRemove toAdd p.primePower }
        if state.state.atSplit p then
          let discardCt := data.length - rsyncLength
          .ok (.ret state (some (i + 1), discardCt))
        else .ok (.next state)

theorem fceFull_eq (p : Zstd) (st : ZstdSearchState) (data : Bytes) : p.findChunkEdgeFull st data =
    match forRange (fceBody p data) (data.length - st.offset) st.offset st with
    | .error e => .error e
    | .ok (.ret state r) => .ok (state, r)
    | .ok (.next state)  =>
      .ok ({ state with offset := data.length - (data.length - rsyncLength) }, none,
        data.length - rsyncLength) := rfl

/-- `find_chunk_edge` with a full window ending at stream position `m`. -/
theorem fceFull_spec {p : Zstd} (hp : p.Wf) {s : Bytes} {st : ZstdSearchState} {m e : Nat} (hm : 32 ≤ m)
    (hme : m ≤ e) (hes : e ≤ s.length) (ho : st.offset = 32)
    (hh : st.state.hash = zstdHash (lastN 32 (s.take m))) :
    (∃ st', p.findChunkEdgeFull st (Spec.sub s (m - 32) e) = .ok (st', none, e - m) ∧ st'.offset = 32 ∧
      st'.state.hash = zstdHash (lastN 32 (s.take e)) ∧ ∀ k, m < k → k ≤ e → ¬ cutAt p (s.take k)) ∨
    (∃ st' n, p.findChunkEdgeFull st (Spec.sub s (m - 32) e) = .ok (st', some (n - (m - 32)), e - m) ∧
      st'.offset = 32 ∧ st'.state.hash = zstdHash (lastN 32 (s.take n)) ∧ m < n ∧ n ≤ e ∧
      cutAt p (s.take n) ∧ ∀ k, m < k → k < n → ¬ cutAt p (s.take k)) := by
  have hblen : (Spec.sub s (m - 32) e).length = 32 + (e - m) := by rw [sub_length]; omega
  have hnlen : (Spec.sub s m e).length = e - m := by rw [sub_length]; omega
  have hbget : ∀ i, m - 32 + i < e → (Spec.sub s (m - 32) e)[i]? = s[m - 32 + i]? := by
    intro i hi
    rw [Spec.sub, List.getElem?_drop, List.getElem?_take_of_lt hi]
  have happ : ∀ j, j ≤ e - m → s.take m ++ (Spec.sub s m e).take j = s.take (m + j) := by
    intro j hj
    rw [sub_take_of_le s (b := m + j) (by omega) j rfl, take_append_sub s (by omega)]
  rcases forRange_edge (body := fceBody p (Spec.sub s (m - 32) e)) (k := 32) (e := cutAt p)
      (Inv := fun st c => 32 ≤ c.length ∧ st.offset = 32 ∧ st.state.hash = zstdHash (lastN 32 c))
      (Q := fun j c st r => r = (some (32 + j + 1), e - m) ∧ st.offset = 32 ∧
        st.state.hash = zstdHash (lastN 32 (s.take (m + (j + 1)))))
      (s.take m) (Spec.sub s m e)
      (by
        rintro j v st hv ⟨h32, ho, hh⟩
        have hj : j < e - m := by
          rw [List.getElem?_eq_some_iff] at hv; obtain ⟨h, _⟩ := hv
          rw [hnlen] at h; exact h
        have hv' : s[m + j]? = some v := by
          rw [Spec.sub, List.getElem?_drop, List.getElem?_take_of_lt (by omega)] at hv; exact hv
        rw [happ j (by omega)] at h32 hh ⊢
        have hsnoc : s.take (m + j) ++ [v] = s.take (m + (j + 1)) := by
          rw [← Nat.add_assoc, List.take_add_one, hv']; rfl
        have hlt : m + j - 32 < s.length := by omega
        obtain ⟨d, t, hdt⟩ : ∃ d t, lastN 32 (s.take (m + j)) = d :: t := by
          cases h : lastN 32 (s.take (m + j)) with
          | nil =>
            have := congrArg List.length h
            rw [lastN_length, List.length_nil] at this; omega
          | cons d t => exact ⟨d, t, rfl⟩
        have htl : t.length = 31 := by
          have := congrArg List.length hdt
          rw [lastN_length] at this
          simp at this; omega
        have hd : (Spec.sub s (m - 32) e)[32 + j - 32]? = some d := by
          rw [hbget _ (by omega)]
          have := congrArg (·[0]?) hdt
          simp only [lastN, List.getElem?_drop, List.getElem?_cons_zero, Nat.add_zero, List.length_take] at this
          rw [List.getElem?_take_of_lt (by omega)] at this
          rw [← this]; congr 1; omega
        have ha : (Spec.sub s (m - 32) e)[32 + j]? = some v := by
          rw [hbget _ (by omega), ← hv']; congr 1; omega
        have hrot : (st.state.rotate d v p.primePower).hash = zstdHash (lastN 32 (s.take (m + (j + 1)))) := by
          rw [← hsnoc, lastN_next h32 hdt]
          exact rotate_hash hp htl (by rw [hh, hdt])
        have hsp := atSplit_iff (p := p) hrot
        have hlen32 : 32 < (s.take (m + (j + 1))).length := by simp; omega
        rw [hsnoc]
        have hbody : fceBody p (Spec.sub s (m - 32) e) (32 + j) st =
            if (st.state.rotate d v p.primePower).atSplit p then
              .ok (.ret { st with state := st.state.rotate d v p.primePower }
                (some (32 + j + 1), e - m))
            else .ok (.next { st with state := st.state.rotate d v p.primePower }) := by
          have hi : ¬ 32 + j < rsyncLength := by simp [rsyncLength]
          have hdis : (Spec.sub s (m - 32) e).length - rsyncLength = e - m := by
            rw [hblen]; simp [rsyncLength]
          have hd' : index (Spec.sub s (m - 32) e) (32 + j - rsyncLength) = .ok d := index_of hd
          simp only [fceBody, hi, if_false, hd', index_of ha, hdis]
        by_cases hc : cutAt p (s.take (m + (j + 1)))
        · right
          refine ⟨{ st with state := st.state.rotate d v p.primePower }, _, ?_, hc, rfl, ho, hrot⟩
          rw [hbody, if_pos (hsp.2 hc.2)]
        · left
          refine ⟨{ st with state := st.state.rotate d v p.primePower }, ?_, ⟨by omega, ho, hrot⟩, hc⟩
          rw [hbody, if_neg]
          intro h; exact hc ⟨hlen32, hsp.1 h⟩)
      st ⟨by simp; omega, ho, hh⟩ with ⟨st', hf, ⟨_, ho', hh'⟩, hno⟩ | ⟨j, st', r, hj, hf, hcut, hr, ho', hh'⟩
  · left
    rw [hnlen] at hf
    refine ⟨{ st' with offset := 32 }, ?_, rfl, ?_, ?_⟩
    · rw [fceFull_eq, hblen, ho, Nat.add_sub_cancel_left, hf]
      have e1 : 32 + (e - m) - rsyncLength = e - m := by simp [rsyncLength]
      have e2 : 32 + (e - m) - (e - m) = 32 := by omega
      simp only [e1, e2]
    · show st'.state.hash = _
      rw [hh', take_append_sub s hme]
    · intro k h1 h2 hc
      apply hno (k - m) (by omega) (by omega)
      show cutAt p (s.take m ++ (Spec.sub s m e).take (k - m))
      rw [happ _ (by omega)]
      have : m + (k - m) = k := by omega
      rwa [this]
  · right
    rw [hnlen] at hf hj
    subst hr
    obtain ⟨c1, c2, c3, c4⟩ := hcut
    rw [happ _ (by omega)] at c3
    refine ⟨st', m + (j + 1), ?_, ho', hh', by omega, by omega, c3, ?_⟩
    · rw [fceFull_eq, hblen, ho, Nat.add_sub_cancel_left, hf]
      have : 32 + j + 1 = m + (j + 1) - (m - 32) := by omega
      simp only [this]
    · intro k h1 h2 hc
      apply c4 (k - m) (by omega) (by omega)
      show cutAt p (s.take m ++ (Spec.sub s m e).take (k - m))
      rw [happ _ (by omega)]
      have : m + (k - m) = k := by omega
      rwa [this]

/-- One call in a state that fits what was presented. -/
theorem fce_spec {p : Zstd} (hp : p.Wf) {s : Bytes} {st : ZstdSearchState} {base need e : Nat}
    (h : Good s st base need) (hne : need ≤ e) (hes : e ≤ s.length) :
    (∃ st', p.findChunkEdge st (Spec.sub s base e) = .ok (st', none, e - 32 - base) ∧ Good s st' (e - 32) e ∧
      ∀ k, need < k → k ≤ e → ¬ cutAt p (s.take k)) ∨
    (∃ st' n, p.findChunkEdge st (Spec.sub s base e) = .ok (st', some (n - base), e - 32 - base) ∧
      st'.offset = 32 ∧ st'.state.hash = zstdHash (lastN 32 (s.take n)) ∧ need < n ∧ n ≤ e ∧
      cutAt p (s.take n) ∧ ∀ k, need < k → k < n → ¬ cutAt p (s.take k)) := by
  obtain ⟨hb, hn, ho, hh⟩ := h
  by_cases hfull : 32 ≤ need
  · have ho' : st.offset = 32 := by omega
    have hfce : p.findChunkEdge st (Spec.sub s base e) = p.findChunkEdgeFull st (Spec.sub s (need - 32) e) := by
      rw [Zstd.findChunkEdge, if_neg (by rw [ho']; simp [rsyncLength]), hb]
    rw [hfce]
    rcases fceFull_spec hp hfull hne hes ho' hh with ⟨st', h1, h2, h3, h4⟩ | ⟨st', n, h1, h2, h3, h4, h5, h6, h7⟩
    · left
      refine ⟨st', ?_, ⟨rfl, hes, by omega, h3⟩, h4⟩
      rw [h1]; congr 3; omega
    · right
      refine ⟨st', n, ?_, h2, h3, h4, h5, h6, h7⟩
      rw [h1, hb]; congr 3; omega
  · have hb0 : base = 0 := by omega
    have ho' : st.offset = need := by omega
    subst hb0
    have hlen : (Spec.sub s 0 e).length = e := by rw [sub_length]; omega
    have hseed : slice (Spec.sub s 0 e) st.offset (min rsyncLength (Spec.sub s 0 e).length) =
        .ok (Spec.sub s need (min 32 e)) := by
      rw [hlen, ho', slice, if_pos (by rw [hlen]; simp only [rsyncLength]; omega)]
      congr 1
      rw [sub_zero, List.take_take, Spec.sub]; congr 2; simp only [rsyncLength]; omega
    have hslen : (Spec.sub s need (min 32 e)).length = min 32 e - need := by rw [sub_length]; omega
    have hh' : (st.state.append (Spec.sub s need (min 32 e))).hash = zstdHash (lastN 32 (s.take (min 32 e))) := by
      rw [lastN_of_le (by simp; omega)] at hh
      rw [append_hash _ _ _ hh, take_append_sub s (by omega), lastN_of_le (by simp)]
    have hnocut : ∀ k, k ≤ 32 → ¬ cutAt p (s.take k) := by
      intro k hk hc
      have := hc.1
      simp at this; omega
    by_cases he : e < 32
    · left
      refine ⟨{ state := st.state.append (Spec.sub s need (min 32 e)), offset := e }, ?_, ⟨rfl, hes, by simp; omega, ?_⟩, ?_⟩
      · rw [Zstd.findChunkEdge, if_pos (by rw [ho']; simp only [rsyncLength]; omega), hseed]
        have e1 : st.offset + (Spec.sub s need (min 32 e)).length = e := by omega
        have e2 : e - 32 - 0 = 0 := by omega
        simp only [e1, e2]
        rw [if_pos (by simpa [rsyncLength] using he)]
      · have : min 32 e = e := by omega
        rw [this] at hh'
        simp only [this]; exact hh'
      · intro k h1 h2; exact hnocut k (by omega)
    · have hmin : min 32 e = 32 := by omega
      rw [hmin] at hslen hh' hseed
      have hfce : p.findChunkEdge st (Spec.sub s 0 e) = p.findChunkEdgeFull
          { state := st.state.append (Spec.sub s need 32), offset := 32 } (Spec.sub s (32 - 32) e) := by
        rw [Zstd.findChunkEdge, if_pos (by rw [ho']; simp only [rsyncLength]; omega), hseed]
        have e1 : st.offset + (Spec.sub s need 32).length = 32 := by omega
        simp only [e1]
        rw [if_neg (by simp [rsyncLength])]
      rw [hfce]
      rcases fceFull_spec hp (Nat.le_refl 32) (by omega : 32 ≤ e) hes (st := { state := st.state.append (Spec.sub s need 32), offset := 32 })
          rfl hh' with ⟨st', h1, h2, h3, h4⟩ | ⟨st', n, h1, h2, h3, h4, h5, h6, h7⟩
      · left
        refine ⟨st', ?_, ⟨rfl, hes, by omega, h3⟩, ?_⟩
        · rw [h1]; congr 3
        · intro k hk1 hk2
          by_cases hk : k ≤ 32
          · exact hnocut k hk
          · exact h4 k (by omega) hk2
      · right
        refine ⟨st', n, ?_, h2, h3, by omega, h5, h6, ?_⟩
        · rw [h1]; congr 3
        · intro k hk1 hk2
          by_cases hk : k ≤ 32
          · exact hnocut k hk
          · exact h7 k (by omega) hk2

theorem good_init (s : Bytes) : Good s ZstdSearchState.default 0 0 :=
  ⟨rfl, Nat.zero_le _, rfl, by simp [lastN]; rfl⟩

/-- absolute cut positions versus the rule -/
theorem edge_take (p : Zstd) (s : Bytes) {prev k : Nat} (h : prev ≤ k) :
    zstdEdge p.hitMask (s.take prev) (Spec.sub s prev k) ↔ cutAt p (s.take k) := by
  rw [zstdEdge, take_append_sub s h]

theorem rule_of_cut (p : Zstd) (s : Bytes) {prev n e : Nat} (h1 : prev < n) (h2 : n ≤ e) (h3 : e ≤ s.length)
    (hc : cutAt p (s.take n)) (hno : ∀ k, prev < k → k < n → ¬ cutAt p (s.take k)) :
    EdgeRule (zstdEdge p.hitMask) (s.take prev) (Spec.sub s prev e) (n - prev) := by
  refine ⟨by omega, by rw [sub_length]; omega, ?_, ?_⟩
  · rw [sub_take_of_le s (b := n) h2 _ (by omega), edge_take p s (by omega)]; exact hc
  · intro m hm1 hm2
    rw [sub_take_of_le s (b := prev + m) (by omega) _ rfl, edge_take p s (by omega)]
    exact hno _ (by omega) (by omega)

theorem no_rule (p : Zstd) (s : Bytes) {prev e : Nat} (h3 : e ≤ s.length)
    (hno : ∀ k, prev < k → k ≤ e → ¬ cutAt p (s.take k)) (n : Nat) :
    ¬ EdgeRule (zstdEdge p.hitMask) (s.take prev) (Spec.sub s prev e) n := by
  rintro ⟨h1, h2, hc, _⟩
  rw [sub_length] at h2
  rw [sub_take_of_le s (b := prev + n) (by omega) _ rfl, edge_take p s (by omega)] at hc
  exact hno _ (by omega) (by omega) hc

/-- The search state fits and nothing was missed since the last cut. -/
def RunInv (p : Zstd) (s : Bytes) (st : ZstdSearchState) (base need prev : Nat) : Prop :=
  Good s st base need ∧ prev ≤ need ∧ ∀ k, prev < k → k ≤ need → ¬ cutAt p (s.take k)

theorem RunInv.more {p : Zstd} (hp : p.Wf) {s : Bytes} {st st' : ZstdSearchState} {base need prev e d : Nat}
    (h : RunInv p s st base need prev) (h1 : need ≤ e) (h2 : e ≤ s.length)
    (hf : p.findChunkEdge st (Spec.sub s base e) = .ok (st', none, d)) :
    RunInv p s st' (base + d) e prev := by
  obtain ⟨hgood, hle, hno⟩ := h
  rcases fce_spec hp hgood h1 h2 with ⟨st2, hf2, k1, k2⟩ | ⟨st2, n, hf2, _⟩
  · rw [hf] at hf2
    cases hf2
    have hb := hgood.1
    have e1 : base + (e - 32 - base) = e - 32 := by omega
    rw [e1]
    refine ⟨k1, by omega, ?_⟩
    intro k a b
    by_cases hk : k ≤ need
    · exact hno k a hk
    · exact k2 k (by omega) b
  · rw [hf] at hf2; cases hf2

/-- A cut reported by a call, and the state after it if it is at the end of the buffer. -/
theorem RunInv.cut {p : Zstd} (hp : p.Wf) {s : Bytes} {st st' : ZstdSearchState} {base need prev e c d : Nat}
    (h : RunInv p s st base need prev) (h1 : need ≤ e) (h2 : e ≤ s.length)
    (hf : p.findChunkEdge st (Spec.sub s base e) = .ok (st', some c, d)) :
    need < base + c ∧ base + c ≤ e ∧
    (base + c = e → RunInv p s st' (base + d) (max (base + d) (base + c)) (base + c)) := by
  obtain ⟨hgood, hle, hno⟩ := h
  rcases fce_spec hp hgood h1 h2 with ⟨st2, hf2, _⟩ | ⟨st2, n, hf2, k1, k2, k3, k4, k5, k6⟩
  · rw [hf] at hf2; cases hf2
  · rw [hf] at hf2
    cases hf2
    have hb := hgood.1
    have e1 : base + (n - base) = n := by omega
    rw [e1]
    refine ⟨k3, k4, ?_⟩
    rintro rfl
    have e2 : max (base + (n - 32 - base)) n = n := by omega
    rw [e2]
    have h32 : 32 < n := by have := k5.1; simp at this; omega
    exact ⟨⟨by omega, h2, by rw [k1]; omega, k2⟩, Nat.le_refl _, by intro k a b; omega⟩

/-- The call after a history that satisfies the invariant is as the rule says. -/
theorem RunInv.next {p : Zstd} (hp : p.Wf) {s : Bytes} {st : ZstdSearchState} {base need prev e : Nat}
    (h : RunInv p s st base need prev) (h1 : need ≤ e) (h2 : e ≤ s.length) :
    ∃ st' r d, p.findChunkEdge st (Spec.sub s base e) = .ok (st', r, d) ∧ base + d ≤ e ∧
      (r = none → ∀ n, ¬ EdgeRule (zstdEdge p.hitMask) (s.take prev) (Spec.sub s prev e) n) ∧
      (∀ c, r = some c → prev ≤ base + c ∧ base + c ≤ e ∧
        EdgeRule (zstdEdge p.hitMask) (s.take prev) (Spec.sub s prev e) (base + c - prev)) := by
  obtain ⟨hgood, hle, hno⟩ := h
  have hb := hgood.1
  rcases fce_spec hp hgood h1 h2 with ⟨st2, hf2, k1, k2⟩ | ⟨st2, n, hf2, k1, k2, k3, k4, k5, k6⟩
  · refine ⟨st2, none, _, hf2, by omega, fun _ => ?_, (by intro c hc; cases hc)⟩
    apply no_rule p s h2
    intro k a b
    by_cases hk : k ≤ need
    · exact hno k a hk
    · exact k2 k (by omega) b
  · refine ⟨st2, some (n - base), _, hf2, by omega, (by intro hc; cases hc), ?_⟩
    intro c hc
    cases hc
    have e1 : base + (n - base) = n := by omega
    rw [e1]
    refine ⟨by omega, k4, ?_⟩
    apply rule_of_cut p s (by omega) k4 h2 k5
    intro k a b
    by_cases hk : k ≤ need
    · exact hno k a hk
    · exact k6 k (by omega) b

theorem init_run (p : Zstd) (s : Bytes) : RunInv p s ZstdSearchState.default 0 0 0 :=
  ⟨good_init s, Nat.le_refl _, by intro k h1 h2; omega⟩

theorem conforms_of {p : Zstd} (hp : p.Wf) {G : Nat → Nat → Nat → Prop}
    (hrun : ∀ s st base need prev cs e, FceRun (chunk p) G s st base need prev cs → G prev need e →
      RunInv p s st base need prev) :
    FceConforms (chunk p) G (EdgeRule (zstdEdge p.hitMask)) := by
  intro s st base need prev cs hr e h1 h2 hg
  obtain ⟨st', r, d, hf, hle, hnone, hsome⟩ := (hrun _ _ _ _ _ _ _ hr hg).next hp h1 h2
  refine ⟨st', r, d, hf, hle, ?_⟩
  cases r with
  | none => exact hnone rfl
  | some c => exact hsome c rfl

/-- Every cut, if buffers grow by one byte at a time. -/
theorem fce_conforms_bytewise (p : Zstd) (hp : p.Wf) :
    FceConforms (chunk p) (fun _ need e => e ≤ need + 1) (EdgeRule (zstdEdge p.hitMask)) := by
  apply conforms_of hp
  intro s st base need prev cs e hr hg
  clear hg e
  induction hr with
  | start => exact init_run p s
  | @cut st base need prev cs e st' c d hr h1 h2 hg hf ih =>
    obtain ⟨a, b, h⟩ := ih.cut hp h1 h2 hf
    exact h (by omega)
  | @more st base need prev cs e st' d hr h1 h2 hg hf ih => exact ih.more hp h1 h2 hf

/-- The first cut, for every schedule. -/
theorem fce_conforms_first (p : Zstd) (hp : p.Wf) :
    FceConforms (chunk p) (fun prev _ _ => prev = 0) (EdgeRule (zstdEdge p.hitMask)) := by
  apply conforms_of hp
  intro s st base need prev cs e hr hg
  clear e
  revert hg
  induction hr with
  | start => intro _; exact init_run p s
  | @cut st base need prev cs e st' c d hr h1 h2 hg hf ih =>
    intro h0
    obtain ⟨a, _, _⟩ := (ih hg).cut hp h1 h2 hf
    omega
  | @more st base need prev cs e st' d hr h1 h2 hg hf ih => intro h0; exact (ih h0).more hp h1 h2 hf

end HashRoll.Zstd
