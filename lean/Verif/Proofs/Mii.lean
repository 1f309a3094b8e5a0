import Verif.Proofs.Conform
import Verif.Proofs.Sums
import Verif.Model.Mii
/-!
# Mii conforms to its rules
-/

namespace HashRoll.Mii

open Spec

theorem lastN_snoc (n : Nat) (q : Bytes) (v : UInt8) : lastN (n + 1) (q ++ [v]) = lastN n q ++ [v] := by
  unfold lastN
  rw [List.length_append, List.length_singleton, List.drop_append_of_le_length (by omega)]
  congr 2
  omega

theorem lastN_one_snoc (q : Bytes) (v : UInt8) : lastN 1 (q ++ [v]) = [v] := by
  rw [lastN_snoc 0]; simp [lastN]

theorem Increasing.snoc {l : Bytes} {v : UInt8} :
    Increasing (l ++ [v]) ↔ Increasing l ∧ ∀ x ∈ l, x < v := by
  simp [Increasing, List.pairwise_append]

/-- shorter suffixes of an increasing suffix are increasing -/
theorem Increasing.lastN_mono {m n : Nat} (h : m ≤ n) {q : Bytes} (hi : Increasing (lastN n q)) :
    Increasing (lastN m q) := by
  have : lastN m q = (lastN n q).drop ((q.length - m) - (q.length - n)) := by
    unfold lastN
    rw [List.drop_drop]; congr 1; omega
  rw [this]
  exact List.Pairwise.sublist (List.drop_sublist _ _) hi

/-- `increment` is the length of the run of increments at the end of `q`, `prev` its last byte. -/
structure Run (w : Nat) (st : MiiIncr) (q : Bytes) : Prop where
  hw   : st.w = w
  last : q.getLast? = some st.prev
  le   : st.increment + 1 ≤ q.length
  run  : Increasing (lastN (st.increment + 1) q)
  max  : st.increment + 2 ≤ q.length → ¬ Increasing (lastN (st.increment + 2) q)
  lt   : w = 0 ∨ st.increment < w

theorem Run.single (w : Nat) (v : UInt8) : Run w { w := w, prev := v, increment := 0 } [v] where
  hw := rfl
  last := rfl
  le := by simp
  run := by simp [lastN, Increasing]
  max := by simp
  lt := by simp only []; omega

/-- body of the loop of `push` -/
def body (i : Nat) (b : UInt8) (self : MiiIncr) : R (Flow MiiIncr (Option Nat)) :=
  if b > self.prev then
    let self := { self with increment := self.increment + 1 }
    if self.increment = self.w then
      .ok (.ret { self with increment := 0, prev := 0 } (some (i + 1)))
    else .ok (.next { self with prev := b })
  else .ok (.next { self with increment := 0, prev := b })

theorem push_eq (st : MiiIncr) (data : Bytes) : st.push data =
    match forEnum body 0 data st with
    | .error e => .error e
    | .ok (.ret self r) => .ok (self, r)
    | .ok (.next self)  => .ok (self, none) := rfl

theorem last_lt {l : Bytes} {p v : UInt8} (hl : l.getLast? = some p) (hi : Increasing l) (h : p < v) :
    ∀ x ∈ l, x < v := by
  obtain ⟨l', rfl⟩ := List.getLast?_eq_some_iff.1 hl
  intro x hx
  rcases List.mem_append.1 hx with hx | hx
  · exact UInt8.lt_trans ((Increasing.snoc.1 hi).2 x hx) h
  · rw [List.mem_singleton.1 hx]; exact h

theorem lastN_getLast? {n : Nat} {q : Bytes} (hn : 1 ≤ n) (hq : n ≤ q.length) :
    (lastN n q).getLast? = q.getLast? := by
  unfold lastN
  rw [List.getLast?_drop]
  simp; omega

/-- One byte. -/
theorem step {w : Nat} {st : MiiIncr} {q : Bytes} (h : Run w st q) (i : Nat) (b : UInt8) :
    (∃ st', body i b st = .ok (.next st') ∧ Run w st' (q ++ [b]) ∧ ¬ miiEdge w (q ++ [b])) ∨
    (body i b st = .ok (.ret { w := w, prev := 0, increment := 0 } (some (i + 1))) ∧
      miiEdge w (q ++ [b])) := by
  obtain ⟨hw, hlast, hle, hrun, hmax, hlt⟩ := h
  have hlastN : (lastN (st.increment + 1) q).getLast? = some st.prev := by
    rw [lastN_getLast? (by omega) hle, hlast]
  by_cases hb : st.prev < b
  · have hrun' : Increasing (lastN (st.increment + 1 + 1) (q ++ [b])) := by
      rw [lastN_snoc, Increasing.snoc]
      exact ⟨hrun, last_lt hlastN hrun hb⟩
    have hmax' : st.increment + 1 + 2 ≤ (q ++ [b]).length →
        ¬ Increasing (lastN (st.increment + 1 + 2) (q ++ [b])) := by
      intro hl hinc
      rw [show st.increment + 1 + 2 = st.increment + 2 + 1 by omega, lastN_snoc, Increasing.snoc] at hinc
      exact hmax (by simp at hl; omega) hinc.1
    by_cases he : st.increment + 1 = w
    · right
      refine ⟨?_, by omega, by simp; omega, ?_⟩
      · simp [body, hb, hw, he]
      · rw [← he]; exact hrun'
    · left
      refine ⟨{ st with increment := st.increment + 1, prev := b }, ?_, ⟨hw, by simp, by simp; omega,
        hrun', hmax', by simp only []; omega⟩, ?_⟩
      · simp [body, hb, hw, he]
      · rintro ⟨h1, h2, h3⟩
        exact hmax' (by omega) (Increasing.lastN_mono (by omega) h3)
  · left
    have hmax' : ¬ Increasing (lastN (0 + 2) (q ++ [b])) := by
      rw [lastN_snoc, Increasing.snoc]
      rintro ⟨_, h⟩
      apply hb
      apply h
      have : (lastN (0 + 1) q).getLast? = some st.prev := by
        rw [lastN_getLast? (by omega) (by omega), hlast]
      exact List.mem_of_getLast? this
    refine ⟨{ st with increment := 0, prev := b }, ?_, ⟨hw, by simp, by simp, ?_, fun _ => hmax',
      by simp only []; omega⟩, ?_⟩
    · simp [body, hb]
    · show Increasing (lastN 1 _)
      rw [lastN_one_snoc]; simp [Increasing]
    · rintro ⟨h1, h2, h3⟩
      exact hmax' (Increasing.lastN_mono (by omega) h3)

/-- A preceding `0xff` never takes part in an increasing run. -/
theorem edge_ff (w : Nat) (p : Bytes) : miiEdge w (0xff :: p) ↔ miiEdge w p := by
  unfold miiEdge
  constructor
  · rintro ⟨h1, h2, h3⟩
    have hlen : w + 1 ≤ p.length := by
      by_contra hlt
      have hw : w + 1 = p.length + 1 := by simp at h2; omega
      rw [lastN_of_le (by simp; omega)] at h3
      cases p with
      | nil => simp at hw; omega
      | cons x xs =>
        have := (List.pairwise_cons.1 h3).1 x (by simp)
        rw [UInt8.lt_iff_toNat_lt] at this
        have h4 := x.toNat_lt
        simp at this; omega
    refine ⟨h1, hlen, ?_⟩
    rwa [show (0xff :: p : Bytes) = [0xff] ++ p from rfl, lastN_append_right _ hlen] at h3
  · rintro ⟨h1, h2, h3⟩
    refine ⟨h1, by simp; omega, ?_⟩
    rwa [show (0xff :: p : Bytes) = [0xff] ++ p from rfl, lastN_append_right _ h2]

/-- the byte that seems to precede the chunk -/
def before (hist : Bytes) : UInt8 := if hist = [] then 0xff else 0

theorem incrEdge_iff (w : Nat) (h p : Bytes) : miiIncrEdge w h p ↔ miiEdge w (before h :: p) := by
  unfold miiIncrEdge before
  split
  · rw [edge_ff]
  · rfl

def incrLoop (p : Mii) : LoopSpec (incr p) (miiIncrEdge p.w) where
  body := body
  push_ret := fun st data st' r h => (push_eq st data).trans (by rw [h])
  push_next := fun st data st' h => (push_eq st data).trans (by rw [h])
  Inv st h c := Run p.w st (before h :: c)
  init := Run.single _ _
  step := by
    intro i v st h c hi
    rw [incrEdge_iff]
    rcases step hi i v with ⟨st', h1, h2, h3⟩ | ⟨h1, h2⟩
    · exact .inl ⟨st', h1, h2, h3⟩
    · right
      refine ⟨_, h1, ?_, h2⟩
      have : before (h ++ (c ++ [v])) = 0 := by simp [before]
      rw [this]
      exact Run.single _ _

theorem incr_conforms (p : Mii) : IncrConforms (incr p) (EdgeRule (miiIncrEdge p.w)) :=
  (incrLoop p).conforms

theorem bytewise_conforms (p : Mii) : BytewiseConforms (incr p) (EdgeRule (miiIncrEdge p.w)) :=
  (incrLoop p).bytewise

def fceSpec (p : Mii) : FceSpec (chunk p) (fun _ => True) (FirstCut (miiEdge p.w)) where
  Inv st c k := Run p.w st.incr (0xff :: c) ∧ NoEdge (miiEdge p.w) c ∧ k = 0
  init := ⟨Run.single _ _, NoEdge.nil _, rfl⟩
  step := by
    rintro st c k ⟨hi, hno, rfl⟩ - new -
    simp only [Nat.sub_zero, List.drop_length, List.nil_append, Nat.zero_add]
    have hno2 : NoEdge (miiIncrEdge p.w []) c := hno
    have hcut2 : ∀ d n, FirstCut (miiIncrEdge p.w []) d n → FirstCut (miiEdge p.w) d n := fun d n h => h
    rcases (incrLoop p).push_spec st.incr [] c hi hno2 new with
      ⟨st', hp, hinv, hno'⟩ | ⟨st', i, hp, hlt, hinv, hcut⟩
    · have hp' : st.incr.push new = .ok (st', none) := hp
      refine ⟨⟨st'⟩, none, new.length, ?_, Nat.le_refl _, ⟨hinv, hno', by omega⟩, NoEdge.not_firstCut hno'⟩
      simp [Mii.findChunkEdge, MiiSearchState.push, hp']
    · have hp' : st.incr.push new = .ok (st', some (i + 1)) := hp
      have hw : st'.w = p.w := hinv.hw
      refine ⟨⟨st'.reset⟩, some (i + 1), i + 1, ?_, rfl, by omega, ⟨?_, NoEdge.nil _, trivial⟩, hcut2 _ _ hcut⟩
      · simp [Mii.findChunkEdge, MiiSearchState.push, hp', MiiSearchState.reset]
      · simp only [MiiIncr.reset, hw]; exact Run.single _ _

theorem fce_conforms (p : Mii) : FceConforms (chunk p) Any (EdgeRule (Local (miiEdge p.w))) :=
  (fceSpec p).conforms

end HashRoll.Mii
