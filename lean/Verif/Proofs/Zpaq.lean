import Verif.Proofs.Conform
import Verif.Proofs.Sums
import Verif.Model.Zpaq
/-!
# Zpaq conforms to its rules
-/

namespace HashRoll

theorem lookup_store {α : Type} (t : Vector α 256) (b b' : UInt8) (x : α) :
    lookup (store t b x) b' = if b = b' then x else lookup t b' := by
  unfold lookup store
  by_cases h : b = b'
  · subst h; simp
  · have : b.toNat ≠ b'.toNat := fun hn => h (UInt8.toNat_inj.1 hn)
    simp [h, Vector.getElem_set_ne _ _ this]

end HashRoll

namespace HashRoll.Zpaq

open Spec

/-- what is predicted after `t` (newest first) in the context `x` -/
def predictIn (t : Bytes) (x : UInt8) : UInt8 :=
  match t.tail.findIdx? (· = x) with
  | some j => t.getD j 0
  | none   => 0

theorem predict_eq (older : Bytes) : zpaqPredict older = predictIn (older ++ [0]) ((older ++ [0]).headD 0) := rfl

theorem predictIn_cons (v h : UInt8) (t : Bytes) (x : UInt8) :
    predictIn (v :: h :: t) x = if h = x then v else predictIn (h :: t) x := by
  unfold predictIn
  simp only [List.tail_cons, List.findIdx?_cons]
  by_cases hx : h = x
  · simp [hx]
  · simp only [hx, decide_false, if_false, Bool.false_eq_true]
    cases List.findIdx? (fun x_1 => decide (x_1 = x)) t <;> simp

/-- the state after the bytes `c` -/
structure HashInv (st : ZpaqHash) (c : Bytes) : Prop where
  hash : st.hash = zpaqHash c
  last : st.lastByte = (c.reverse ++ [0]).headD 0
  pred : ∀ x, lookup st.predictedByte x = predictIn (c.reverse ++ [0]) x

theorem HashInv.default : HashInv ZpaqHash.default [] where
  hash := rfl
  last := rfl
  pred := by
    intro x
    simp [lookup, ZpaqHash.default, predictIn]

theorem HashInv.feed {st : ZpaqHash} {c : Bytes} (h : HashInv st c) (v : UInt8) :
    HashInv (st.feed v) (c ++ [v]) where
  hash := by
    have hp : lookup st.predictedByte st.lastByte = zpaqPredict c.reverse := by
      rw [h.pred, h.last, predict_eq]
    simp only [ZpaqHash.feed, zpaqHash, List.reverse_append, List.reverse_cons, List.reverse_nil,
      List.nil_append, List.singleton_append, zpaqHashRev, hp, h.hash]
    split <;> rfl
  last := by simp [ZpaqHash.feed]
  pred := by
    intro x
    simp only [ZpaqHash.feed, lookup_store, h.pred, h.last]
    have hrev : (c ++ [v]).reverse ++ [0] = v :: (c.reverse ++ [0]) := by simp
    rw [hrev]
    cases hc : c.reverse ++ [0] with
    | nil => simp at hc
    | cons y ys => rw [predictIn_cons]; simp

theorem underMin_iff (r : Bounds Nat) (n : Nat) : r.underMin n = true ↔ Below r.start n := by
  unfold Bounds.underMin Below
  cases r.start <;> simp

theorem exceedsMax_iff (r : Bounds Nat) (n : Nat) : r.exceedsMax n = true ↔ Beyond r.stop n := by
  unfold Bounds.exceedsMax Beyond
  cases r.stop <;> simp

theorem splitHere_iff (p : Zpaq) (h : BitVec 32) (n : Nat) :
    p.splitHere h n = true ↔ (h < p.maxHash ∧ ¬ Below p.range.start n) ∨ Beyond p.range.stop n := by
  simp [Zpaq.splitHere, ← underMin_iff, ← exceedsMax_iff]

/-- the edge predicate of `find_chunk_edge` -/
abbrev fceEdge (p : Zpaq) : Bytes → Prop := zpaqEdge p.range.start p.range.stop p.maxHash 1
/-- the edge predicate of `push` -/
abbrev incrEdge (p : Zpaq) : Bytes → Prop := zpaqEdge p.range.start p.range.stop p.maxHash 0

/-- body of the loop of `find_chunk_edge` -/
def fceBody (p : Zpaq) (i : Nat) (v : UInt8) (state : ZpaqSearchState) :
    R (Flow ZpaqSearchState (Option Nat × Nat)) :=
  let (state, h) := state.feed v
  if p.splitHere h (state.idx + 1) then
    .ok (.ret ZpaqSearchState.default (some (i + 1), i + 1))
  else .ok (.next state)

theorem fce_eq (p : Zpaq) (st : ZpaqSearchState) (data : Bytes) : p.findChunkEdge st data =
    match forEnum (fceBody p) 0 data st with
    | .error e => .error e
    | .ok (.ret st r) => .ok (st, r)
    | .ok (.next st)  => .ok (st, none, data.length) := rfl

def fceLoop (p : Zpaq) : FceLoopSpec (chunk p) (fceEdge p) where
  body := fceBody p
  fce_ret := fun st data st' r h => (fce_eq p st data).trans (by rw [h])
  fce_next := fun st data st' h => (fce_eq p st data).trans (by rw [h])
  Inv st c := HashInv st.state c ∧ st.idx = c.length
  init := ⟨HashInv.default, rfl⟩
  step := by
    rintro i v st c ⟨hi, hx⟩
    have hf := hi.feed v
    have hs := splitHere_iff p (st.state.feed v).hash (st.idx + 1 + 1)
    have hedge : fceEdge p (c ++ [v]) ↔ p.splitHere (st.state.feed v).hash (st.idx + 1 + 1) = true := by
      rw [hs, hf.hash, hx]
      simp only [fceEdge, zpaqEdge, List.length_append, List.length_singleton]
    by_cases h : fceEdge p (c ++ [v])
    · right
      refine ⟨ZpaqSearchState.default, ?_, ⟨HashInv.default, rfl⟩, h⟩
      simp [fceBody, ZpaqSearchState.feed, hedge.1 h]
    · left
      refine ⟨{ idx := st.idx + 1, state := st.state.feed v }, ?_, ⟨hf, by simp [hx]⟩, h⟩
      have h' : p.splitHere (st.state.feed v).hash (st.idx + 1 + 1) = false := by
        rw [hedge] at h; simpa using h
      simp [fceBody, ZpaqSearchState.feed, h']

theorem fce_conforms (p : Zpaq) : FceConforms (chunk p) Any (EdgeRule (Local (fceEdge p))) :=
  (fceLoop p).conforms

/-- body of the loop of `push` -/
def pushBody (i : Nat) (v : UInt8) (self : ZpaqIncr) : R (Flow ZpaqIncr (Option Nat)) :=
  let (self, h) := self.feed v
  if self.params.splitHere h self.idx then .ok (.ret self.reset (some (i + 1)))
  else .ok (.next self)

theorem push_eq (st : ZpaqIncr) (data : Bytes) : st.push data =
    match forEnum pushBody 0 data st with
    | .error e => .error e
    | .ok (.ret self r) => .ok (self, r)
    | .ok (.next self)  => .ok (self, none) := rfl

def incrLoop (p : Zpaq) : LoopSpec (incr p) (Local (incrEdge p)) where
  body := pushBody
  push_ret := fun st data st' r h => (push_eq st data).trans (by rw [h])
  push_next := fun st data st' h => (push_eq st data).trans (by rw [h])
  Inv st _ c := st.params = p ∧ HashInv st.state c ∧ st.idx = c.length
  init := ⟨rfl, HashInv.default, rfl⟩
  step := by
    rintro i v st _ c ⟨hp, hi, hx⟩
    have hf := hi.feed v
    have hs := splitHere_iff p (st.state.feed v).hash (st.idx + 1)
    have hedge : incrEdge p (c ++ [v]) ↔ p.splitHere (st.state.feed v).hash (st.idx + 1) = true := by
      rw [hs, hf.hash, hx]
      simp only [incrEdge, zpaqEdge, List.length_append, List.length_singleton, Nat.add_zero]
    by_cases h : incrEdge p (c ++ [v])
    · right
      refine ⟨ZpaqIncr.from p, ?_, ⟨rfl, HashInv.default, rfl⟩, h⟩
      simp [pushBody, ZpaqIncr.feed, hp, hedge.1 h, ZpaqIncr.reset, ZpaqIncr.from]
    · left
      refine ⟨{ st with idx := st.idx + 1, state := st.state.feed v }, ?_, ⟨hp, hf, by simp [hx]⟩, h⟩
      have h' : p.splitHere (st.state.feed v).hash (st.idx + 1) = false := by
        rw [hedge] at h; simpa using h
      simp [pushBody, ZpaqIncr.feed, hp, h']

theorem incr_conforms (p : Zpaq) : IncrConforms (incr p) (EdgeRule (Local (incrEdge p))) :=
  (incrLoop p).conforms

theorem bytewise_conforms (p : Zpaq) : BytewiseConforms (incr p) (EdgeRule (Local (incrEdge p))) :=
  (incrLoop p).bytewise

end HashRoll.Zpaq
