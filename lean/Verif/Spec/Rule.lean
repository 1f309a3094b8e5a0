import Verif.Model.Traits
/-!
# What it means to cut a stream by a rule

This file does not mention any algorithm. It only uses the trait shapes `Chunk` and `ChunkIncr`.
-/

namespace HashRoll.Spec

/-- `s[a..b]` -/
def sub (s : Bytes) (a b : Nat) : Bytes := (s.take b).drop a

/-- A cut rule: `rule hist data n` reads "after `hist` has been cut off, the next chunk of `data` is its
first `n` bytes". -/
abbrev Rule := (hist data : Bytes) → (n : Nat) → Prop

/-- The least non-empty prefix of `data` satisfying `e` has length `n`. -/
def FirstCut (e : Bytes → Prop) (data : Bytes) (n : Nat) : Prop :=
  1 ≤ n ∧ n ≤ data.length ∧ e (data.take n) ∧ ∀ m, 1 ≤ m → m < n → ¬ e (data.take m)

/-- The chunk ends with the first byte at which the edge predicate `e hist chunk` holds. -/
def EdgeRule (e : Bytes → Bytes → Prop) : Rule := fun hist data n => FirstCut (e hist) data n

/-- An edge predicate that does not look at what came before the chunk. -/
def Local (e : Bytes → Prop) : Bytes → Bytes → Prop := fun _ cur => e cur

/-- The chunk ends just *before* the first byte at which the edge predicate holds. -/
def BeforeRule (e : Bytes → Bytes → Prop) : Rule := fun hist data n => FirstCut (e hist) data (n + 1)

/-- `data` (coming after `hist`) is split by `rule` into the complete chunks `cs` and the remainder `r`. -/
inductive Chunked (rule : Rule) : (hist data : Bytes) → (cs : List Bytes) → (r : Bytes) → Prop
  | rem {hist data} : (∀ n, ¬ rule hist data n) → Chunked rule hist data [] data
  | cut {hist data n cs r} : rule hist data n →
      Chunked rule (hist ++ data.take n) (data.drop n) cs r →
      Chunked rule hist data (data.take n :: cs) r

/-- A rule is usable: chunks lie inside the data, the next chunk is unique and does not change when data
is appended. -/
structure Rule.Good (rule : Rule) : Prop where
  le   : ∀ {hist data n}, rule hist data n → n ≤ data.length
  det  : ∀ {hist data n m}, rule hist data n → rule hist data m → n = m
  mono : ∀ {hist data n} (more), rule hist data n → rule hist (data ++ more) n

/-- No empty chunks. -/
def Rule.Pos (rule : Rule) : Prop := ∀ hist data n, rule hist data n → 1 ≤ n

/-- The rule does not look at what was cut off before. -/
def Rule.Fresh (rule : Rule) : Prop := ∀ h h' data n, rule h data n → rule h' data n

/-! ## `find_chunk_edge` -/

/-- A history of `find_chunk_edge` calls on the stream `s` that respects the documented contract
(src/lib.rs:289-365). The next buffer starts at stream position `base` (everything before was discarded)
and must reach at least to `need` (bytes already presented are presented again unless discarded); it may
end anywhere from there on, so any amount of data can be appended between two calls. `prev` is the position
of the last cut, `cs` the chunks found. `G prev need e` is an extra condition on where buffers end. -/
inductive FceRun (A : Chunk) (G : (prev need e : Nat) → Prop) (s : Bytes) :
    A.State → (base need prev : Nat) → (cs : List Bytes) → Prop
  | start : FceRun A G s A.init 0 0 0 []
  | cut {st base need prev cs e st' c d} : FceRun A G s st base need prev cs →
      need ≤ e → e ≤ s.length → G prev need e →
      A.fce st (sub s base e) = .ok (st', some c, d) →
      FceRun A G s st' (base + d) (max (base + d) (base + c)) (base + c) (cs ++ [sub s prev (base + c)])
  | more {st base need prev cs e st' d} : FceRun A G s st base need prev cs →
      need ≤ e → e ≤ s.length → G prev need e →
      A.fce st (sub s base e) = .ok (st', none, d) →
      FceRun A G s st' (base + d) e prev cs

/-- Any schedule of buffers. -/
def Any : (prev need e : Nat) → Prop := fun _ _ _ => True

/-- `find_chunk_edge` implements `rule`: after any history, the next call does not panic, discards at most
the buffer, reports a cut exactly when the rule has one in the data presented so far, and at the place the
rule says. -/
def FceConforms (A : Chunk) (G : (prev need e : Nat) → Prop) (rule : Rule) : Prop :=
  ∀ s st base need prev cs, FceRun A G s st base need prev cs →
    ∀ e, need ≤ e → e ≤ s.length → G prev need e →
      ∃ st' r d, A.fce st (sub s base e) = .ok (st', r, d) ∧ base + d ≤ e ∧
        match r with
        | none   => ∀ n, ¬ rule (s.take prev) (sub s prev e) n
        | some c => prev ≤ base + c ∧ base + c ≤ e ∧
                    rule (s.take prev) (sub s prev e) (base + c - prev)

/-! ## `push` -/

/-- A history of `push` calls on the stream `s`: arbitrary slices `s[pos..e]`; after a cut the rest of the
slice is pushed again (as `iter_slices` does), possibly together with more data. -/
inductive IncrRun (C : ChunkIncr) (s : Bytes) :
    C.State → (pos prev : Nat) → (cs : List Bytes) → Prop
  | start : IncrRun C s C.init 0 0 []
  | cut {st pos prev cs e st' i} : IncrRun C s st pos prev cs →
      pos ≤ e → e ≤ s.length →
      C.push st (sub s pos e) = .ok (st', some i) →
      IncrRun C s st' (pos + i) (pos + i) (cs ++ [sub s prev (pos + i)])
  | more {st pos prev cs e st'} : IncrRun C s st pos prev cs →
      pos ≤ e → e ≤ s.length →
      C.push st (sub s pos e) = .ok (st', none) →
      IncrRun C s st' e prev cs

/-- `push` implements `rule` for every slicing. -/
def IncrConforms (C : ChunkIncr) (rule : Rule) : Prop :=
  ∀ s st pos prev cs, IncrRun C s st pos prev cs →
    ∀ e, pos ≤ e → e ≤ s.length →
      ∃ st' r, C.push st (sub s pos e) = .ok (st', r) ∧
        match r with
        | none   => ∀ n, ¬ rule (s.take prev) (sub s prev e) n
        | some i => pos + i ≤ e ∧ rule (s.take prev) (sub s prev e) (pos + i - prev)

/-- A history of one-byte `push` calls; whatever index a successful push returns, the cut is after the byte
(tests/cuts.rs:12-35). -/
inductive ByteRun (C : ChunkIncr) (s : Bytes) :
    C.State → (pos prev : Nat) → (cs : List Bytes) → Prop
  | start : ByteRun C s C.init 0 0 []
  | cut {st pos prev cs st' i} : ByteRun C s st pos prev cs → pos < s.length →
      C.push st (sub s pos (pos + 1)) = .ok (st', some i) →
      ByteRun C s st' (pos + 1) (pos + 1) (cs ++ [sub s prev (pos + 1)])
  | more {st pos prev cs st'} : ByteRun C s st pos prev cs → pos < s.length →
      C.push st (sub s pos (pos + 1)) = .ok (st', none) →
      ByteRun C s st' (pos + 1) prev cs

/-- One-byte `push` calls implement `rule`. -/
def BytewiseConforms (C : ChunkIncr) (rule : Rule) : Prop :=
  ∀ s st pos prev cs, ByteRun C s st pos prev cs → pos < s.length →
    ∃ st' r, C.push st (sub s pos (pos + 1)) = .ok (st', r) ∧
      match r with
      | none   => ∀ n, ¬ rule (s.take prev) (sub s prev (pos + 1)) n
      | some _ => rule (s.take prev) (sub s prev (pos + 1)) (pos + 1 - prev)

end HashRoll.Spec
