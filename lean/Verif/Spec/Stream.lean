import Verif.Spec.Rule
/-!
# What the callers of the traits rely on
-/

namespace HashRoll.Spec

/-- What `iter_slices` yields for the bytes after the last cut. -/
def tailSlice (r : Bytes) : List Bytes := if r = [] then [] else [r]

/-- States of an incremental chunker after any sequence of `push` calls (with any data at all). -/
inductive Reachable (C : ChunkIncr) : C.State → Prop
  | init : Reachable C C.init
  | push {st data st' r} : Reachable C st → C.push st data = .ok (st', r) → Reachable C st'

/-- After any sequence of pushes, `push` does not panic and returns an index inside the slice. -/
def Safe (C : ChunkIncr) : Prop :=
  ∀ st, Reachable C st → ∀ data, ∃ st' r, C.push st data = .ok (st', r) ∧ ∀ i ∈ r, i ≤ data.length

/-- A caller that cuts *after* the byte whose index is returned. -/
def afterByte (C : ChunkIncr) : ChunkIncr where
  State := C.State
  init := C.init
  push := fun st data => (C.push st data).map fun x => (x.1, x.2.map (· + 1))

/-- Whenever a cut is reported, exactly the bytes before it are discarded. -/
def DiscardsToCut (A : Chunk) (G : (prev need e : Nat) → Prop) : Prop :=
  ∀ s st base need prev cs, FceRun A G s st base need prev cs →
    ∀ e, need ≤ e → e ≤ s.length → G prev need e →
      ∀ st' c d, A.fce st (sub s base e) = .ok (st', some c, d) → d = c

/-- `find_chunk_edge` in any state at all, with any data at all: no panic, discard in range, cut in range
and non-empty. -/
def Total (A : Chunk) : Prop :=
  ∀ st data, ∃ st' r d, A.fce st data = .ok (st', r, d) ∧ d ≤ data.length ∧
    ∀ c ∈ r, 1 ≤ c ∧ c ≤ data.length

end HashRoll.Spec
