import Verif.Spec.Stream
/-!
# Statements about the iterators and loops

Only the trait shapes and `Spec.Rule` are used here, no algorithm.
-/

namespace HashRoll.Spec

/-- C01. From any reachable chunker state, `n` calls of `next` on `iter_slices(data)` do not panic; the
slices yielded followed by the rest that `into_parts` then gives back are exactly `data`; `iter_slices` on the two
parts is the iterator again; if `None` was reached nothing is held any more. -/
def IterExact (C : ChunkIncr) : Prop :=
  ∀ st, Reachable C st → ∀ data n, ∃ vs it b,
    (C.iterSlices st data).run n = .ok (vs, it, b) ∧ vs.flatten ++ it.intoParts.2 = data ∧
    C.iterSlices it.intoParts.1 it.intoParts.2 = it ∧ (b = true → vs.flatten = data)

/-- C02. `iter_slices(data)` of a new chunker ends after at most `data.len()` slices, none of them empty. -/
def IterEnds (C : ChunkIncr) : Prop :=
  ∀ data, ∃ vs it, (C.iterSlices C.init data).run (data.length + 1) = .ok (vs, it, true) ∧
    vs.length ≤ data.length ∧ ∀ v ∈ vs, v ≠ []

/-- C04. `iter_slices(data)` of a new chunker yields the chunks of `rule`, then the rest if there is any. -/
def IterChunks (C : ChunkIncr) (rule : Rule) : Prop :=
  ∀ data n, data.length < n → ∃ it cs r,
    (C.iterSlices C.init data).run n = .ok (cs ++ tailSlice r, it, true) ∧ Chunked rule [] data cs r

/-- C05. `iter_slices_strict(data)` of a new chunker yields the chunks of `rule`; `into_parts` and
`take_rem` give the rest; `take_rem` leaves nothing. -/
def StrictChunks (C : ChunkIncr) (rule : Rule) : Prop :=
  ∀ data n, data.length < n → ∃ it cs r,
    (C.iterSlicesStrict C.init data).run n = .ok (cs, it, true) ∧ Chunked rule [] data cs r ∧
    it.intoParts.2 = r ∧ it.takeRem.2 = r ∧ it.takeRem.1.rem = [] ∧ cs.flatten ++ r = data

/-- `k` calls of `IterSlices::next`, whatever they return (`run` stops at the first `None`). -/
def nextN {C : ChunkIncr} : (k : Nat) → IterSlices C → R (List (Option Bytes) × IterSlices C)
  | 0,     it => .ok ([], it)
  | k + 1, it =>
    match it.next with
    | .error e => .error e
    | .ok (it', v) =>
      match nextN k it' with
      | .error e => .error e
      | .ok (vs, it'') => .ok (v :: vs, it'')

/-- C08. The documented loop terminates and prints the chunks of `rule`; what it prints as the remainder is
some end piece of the input. -/
def DocLoopChunks (A : Chunk) (rule : Rule) : Prop :=
  ∀ data n, data.length < n → ∃ cs r rest,
    A.docLoop data n A.init data 0 = .ok (cs, some rest) ∧ Chunked rule [] data cs r ∧ rest <:+ r

/-- C09. The chunks found in `data` are the first chunks found in `data ++ more`. -/
def StrictStable (C : ChunkIncr) : Prop :=
  ∀ data more n, data.length + more.length < n → ∃ cs it cs' it',
    (C.iterSlicesStrict C.init data).run n = .ok (cs, it, true) ∧
    (C.iterSlicesStrict C.init (data ++ more)).run n = .ok (cs', it', true) ∧ cs <+: cs'

/-- C09 for `find_chunk_edge`. -/
def DocStable (A : Chunk) : Prop :=
  ∀ data more n, data.length + more.length < n → ∃ cs r cs' r',
    A.docLoop data n A.init data 0 = .ok (cs, some r) ∧
    A.docLoop (data ++ more) n A.init (data ++ more) 0 = .ok (cs', some r') ∧ cs <+: cs'

/-- C10. Two inputs with a common end `t`, both cut where `t` starts, have the same chunks and the same
remainder from there on. -/
def StrictResync (C : ChunkIncr) : Prop :=
  ∀ (x y t : Bytes) n cx dx itx cy dy ity, x.length + y.length + t.length < n →
    (C.iterSlicesStrict C.init (x ++ t)).run n = .ok (cx ++ dx, itx, true) → cx.flatten = x →
    (C.iterSlicesStrict C.init (y ++ t)).run n = .ok (cy ++ dy, ity, true) → cy.flatten = y →
    dx = dy ∧ itx.rem = ity.rem

/-- C10 for `find_chunk_edge`. -/
def DocResync (A : Chunk) : Prop :=
  ∀ (x y t : Bytes) n cx dx rx cy dy ry, x.length + y.length + t.length < n →
    A.docLoop (x ++ t) n A.init (x ++ t) 0 = .ok (cx ++ dx, some rx) → cx.flatten = x →
    A.docLoop (y ++ t) n A.init (y ++ t) 0 = .ok (cy ++ dy, some ry) → cy.flatten = y →
    dx = dy

/-- C31. The byte-at-a-time harness and the documented loop find the same chunk lengths. -/
def ApisAgree (A : Chunk) (C : ChunkIncr) : Prop :=
  ∀ data n, data.length < n → ∃ cs rest,
    A.docLoop data n A.init data 0 = .ok (cs, some rest) ∧
    C.bytewise C.init 0 0 data = .ok (cs.map List.length)

/-- C57. `splits_fce` gives the chunk lengths of `rule`, whatever the (positive) buffer sizes. -/
def SplitsChunks (A : Chunk) (rule : Rule) : Prop :=
  ∀ data sizes n, sizes ≠ [] → (∀ z ∈ sizes, 0 < z) → (data.length + 1) * (data.length + 1) ≤ n →
    ∃ cs r, A.splitsFce data sizes n A.init 0 0 0 0 = .ok (some (cs.map List.length)) ∧
      Chunked rule [] data cs r

end HashRoll.Spec
