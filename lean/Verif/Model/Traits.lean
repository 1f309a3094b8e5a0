import Verif.Model.Basic
/-!
# The traits `Chunk`, `ChunkIncr`, and the iterators (src/lib.rs)
-/

namespace HashRoll

/-- `trait Chunk` (src/lib.rs:267-366), for one configured algorithm instance.
`fce` is `find_chunk_edge`: it returns the mutated search state and `(Option<usize>, usize)`. -/
structure Chunk where
  State : Type
  /-- `to_search_state()` (src/lib.rs:286) -/
  init  : State
  /-- `find_chunk_edge(&mut state, data)` (src/lib.rs:364-365) -/
  fce   : State → Bytes → R (State × Option Nat × Nat)

/-- `trait ChunkIncr` (src/lib.rs:135-178) together with the value produced by
`ToChunkIncr::to_chunk_incr()` (src/lib.rs:376-387). The mutable struct (`GearIncr32`, ...) is `State`. -/
structure ChunkIncr where
  State : Type
  /-- `to_chunk_incr()` -/
  init  : State
  /-- `push(&mut self, data)` (src/lib.rs:147) -/
  push  : State → Bytes → R (State × Option Nat)

/-- `slice.split_at(i)`: panics if `i > len`. -/
def splitAt (data : Bytes) (i : Nat) : R (Bytes × Bytes) :=
  if i ≤ data.length then .ok (data.take i, data.drop i) else .error .splitAt

/-- `struct IterSlices` (src/lib.rs:224-227) -/
structure IterSlices (C : ChunkIncr) where
  rem     : Bytes
  chunker : C.State

/-- `struct IterSlicesStrict` (src/lib.rs:184-187) -/
structure IterSlicesStrict (C : ChunkIncr) where
  rem     : Bytes
  chunker : C.State

/-- `ChunkIncr::iter_slices` (src/lib.rs:153-161) -/
def ChunkIncr.iterSlices (C : ChunkIncr) (self : C.State) (data : Bytes) : IterSlices C :=
  { rem := data, chunker := self }

/-- `ChunkIncr::iter_slices_strict` (src/lib.rs:169-177) -/
def ChunkIncr.iterSlicesStrict (C : ChunkIncr) (self : C.State) (data : Bytes) : IterSlicesStrict C :=
  { rem := data, chunker := self }

/-- `IterSlices::next` (src/lib.rs:241-258) -/
def IterSlices.next {C : ChunkIncr} (self : IterSlices C) : R (IterSlices C × Option Bytes) :=
  if self.rem.isEmpty then .ok (self, none)
  else
    match C.push self.chunker self.rem with
    | .error e => .error e
    | .ok (chunker, none) =>
      .ok ({ rem := [], chunker := chunker }, some self.rem)
    | .ok (chunker, some l) =>
      match splitAt self.rem l with
      | .error e => .error e
      | .ok (v, rn) => .ok ({ rem := rn, chunker := chunker }, some v)

/-- `IterSlices::into_parts` (src/lib.rs:233-235) -/
def IterSlices.intoParts {C : ChunkIncr} (self : IterSlices C) : C.State × Bytes :=
  (self.chunker, self.rem)

/-- `IterSlicesStrict::next` (src/lib.rs:208-217) -/
def IterSlicesStrict.next {C : ChunkIncr} (self : IterSlicesStrict C) :
    R (IterSlicesStrict C × Option Bytes) :=
  match C.push self.chunker self.rem with
  | .error e => .error e
  | .ok (chunker, none) => .ok ({ self with chunker := chunker }, none)
  | .ok (chunker, some l) =>
    match splitAt self.rem l with
    | .error e => .error e
    | .ok (v, rn) => .ok ({ rem := rn, chunker := chunker }, some v)

/-- `IterSlicesStrict::take_rem` (src/lib.rs:191-195): returns the remainder, leaves `&[]`. -/
def IterSlicesStrict.takeRem {C : ChunkIncr} (self : IterSlicesStrict C) :
    IterSlicesStrict C × Bytes :=
  ({ self with rem := [] }, self.rem)

/-- `IterSlicesStrict::into_parts` (src/lib.rs:200-202) -/
def IterSlicesStrict.intoParts {C : ChunkIncr} (self : IterSlicesStrict C) : C.State × Bytes :=
  (self.chunker, self.rem)

/-- Calling `next()` at most `fuel` times, stopping at the first `None`
(`for s in it`, std `Iterator` protocol). Returns the yielded slices, the final iterator, and whether
`None` was reached. -/
def IterSlices.run {C : ChunkIncr} : (fuel : Nat) → IterSlices C → R (List Bytes × IterSlices C × Bool)
  | 0,        it => .ok ([], it, false)
  | fuel + 1, it =>
    match it.next with
    | .error e => .error e
    | .ok (it', none)   => .ok ([], it', true)
    | .ok (it', some v) =>
      match IterSlices.run fuel it' with
      | .error e => .error e
      | .ok (vs, it'', fin) => .ok (v :: vs, it'', fin)

/-- Same for `IterSlicesStrict`. -/
def IterSlicesStrict.run {C : ChunkIncr} :
    (fuel : Nat) → IterSlicesStrict C → R (List Bytes × IterSlicesStrict C × Bool)
  | 0,        it => .ok ([], it, false)
  | fuel + 1, it =>
    match it.next with
    | .error e => .error e
    | .ok (it', none)   => .ok ([], it', true)
    | .ok (it', some v) =>
      match IterSlicesStrict.run fuel it' with
      | .error e => .error e
      | .ok (vs, it'', fin) => .ok (v :: vs, it'', fin)

/-- The loop of the `find_chunk_edge` documentation (src/lib.rs:308-333), run for at most `fuel`
iterations from search state `ss`, current `data` and `prev_cut`.
Returns the printed chunks and, when the loop reached `break`, the printed remainder.
`cut_point + orig_data.len() - data.len()` never underflows because `data` is a suffix of `orig_data`. -/
def Chunk.docLoop (A : Chunk) (orig : Bytes) :
    (fuel : Nat) → A.State → (data : Bytes) → (prevCut : Nat) → R (List Bytes × Option Bytes)
  | 0,        _,  _,    _       => .ok ([], none)
  | fuel + 1, ss, data, prevCut =>
    match A.fce ss data with
    | .error e => .error e
    | .ok (ss', some cutPoint, discardCt) =>
      let gCut := cutPoint + orig.length - data.length
      match slice orig prevCut gCut with                      -- &orig_data[prev_cut..g_cut]
      | .error e => .error e
      | .ok c =>
        match slice data discardCt data.length with           -- data = &data[discard_ct..]
        | .error e => .error e
        | .ok data' =>
          match Chunk.docLoop A orig fuel ss' data' gCut with
          | .error e => .error e
          | .ok (cs, r) => .ok (c :: cs, r)
    | .ok (_, none, discardCt) =>
      match slice data discardCt data.length with             -- "remain: &data[discard_ct..]"
      | .error e => .error e
      | .ok rem => .ok ([], some rem)

/-- The byte-at-a-time protocol of `cut_test_incr` (tests/cuts.rs:12-35, also 72-90):
every byte is pushed alone; whatever index is returned, the cut is placed after that byte.
`i` is the index of the next byte, `lastSplit` the position of the last cut.
Returns the list of split lengths. -/
def ChunkIncr.bytewise (C : ChunkIncr) : C.State → (i lastSplit : Nat) → Bytes → R (List Nat)
  | _,  _, _,         []      => .ok []
  | st, i, lastSplit, v :: vs =>
    match C.push st [v] with
    | .error e => .error e
    | .ok (st', some _) =>
      match ChunkIncr.bytewise C st' (i + 1) (i + 1) vs with
      | .error e => .error e
      | .ok ls => .ok ((i + 1 - lastSplit) :: ls)
    | .ok (st', none) => ChunkIncr.bytewise C st' (i + 1) lastSplit vs

/-- `splits_fce` (tests/cuts_qc.rs:11-65), run for at most `fuel` iterations of its loop; `none` means
the loop had not finished. `sizes` is `buf_sizes` (non-empty), `k` the loop variable `i`.
The subtraction `buf.len() - curr_discard` is checked (overflow panics in test builds). -/
def Chunk.splitsFce (A : Chunk) (buf : Bytes) (sizes : List Nat) :
    (fuel : Nat) → (ss : A.State) → (k lastSplit currDiscard prevBufSize : Nat) → R (Option (List Nat))
  | 0,        _,  _, _,         _,           _           => .ok none
  | fuel + 1, ss, k, lastSplit, currDiscard, prevBufSize =>
    if buf.length = currDiscard then .ok (some [])
    else
      match index sizes (k % sizes.length) with
      | .error e => .error e
      | .ok sz =>
        if buf.length < currDiscard then .error .overflow       -- buf.len() - curr_discard
        else
          let bufSize := min (sz + prevBufSize) (buf.length - currDiscard)
          match slice buf currDiscard (bufSize + currDiscard) with
          | .error e => .error e
          | .ok b =>
            match A.fce ss b with
            | .error e => .error e
            | .ok (ss', some splitPoint, discardCt) =>
              let g := currDiscard + splitPoint
              if g < lastSplit then .error .overflow             -- split_point_global - last_split_point
              else
                match Chunk.splitsFce A buf sizes fuel ss' (k + 1) g (currDiscard + discardCt) 0 with
                | .error e => .error e
                | .ok none => .ok none
                | .ok (some ls) => .ok (some ((g - lastSplit) :: ls))
            | .ok (ss', none, discardCt) =>
              if bufSize = buf.length - currDiscard then .ok (some [])
              else Chunk.splitsFce A buf sizes fuel ss' (k + 1) lastSplit (currDiscard + discardCt) bufSize

end HashRoll
