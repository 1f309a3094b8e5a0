import Verif.Model.Traits
/-!
# src/gzip.rs
-/

namespace HashRoll.Gzip

/-- `struct GzipRsyncable` (src/gzip.rs:55-61); `window_len: usize` is a `Nat`, `modulus: u64`. -/
structure GzipRsyncable where
  windowLen : Nat
  modulus   : BitVec 64
deriving DecidableEq

/-- `GzipRsyncable::with_window_and_modulus` (src/gzip.rs:64-69) -/
def GzipRsyncable.withWindowAndModulus (window : Nat) (modulus : BitVec 64) : GzipRsyncable :=
  { windowLen := window, modulus := modulus }

/-- `GzipRsyncable::default` (src/gzip.rs:72-76) -/
def GzipRsyncable.default : GzipRsyncable := GzipRsyncable.withWindowAndModulus 8192 4096

/-- `(accum % Wrapping(modulus)).0 == 0` (src/gzip.rs:186, 200): `%` panics for a zero modulus. -/
def remIsZero (accum modulus : BitVec 64) : R Bool :=
  if modulus = 0 then .error .remByZero else .ok (accum % modulus == 0)

/-- `v as u64` -/
def ofByte (v : UInt8) : BitVec 64 := v.toBitVec.setWidth 64

/-- `struct GzipRsyncableState` (src/gzip.rs:120-122) -/
structure GzipRsyncableState where
  accum : BitVec 64
deriving DecidableEq

/-- `GzipRsyncableState::reset` (src/gzip.rs:125-127) -/
def GzipRsyncableState.reset (_self : GzipRsyncableState) : GzipRsyncableState := { accum := 0 }

/-- `GzipRsyncableState::add` (src/gzip.rs:181-187) -/
def GzipRsyncableState.add (self : GzipRsyncableState) (data : Bytes) (parent : GzipRsyncable)
    (i : Nat) (v : UInt8) : R (GzipRsyncableState × Bool) :=
  let dropped : R (BitVec 64) :=
    if i ≥ parent.windowLen then
      match index data (i - parent.windowLen) with
      | .error e => .error e
      | .ok d => .ok (self.accum - ofByte d)
    else .ok self.accum
  match dropped with
  | .error e => .error e
  | .ok accum =>
    let accum := accum + ofByte v
    match remIsZero accum parent.modulus with
    | .error e => .error e
    | .ok z => .ok ({ accum := accum }, z)

/-- `struct GzipRsyncableSearchState` (src/gzip.rs:134-137) -/
structure GzipRsyncableSearchState where
  offset : Nat
  state  : GzipRsyncableState
deriving DecidableEq

/-- `GzipRsyncableSearchState::default` (derived, src/gzip.rs:133) -/
def GzipRsyncableSearchState.default : GzipRsyncableSearchState :=
  { offset := 0, state := { accum := 0 } }

/-- `GzipRsyncableSearchState::reset` (src/gzip.rs:140-143) -/
def GzipRsyncableSearchState.reset (self : GzipRsyncableSearchState) : GzipRsyncableSearchState :=
  { self with offset := 0, state := self.state.reset }

/-- `GzipRsyncable::find_chunk_edge` (src/gzip.rs:85-103) -/
def GzipRsyncable.findChunkEdge (self : GzipRsyncable) (state : GzipRsyncableSearchState)
    (data : Bytes) : R (GzipRsyncableSearchState × Option Nat × Nat) :=
  let body (i : Nat) (state : GzipRsyncableSearchState) :
      R (Flow GzipRsyncableSearchState (Option Nat × Nat)) :=
    match index data i with
    | .error e => .error e
    | .ok v =>
      match state.state.add data self i v with
      | .error e => .error e
      | .ok (st, hit) =>
        let state := { state with state := st }
        if hit then .ok (.ret state.reset (some (i + 1), i + 1))
        else .ok (.next state)
  match forRange body (data.length - state.offset) state.offset state with
  | .error e => .error e
  | .ok (.ret state r) => .ok (state, r)
  | .ok (.next state)  =>
    let discardCt := data.length - self.windowLen   -- saturating_sub
    .ok ({ state with offset := data.length - discardCt }, none, discardCt)

/-- `impl Chunk for GzipRsyncable`; `to_search_state` (src/gzip.rs:81-83) -/
abbrev chunk (p : GzipRsyncable) : Chunk :=
  { State := GzipRsyncableSearchState, init := GzipRsyncableSearchState.default, fce := p.findChunkEdge }

/-- `struct GzipRsyncableIncr` (src/gzip.rs:154-160); the `VecDeque` is a list, front first. -/
structure GzipRsyncableIncr where
  params : GzipRsyncable
  accum  : BitVec 64
  window : Bytes

/-- `GzipRsyncableIncr::reset` (src/gzip.rs:163-166) -/
def GzipRsyncableIncr.reset (self : GzipRsyncableIncr) : GzipRsyncableIncr :=
  { self with window := [], accum := 0 }

/-- `From<GzipRsyncable> for GzipRsyncableIncr`, `to_chunk_incr` (src/gzip.rs:106-117, 169-178) -/
def GzipRsyncableIncr.from (params : GzipRsyncable) : GzipRsyncableIncr :=
  { params := params, accum := 0, window := [] }

/-- `GzipRsyncableIncr::push` (src/gzip.rs:191-207) -/
def GzipRsyncableIncr.push (self : GzipRsyncableIncr) (data : Bytes) :
    R (GzipRsyncableIncr × Option Nat) :=
  let body (i : Nat) (v : UInt8) (self : GzipRsyncableIncr) :
      R (Flow GzipRsyncableIncr (Option Nat)) :=
    let popped : R GzipRsyncableIncr :=
      if self.window.length ≥ self.params.windowLen then
        match self.window with
        | []      => .error .unwrapNone                                  -- pop_front().unwrap()
        | d :: ds => .ok { self with accum := self.accum - ofByte d, window := ds }
      else .ok self
    match popped with
    | .error e => .error e
    | .ok self =>
      let self := { self with accum := self.accum + ofByte v, window := self.window ++ [v] }
      match remIsZero self.accum self.params.modulus with
      | .error e => .error e
      | .ok true  => .ok (.ret self.reset (some (i + 1)))
      | .ok false => .ok (.next self)
  match forEnum body 0 data self with
  | .error e => .error e
  | .ok (.ret self r) => .ok (self, r)
  | .ok (.next self)  => .ok (self, none)

/-- `impl ChunkIncr for GzipRsyncableIncr`, created by `to_chunk_incr` -/
abbrev incr (p : GzipRsyncable) : ChunkIncr :=
  { State := GzipRsyncableIncr, init := GzipRsyncableIncr.from p, push := GzipRsyncableIncr.push }

end HashRoll.Gzip
