import Verif.Model.Traits
/-!
# src/pigz.rs
-/

namespace HashRoll.Pigz

/-- `struct PigzRsyncable` (src/pigz.rs:5-12) -/
structure PigzRsyncable where
  bits : BitVec 8
  mask : BitVec 32
  hit  : BitVec 32
deriving DecidableEq

/-- `PigzRsyncable::with_bits` (src/pigz.rs:15-19) -/
def PigzRsyncable.withBits (prof : Profile) (bits : BitVec 8) : R PigzRsyncable :=
  match shl prof (1 : BitVec 32) bits.toNat with
  | .error e => .error e
  | .ok a =>
    match sub prof a 1 with
    | .error e => .error e
    | .ok mask => .ok { bits := bits, mask := mask, hit := mask >>> 1 }

/-- `PigzRsyncable::default` (src/pigz.rs:22-26) -/
def PigzRsyncable.default (prof : Profile) : R PigzRsyncable := PigzRsyncable.withBits prof 12

/-- `struct PigzRsyncableState` (src/pigz.rs:65-67) -/
structure PigzRsyncableState where
  hash : BitVec 32
deriving DecidableEq

/-- `From<&PigzRsyncable> for PigzRsyncableState` (src/pigz.rs:69-73) -/
def PigzRsyncableState.from (params : PigzRsyncable) : PigzRsyncableState := { hash := params.hit }

/-- `PigzRsyncableState::add` (src/pigz.rs:114-117). `hash << 1` is a constant-amount shift: it never
panics, bits shifted out are lost. -/
def PigzRsyncableState.add (self : PigzRsyncableState) (parent : PigzRsyncable) (v : UInt8) :
    PigzRsyncableState × Bool :=
  let hash := ((self.hash <<< 1) ^^^ (v.toBitVec.setWidth 32)) &&& parent.mask
  ({ hash := hash }, hash == parent.hit)

/-- `struct PigzRsyncableSearchState` (src/pigz.rs:79-81) -/
structure PigzRsyncableSearchState where
  state : PigzRsyncableState

/-- `to_search_state` / `From<&PigzRsyncable> for PigzRsyncableSearchState` (src/pigz.rs:31-33, 83-89) -/
def PigzRsyncable.toSearchState (self : PigzRsyncable) : PigzRsyncableSearchState :=
  { state := PigzRsyncableState.from self }

/-- `PigzRsyncable::find_chunk_edge` (src/pigz.rs:35-48) -/
def PigzRsyncable.findChunkEdge (self : PigzRsyncable) (state : PigzRsyncableSearchState)
    (data : Bytes) : R (PigzRsyncableSearchState × Option Nat × Nat) :=
  let body (i : Nat) (v : UInt8) (state : PigzRsyncableSearchState) :
      R (Flow PigzRsyncableSearchState (Option Nat × Nat)) :=
    let (st, hit) := state.state.add self v
    if hit then .ok (.ret self.toSearchState (some (i + 1), i + 1))
    else .ok (.next { state := st })
  match forEnum body 0 data state with
  | .error e => .error e
  | .ok (.ret state r) => .ok (state, r)
  | .ok (.next state)  => .ok (state, none, data.length)

/-- `impl Chunk for PigzRsyncable` -/
abbrev chunk (p : PigzRsyncable) : Chunk :=
  { State := PigzRsyncableSearchState, init := p.toSearchState, fce := p.findChunkEdge }

/-- `struct PigzRsyncableIncr` (src/pigz.rs:99-102) -/
structure PigzRsyncableIncr where
  params : PigzRsyncable
  state  : PigzRsyncableState

/-- `From<PigzRsyncable> for PigzRsyncableIncr`, `to_chunk_incr` (src/pigz.rs:51-62, 106-111) -/
def PigzRsyncableIncr.from (params : PigzRsyncable) : PigzRsyncableIncr :=
  { params := params, state := PigzRsyncableState.from params }

/-- `PigzRsyncableIncr::push` (src/pigz.rs:121-130) -/
def PigzRsyncableIncr.push (self : PigzRsyncableIncr) (data : Bytes) :
    R (PigzRsyncableIncr × Option Nat) :=
  let body (i : Nat) (v : UInt8) (self : PigzRsyncableIncr) :
      R (Flow PigzRsyncableIncr (Option Nat)) :=
    let (st, hit) := self.state.add self.params v
    if hit then .ok (.ret { self with state := PigzRsyncableState.from self.params } (some (i + 1)))
    else .ok (.next { self with state := st })
  match forEnum body 0 data self with
  | .error e => .error e
  | .ok (.ret self r) => .ok (self, r)
  | .ok (.next self)  => .ok (self, none)

/-- `impl ChunkIncr for PigzRsyncableIncr`, created by `to_chunk_incr` -/
abbrev incr (p : PigzRsyncable) : ChunkIncr :=
  { State := PigzRsyncableIncr, init := PigzRsyncableIncr.from p, push := PigzRsyncableIncr.push }

end HashRoll.Pigz
