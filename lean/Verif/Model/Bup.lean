import Verif.Model.Traits
/-!
# src/bup.rs
-/

namespace HashRoll.Bup

/-- `BLOBSIZE = 1 << BLOBBITS` (src/bup.rs:5-6) -/
def blobsize : BitVec 32 := 1 <<< 13
/-- `WINDOW_SIZE = 1 << WINDOW_BITS` (src/bup.rs:8-9) -/
def windowSize : Nat := 1 <<< 6
/-- `ROLLSUM_CHAR_OFFSET` (src/bup.rs:11), as `u32` -/
def rollsumCharOffset : BitVec 32 := 31

/-- `struct RollSum` (src/bup.rs:19-21) -/
structure RollSum where
  windowLen : Nat
deriving DecidableEq

/-- `RollSum::with_window` (src/bup.rs:32-34) -/
def RollSum.withWindow (windowLen : Nat) : RollSum := { windowLen := windowLen }

/-- `RollSum::default` (src/bup.rs:124-128) -/
def RollSum.default : RollSum := RollSum.withWindow windowSize

/-- `struct RollSumState` (src/bup.rs:73-80) -/
structure RollSumState where
  s1 : BitVec 32
  s2 : BitVec 32
deriving DecidableEq

/-- `From<&RollSum> for RollSumState` (src/bup.rs:82-94); `window_len as u32` truncates -/
def RollSumState.from (s : RollSum) : RollSumState :=
  let ws := BitVec.ofNat 32 s.windowLen
  { s1 := ws * rollsumCharOffset, s2 := ws * (ws - 1) * rollsumCharOffset }

/-- `RollSumState::reset` (src/bup.rs:97-99) -/
def RollSumState.reset (_self : RollSumState) (params : RollSum) : RollSumState := RollSumState.from params

/-- `RollSumState::add` (src/bup.rs:171-177) -/
def RollSumState.add (self : RollSumState) (windowLen : Nat) (drop add : UInt8) : RollSumState :=
  let d : BitVec 32 := drop.toBitVec.setWidth 32
  let s1 := self.s1 + add.toBitVec.setWidth 32
  let s1 := s1 - d
  let s2 := self.s2 + s1
  let s2 := s2 - BitVec.ofNat 32 windowLen * (d + rollsumCharOffset)
  { s1 := s1, s2 := s2 }

/-- `RollSumState::digest` (src/bup.rs:179-181) -/
def RollSumState.digest (self : RollSumState) : BitVec 32 := (self.s1 <<< 16) ||| (self.s2 &&& 0xffff)

/-- `RollSumState::at_split` (src/bup.rs:183-185) -/
def RollSumState.atSplit (self : RollSumState) : Bool :=
  (self.digest &&& (blobsize - 1)) == blobsize - 1

/-- `struct RollSumSearchState` (src/bup.rs:103-106) -/
structure RollSumSearchState where
  state  : RollSumState
  offset : Nat
deriving DecidableEq

/-- `From<&RollSum> for RollSumSearchState` (src/bup.rs:108-115), `to_search_state` (40-42) -/
def RollSumSearchState.from (s : RollSum) : RollSumSearchState :=
  { state := RollSumState.from s, offset := 0 }

/-- `RollSumSearchState::reset` (src/bup.rs:118-121) -/
def RollSumSearchState.reset (self : RollSumSearchState) (params : RollSum) : RollSumSearchState :=
  { offset := 0, state := self.state.reset params }

/-- `RollSum::find_chunk_edge` (src/bup.rs:44-69) -/
def RollSum.findChunkEdge (self : RollSum) (state : RollSumSearchState) (data : Bytes) :
    R (RollSumSearchState × Option Nat × Nat) :=
  let body (i : Nat) (state : RollSumSearchState) :
      R (Flow RollSumSearchState (Option Nat × Nat)) :=
    match index data i with
    | .error e => .error e
    | .ok a =>
      match (if i ≥ self.windowLen then index data (i - self.windowLen) else .ok 0) with
      | .error e => .error e
      | .ok d =>
        let state := { state with state := state.state.add self.windowLen d a }
        if state.state.atSplit then .ok (.ret (state.reset self) (some (i + 1), i + 1))
        else .ok (.next state)
  match forRange body (data.length - state.offset) state.offset state with
  | .error e => .error e
  | .ok (.ret state r) => .ok (state, r)
  | .ok (.next state)  =>
    let discardCt := data.length - self.windowLen   -- saturating_sub
    .ok ({ state with offset := data.length - discardCt }, none, discardCt)

/-- `impl Chunk for RollSum` -/
abbrev chunk (p : RollSum) : Chunk :=
  { State := RollSumSearchState, init := RollSumSearchState.from p, fce := p.findChunkEdge }

/-- `struct RollSumIncr` (src/bup.rs:136-142); `window` is the boxed slice, `wofs: Wrapping<usize>` -/
structure RollSumIncr where
  state  : RollSumState
  wofs   : Nat
  window : Bytes
deriving DecidableEq

/-- `From<&RollSum> for RollSumIncr` (src/bup.rs:154-162), `to_chunk_incr` (26-28) -/
def RollSumIncr.from (params : RollSum) : RollSumIncr :=
  { state := RollSumState.from params, window := List.replicate params.windowLen 0, wofs := 0 }

/-- `RollSumIncr::default` (src/bup.rs:165-167) -/
def RollSumIncr.default : RollSumIncr := RollSumIncr.from RollSum.default

/-- `RollSumIncr::digest` (src/bup.rs:189-191) -/
def RollSumIncr.digest (self : RollSumIncr) : BitVec 32 := self.state.digest

/-- `RollSumIncr::at_split` (src/bup.rs:219-221) -/
def RollSumIncr.atSplit (self : RollSumIncr) : Bool := self.state.atSplit

/-- `RollSumIncr::add` (src/bup.rs:193-195) -/
def RollSumIncr.add (self : RollSumIncr) (drop add : UInt8) : RollSumIncr :=
  { self with state := self.state.add self.window.length drop add }

/-- `RollSumIncr::roll_byte` (src/bup.rs:197-202). `wofs + 1` cannot wrap (`wofs < window.len()`), and
`window.len() - 1` cannot underflow because the index `window[wofs]` succeeded. -/
def RollSumIncr.rollByte (self : RollSumIncr) (ch : UInt8) : R RollSumIncr :=
  match index self.window self.wofs with
  | .error e => .error e
  | .ok w =>
    let self := self.add w ch
    .ok { self with
      window := self.window.set self.wofs ch
      wofs := (self.wofs + 1) &&& (self.window.length - 1) }

/-- `RollSumIncr::push` (src/bup.rs:225-234). Note: no reset after a split. -/
def RollSumIncr.push (self : RollSumIncr) (data : Bytes) : R (RollSumIncr × Option Nat) :=
  let body (i : Nat) (v : UInt8) (self : RollSumIncr) : R (Flow RollSumIncr (Option Nat)) :=
    match self.rollByte v with
    | .error e => .error e
    | .ok self =>
      if self.atSplit then .ok (.ret self (some (i + 1)))
      else .ok (.next self)
  match forEnum body 0 data self with
  | .error e => .error e
  | .ok (.ret self r) => .ok (self, r)
  | .ok (.next self)  => .ok (self, none)

/-- `RollSumIncr::roll` (src/bup.rs:205-209) -/
def RollSumIncr.roll (self : RollSumIncr) : Bytes → R RollSumIncr
  | []      => .ok self
  | i :: is =>
    match self.rollByte i with
    | .error e => .error e
    | .ok self => RollSumIncr.roll self is

/-- `impl ChunkIncr for RollSumIncr`, created by `to_chunk_incr` -/
abbrev incr (p : RollSum) : ChunkIncr :=
  { State := RollSumIncr, init := RollSumIncr.from p, push := RollSumIncr.push }

end HashRoll.Bup
