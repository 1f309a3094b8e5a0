import Verif.Model.Traits
/-!
# src/zstd.rs
-/

namespace HashRoll.Zstd

/-- `RSYNC_LENGTH` (src/zstd.rs:29) -/
def rsyncLength : Nat := 32
/-- `PRIME_8_BYTES` (src/zstd.rs:30) -/
def prime8Bytes : BitVec 64 := 0xCF1BBCDCB7A56463
/-- `ROLL_HASH_CHAR_OFFSET` (src/zstd.rs:31) -/
def rollHashCharOffset : BitVec 64 := 10

/-- `struct Zstd` (src/zstd.rs:34-37) -/
structure Zstd where
  hitMask    : BitVec 64
  primePower : BitVec 64
deriving DecidableEq

/-- `u64::wrapping_pow` (core), by repeated multiplication. -/
def wrappingPow (x : BitVec 64) : Nat → BitVec 64
  | 0     => 1
  | n + 1 => wrappingPow x n * x

/-- `Zstd::with_target_section_size` (src/zstd.rs:59-71). `(RSYNC_LENGTH - 1).try_into().unwrap()` is the
constant 31. -/
def Zstd.withTargetSectionSize (prof : Profile) (targetSectionSize : BitVec 64) : R Zstd :=
  if (targetSectionSize >>> 20).toNat < 2 ^ 32 then                -- try_into::<u32>().unwrap()
    let jobSizeMb : BitVec 32 := (targetSectionSize >>> 20).setWidth 32
    match assert (jobSizeMb ≠ 0) with
    | .error e => .error e
    | .ok () =>
      match add prof (jobSizeMb.clz ^^^ 31) 20 with
      | .error e => .error e
      | .ok rsyncBits =>
        match shl prof (1 : BitVec 64) rsyncBits.toNat with
        | .error e => .error e
        | .ok a =>
          match sub prof a 1 with
          | .error e => .error e
          | .ok hitMask => .ok { hitMask := hitMask, primePower := wrappingPow prime8Bytes 31 }
  else .error .tryFromInt

/-- `Zstd::default` (src/zstd.rs:40-43): `8 << 20` -/
def Zstd.default (prof : Profile) : R Zstd := Zstd.withTargetSectionSize prof ((8 : BitVec 64) <<< 20)

/-- `struct ZstdState` (src/zstd.rs:85-87) -/
structure ZstdState where
  hash : BitVec 64
deriving DecidableEq

/-- `Wrapping(b as u64) + ROLL_HASH_CHAR_OFFSET` -/
def ofByte (b : UInt8) : BitVec 64 := b.toBitVec.setWidth 64 + rollHashCharOffset

/-- `ZstdState::append` (src/zstd.rs:91-96) -/
def ZstdState.append (self : ZstdState) : Bytes → ZstdState
  | []      => self
  | i :: is => ZstdState.append { hash := self.hash * prime8Bytes + ofByte i } is

/-- `ZstdState::rotate` (src/zstd.rs:99-103) -/
def ZstdState.rotate (self : ZstdState) (toRemove toAdd : UInt8) (primePower : BitVec 64) : ZstdState :=
  let hash := self.hash - ofByte toRemove * primePower
  let hash := hash * prime8Bytes
  { hash := hash + ofByte toAdd }

/-- `ZstdState::at_split` (src/zstd.rs:105-107) -/
def ZstdState.atSplit (self : ZstdState) (params : Zstd) : Bool :=
  self.hash &&& params.hitMask == params.hitMask

/-- `struct ZstdSearchState` (src/zstd.rs:111-114); its `append`, `rotate`, `at_split` (116-128) delegate -/
structure ZstdSearchState where
  state  : ZstdState
  offset : Nat
deriving DecidableEq

/-- `ZstdSearchState::default` (derived), `to_search_state` (src/zstd.rs:185-187) -/
def ZstdSearchState.default : ZstdSearchState := { state := { hash := 0 }, offset := 0 }

/-- The part of `find_chunk_edge` after the window is filled (src/zstd.rs:206-222). Note that a hit
returns `(Some(i + 1), discard_ct)` without touching `state.offset` and with a `discard_ct` that does not
depend on `i`. -/
def Zstd.findChunkEdgeFull (self : Zstd) (state : ZstdSearchState) (data : Bytes) :
    R (ZstdSearchState × Option Nat × Nat) :=
  let body (i : Nat) (state : ZstdSearchState) : R (Flow ZstdSearchState (Option Nat × Nat)) :=
    if i < rsyncLength then .error .overflow             -- i - RSYNC_LENGTH, never taken: i ≥ offset ≥ 32
    else
      match index data (i - rsyncLength) with
      | .error e => .error e
      | .ok toRemove =>
        match index data i with
        | .error e => .error e
        | .ok toAdd =>
          let state := { state with state := state.state.rotate toRemove toAdd self.primePower }
          if state.state.atSplit self then
            let discardCt := data.length - rsyncLength   -- saturating_sub
            .ok (.ret state (some (i + 1), discardCt))
          else .ok (.next state)
  match forRange body (data.length - state.offset) state.offset state with
  | .error e => .error e
  | .ok (.ret state r) => .ok (state, r)
  | .ok (.next state)  =>
    let discardCt := data.length - rsyncLength           -- saturating_sub
    let keepCt := data.length - discardCt
    .ok ({ state with offset := keepCt }, none, discardCt)

/-- `Zstd::find_chunk_edge` (src/zstd.rs:189-223) -/
def Zstd.findChunkEdge (self : Zstd) (state : ZstdSearchState) (data : Bytes) :
    R (ZstdSearchState × Option Nat × Nat) :=
  if state.offset < rsyncLength then
    match slice data state.offset (min rsyncLength data.length) with
    | .error e => .error e
    | .ok seedB =>
      let state : ZstdSearchState :=
        { state := state.state.append seedB, offset := state.offset + seedB.length }
      if state.offset < rsyncLength then .ok (state, none, 0)
      else self.findChunkEdgeFull state data
  else self.findChunkEdgeFull state data

/-- `impl Chunk for Zstd` -/
abbrev chunk (p : Zstd) : Chunk :=
  { State := ZstdSearchState, init := ZstdSearchState.default, fce := p.findChunkEdge }

/-- `struct ZstdIncr` (src/zstd.rs:136-153); `input_offs` is never read or written and is left out. -/
structure ZstdIncr where
  params     : Zstd
  state      : ZstdState
  window     : Bytes
  windowOffs : Nat
  windowFull : Bool
deriving DecidableEq

/-- `From<Zstd> for ZstdIncr`, `to_chunk_incr` (src/zstd.rs:155-180) -/
def ZstdIncr.from (params : Zstd) : ZstdIncr :=
  { params := params, state := { hash := 0 }, window := List.replicate rsyncLength 0,
    windowOffs := 0, windowFull := false }

/-- `window[offs..offs + src.len()].copy_from_slice(src)` -/
def copyInto (window : Bytes) (offs : Nat) (src : Bytes) : R Bytes :=
  if offs + src.length ≤ window.length then
    .ok (window.take offs ++ src ++ window.drop (offs + src.length))
  else .error .sliceIndex

/-- The part of `push` after the window is filled (src/zstd.rs:246-264). Note `Some(i + use_len)`, not
`Some(i + use_len + 1)`, and that the state is kept. -/
def ZstdIncr.pushFull (self : ZstdIncr) (data : Bytes) (useLen : Nat) : R (ZstdIncr × Option Nat) :=
  let body (i : Nat) (v : UInt8) (self : ZstdIncr) : R (Flow ZstdIncr (Option Nat)) :=
    match index self.window self.windowOffs with
    | .error e => .error e
    | .ok toRemove =>
      let self := { self with
        state := self.state.rotate toRemove v self.params.primePower
        window := self.window.set self.windowOffs v
        windowOffs := (self.windowOffs + 1) % self.window.length }
      if self.state.atSplit self.params then .ok (.ret self (some (i + useLen)))
      else .ok (.next self)
  match slice data useLen data.length with
  | .error e => .error e
  | .ok rest =>
    match forEnum body 0 rest self with
    | .error e => .error e
    | .ok (.ret self r) => .ok (self, r)
    | .ok (.next self)  => .ok (self, none)

/-- `ZstdIncr::push` (src/zstd.rs:227-264) -/
def ZstdIncr.push (self : ZstdIncr) (data : Bytes) : R (ZstdIncr × Option Nat) :=
  if !self.windowFull then
    let useLen := min (self.window.length - self.windowOffs) data.length
    match slice data 0 useLen with
    | .error e => .error e
    | .ok src =>
      match copyInto self.window self.windowOffs src with
      | .error e => .error e
      | .ok window =>
        let self := { self with window := window, windowOffs := self.windowOffs + useLen }
        if self.windowOffs ≠ self.window.length then .ok (self, none)
        else
          let self := { self with
            windowFull := true, windowOffs := 0, state := self.state.append self.window }
          self.pushFull data useLen
  else self.pushFull data 0

/-- `impl ChunkIncr for ZstdIncr`, created by `to_chunk_incr` -/
abbrev incr (p : Zstd) : ChunkIncr :=
  { State := ZstdIncr, init := ZstdIncr.from p, push := ZstdIncr.push }

end HashRoll.Zstd
