import Verif.Model.Traits
import Verif.Model.Range
/-!
# src/zpaq.rs
-/

namespace HashRoll.Zpaq

/-- `struct Zpaq` (src/zpaq.rs:49-52). The bounds are `u64` in the source; here numbers. -/
structure Zpaq where
  range   : Bounds Nat
  maxHash : BitVec 32
deriving DecidableEq

/-- `Zpaq::split_here` (src/zpaq.rs:155-157) -/
def Zpaq.splitHere (self : Zpaq) (hash : BitVec 32) (index : Nat) : Bool :=
  (hash < self.maxHash && !self.range.underMin index) || self.range.exceedsMax index

/-! ## Constructors -/

/-- `Zpaq::fragment_ave_from_max` (src/zpaq.rs:56-59): `(max as f64 / 4096.0).log2() as u8`.
Simplified: the floating point computation is replaced by the exact `⌊log2 (max / 4096)⌋`
(`0` for `max < 4096`, where the `as u8` cast saturates). For `max < 2^53` the conversion to `f64` is
exact and consecutive integers stay several ulps apart in the logarithm, so a correctly rounded `log2`
gives this value; for larger `max` both are far above 32, which is all that matters (the callers
assert `<= 32`). -/
def fragmentAveFromMax (max : BitVec 64) : BitVec 8 := BitVec.ofNat 8 (Nat.log2 (max.toNat / 4096))

/-- `Zpaq::fragment_ave_from_range` (src/zpaq.rs:62-80) -/
def fragmentAveFromRange (prof : Profile) (range : Bounds (BitVec 64)) : R (BitVec 8) :=
  match range.stop with
  | .included i => .ok (fragmentAveFromMax i)
  | .excluded i =>
    match sub prof i 1 with
    | .error e => .error e
    | .ok v => .ok (fragmentAveFromMax v)
  | .unbounded =>
    match range.start with
    | .included i =>
      match mul prof 64 i with
      | .error e => .error e
      | .ok v => .ok (fragmentAveFromMax v)
    | .excluded i =>
      match add prof i 1 with
      | .error e => .error e
      | .ok i1 =>
        match mul prof 64 i1 with
        | .error e => .error e
        | .ok v => .ok (fragmentAveFromMax v)
    | .unbounded => .ok 16

/-- `Zpaq::range_from_fragment_ave` (src/zpaq.rs:83-87): `64 << (n - 10)..8128 << n` -/
def rangeFromFragmentAve (prof : Profile) (fragmentAve : BitVec 8) : R (Bounds (BitVec 64)) :=
  match assert (fragmentAve ≤ 32) with
  | .error e => .error e
  | .ok () =>
    match assert (fragmentAve ≥ 10) with
    | .error e => .error e
    | .ok () =>
      match sub prof fragmentAve 10 with
      | .error e => .error e
      | .ok d =>
        match shl prof (64 : BitVec 64) d.toNat with
        | .error e => .error e
        | .ok lo =>
          match shl prof (8128 : BitVec 64) fragmentAve.toNat with
          | .error e => .error e
          | .ok hi => .ok { start := .included lo, stop := .excluded hi }

/-- `Zpaq::range_from_max` (src/zpaq.rs:89-91): `max / 64..max` -/
def rangeFromMax (max : BitVec 64) : Bounds (BitVec 64) :=
  { start := .included (max / 64), stop := .excluded max }

/-- `Zpaq::max_hash_from_fragment_ave` (src/zpaq.rs:93-102): `1 << (32 - n)` -/
def maxHashFromFragmentAve (prof : Profile) (fragmentAve : BitVec 8) : R (BitVec 32) :=
  match assert (fragmentAve ≤ 32) with
  | .error e => .error e
  | .ok () =>
    match sub prof 32 fragmentAve with
    | .error e => .error e
    | .ok d => shl prof (1 : BitVec 32) d.toNat

/-- `Zpaq::with_average_and_range` (src/zpaq.rs:141-146) -/
def Zpaq.withAverageAndRange (prof : Profile) (averageSizePow2 : BitVec 8)
    (range : Bounds (BitVec 64)) : R Zpaq :=
  let r := range.intoTuple
  match maxHashFromFragmentAve prof averageSizePow2 with
  | .error e => .error e
  | .ok mh => .ok { range := { start := r.start.toNat, stop := r.stop.toNat }, maxHash := mh }

/-- `Zpaq::with_range` (src/zpaq.rs:110-113) -/
def Zpaq.withRange (prof : Profile) (range : Bounds (BitVec 64)) : R Zpaq :=
  match fragmentAveFromRange prof range with
  | .error e => .error e
  | .ok f => Zpaq.withAverageAndRange prof f range

/-- `Zpaq::with_average_size_pow_2` (src/zpaq.rs:121-124) -/
def Zpaq.withAverageSizePow2 (prof : Profile) (averageSizePow2 : BitVec 8) : R Zpaq :=
  match rangeFromFragmentAve prof averageSizePow2 with
  | .error e => .error e
  | .ok r => Zpaq.withAverageAndRange prof averageSizePow2 r

/-- `Zpaq::with_max_size` (src/zpaq.rs:132-134) -/
def Zpaq.withMaxSize (prof : Profile) (max : BitVec 64) : R Zpaq :=
  Zpaq.withAverageAndRange prof (fragmentAveFromMax max) (rangeFromMax max)

/-- `Zpaq::default` (src/zpaq.rs:166-168) -/
def Zpaq.default (prof : Profile) : R Zpaq := Zpaq.withAverageSizePow2 prof 16

/-! ## The hash -/

/-- `struct ZpaqHash` (src/zpaq.rs:279-283) -/
structure ZpaqHash where
  hash          : BitVec 32
  lastByte      : UInt8
  predictedByte : Vector UInt8 256
deriving DecidableEq

/-- `ZpaqHash::eq` (src/zpaq.rs:285-291) -/
def ZpaqHash.eq (self other : ZpaqHash) : Bool :=
  self.hash == other.hash && self.lastByte == other.lastByte && sliceEq self.predictedByte.toList other.predictedByte.toList

/-- `ZpaqHash::default` (src/zpaq.rs:306-312) -/
def ZpaqHash.default : ZpaqHash :=
  { hash := 0, lastByte := 0, predictedByte := Vector.replicate 256 0 }

/-- `ZpaqHash::feed` (src/zpaq.rs:321-331); the returned `u32` is the new `hash` -/
def ZpaqHash.feed (self : ZpaqHash) (c : UInt8) : ZpaqHash :=
  { hash :=
      if c = lookup self.predictedByte self.lastByte then
        (self.hash + c.toBitVec.setWidth 32 + 1) * 314159265
      else
        (self.hash + c.toBitVec.setWidth 32 + 1) * 271828182
    predictedByte := store self.predictedByte self.lastByte c
    lastByte := c }

/-- `struct ZpaqSearchState` (src/zpaq.rs:184-187); `idx: u64` is a `Nat` (see C58). -/
structure ZpaqSearchState where
  state : ZpaqHash
  idx   : Nat
deriving DecidableEq

/-- `ZpaqSearchState::default` (derived), `to_search_state` (src/zpaq.rs:199-201) -/
def ZpaqSearchState.default : ZpaqSearchState := { state := ZpaqHash.default, idx := 0 }

/-- `ZpaqSearchState::feed` (src/zpaq.rs:190-193) -/
def ZpaqSearchState.feed (self : ZpaqSearchState) (v : UInt8) : ZpaqSearchState × BitVec 32 :=
  let st := self.state.feed v
  ({ idx := self.idx + 1, state := st }, st.hash)

/-- `Zpaq::find_chunk_edge` (src/zpaq.rs:203-217). Note `state.idx + 1`. -/
def Zpaq.findChunkEdge (self : Zpaq) (state : ZpaqSearchState) (data : Bytes) :
    R (ZpaqSearchState × Option Nat × Nat) :=
  let body (i : Nat) (v : UInt8) (state : ZpaqSearchState) :
      R (Flow ZpaqSearchState (Option Nat × Nat)) :=
    let (state, h) := state.feed v
    if self.splitHere h (state.idx + 1) then
      .ok (.ret ZpaqSearchState.default (some (i + 1), i + 1))
    else .ok (.next state)
  match forEnum body 0 data state with
  | .error e => .error e
  | .ok (.ret state r) => .ok (state, r)
  | .ok (.next state)  => .ok (state, none, data.length)

/-- `impl Chunk for Zpaq` -/
abbrev chunk (p : Zpaq) : Chunk :=
  { State := ZpaqSearchState, init := ZpaqSearchState.default, fce := p.findChunkEdge }

/-- `struct ZpaqIncr` (src/zpaq.rs:176-180) -/
structure ZpaqIncr where
  params : Zpaq
  state  : ZpaqHash
  idx    : Nat

/-- `From<Zpaq> for ZpaqIncr`, `to_chunk_incr` (src/zpaq.rs:226-237, 265-273) -/
def ZpaqIncr.from (params : Zpaq) : ZpaqIncr :=
  { params := params, state := ZpaqHash.default, idx := 0 }

/-- `ZpaqIncr::feed` (src/zpaq.rs:240-243) -/
def ZpaqIncr.feed (self : ZpaqIncr) (v : UInt8) : ZpaqIncr × BitVec 32 :=
  let st := self.state.feed v
  ({ self with idx := self.idx + 1, state := st }, st.hash)

/-- `ZpaqIncr::reset` (src/zpaq.rs:245-248) -/
def ZpaqIncr.reset (self : ZpaqIncr) : ZpaqIncr :=
  { self with idx := 0, state := ZpaqHash.default }

/-- `ZpaqIncr::push` (src/zpaq.rs:252-262). Note `self.idx`, not `self.idx + 1`. -/
def ZpaqIncr.push (self : ZpaqIncr) (data : Bytes) : R (ZpaqIncr × Option Nat) :=
  let body (i : Nat) (v : UInt8) (self : ZpaqIncr) : R (Flow ZpaqIncr (Option Nat)) :=
    let (self, h) := self.feed v
    if self.params.splitHere h self.idx then .ok (.ret self.reset (some (i + 1)))
    else .ok (.next self)
  match forEnum body 0 data self with
  | .error e => .error e
  | .ok (.ret self r) => .ok (self, r)
  | .ok (.next self)  => .ok (self, none)

/-- `impl ChunkIncr for ZpaqIncr`, created by `to_chunk_incr` -/
abbrev incr (p : Zpaq) : ChunkIncr :=
  { State := ZpaqIncr, init := ZpaqIncr.from p, push := ZpaqIncr.push }

end HashRoll.Zpaq
