import Verif.Model.Traits
import Verif.Model.Tables
/-!
# src/gear.rs
-/

namespace HashRoll.Gear

/-- `struct Gear32` (src/gear.rs:16-31) -/
structure Gear32 where
  mask : BitVec 32
  xxx  : BitVec 32
  gear : Vector (BitVec 32) 256

/-- `struct GearState32` (src/gear.rs:34-39); `fp: Wrapping<u32>` -/
structure GearState32 where
  fp : BitVec 32
deriving DecidableEq

/-- `GearState32::default()` (derived, src/gear.rs:33) -/
def GearState32.default : GearState32 := { fp := 0 }

/-- `GearState32::push` (src/gear.rs:99-102) -/
def GearState32.push (self : GearState32) (params : Gear32) (add : UInt8) : GearState32 × Bool :=
  let fp := (self.fp <<< 1) + lookup params.gear add
  ({ fp := fp }, fp &&& params.mask == params.xxx)

/-- `GearState32::reset` (src/gear.rs:104-106) -/
def GearState32.reset (_self : GearState32) : GearState32 := { fp := 0 }

/-- `Gear32::to_search_state` (src/gear.rs:51-53) -/
def Gear32.toSearchState (_self : Gear32) : GearState32 := GearState32.default

/-- `Gear32::find_chunk_edge` (src/gear.rs:55-68) -/
def Gear32.findChunkEdge (self : Gear32) (state : GearState32) (data : Bytes) :
    R (GearState32 × Option Nat × Nat) :=
  let body (i : Nat) (v : UInt8) (state : GearState32) : R (Flow GearState32 (Option Nat × Nat)) :=
    let (state, hit) := state.push self v
    if hit then .ok (.ret self.toSearchState (some (i + 1), i + 1))
    else .ok (.next state)
  match forEnum body 0 data state with
  | .error e => .error e
  | .ok (.ret state r) => .ok (state, r)
  | .ok (.next state)  => .ok (state, none, data.length)

/-- `impl Chunk for Gear32` -/
abbrev chunk (p : Gear32) : Chunk :=
  { State := GearState32, init := p.toSearchState, fce := p.findChunkEdge }

/-- `struct GearIncr32` (src/gear.rs:42-46) -/
structure GearIncr32 where
  params : Gear32
  state  : GearState32

/-- `From<&Gear32> for GearIncr32`, `to_chunk_incr` (src/gear.rs:74-86) -/
def GearIncr32.from (params : Gear32) : GearIncr32 :=
  { params := params, state := GearState32.default }

/-- `GearIncr32::push` (src/gear.rs:110-119). Note: returns `Some(i)`, not `Some(i + 1)`. -/
def GearIncr32.push (self : GearIncr32) (data : Bytes) : R (GearIncr32 × Option Nat) :=
  let body (i : Nat) (v : UInt8) (self : GearIncr32) : R (Flow GearIncr32 (Option Nat)) :=
    let (state, hit) := self.state.push self.params v
    let self := { self with state := state }
    if hit then .ok (.ret { self with state := self.state.reset } (some i))
    else .ok (.next self)
  match forEnum body 0 data self with
  | .error e => .error e
  | .ok (.ret self r) => .ok (self, r)
  | .ok (.next self)  => .ok (self, none)

/-- `impl ChunkIncr for GearIncr32`, created by `to_chunk_incr` -/
abbrev incr (p : Gear32) : ChunkIncr :=
  { State := GearIncr32, init := GearIncr32.from p, push := GearIncr32.push }

/-- `msb_mask(log2: usize) -> u32` (src/gear.rs:122-129): `((1 << log2) - 1) << (32 - log2)`.
Evaluation order as in Rust: shift, subtract, `32 - log2` (usize), shift. -/
def msbMask (prof : Profile) (log2 : BitVec 64) : R (BitVec 32) :=
  match shl prof (1 : BitVec 32) log2.toNat with
  | .error e => .error e
  | .ok a =>
    match sub prof a 1 with
    | .error e => .error e
    | .ok b =>
      match sub prof (32 : BitVec 64) log2 with
      | .error e => .error e
      | .ok s => shl prof b s.toNat

/-- `Gear32::with_average_size_log2` (src/gear.rs:134-140) -/
def Gear32.withAverageSizeLog2 (prof : Profile) (log2 : BitVec 64) : R Gear32 :=
  match msbMask prof log2 with
  | .error e => .error e
  | .ok mask => .ok { mask := mask, xxx := 0, gear := Tables.gear32 }

/-- `Gear32::default` (src/gear.rs:143-148) -/
def Gear32.default (prof : Profile) : R Gear32 := Gear32.withAverageSizeLog2 prof 13

end HashRoll.Gear
