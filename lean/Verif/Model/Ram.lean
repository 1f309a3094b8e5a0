import Verif.Model.Traits
/-!
# src/ram.rs
-/

namespace HashRoll.Ram

/-- `struct Ram` (src/ram.rs:17-22); `w: u64` is a `Nat`. -/
structure Ram where
  w : Nat
deriving DecidableEq

/-- `Ram::with_w` (src/ram.rs:28-30) -/
def Ram.withW (w : Nat) : Ram := { w := w }

/-- `struct RamState` (src/ram.rs:53-59); `i: u64` is a `Nat` (see C58). -/
structure RamState where
  i      : Nat
  maxVal : UInt8
deriving DecidableEq

/-- `RamState::default` (derived, src/ram.rs:52) -/
def RamState.default : RamState := { i := 0, maxVal := 0 }

/-- `RamState::push` (src/ram.rs:62-81). Note: returns `Some(l_i)`, not `Some(l_i + 1)`.
The loop reads the `self.i` saved before the loop (`let i = self.i`). -/
def RamState.push (self : RamState) (params : Ram) (data : Bytes) : R (RamState × Option Nat) :=
  let i := self.i
  let body (l_i : Nat) (b : UInt8) (self : RamState) : R (Flow RamState (Option Nat)) :=
    if b ≥ self.maxVal then
      let ri := l_i + i
      if ri > params.w then .ok (.ret { i := 0, maxVal := 0 } (some l_i))
      else .ok (.next { self with maxVal := b })
    else .ok (.next self)
  match forEnum body 0 data self with
  | .error e => .error e
  | .ok (.ret self r) => .ok (self, r)
  | .ok (.next self)  => .ok ({ self with i := self.i + data.length }, none)

/-- `Ram::find_chunk_edge` (src/ram.rs:40-49) -/
def Ram.findChunkEdge (self : Ram) (state : RamState) (data : Bytes) :
    R (RamState × Option Nat × Nat) :=
  match state.push self data with
  | .error e => .error e
  | .ok (state, some i) => .ok (state, some (i + 1), i + 1)
  | .ok (state, none)   => .ok (state, none, data.length)

/-- `impl Chunk for Ram`; `to_search_state` (src/ram.rs:36-38) -/
abbrev chunk (p : Ram) : Chunk :=
  { State := RamState, init := RamState.default, fce := p.findChunkEdge }

/-- `struct RamIncr` (src/ram.rs:102-105) -/
structure RamIncr where
  params : Ram
  state  : RamState

/-- `From<&Ram> for RamIncr`, `to_chunk_incr` (src/ram.rs:87-99) -/
def RamIncr.from (params : Ram) : RamIncr := { params := params, state := RamState.default }

/-- `RamIncr::push` (src/ram.rs:108-110) -/
def RamIncr.push (self : RamIncr) (data : Bytes) : R (RamIncr × Option Nat) :=
  match self.state.push self.params data with
  | .error e => .error e
  | .ok (state, r) => .ok ({ self with state := state }, r)

/-- `impl ChunkIncr for RamIncr`, created by `to_chunk_incr` -/
abbrev incr (p : Ram) : ChunkIncr :=
  { State := RamIncr, init := RamIncr.from p, push := RamIncr.push }

end HashRoll.Ram
