import Verif.Model.Traits
/-!
# src/mii.rs
-/

namespace HashRoll.Mii

/-- `struct Mii` (src/mii.rs:10-12); `w: u64` is a `Nat`. -/
structure Mii where
  w : Nat
deriving DecidableEq

/-- `Mii::with_w` (src/mii.rs:26-28) -/
def Mii.withW (w : Nat) : Mii := { w := w }

/-- `Mii::default` (src/mii.rs:35-37) -/
def Mii.default : Mii := Mii.withW 5

/-- `struct MiiIncr` (src/mii.rs:100-109); `increment: u64` is a `Nat` (see C58). -/
structure MiiIncr where
  w         : Nat
  prev      : UInt8
  increment : Nat
deriving DecidableEq

/-- `From<Mii> for MiiIncr`, `From<&Mii>`, `to_chunk_incr` (src/mii.rs:62-74, 111-120) -/
def MiiIncr.from (p : Mii) : MiiIncr := { w := p.w, prev := 0xff, increment := 0 }

/-- `MiiIncr::reset` (src/mii.rs:144-147) -/
def MiiIncr.reset (self : MiiIncr) : MiiIncr := { self with prev := 0xff, increment := 0 }

/-- `MiiIncr::push` (src/mii.rs:123-140). Note `prev = 0` after a split. -/
def MiiIncr.push (self : MiiIncr) (input : Bytes) : R (MiiIncr × Option Nat) :=
  let body (i : Nat) (b : UInt8) (self : MiiIncr) : R (Flow MiiIncr (Option Nat)) :=
    if b > self.prev then
      let self := { self with increment := self.increment + 1 }
      if self.increment = self.w then
        .ok (.ret { self with increment := 0, prev := 0 } (some (i + 1)))
      else .ok (.next { self with prev := b })
    else .ok (.next { self with increment := 0, prev := b })
  match forEnum body 0 input self with
  | .error e => .error e
  | .ok (.ret self r) => .ok (self, r)
  | .ok (.next self)  => .ok (self, none)

/-- `struct MiiSearchState` (src/mii.rs:77-79) -/
structure MiiSearchState where
  incr : MiiIncr
deriving DecidableEq

/-- `Mii::to_search_state` (src/mii.rs:43-45) -/
def Mii.toSearchState (self : Mii) : MiiSearchState := { incr := MiiIncr.from self }

/-- `MiiSearchState::reset` (src/mii.rs:82-84) -/
def MiiSearchState.reset (self : MiiSearchState) : MiiSearchState := { incr := self.incr.reset }

/-- `MiiSearchState::push` (src/mii.rs:94-96) -/
def MiiSearchState.push (self : MiiSearchState) (data : Bytes) : R (MiiSearchState × Option Nat) :=
  match self.incr.push data with
  | .error e => .error e
  | .ok (incr, r) => .ok ({ incr := incr }, r)

/-- `Mii::find_chunk_edge` (src/mii.rs:47-59) -/
def Mii.findChunkEdge (_self : Mii) (state : MiiSearchState) (data : Bytes) :
    R (MiiSearchState × Option Nat × Nat) :=
  match state.push data with
  | .error e => .error e
  | .ok (state, some v) => .ok (state.reset, some v, v)
  | .ok (state, none)   => .ok (state, none, data.length)

/-- `impl Chunk for Mii` -/
abbrev chunk (p : Mii) : Chunk :=
  { State := MiiSearchState, init := p.toSearchState, fce := p.findChunkEdge }

/-- `impl ChunkIncr for MiiIncr`, created by `to_chunk_incr` -/
abbrev incr (p : Mii) : ChunkIncr :=
  { State := MiiIncr, init := MiiIncr.from p, push := MiiIncr.push }

end HashRoll.Mii
