import Verif.Model.Traits
import Verif.Model.Tables
/-!
# src/buzhash.rs, and `borg_buzhash_table` of src/buzhash_table.rs
-/

namespace HashRoll.Buzhash

/-- `trait BuzHashHash` (src/buzhash.rs:295-297): the method `hash(&self, data: u8) -> u32` -/
abbrev BuzHashHash := UInt8 → BitVec 32

/-- `BuzHashTableHash::hash` (src/buzhash.rs:301-321) and `BuzHashTableBufHash::hash` (325-345) -/
def tableHash (table : Vector (BitVec 32) 256) : BuzHashHash := fun data => lookup table data

/-- `BuzHashTableByteSaltHash` (src/buzhash.rs:351-372), `from((salt, table))` then `hash` -/
def tableByteSaltHash (salt : UInt8) (table : Vector (BitVec 32) 256) : BuzHashHash :=
  fun data => lookup table (data ^^^ salt)

/-- `borg_buzhash_table(seed)` (src/buzhash_table.rs:77-84) -/
def borgBuzhashTable (seed : BitVec 32) : R (Vector (BitVec 32) 256) :=
  let body (i : Nat) (t : Vector (BitVec 32) 256) : R (Flow (Vector (BitVec 32) 256) Unit) :=
    if h : i < 256 then .ok (.next (t.set i (Tables.borgBuzhashBase[i] ^^^ seed)))
    else .error .indexOutOfBounds
  match forRange body 256 0 (Vector.replicate 256 0) with
  | .error e => .error e
  | .ok (.ret t _) => .ok t
  | .ok (.next t) => .ok t

/-- `struct BuzHash<H>` (src/buzhash.rs:68-81) -/
structure BuzHash where
  k            : Nat
  h            : BuzHashHash
  mask         : BitVec 32
  maxChunkSize : Nat

/-- `BuzHash::new` (src/buzhash.rs:90-98) -/
def BuzHash.new (capacity : Nat) (mask : BitVec 32) (hash : BuzHashHash) (maxChunkSize : Nat) : R BuzHash :=
  match assert (capacity > 0) with
  | .error e => .error e
  | .ok () => .ok { k := capacity, h := hash, mask := mask, maxChunkSize := maxChunkSize }

/-- `BuzHash::new_nom` (src/buzhash.rs:111-118); `(1 << 12) - 1` and `1 << 24` are constants -/
def BuzHash.newNom (salt : UInt8) : R BuzHash :=
  BuzHash.new 67 ((1 <<< 12) - 1) (tableByteSaltHash salt Tables.goBuzhash) (1 <<< 24)

/-- `struct BuzHashState` (src/buzhash.rs:186-189) -/
structure BuzHashState where
  h : BitVec 32
deriving DecidableEq

/-- `BuzHashState::reset` (src/buzhash.rs:192-194) -/
def BuzHashState.reset (_self : BuzHashState) : BuzHashState := { h := 0 }

/-- `BuzHashState::add` (src/buzhash.rs:209-211) -/
def BuzHashState.add (self : BuzHashState) (params : BuzHash) (v : UInt8) : BuzHashState :=
  { h := self.h.rotateLeft 1 ^^^ params.h v }

/-- `BuzHashState::add_overflow` (src/buzhash.rs:214-219). Note `k % 8`. -/
def BuzHashState.addOverflow (self : BuzHashState) (params : BuzHash) (addV removeV : UInt8) :
    BuzHashState :=
  let h := self.h.rotateLeft 1
  let drop := (params.h removeV).rotateLeft (params.k % 8)
  { h := h ^^^ drop ^^^ params.h addV }

/-- `BuzHashState::add_buf` (src/buzhash.rs:196-206) -/
def BuzHashState.addBuf (self : BuzHashState) (data : Bytes) (params : BuzHash) (i : Nat) :
    R BuzHashState :=
  if i ≥ params.k then
    match index data (i - params.k) with
    | .error e => .error e
    | .ok drop =>
      match index data i with
      | .error e => .error e
      | .ok v => .ok (self.addOverflow params v drop)
  else
    match index data i with
    | .error e => .error e
    | .ok v => .ok (self.add params v)

/-- `struct BuzHashSearchState` (src/buzhash.rs:173-176) -/
structure BuzHashSearchState where
  offset : Nat
  state  : BuzHashState
deriving DecidableEq

/-- `BuzHashSearchState::default` (derived), `to_search_state` (src/buzhash.rs:124-126) -/
def BuzHashSearchState.default : BuzHashSearchState := { offset := 0, state := { h := 0 } }

/-- `BuzHashSearchState::reset` (src/buzhash.rs:179-182) -/
def BuzHashSearchState.reset (self : BuzHashSearchState) : BuzHashSearchState :=
  { offset := 0, state := self.state.reset }

/-- `BuzHash::find_chunk_edge` (src/buzhash.rs:128-156); `max_chunk_size` is not used (commented out) -/
def BuzHash.findChunkEdge (self : BuzHash) (state : BuzHashSearchState) (data : Bytes) :
    R (BuzHashSearchState × Option Nat × Nat) :=
  let body (i : Nat) (state : BuzHashSearchState) :
      R (Flow BuzHashSearchState (Option Nat × Nat)) :=
    match state.state.addBuf data self i with
    | .error e => .error e
    | .ok st =>
      let state := { state with state := st }
      if state.state.h &&& self.mask = self.mask then .ok (.ret state.reset (some (i + 1), i + 1))
      else .ok (.next state)
  match forRange body (data.length - state.offset) state.offset state with
  | .error e => .error e
  | .ok (.ret state r) => .ok (state, r)
  | .ok (.next state)  =>
    let discardCt := data.length - self.k   -- saturating_sub
    .ok ({ state with offset := data.length - discardCt }, none, discardCt)

/-- `impl Chunk for BuzHash<H>` -/
abbrev chunk (p : BuzHash) : Chunk :=
  { State := BuzHashSearchState, init := BuzHashSearchState.default, fce := p.findChunkEdge }

/-- `struct BuzHashIncr<H>` (src/buzhash.rs:227-233); `input_idx: u64` is a `Nat` (see C58) -/
structure BuzHashIncr where
  params   : BuzHash
  state    : BuzHashState
  buf      : Bytes
  bufIdx   : Nat
  inputIdx : Nat

/-- `From<BuzHash<H>> for BuzHashIncr<H>`, `to_chunk_incr` (src/buzhash.rs:159-170, 281-292) -/
def BuzHashIncr.from (params : BuzHash) : BuzHashIncr :=
  { params := params, state := { h := 0 }, buf := List.replicate params.k 0, bufIdx := 0, inputIdx := 0 }

/-- `BuzHashIncr::reset` (src/buzhash.rs:259-263); `buf` keeps its contents -/
def BuzHashIncr.reset (self : BuzHashIncr) : BuzHashIncr :=
  { self with bufIdx := 0, inputIdx := 0, state := self.state.reset }

/-- `self.buf_idx.0 %= self.params.k` (src/buzhash.rs:276): panics for `k = 0`, see `C59_buzhash_zero` -/
def remNat (a b : Nat) : R Nat := if b = 0 then .error .remByZero else .ok (a % b)

/-- `BuzHashIncr::push_byte` (src/buzhash.rs:265-278) -/
def BuzHashIncr.pushByte (self : BuzHashIncr) (val : UInt8) : R BuzHashIncr :=
  let st : R BuzHashState :=
    if self.inputIdx ≥ self.params.k then
      match index self.buf self.bufIdx with
      | .error e => .error e
      | .ok o => .ok (self.state.addOverflow self.params val o)
    else .ok (self.state.add self.params val)
  match st with
  | .error e => .error e
  | .ok st =>
    match index self.buf self.bufIdx with               -- self.buf[self.buf_idx.0] = val
    | .error e => .error e
    | .ok _ =>
      match remNat (self.bufIdx + 1) self.params.k with
      | .error e => .error e
      | .ok bi =>
        .ok { self with
          state := st, buf := self.buf.set self.bufIdx val, bufIdx := bi, inputIdx := self.inputIdx + 1 }

/-- `BuzHashIncr::push` (src/buzhash.rs:240-255) -/
def BuzHashIncr.push (self : BuzHashIncr) (data : Bytes) : R (BuzHashIncr × Option Nat) :=
  let body (i : Nat) (v : UInt8) (self : BuzHashIncr) : R (Flow BuzHashIncr (Option Nat)) :=
    match self.pushByte v with
    | .error e => .error e
    | .ok self =>
      if self.state.h &&& self.params.mask = self.params.mask then
        .ok (.ret self.reset (some (i + 1)))
      else if self.inputIdx > self.params.maxChunkSize then
        .ok (.ret self.reset (some (i + 1)))
      else .ok (.next self)
  match forEnum body 0 data self with
  | .error e => .error e
  | .ok (.ret self r) => .ok (self, r)
  | .ok (.next self)  => .ok (self, none)

/-- `impl ChunkIncr for BuzHashIncr<H>`, created by `to_chunk_incr` -/
abbrev incr (p : BuzHash) : ChunkIncr :=
  { State := BuzHashIncr, init := BuzHashIncr.from p, push := BuzHashIncr.push }

end HashRoll.Buzhash
