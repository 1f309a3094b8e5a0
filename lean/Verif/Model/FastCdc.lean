import Verif.Model.Traits
import Verif.Model.Tables
/-!
# src/fastcdc.rs
-/

namespace HashRoll.FastCdc

/-- `MASK_S` (src/fastcdc.rs:13) -/
def maskS : BitVec 64 := 0x0003590703530000
/-- `MASK_L` (src/fastcdc.rs:15) -/
def maskL : BitVec 64 := 0x0000d90003530000

/-- `struct FastCdc` (src/fastcdc.rs:26-31). Sizes (`u64`) are `Nat`. -/
structure FastCdc where
  gear       : Vector (BitVec 64) 256
  minSize    : Nat
  maxSize    : Nat
  normalSize : Nat

/-- `FastCdc::eq` (src/fastcdc.rs:33-40) -/
def FastCdc.eq (self other : FastCdc) : Bool :=
  self.minSize == other.minSize && self.maxSize == other.maxSize && self.normalSize == other.normalSize &&
    sliceEq self.gear.toList other.gear.toList

/-- `FastCdc::default` (src/fastcdc.rs:44-53) -/
def FastCdc.default : FastCdc :=
  { minSize := 2 * 1024, maxSize := 64 * 1024, normalSize := 8 * 1024, gear := Tables.gear64 }

/-- `FastCdc::new` (src/fastcdc.rs:87-94). No validation; note the argument order. -/
def FastCdc.new (gear : Vector (BitVec 64) 256) (minSize normalSize maxSize : Nat) : FastCdc :=
  { gear := gear, minSize := minSize, maxSize := maxSize, normalSize := normalSize }

/-- `struct FastCdcState` (src/fastcdc.rs:125-135). `l: u64` is a `Nat` (see C58). -/
structure FastCdcState where
  l  : Nat
  fp : BitVec 64
deriving DecidableEq

/-- `FastCdcState::default` (derived) and `reset` (src/fastcdc.rs:138-141) -/
def FastCdcState.default : FastCdcState := { l := 0, fp := 0 }

/-- State of the two inner loops of `push`: either they `return Some(i)` or fall through with the
local variables `gi`, `i`, `fp`. -/
inductive Loop
  | ret  (i : Nat)
  | done (gi i : Nat) (fp : BitVec 64)

/-- First loop of `push` (src/fastcdc.rs:167-185). `rest` is `data[i..]`, so `i >= data.len()` is
`rest = []` and `data[i]` its head. -/
def loop1 (p : FastCdc) : (rest : Bytes) → (gi i : Nat) → (fp : BitVec 64) → Loop
  | [],      gi, i, fp => .done gi i fp
  | v :: vs, gi, i, fp =>
    if gi ≥ p.normalSize then .done gi i fp
    else
      let fp := (fp <<< 1) + lookup p.gear v
      if fp &&& maskS = 0 then .ret i
      else loop1 p vs (gi + 1) (i + 1) fp

/-- Second loop of `push` (src/fastcdc.rs:187-206). -/
def loop2 (p : FastCdc) : (rest : Bytes) → (gi i : Nat) → (fp : BitVec 64) → Loop
  | [],      gi, i, fp => if gi ≥ p.maxSize then .ret i else .done gi i fp
  | v :: vs, gi, i, fp =>
    if gi ≥ p.maxSize then .ret i
    else
      let fp := (fp <<< 1) + lookup p.gear v
      if fp &&& maskL = 0 then .ret i
      else loop2 p vs (gi + 1) (i + 1) fp

/-- `FastCdcState::push` (src/fastcdc.rs:143-213) -/
def FastCdcState.push (self : FastCdcState) (p : FastCdc) (data : Bytes) :
    FastCdcState × Option Nat :=
  let gi := self.l
  let ge := data.length + gi
  if ge ≤ p.minSize then ({ self with l := ge }, none)
  else
    let skip := if gi ≤ p.minSize then p.minSize - gi else 0
    let gi := gi + skip
    match loop1 p (data.drop skip) gi skip self.fp with
    | .ret i => (FastCdcState.default, some i)
    | .done gi i fp =>
      match loop2 p (data.drop i) gi i fp with
      | .ret i => (FastCdcState.default, some i)
      | .done _ _ fp => ({ l := ge, fp := fp }, none)

/-- `FastCdc::find_chunk_edge` (src/fastcdc.rs:73-82). Note `i + 1` in both components. -/
def FastCdc.findChunkEdge (self : FastCdc) (state : FastCdcState) (data : Bytes) :
    R (FastCdcState × Option Nat × Nat) :=
  match state.push self data with
  | (state, some i) => .ok (state, some (i + 1), i + 1)
  | (state, none)   => .ok (state, none, data.length)

/-- `impl Chunk for FastCdc`; `to_search_state` (src/fastcdc.rs:69-71) -/
abbrev chunk (p : FastCdc) : Chunk :=
  { State := FastCdcState, init := FastCdcState.default, fce := p.findChunkEdge }

/-- `struct FastCdcIncr` (src/fastcdc.rs:119-122) -/
structure FastCdcIncr where
  params : FastCdc
  state  : FastCdcState

/-- `From<&FastCdc> for FastCdcIncr`, `to_chunk_incr` (src/fastcdc.rs:100-112) -/
def FastCdcIncr.from (params : FastCdc) : FastCdcIncr :=
  { params := params, state := FastCdcState.default }

/-- `FastCdcIncr::push` (src/fastcdc.rs:217-219) -/
def FastCdcIncr.push (self : FastCdcIncr) (src : Bytes) : R (FastCdcIncr × Option Nat) :=
  match self.state.push self.params src with
  | (state, r) => .ok ({ self with state := state }, r)

/-- `impl ChunkIncr for FastCdcIncr`, created by `to_chunk_incr` -/
abbrev incr (p : FastCdc) : ChunkIncr :=
  { State := FastCdcIncr, init := FastCdcIncr.from p, push := FastCdcIncr.push }

/-- Loop `for i in a..b { fp = ..; if fp & mask == 0 { return i } }` of the test oracle
(tests/fastcdc.rs:143-148 and 150-155); result `inl i` is the `return`, `inr fp` falling through. -/
def oracleLoop (src : Bytes) (mask : BitVec 64) : (count : Nat) → (i : Nat) → BitVec 64 →
    R (Nat ⊕ BitVec 64)
  | 0,         _, fp => .ok (.inr fp)
  | count + 1, i, fp =>
    match index src i with
    | .error e => .error e
    | .ok v =>
      let fp := (fp <<< 1) + lookup Tables.gear64 v
      if fp &&& mask = 0 then .ok (.inl i) else oracleLoop src mask count (i + 1) fp

/-- Test oracle `fast_cdc_8kb` (tests/fastcdc.rs:117-165), the reference pseudo-code. -/
def fastCdc8kb (src : Bytes) : R Nat :=
  let minSize := 2 * 1024
  let maxSize := 64 * 1024
  let n := src.length
  let normalSize := 8 * 1024
  if n ≤ minSize then .ok 0
  else
    let (n, normalSize) :=
      if n ≥ maxSize then (maxSize, normalSize)
      else if n ≤ normalSize then (n, n)
      else (n, normalSize)
    match oracleLoop src 0x0003590703530000 (normalSize - minSize) minSize 0 with
    | .error e => .error e
    | .ok (.inl i) => .ok i
    | .ok (.inr fp) =>
      match oracleLoop src 0x0000d90003530000 (n - normalSize) normalSize fp with
      | .error e => .error e
      | .ok (.inl i) => .ok i
      | .ok (.inr _) => .ok (if n = maxSize then n else 0)

end HashRoll.FastCdc
