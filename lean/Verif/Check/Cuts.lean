import Verif.Model.Gear
import Verif.Model.FastCdc
import Verif.Model.Pigz
import Verif.Model.Ram
import Verif.Model.Gzip
import Verif.Model.Mii
import Verif.Model.Zpaq
import Verif.Model.Zstd
import Verif.Model.Bup
import Verif.Model.Buzhash
/-!
# The recorded cuts of tests/cuts.rs, evaluated on the model

These are tests of the model, not proofs: they check that the model was transcribed faithfully, by running it on the
inputs of tests/cuts.rs and comparing with the split lengths recorded there. `#guard` evaluates and leaves nothing
behind; no theorem depends on this file.

tests/cuts.rs asserts the same list for `find_chunk_edge` and for the byte-at-a-time incremental API; both are
checked here (only the incremental one for Zstd, whose `find_chunk_edge` indexes a 2 MiB list).
-/

namespace HashRoll.Check

/-- `rand_pcg::Pcg64` (version 0.2, `Lcg128Xsl64`): `new(seed, stream)` then `fill_bytes`, as used by `test_data`
(tests/cuts.rs:5-10); `size` a multiple of 8. -/
def testData (seed size : Nat) : Bytes := Id.run do
  let mul := 0x2360ED051FC65DA44385DF649FCCF645
  let inc := ((0xa02bdbf7bb3c0a7ac28fa16a64abf96 <<< 1) ||| 1) % 2 ^ 128
  let mut st := (seed + inc) % 2 ^ 128
  st := (st * mul + inc) % 2 ^ 128
  let mut out : Array UInt8 := Array.mkEmpty size
  for _ in [0:size / 8] do
    st := (st * mul + inc) % 2 ^ 128
    let x : BitVec 64 := BitVec.ofNat 64 (st >>> 64) ^^^ BitVec.ofNat 64 st
    let mut y := (x.rotateRight (st >>> 122)).toNat
    for _ in [0:8] do
      out := out.push (UInt8.ofNat y)
      y := y >>> 8
  return out.toList

/-- the `find_chunk_edge` loop of `cut_test_sz` (tests/cuts.rs:46-70) -/
def fceSplits {α : Type} (mk : R α) (A : α → Chunk) (d : Bytes) : R (List Nat) :=
  match mk with
  | .error e => .error e
  | .ok a => ((A a).docLoop d (d.length + 1) (A a).init d 0).map fun x => x.1.map List.length

/-- the `push` loop of `cut_test_sz` (tests/cuts.rs:74-90) -/
def incrSplits {α : Type} (mk : R α) (C : α → ChunkIncr) (d : Bytes) : R (List Nat) :=
  match mk with
  | .error e => .error e
  | .ok a => (C a).bytewise (C a).init 0 0 d

def same (x : R (List Nat)) (y : List Nat) : Bool :=
  match x with
  | .ok l => l == y
  | .error _ => false

def cutTest {α : Type} (seed : Nat) (mk : R α) (A : α → Chunk) (C : α → ChunkIncr) (expected : List Nat) : Bool :=
  let d := testData seed (8192 * 4)
  same (fceSplits mk A d) expected && same (incrSplits mk C d) expected

#guard cutTest 0 (.ok Mii.Mii.default) Mii.chunk Mii.incr                                   -- tests/cuts.rs:101-112
  [1212, 40, 261, 1548, 1881, 312, 2043, 285, 1062, 677, 542, 1473, 303, 172, 318, 839, 2560, 3242, 396, 202, 123,
   898, 2454, 544, 3541, 571, 483, 383, 103, 2629, 929, 47, 524]
#guard cutTest 0 (.ok Bup.RollSum.default) Bup.chunk Bup.incr [2600, 6245]
#guard cutTest 0 (.ok Gzip.GzipRsyncable.default) Gzip.chunk Gzip.incr [2941, 2077, 5263, 7263, 392, 4371, 5204]
#guard cutTest 2 (.ok Gzip.GzipRsyncable.default) Gzip.chunk Gzip.incr [9277, 2758, 3074, 7415, 3579, 4141]
#guard cutTest 0 (Buzhash.BuzHash.newNom 0) Buzhash.chunk Buzhash.incr [6265, 1745, 11527, 6851, 1089]
#guard cutTest 0 (Zpaq.Zpaq.withAverageSizePow2 .debug 13) Zpaq.chunk Zpaq.incr [10785, 6329, 1287, 860, 4716, 7419]
#guard cutTest 3 (Zpaq.Zpaq.withAverageSizePow2 .debug 13) Zpaq.chunk Zpaq.incr [16353, 2334, 970, 5326, 1557]
#guard cutTest 0 (Pigz.PigzRsyncable.default .debug) Pigz.chunk Pigz.incr [9069, 1191, 3685, 8629, 2119, 2939]
#guard same (incrSplits (Zstd.Zstd.default .debug) Zstd.incr (testData 0 (1024 * 1024 * 2))) [12 * 131072 + 87647]
#guard cutTest 0 (Gear.Gear32.default .debug) Gear.chunk Gear.incr [11031, 7789, 10463]
#guard cutTest 0 (.ok FastCdc.FastCdc.default) FastCdc.chunk FastCdc.incr [8463, 9933, 9029]
#guard cutTest 0 (.ok (Ram.Ram.withW 8192)) Ram.chunk Ram.incr [8264, 8368, 8341]

end HashRoll.Check
