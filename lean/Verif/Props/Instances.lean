import Verif.Model.Gear
import Verif.Model.FastCdc
import Verif.Model.Pigz
import Verif.Model.Ram
import Verif.Model.Gzip
import Verif.Model.Mii
import Verif.Model.Zpaq
import Verif.Model.Zstd
import Verif.Model.Bup
import Verif.Model.Buzhash
/-!
# Concrete chunkers used in the examples and in the counterexamples
-/

deriving instance DecidableEq for Except

namespace HashRoll.Ex

/-- `Gear32::default()` -/
def gear : Gear.Gear32 := { mask := 0xfff80000, xxx := 0, gear := Tables.gear32 }
example : Gear.Gear32.default .debug = .ok gear := by rfl

/-- `Gear32` with `average_size_log2 = 2`: small enough to cut short examples -/
def gear2 : Gear.Gear32 := { mask := 0xc0000000, xxx := 0, gear := Tables.gear32 }
example : Gear.Gear32.withAverageSizeLog2 .debug 2 = .ok gear2 := by rfl

/-- `PigzRsyncable::with_bits(2)` -/
def pigz2 : Pigz.PigzRsyncable := { bits := 2, mask := 3, hit := 1 }
theorem pigz2_ok : Pigz.PigzRsyncable.withBits .debug 2 = .ok pigz2 := by rfl

/-- `GzipRsyncable` with a window of 3 bytes and modulus 5 -/
def gzip3 : Gzip.GzipRsyncable := Gzip.GzipRsyncable.withWindowAndModulus 3 5

/-- `FastCdc` with small sizes -/
def fast : FastCdc.FastCdc := FastCdc.FastCdc.new Tables.gear64 1 2 4

/-- `Zpaq` with range `2..5` -/
def zpaq : Zpaq.Zpaq := { range := { start := .included 2, stop := .excluded 5 }, maxHash := 0x80000000 }

/-- `BuzHash::new(4, 3, GO_BUZHASH, 6)` -/
def buz : Buzhash.BuzHash := { k := 4, h := Buzhash.tableHash Tables.goBuzhash, mask := 3, maxChunkSize := 6 }
example : Buzhash.BuzHash.new 4 3 (Buzhash.tableHash Tables.goBuzhash) 6 = .ok buz := by rfl

/-- `Zstd::default()` -/
def zstd : Zstd.Zstd := { hitMask := 0x7fffff, primePower := 0xf5507fe35f91f8cb }
example : Zstd.Zstd.default .debug = .ok zstd := by decide +kernel

end HashRoll.Ex
