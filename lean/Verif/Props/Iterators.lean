import Verif.Props.Instances
import Verif.Proofs.IterGeneric
import Verif.Proofs.Total
/-!
# C01, C02, C04, C05, C07-C10, C31, C57: the iterators and loops, for each algorithm
-/

namespace HashRoll.Props

open Spec

theorem ram_pos (w : Nat) : (BeforeRule (Local (ramEdge w))).Pos := by
  rintro _ data n ⟨_, hn, ⟨_, _, h, _⟩, _⟩
  simp at h; omega

/-! ## Sample runs: the statements below are not vacuous -/

def sample : Bytes := [3,1,4,1,5,9,2,6,5,3,5,8,9,7,9,3,2,3,8,4]

def sampleBup : Bytes := [120,20,255,255,255,255,255,255,1,120,20,255,255,255,255,255,255,7,7]

def sumIter (C : ChunkIncr) (d : Bytes) : R (List Bytes × Bool) :=
  ((C.iterSlices C.init d).run (d.length + 1)).map fun x => (x.1, x.2.2)

def sumStrict (C : ChunkIncr) (d : Bytes) : R (List Bytes × Bytes × Bool) :=
  ((C.iterSlicesStrict C.init d).run (d.length + 1)).map fun x => (x.1, x.2.1.rem, x.2.2)

def sumDoc (A : Chunk) (d : Bytes) : R (List Bytes × Option Bytes) := A.docLoop d (d.length + 1) A.init d 0

example : sumIter (Pigz.incr Ex.pigz2) sample =
    .ok ([[3], [1, 4, 1], [5, 9, 2, 6, 5], [3], [5, 8, 9], [7], [9, 3], [2, 3, 8, 4]], true) := by decide +kernel

example : sumStrict (Pigz.incr Ex.pigz2) sample =
    .ok ([[3], [1, 4, 1], [5, 9, 2, 6, 5], [3], [5, 8, 9], [7], [9, 3]], ([2, 3, 8, 4], true)) := by decide +kernel

example : sumDoc (Pigz.chunk Ex.pigz2) sample =
    .ok ([[3], [1, 4, 1], [5, 9, 2, 6, 5], [3], [5, 8, 9], [7], [9, 3]], (some [])) := by decide +kernel

example : sumIter (Ram.incr (Ram.Ram.withW 2)) sample =
    .ok ([[3, 1, 4, 1], [5, 9, 2, 6, 5, 3, 5, 8], [9, 7, 9, 3, 2, 3, 8, 4]], true) := by decide +kernel

example : sumStrict (Ram.incr (Ram.Ram.withW 2)) sample =
    .ok ([[3, 1, 4, 1], [5, 9, 2, 6, 5, 3, 5, 8]], ([9, 7, 9, 3, 2, 3, 8, 4], true)) := by decide +kernel

example : sumDoc (Ram.chunk (Ram.Ram.withW 2)) sample =
    .ok ([[3, 1, 4, 1, 5], [9, 2, 6, 5, 3, 5, 8, 9]], (some [])) := by decide +kernel

example : sumIter (Gzip.incr Ex.gzip3) sample =
    .ok ([[3, 1, 4, 1, 5], [9, 2, 6, 5, 3, 5, 8, 9, 7, 9], [3, 2], [3, 8, 4]], true) := by decide +kernel

example : sumStrict (Gzip.incr Ex.gzip3) sample =
    .ok ([[3, 1, 4, 1, 5], [9, 2, 6, 5, 3, 5, 8, 9, 7, 9], [3, 2], [3, 8, 4]], ([], true)) := by decide +kernel

example : sumDoc (Gzip.chunk Ex.gzip3) sample =
    .ok ([[3, 1, 4, 1, 5], [9, 2, 6, 5, 3, 5, 8, 9, 7, 9], [3, 2], [3, 8, 4]], (some [])) := by decide +kernel

example : sumIter (Mii.incr (Mii.Mii.withW 2)) sample =
    .ok ([[3, 1, 4, 1, 5, 9], [2, 6], [5, 3, 5, 8], [9, 7, 9, 3, 2, 3, 8], [4]], true) := by decide +kernel

example : sumStrict (Mii.incr (Mii.Mii.withW 2)) sample =
    .ok ([[3, 1, 4, 1, 5, 9], [2, 6], [5, 3, 5, 8], [9, 7, 9, 3, 2, 3, 8]], ([4], true)) := by decide +kernel

example : sumDoc (Mii.chunk (Mii.Mii.withW 2)) sample =
    .ok ([[3, 1, 4, 1, 5, 9], [2, 6, 5, 3, 5, 8], [9, 7, 9, 3, 2, 3, 8]], (some [])) := by decide +kernel

example : sumIter (Zpaq.incr Ex.zpaq) sample =
    .ok ([[3, 1], [4, 1, 5], [9, 2, 6], [5, 3, 5, 8], [9, 7], [9, 3, 2, 3, 8], [4]], true) := by decide +kernel

example : sumStrict (Zpaq.incr Ex.zpaq) sample =
    .ok ([[3, 1], [4, 1, 5], [9, 2, 6], [5, 3, 5, 8], [9, 7], [9, 3, 2, 3, 8]], ([4], true)) := by decide +kernel

example : sumDoc (Zpaq.chunk Ex.zpaq) sample =
    .ok ([[3], [1], [4], [1], [5], [9, 2, 6], [5], [3], [5], [8, 9, 7, 9], [3], [2], [3], [8, 4]], (some [])) := by decide +kernel

example : sumIter (Bup.incr (Bup.RollSum.withWindow 8)) sampleBup =
    .ok ([[120, 20, 255, 255, 255, 255, 255, 255], [1, 120, 20, 255, 255, 255, 255, 255, 255], [7, 7]], true) := by decide +kernel

example : sumStrict (Bup.incr (Bup.RollSum.withWindow 8)) sampleBup =
    .ok ([[120, 20, 255, 255, 255, 255, 255, 255], [1, 120, 20, 255, 255, 255, 255, 255, 255]], ([7, 7], true)) := by decide +kernel

example : sumDoc (Bup.chunk (Bup.RollSum.withWindow 8)) sampleBup =
    .ok ([[120, 20, 255, 255, 255, 255, 255, 255], [1, 120, 20, 255, 255, 255, 255, 255, 255]], (some [7, 7])) := by decide +kernel

example : sumIter (Buzhash.incr Ex.buz) sample =
    .ok ([[3, 1, 4, 1, 5, 9, 2], [6, 5, 3], [5, 8, 9, 7], [9, 3, 2, 3, 8, 4]], true) := by decide +kernel

example : sumStrict (Buzhash.incr Ex.buz) sample =
    .ok ([[3, 1, 4, 1, 5, 9, 2], [6, 5, 3], [5, 8, 9, 7]], ([9, 3, 2, 3, 8, 4], true)) := by decide +kernel

example : sumDoc (Buzhash.chunk Ex.buz) sample =
    .ok ([[3, 1, 4, 1, 5, 9, 2, 6], [5, 3, 5, 8, 9, 7]], (some [2, 3, 8, 4])) := by decide +kernel

example : sumDoc (Gear.chunk Ex.gear2) sample =
    .ok ([[3, 1], [4], [1, 5, 9], [2, 6, 5, 3, 5, 8, 9], [7, 9, 3], [2, 3, 8], [4]], (some [])) := by decide +kernel

example : sumIter (FastCdc.incr Ex.fast) sample =
    .ok ([[3, 1, 4, 1], [5, 9, 2, 6], [5, 3, 5, 8], [9, 7, 9, 3], [2, 3, 8, 4]], true) := by decide +kernel

example : sumStrict (FastCdc.incr Ex.fast) sample =
    .ok ([[3, 1, 4, 1], [5, 9, 2, 6], [5, 3, 5, 8], [9, 7, 9, 3], [2, 3, 8, 4]], ([], true)) := by decide +kernel

example : sumDoc (FastCdc.chunk Ex.fast) sample =
    .ok ([[3, 1, 4, 1, 5], [9, 2, 6, 5, 3], [5, 8, 9, 7, 9], [3, 2, 3, 8, 4]], (some [])) := by decide +kernel

/-! ## C01: iter_slices loses nothing -/

theorem C01_pigz {prof : Profile} {bits : BitVec 8} {p : Pigz.PigzRsyncable}
    (h : Pigz.PigzRsyncable.withBits prof bits = .ok p) :
    IterExact (Pigz.incr p) :=
  (Pigz.safe h).iterExact
example : IterExact (Pigz.incr Ex.pigz2) := C01_pigz Ex.pigz2_ok

theorem C01_ram (p : Ram.Ram) :
    IterExact (Ram.incr p) :=
  (Ram.safe p).iterExact
example : IterExact (Ram.incr (Ram.Ram.withW 2)) := C01_ram (Ram.Ram.withW 2)

theorem C01_gzip (p : Gzip.GzipRsyncable) (hm : p.modulus ≠ 0) (hw : 0 < p.windowLen) :
    IterExact (Gzip.incr p) :=
  (Gzip.safe p hm hw).iterExact
example : IterExact (Gzip.incr Ex.gzip3) := C01_gzip Ex.gzip3 (by decide) (by decide)

theorem C01_mii (p : Mii.Mii) :
    IterExact (Mii.incr p) :=
  (Mii.safe p).iterExact
example : IterExact (Mii.incr (Mii.Mii.withW 2)) := C01_mii (Mii.Mii.withW 2)

theorem C01_zpaq (p : Zpaq.Zpaq) :
    IterExact (Zpaq.incr p) :=
  (Zpaq.safe p).iterExact
example : IterExact (Zpaq.incr Ex.zpaq) := C01_zpaq Ex.zpaq

theorem C01_rollsum (p : Bup.RollSum) (hw : 0 < p.windowLen) :
    IterExact (Bup.incr p) :=
  (Bup.safe p hw).iterExact
example : IterExact (Bup.incr (Bup.RollSum.withWindow 7)) := C01_rollsum (Bup.RollSum.withWindow 7) (by decide)

theorem C01_buzhash (p : Buzhash.BuzHash) (hk : 0 < p.k) :
    IterExact (Buzhash.incr p) :=
  (Buzhash.safe p hk).iterExact
example : IterExact (Buzhash.incr Ex.buz) := C01_buzhash Ex.buz (by decide)

theorem C01_gear (p : Gear.Gear32) :
    IterExact (Gear.incr p) :=
  (Gear.safe p).iterExact
example : IterExact (Gear.incr Ex.gear2) := C01_gear Ex.gear2

theorem C01_fastcdc (p : FastCdc.FastCdc) :
    IterExact (FastCdc.incr p) :=
  (FastCdc.safe p).iterExact
example : IterExact (FastCdc.incr Ex.fast) := C01_fastcdc Ex.fast

theorem C01_zstd (p : Zstd.Zstd) (hp : p.primePower = Zstd.wrappingPow Zstd.prime8Bytes 31) :
    IterExact (Zstd.incr p) :=
  (Zstd.safe p hp).iterExact
example : IterExact (Zstd.incr Ex.zstd) := C01_zstd Ex.zstd (by decide +kernel)

/-! ## C04: iter_slices yields the chunks of the rule and the tail -/

theorem C04_pigz {prof : Profile} {bits : BitVec 8} {p : Pigz.PigzRsyncable}
    (h : Pigz.PigzRsyncable.withBits prof bits = .ok p) :
    IterChunks (Pigz.incr p)
      (EdgeRule (Local (pigzEdge p.mask p.hit))) :=
  (Pigz.incr_conforms h).iterChunks (EdgeRule.good _) (EdgeRule.pos _)
example := C04_pigz Ex.pigz2_ok

theorem C04_ram (p : Ram.Ram) :
    IterChunks (Ram.incr p)
      (BeforeRule (Local (ramEdge p.w))) :=
  (Ram.incr_conforms p).iterChunks (BeforeRule.good _) (ram_pos p.w)
example := C04_ram (Ram.Ram.withW 2)

theorem C04_gzip (p : Gzip.GzipRsyncable) (hm : p.modulus ≠ 0) (hw : 0 < p.windowLen) :
    IterChunks (Gzip.incr p)
      (EdgeRule (Local (gzipEdge p.windowLen p.modulus.toNat))) :=
  (Gzip.incr_conforms p hm hw).iterChunks (EdgeRule.good _) (EdgeRule.pos _)
example := C04_gzip Ex.gzip3 (by decide) (by decide)

theorem C04_mii (p : Mii.Mii) :
    IterChunks (Mii.incr p)
      (EdgeRule (miiIncrEdge p.w)) :=
  (Mii.incr_conforms p).iterChunks (EdgeRule.good _) (EdgeRule.pos _)
example := C04_mii (Mii.Mii.withW 2)

theorem C04_zpaq (p : Zpaq.Zpaq) :
    IterChunks (Zpaq.incr p)
      (EdgeRule (Local (zpaqEdge p.range.start p.range.stop p.maxHash 0))) :=
  (Zpaq.incr_conforms p).iterChunks (EdgeRule.good _) (EdgeRule.pos _)
example := C04_zpaq Ex.zpaq

theorem C04_rollsum (n : Nat) :
    IterChunks (Bup.incr (Bup.RollSum.withWindow (2 ^ n)))
      (EdgeRule (bupIncrEdge (2 ^ n))) :=
  (Bup.incr_conforms n).iterChunks (EdgeRule.good _) (EdgeRule.pos _)
example := C04_rollsum 3

theorem C04_buzhash (p : Buzhash.BuzHash) (hk : 0 < p.k) :
    IterChunks (Buzhash.incr p)
      (EdgeRule (Local (buzIncrEdge p.k p.h p.mask p.maxChunkSize))) :=
  (Buzhash.incr_conforms p hk).iterChunks (EdgeRule.good _) (EdgeRule.pos _)
example := C04_buzhash Ex.buz (by decide)

theorem C04_fastcdc (p : FastCdc.FastCdc) (h1 : 1 ≤ p.minSize) (h2 : p.normalSize ≤ p.maxSize) (h3 : p.minSize < p.maxSize) :
    IterChunks (FastCdc.incr p)
      (fastIncrRule (lookup p.gear) p.minSize p.normalSize p.maxSize) :=
  (FastCdc.incr_conforms p h2 h3).iterChunks (fastIncrRule.good _ _ _ _) (fastIncrRule.pos _ _ _ h1)
example := C04_fastcdc Ex.fast (by decide) (by decide) (by decide)

/-! ## C02: iter_slices ends -/

theorem C02_pigz {prof : Profile} {bits : BitVec 8} {p : Pigz.PigzRsyncable}
    (h : Pigz.PigzRsyncable.withBits prof bits = .ok p) :
    IterEnds (Pigz.incr p) :=
  (C04_pigz h).ends (EdgeRule.good _) (EdgeRule.pos _)
example : IterEnds (Pigz.incr Ex.pigz2) := C02_pigz Ex.pigz2_ok

theorem C02_ram (p : Ram.Ram) :
    IterEnds (Ram.incr p) :=
  (C04_ram p).ends (BeforeRule.good _) (ram_pos p.w)
example : IterEnds (Ram.incr (Ram.Ram.withW 2)) := C02_ram (Ram.Ram.withW 2)

theorem C02_gzip (p : Gzip.GzipRsyncable) (hm : p.modulus ≠ 0) (hw : 0 < p.windowLen) :
    IterEnds (Gzip.incr p) :=
  (C04_gzip p hm hw).ends (EdgeRule.good _) (EdgeRule.pos _)
example : IterEnds (Gzip.incr Ex.gzip3) := C02_gzip Ex.gzip3 (by decide) (by decide)

theorem C02_mii (p : Mii.Mii) :
    IterEnds (Mii.incr p) :=
  (C04_mii p).ends (EdgeRule.good _) (EdgeRule.pos _)
example : IterEnds (Mii.incr (Mii.Mii.withW 2)) := C02_mii (Mii.Mii.withW 2)

theorem C02_zpaq (p : Zpaq.Zpaq) :
    IterEnds (Zpaq.incr p) :=
  (C04_zpaq p).ends (EdgeRule.good _) (EdgeRule.pos _)
example : IterEnds (Zpaq.incr Ex.zpaq) := C02_zpaq Ex.zpaq

theorem C02_rollsum (n : Nat) :
    IterEnds (Bup.incr (Bup.RollSum.withWindow (2 ^ n))) :=
  (C04_rollsum n).ends (EdgeRule.good _) (EdgeRule.pos _)
example : IterEnds (Bup.incr (Bup.RollSum.withWindow 8)) := C02_rollsum 3

theorem C02_buzhash (p : Buzhash.BuzHash) (hk : 0 < p.k) :
    IterEnds (Buzhash.incr p) :=
  (C04_buzhash p hk).ends (EdgeRule.good _) (EdgeRule.pos _)
example : IterEnds (Buzhash.incr Ex.buz) := C02_buzhash Ex.buz (by decide)

theorem C02_fastcdc (p : FastCdc.FastCdc) (h1 : 1 ≤ p.minSize) (h2 : p.normalSize ≤ p.maxSize) (h3 : p.minSize < p.maxSize) :
    IterEnds (FastCdc.incr p) :=
  (C04_fastcdc p h1 h2 h3).ends (fastIncrRule.good _ _ _ _) (fastIncrRule.pos _ _ _ h1)
example : IterEnds (FastCdc.incr Ex.fast) := C02_fastcdc Ex.fast (by decide) (by decide) (by decide)

/-! ## C05: iter_slices_strict -/

theorem C05_pigz {prof : Profile} {bits : BitVec 8} {p : Pigz.PigzRsyncable}
    (h : Pigz.PigzRsyncable.withBits prof bits = .ok p) :
    StrictChunks (Pigz.incr p)
      (EdgeRule (Local (pigzEdge p.mask p.hit))) :=
  (Pigz.incr_conforms h).strictChunks (EdgeRule.good _) (EdgeRule.pos _)
example := C05_pigz Ex.pigz2_ok

theorem C05_ram (p : Ram.Ram) :
    StrictChunks (Ram.incr p)
      (BeforeRule (Local (ramEdge p.w))) :=
  (Ram.incr_conforms p).strictChunks (BeforeRule.good _) (ram_pos p.w)
example := C05_ram (Ram.Ram.withW 2)

theorem C05_gzip (p : Gzip.GzipRsyncable) (hm : p.modulus ≠ 0) (hw : 0 < p.windowLen) :
    StrictChunks (Gzip.incr p)
      (EdgeRule (Local (gzipEdge p.windowLen p.modulus.toNat))) :=
  (Gzip.incr_conforms p hm hw).strictChunks (EdgeRule.good _) (EdgeRule.pos _)
example := C05_gzip Ex.gzip3 (by decide) (by decide)

theorem C05_mii (p : Mii.Mii) :
    StrictChunks (Mii.incr p)
      (EdgeRule (miiIncrEdge p.w)) :=
  (Mii.incr_conforms p).strictChunks (EdgeRule.good _) (EdgeRule.pos _)
example := C05_mii (Mii.Mii.withW 2)

theorem C05_zpaq (p : Zpaq.Zpaq) :
    StrictChunks (Zpaq.incr p)
      (EdgeRule (Local (zpaqEdge p.range.start p.range.stop p.maxHash 0))) :=
  (Zpaq.incr_conforms p).strictChunks (EdgeRule.good _) (EdgeRule.pos _)
example := C05_zpaq Ex.zpaq

theorem C05_rollsum (n : Nat) :
    StrictChunks (Bup.incr (Bup.RollSum.withWindow (2 ^ n)))
      (EdgeRule (bupIncrEdge (2 ^ n))) :=
  (Bup.incr_conforms n).strictChunks (EdgeRule.good _) (EdgeRule.pos _)
example := C05_rollsum 3

theorem C05_buzhash (p : Buzhash.BuzHash) (hk : 0 < p.k) :
    StrictChunks (Buzhash.incr p)
      (EdgeRule (Local (buzIncrEdge p.k p.h p.mask p.maxChunkSize))) :=
  (Buzhash.incr_conforms p hk).strictChunks (EdgeRule.good _) (EdgeRule.pos _)
example := C05_buzhash Ex.buz (by decide)

theorem C05_fastcdc (p : FastCdc.FastCdc) (h1 : 1 ≤ p.minSize) (h2 : p.normalSize ≤ p.maxSize) (h3 : p.minSize < p.maxSize) :
    StrictChunks (FastCdc.incr p)
      (fastIncrRule (lookup p.gear) p.minSize p.normalSize p.maxSize) :=
  (FastCdc.incr_conforms p h2 h3).strictChunks (fastIncrRule.good _ _ _ _) (fastIncrRule.pos _ _ _ h1)
example := C05_fastcdc Ex.fast (by decide) (by decide) (by decide)

/-! ## C07: find_chunk_edge in any state -/

theorem C07_pigz (p : Pigz.PigzRsyncable) :
    Total (Pigz.chunk p) :=
  Pigz.total p
example : Total (Pigz.chunk Ex.pigz2) := C07_pigz Ex.pigz2

theorem C07_ram (p : Ram.Ram) :
    Total (Ram.chunk p) :=
  Ram.total p
example : Total (Ram.chunk (Ram.Ram.withW 2)) := C07_ram (Ram.Ram.withW 2)

theorem C07_gzip (p : Gzip.GzipRsyncable) (hm : p.modulus ≠ 0) :
    Total (Gzip.chunk p) :=
  Gzip.total p hm
example : Total (Gzip.chunk Ex.gzip3) := C07_gzip Ex.gzip3 (by decide)

theorem C07_mii (p : Mii.Mii) :
    Total (Mii.chunk p) :=
  Mii.total p
example : Total (Mii.chunk (Mii.Mii.withW 2)) := C07_mii (Mii.Mii.withW 2)

theorem C07_zpaq (p : Zpaq.Zpaq) :
    Total (Zpaq.chunk p) :=
  Zpaq.total p
example : Total (Zpaq.chunk Ex.zpaq) := C07_zpaq Ex.zpaq

theorem C07_rollsum (p : Bup.RollSum) :
    Total (Bup.chunk p) :=
  Bup.total p
example : Total (Bup.chunk (Bup.RollSum.withWindow 8)) := C07_rollsum (Bup.RollSum.withWindow 8)

theorem C07_buzhash (p : Buzhash.BuzHash) :
    Total (Buzhash.chunk p) :=
  Buzhash.total p
example : Total (Buzhash.chunk Ex.buz) := C07_buzhash Ex.buz

theorem C07_gear (p : Gear.Gear32) :
    Total (Gear.chunk p) :=
  Gear.total p
example : Total (Gear.chunk Ex.gear2) := C07_gear Ex.gear2

/-! ## C08: the documented loop -/

theorem C08_pigz {prof : Profile} {bits : BitVec 8} {p : Pigz.PigzRsyncable}
    (h : Pigz.PigzRsyncable.withBits prof bits = .ok p) :
    DocLoopChunks (Pigz.chunk p)
      (EdgeRule (Local (pigzEdge p.mask p.hit))) :=
  (Pigz.fce_conforms h).docLoopChunks (Pigz.fceLoop p (Pigz.withBits_maskOk h).1 (Pigz.withBits_maskOk h).2).fceSpec.discards (EdgeRule.good _) (EdgeRule.pos _)
example := C08_pigz Ex.pigz2_ok

theorem C08_ram (p : Ram.Ram) :
    DocLoopChunks (Ram.chunk p)
      (EdgeRule (Local (ramEdge p.w))) :=
  (Ram.fce_conforms p).docLoopChunks (Ram.fceSpec p).discards (EdgeRule.good _) (EdgeRule.pos _)
example := C08_ram (Ram.Ram.withW 2)

theorem C08_gzip (p : Gzip.GzipRsyncable) (hm : p.modulus ≠ 0) :
    DocLoopChunks (Gzip.chunk p)
      (EdgeRule (Local (gzipEdge p.windowLen p.modulus.toNat))) :=
  (Gzip.fce_conforms p hm).docLoopChunks (Gzip.fceWindow p hm).fceSpec.discards (EdgeRule.good _) (EdgeRule.pos _)
example := C08_gzip Ex.gzip3 (by decide)

theorem C08_mii (p : Mii.Mii) :
    DocLoopChunks (Mii.chunk p)
      (EdgeRule (Local (miiEdge p.w))) :=
  (Mii.fce_conforms p).docLoopChunks (Mii.fceSpec p).discards (EdgeRule.good _) (EdgeRule.pos _)
example := C08_mii (Mii.Mii.withW 2)

theorem C08_zpaq (p : Zpaq.Zpaq) :
    DocLoopChunks (Zpaq.chunk p)
      (EdgeRule (Local (zpaqEdge p.range.start p.range.stop p.maxHash 1))) :=
  (Zpaq.fce_conforms p).docLoopChunks (Zpaq.fceLoop p).fceSpec.discards (EdgeRule.good _) (EdgeRule.pos _)
example := C08_zpaq Ex.zpaq

theorem C08_rollsum (p : Bup.RollSum) :
    DocLoopChunks (Bup.chunk p)
      (EdgeRule (Local (bupEdge p.windowLen))) :=
  (Bup.fce_conforms p).docLoopChunks (Bup.fceWindow p).fceSpec.discards (EdgeRule.good _) (EdgeRule.pos _)
example := C08_rollsum (Bup.RollSum.withWindow 8)

theorem C08_buzhash (p : Buzhash.BuzHash) (hk : 0 < p.k) :
    DocLoopChunks (Buzhash.chunk p)
      (EdgeRule (Local (buzEdge p.k p.h p.mask))) :=
  (Buzhash.fce_conforms p hk).docLoopChunks (Buzhash.fceWindow p hk).fceSpec.discards (EdgeRule.good _) (EdgeRule.pos _)
example := C08_buzhash Ex.buz (by decide)

theorem C08_gear (p : Gear.Gear32) :
    DocLoopChunks (Gear.chunk p)
      (EdgeRule (Local (gearEdge (lookup p.gear) p.mask p.xxx))) :=
  (Gear.fce_conforms p).docLoopChunks (Gear.fceLoop p).fceSpec.discards (EdgeRule.good _) (EdgeRule.pos _)
example := C08_gear Ex.gear2

/-! ## C09: chunks already found do not change -/

theorem C09_pigz_incr {prof : Profile} {bits : BitVec 8} {p : Pigz.PigzRsyncable}
    (h : Pigz.PigzRsyncable.withBits prof bits = .ok p) :
    StrictStable (Pigz.incr p) :=
  (C05_pigz h).stable (EdgeRule.good _) (EdgeRule.pos _)
example : StrictStable (Pigz.incr Ex.pigz2) := C09_pigz_incr Ex.pigz2_ok

theorem C09_ram_incr (p : Ram.Ram) :
    StrictStable (Ram.incr p) :=
  (C05_ram p).stable (BeforeRule.good _) (ram_pos p.w)
example : StrictStable (Ram.incr (Ram.Ram.withW 2)) := C09_ram_incr (Ram.Ram.withW 2)

theorem C09_gzip_incr (p : Gzip.GzipRsyncable) (hm : p.modulus ≠ 0) (hw : 0 < p.windowLen) :
    StrictStable (Gzip.incr p) :=
  (C05_gzip p hm hw).stable (EdgeRule.good _) (EdgeRule.pos _)
example : StrictStable (Gzip.incr Ex.gzip3) := C09_gzip_incr Ex.gzip3 (by decide) (by decide)

theorem C09_mii_incr (p : Mii.Mii) :
    StrictStable (Mii.incr p) :=
  (C05_mii p).stable (EdgeRule.good _) (EdgeRule.pos _)
example : StrictStable (Mii.incr (Mii.Mii.withW 2)) := C09_mii_incr (Mii.Mii.withW 2)

theorem C09_zpaq_incr (p : Zpaq.Zpaq) :
    StrictStable (Zpaq.incr p) :=
  (C05_zpaq p).stable (EdgeRule.good _) (EdgeRule.pos _)
example : StrictStable (Zpaq.incr Ex.zpaq) := C09_zpaq_incr Ex.zpaq

theorem C09_rollsum_incr (n : Nat) :
    StrictStable (Bup.incr (Bup.RollSum.withWindow (2 ^ n))) :=
  (C05_rollsum n).stable (EdgeRule.good _) (EdgeRule.pos _)
example : StrictStable (Bup.incr (Bup.RollSum.withWindow 8)) := C09_rollsum_incr 3

theorem C09_buzhash_incr (p : Buzhash.BuzHash) (hk : 0 < p.k) :
    StrictStable (Buzhash.incr p) :=
  (C05_buzhash p hk).stable (EdgeRule.good _) (EdgeRule.pos _)
example : StrictStable (Buzhash.incr Ex.buz) := C09_buzhash_incr Ex.buz (by decide)

theorem C09_fastcdc_incr (p : FastCdc.FastCdc) (h1 : 1 ≤ p.minSize) (h2 : p.normalSize ≤ p.maxSize) (h3 : p.minSize < p.maxSize) :
    StrictStable (FastCdc.incr p) :=
  (C05_fastcdc p h1 h2 h3).stable (fastIncrRule.good _ _ _ _) (fastIncrRule.pos _ _ _ h1)
example : StrictStable (FastCdc.incr Ex.fast) := C09_fastcdc_incr Ex.fast (by decide) (by decide) (by decide)

theorem C09_pigz_fce {prof : Profile} {bits : BitVec 8} {p : Pigz.PigzRsyncable}
    (h : Pigz.PigzRsyncable.withBits prof bits = .ok p) :
    DocStable (Pigz.chunk p) :=
  (C08_pigz h).stable (EdgeRule.good _) (EdgeRule.pos _)
example : DocStable (Pigz.chunk Ex.pigz2) := C09_pigz_fce Ex.pigz2_ok

theorem C09_ram_fce (p : Ram.Ram) :
    DocStable (Ram.chunk p) :=
  (C08_ram p).stable (EdgeRule.good _) (EdgeRule.pos _)
example : DocStable (Ram.chunk (Ram.Ram.withW 2)) := C09_ram_fce (Ram.Ram.withW 2)

theorem C09_gzip_fce (p : Gzip.GzipRsyncable) (hm : p.modulus ≠ 0) :
    DocStable (Gzip.chunk p) :=
  (C08_gzip p hm).stable (EdgeRule.good _) (EdgeRule.pos _)
example : DocStable (Gzip.chunk Ex.gzip3) := C09_gzip_fce Ex.gzip3 (by decide)

theorem C09_mii_fce (p : Mii.Mii) :
    DocStable (Mii.chunk p) :=
  (C08_mii p).stable (EdgeRule.good _) (EdgeRule.pos _)
example : DocStable (Mii.chunk (Mii.Mii.withW 2)) := C09_mii_fce (Mii.Mii.withW 2)

theorem C09_zpaq_fce (p : Zpaq.Zpaq) :
    DocStable (Zpaq.chunk p) :=
  (C08_zpaq p).stable (EdgeRule.good _) (EdgeRule.pos _)
example : DocStable (Zpaq.chunk Ex.zpaq) := C09_zpaq_fce Ex.zpaq

theorem C09_rollsum_fce (p : Bup.RollSum) :
    DocStable (Bup.chunk p) :=
  (C08_rollsum p).stable (EdgeRule.good _) (EdgeRule.pos _)
example : DocStable (Bup.chunk (Bup.RollSum.withWindow 8)) := C09_rollsum_fce (Bup.RollSum.withWindow 8)

theorem C09_buzhash_fce (p : Buzhash.BuzHash) (hk : 0 < p.k) :
    DocStable (Buzhash.chunk p) :=
  (C08_buzhash p hk).stable (EdgeRule.good _) (EdgeRule.pos _)
example : DocStable (Buzhash.chunk Ex.buz) := C09_buzhash_fce Ex.buz (by decide)

theorem C09_gear_fce (p : Gear.Gear32) :
    DocStable (Gear.chunk p) :=
  (C08_gear p).stable (EdgeRule.good _) (EdgeRule.pos _)
example : DocStable (Gear.chunk Ex.gear2) := C09_gear_fce Ex.gear2

/-! ## C10: resynchronisation after a common cut -/

theorem C10_pigz_incr {prof : Profile} {bits : BitVec 8} {p : Pigz.PigzRsyncable}
    (h : Pigz.PigzRsyncable.withBits prof bits = .ok p) :
    StrictResync (Pigz.incr p) :=
  (C05_pigz h).resync (EdgeRule.good _) (EdgeRule.fresh _)
example : StrictResync (Pigz.incr Ex.pigz2) := C10_pigz_incr Ex.pigz2_ok

theorem C10_ram_incr (p : Ram.Ram) :
    StrictResync (Ram.incr p) :=
  (C05_ram p).resync (BeforeRule.good _) (BeforeRule.fresh _)
example : StrictResync (Ram.incr (Ram.Ram.withW 2)) := C10_ram_incr (Ram.Ram.withW 2)

theorem C10_gzip_incr (p : Gzip.GzipRsyncable) (hm : p.modulus ≠ 0) (hw : 0 < p.windowLen) :
    StrictResync (Gzip.incr p) :=
  (C05_gzip p hm hw).resync (EdgeRule.good _) (EdgeRule.fresh _)
example : StrictResync (Gzip.incr Ex.gzip3) := C10_gzip_incr Ex.gzip3 (by decide) (by decide)

theorem C10_zpaq_incr (p : Zpaq.Zpaq) :
    StrictResync (Zpaq.incr p) :=
  (C05_zpaq p).resync (EdgeRule.good _) (EdgeRule.fresh _)
example : StrictResync (Zpaq.incr Ex.zpaq) := C10_zpaq_incr Ex.zpaq

theorem C10_buzhash_incr (p : Buzhash.BuzHash) (hk : 0 < p.k) :
    StrictResync (Buzhash.incr p) :=
  (C05_buzhash p hk).resync (EdgeRule.good _) (EdgeRule.fresh _)
example : StrictResync (Buzhash.incr Ex.buz) := C10_buzhash_incr Ex.buz (by decide)

theorem C10_fastcdc_incr (p : FastCdc.FastCdc) (h1 : 1 ≤ p.minSize) (h2 : p.normalSize ≤ p.maxSize) (h3 : p.minSize < p.maxSize) :
    StrictResync (FastCdc.incr p) :=
  (C05_fastcdc p h1 h2 h3).resync (fastIncrRule.good _ _ _ _) (fastIncrRule.fresh _ _ _ _)
example : StrictResync (FastCdc.incr Ex.fast) := C10_fastcdc_incr Ex.fast (by decide) (by decide) (by decide)

theorem C10_pigz_fce {prof : Profile} {bits : BitVec 8} {p : Pigz.PigzRsyncable}
    (h : Pigz.PigzRsyncable.withBits prof bits = .ok p) :
    DocResync (Pigz.chunk p) :=
  (C08_pigz h).resync (EdgeRule.good _) (EdgeRule.fresh _)
example : DocResync (Pigz.chunk Ex.pigz2) := C10_pigz_fce Ex.pigz2_ok

theorem C10_ram_fce (p : Ram.Ram) :
    DocResync (Ram.chunk p) :=
  (C08_ram p).resync (EdgeRule.good _) (EdgeRule.fresh _)
example : DocResync (Ram.chunk (Ram.Ram.withW 2)) := C10_ram_fce (Ram.Ram.withW 2)

theorem C10_gzip_fce (p : Gzip.GzipRsyncable) (hm : p.modulus ≠ 0) :
    DocResync (Gzip.chunk p) :=
  (C08_gzip p hm).resync (EdgeRule.good _) (EdgeRule.fresh _)
example : DocResync (Gzip.chunk Ex.gzip3) := C10_gzip_fce Ex.gzip3 (by decide)

theorem C10_mii_fce (p : Mii.Mii) :
    DocResync (Mii.chunk p) :=
  (C08_mii p).resync (EdgeRule.good _) (EdgeRule.fresh _)
example : DocResync (Mii.chunk (Mii.Mii.withW 2)) := C10_mii_fce (Mii.Mii.withW 2)

theorem C10_zpaq_fce (p : Zpaq.Zpaq) :
    DocResync (Zpaq.chunk p) :=
  (C08_zpaq p).resync (EdgeRule.good _) (EdgeRule.fresh _)
example : DocResync (Zpaq.chunk Ex.zpaq) := C10_zpaq_fce Ex.zpaq

theorem C10_rollsum_fce (p : Bup.RollSum) :
    DocResync (Bup.chunk p) :=
  (C08_rollsum p).resync (EdgeRule.good _) (EdgeRule.fresh _)
example : DocResync (Bup.chunk (Bup.RollSum.withWindow 8)) := C10_rollsum_fce (Bup.RollSum.withWindow 8)

theorem C10_buzhash_fce (p : Buzhash.BuzHash) (hk : 0 < p.k) :
    DocResync (Buzhash.chunk p) :=
  (C08_buzhash p hk).resync (EdgeRule.good _) (EdgeRule.fresh _)
example : DocResync (Buzhash.chunk Ex.buz) := C10_buzhash_fce Ex.buz (by decide)

theorem C10_gear_fce (p : Gear.Gear32) :
    DocResync (Gear.chunk p) :=
  (C08_gear p).resync (EdgeRule.good _) (EdgeRule.fresh _)
example : DocResync (Gear.chunk Ex.gear2) := C10_gear_fce Ex.gear2

/-! ## C31: the two APIs agree -/

theorem C31_pigz {prof : Profile} {bits : BitVec 8} {p : Pigz.PigzRsyncable}
    (h : Pigz.PigzRsyncable.withBits prof bits = .ok p) :
    ApisAgree (Pigz.chunk p) (Pigz.incr p) :=
  (C08_pigz h).agree (Pigz.bytewise_conforms h) (EdgeRule.good _) (EdgeRule.pos _)
example : ApisAgree (Pigz.chunk Ex.pigz2) (Pigz.incr Ex.pigz2) := C31_pigz Ex.pigz2_ok

theorem C31_ram (p : Ram.Ram) :
    ApisAgree (Ram.chunk p) (Ram.incr p) :=
  (C08_ram p).agree (Ram.bytewise_conforms p) (EdgeRule.good _) (EdgeRule.pos _)
example : ApisAgree (Ram.chunk (Ram.Ram.withW 2)) (Ram.incr (Ram.Ram.withW 2)) := C31_ram (Ram.Ram.withW 2)

theorem C31_gzip (p : Gzip.GzipRsyncable) (hm : p.modulus ≠ 0) (hw : 0 < p.windowLen) :
    ApisAgree (Gzip.chunk p) (Gzip.incr p) :=
  (C08_gzip p hm).agree (Gzip.bytewise_conforms p hm hw) (EdgeRule.good _) (EdgeRule.pos _)
example : ApisAgree (Gzip.chunk Ex.gzip3) (Gzip.incr Ex.gzip3) := C31_gzip Ex.gzip3 (by decide) (by decide)

theorem C31_gear (p : Gear.Gear32) :
    ApisAgree (Gear.chunk p) (Gear.incr p) :=
  (C08_gear p).agree (Gear.bytewise_conforms p) (EdgeRule.good _) (EdgeRule.pos _)
example : ApisAgree (Gear.chunk Ex.gear2) (Gear.incr Ex.gear2) := C31_gear Ex.gear2

/-! ## C57: splits_fce -/

theorem C57_pigz {prof : Profile} {bits : BitVec 8} {p : Pigz.PigzRsyncable}
    (h : Pigz.PigzRsyncable.withBits prof bits = .ok p) :
    SplitsChunks (Pigz.chunk p)
      (EdgeRule (Local (pigzEdge p.mask p.hit))) :=
  (Pigz.fce_conforms h).splitsChunks (Pigz.fceLoop p (Pigz.withBits_maskOk h).1 (Pigz.withBits_maskOk h).2).fceSpec.discards (EdgeRule.good _) (EdgeRule.pos _)
example := C57_pigz Ex.pigz2_ok

theorem C57_ram (p : Ram.Ram) :
    SplitsChunks (Ram.chunk p)
      (EdgeRule (Local (ramEdge p.w))) :=
  (Ram.fce_conforms p).splitsChunks (Ram.fceSpec p).discards (EdgeRule.good _) (EdgeRule.pos _)
example := C57_ram (Ram.Ram.withW 2)

theorem C57_gzip (p : Gzip.GzipRsyncable) (hm : p.modulus ≠ 0) :
    SplitsChunks (Gzip.chunk p)
      (EdgeRule (Local (gzipEdge p.windowLen p.modulus.toNat))) :=
  (Gzip.fce_conforms p hm).splitsChunks (Gzip.fceWindow p hm).fceSpec.discards (EdgeRule.good _) (EdgeRule.pos _)
example := C57_gzip Ex.gzip3 (by decide)

theorem C57_mii (p : Mii.Mii) :
    SplitsChunks (Mii.chunk p)
      (EdgeRule (Local (miiEdge p.w))) :=
  (Mii.fce_conforms p).splitsChunks (Mii.fceSpec p).discards (EdgeRule.good _) (EdgeRule.pos _)
example := C57_mii (Mii.Mii.withW 2)

theorem C57_zpaq (p : Zpaq.Zpaq) :
    SplitsChunks (Zpaq.chunk p)
      (EdgeRule (Local (zpaqEdge p.range.start p.range.stop p.maxHash 1))) :=
  (Zpaq.fce_conforms p).splitsChunks (Zpaq.fceLoop p).fceSpec.discards (EdgeRule.good _) (EdgeRule.pos _)
example := C57_zpaq Ex.zpaq

theorem C57_rollsum (p : Bup.RollSum) :
    SplitsChunks (Bup.chunk p)
      (EdgeRule (Local (bupEdge p.windowLen))) :=
  (Bup.fce_conforms p).splitsChunks (Bup.fceWindow p).fceSpec.discards (EdgeRule.good _) (EdgeRule.pos _)
example := C57_rollsum (Bup.RollSum.withWindow 8)

theorem C57_buzhash (p : Buzhash.BuzHash) (hk : 0 < p.k) :
    SplitsChunks (Buzhash.chunk p)
      (EdgeRule (Local (buzEdge p.k p.h p.mask))) :=
  (Buzhash.fce_conforms p hk).splitsChunks (Buzhash.fceWindow p hk).fceSpec.discards (EdgeRule.good _) (EdgeRule.pos _)
example := C57_buzhash Ex.buz (by decide)

theorem C57_gear (p : Gear.Gear32) :
    SplitsChunks (Gear.chunk p)
      (EdgeRule (Local (gearEdge (lookup p.gear) p.mask p.xxx))) :=
  (Gear.fce_conforms p).splitsChunks (Gear.fceLoop p).fceSpec.discards (EdgeRule.good _) (EdgeRule.pos _)
example := C57_gear Ex.gear2

end HashRoll.Props
