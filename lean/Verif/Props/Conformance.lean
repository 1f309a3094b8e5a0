import Verif.Props.Iterators
import Verif.Props.ConformDefs
/-!
# C11-C30: every algorithm follows its cut rule, for every schedule of calls
-/

namespace HashRoll.Props

open Spec

/-! ## `find_chunk_edge` -/

theorem C11_gear (p : Gear.Gear32) :
    FceFollows (Gear.chunk p) Any
      (EdgeRule (Local (gearEdge (lookup p.gear) p.mask p.xxx))) :=
  (Gear.fce_conforms p).follows (EdgeRule.good _) (EdgeRule.pos _)
example : ∃ st b n p cs, FceRun (Gear.chunk Ex.gear2) Any sample st b n p cs ∧ cs.length = 2 :=
  ⟨_, _, _, _, _, .cut (e := 20) (.cut (e := 20) (.more (e := 1) .start (by decide) (by decide) trivial rfl)
    (by decide) (by decide) trivial rfl) (by decide) (by decide) trivial rfl, rfl⟩

theorem C13_pigz {prof : Profile} {bits : BitVec 8} {p : Pigz.PigzRsyncable}
    (h : Pigz.PigzRsyncable.withBits prof bits = .ok p) :
    FceFollows (Pigz.chunk p) Any
      (EdgeRule (Local (pigzEdge p.mask p.hit))) :=
  (Pigz.fce_conforms h).follows (EdgeRule.good _) (EdgeRule.pos _)
example : ∃ st b n p cs, FceRun (Pigz.chunk Ex.pigz2) Any sample st b n p cs ∧ cs.length = 2 :=
  ⟨_, _, _, _, _, .cut (e := 20) (.cut (e := 20) (.more (e := 0) .start (by decide) (by decide) trivial rfl)
    (by decide) (by decide) trivial rfl) (by decide) (by decide) trivial rfl, rfl⟩

theorem C14_ram (p : Ram.Ram) :
    FceFollows (Ram.chunk p) Any
      (EdgeRule (Local (ramEdge p.w))) :=
  (Ram.fce_conforms p).follows (EdgeRule.good _) (EdgeRule.pos _)
example : ∃ st b n p cs, FceRun (Ram.chunk (Ram.Ram.withW 2)) Any sample st b n p cs ∧ cs.length = 2 :=
  ⟨_, _, _, _, _, .cut (e := 20) (.cut (e := 20) (.more (e := 4) .start (by decide) (by decide) trivial rfl)
    (by decide) (by decide) trivial rfl) (by decide) (by decide) trivial rfl, rfl⟩

theorem C15_gzip (p : Gzip.GzipRsyncable) (hm : p.modulus ≠ 0) :
    FceFollows (Gzip.chunk p) Any
      (EdgeRule (Local (gzipEdge p.windowLen p.modulus.toNat))) :=
  (Gzip.fce_conforms p hm).follows (EdgeRule.good _) (EdgeRule.pos _)
example : ∃ st b n p cs, FceRun (Gzip.chunk Ex.gzip3) Any sample st b n p cs ∧ cs.length = 2 :=
  ⟨_, _, _, _, _, .cut (e := 20) (.cut (e := 20) (.more (e := 4) .start (by decide) (by decide) trivial rfl)
    (by decide) (by decide) trivial rfl) (by decide) (by decide) trivial rfl, rfl⟩

theorem C16_mii (p : Mii.Mii) :
    FceFollows (Mii.chunk p) Any
      (EdgeRule (Local (miiEdge p.w))) :=
  (Mii.fce_conforms p).follows (EdgeRule.good _) (EdgeRule.pos _)
example : ∃ st b n p cs, FceRun (Mii.chunk (Mii.Mii.withW 2)) Any sample st b n p cs ∧ cs.length = 2 :=
  ⟨_, _, _, _, _, .cut (e := 20) (.cut (e := 20) (.more (e := 5) .start (by decide) (by decide) trivial rfl)
    (by decide) (by decide) trivial rfl) (by decide) (by decide) trivial rfl, rfl⟩

theorem C17_zpaq (p : Zpaq.Zpaq) :
    FceFollows (Zpaq.chunk p) Any
      (EdgeRule (Local (zpaqEdge p.range.start p.range.stop p.maxHash 1))) :=
  (Zpaq.fce_conforms p).follows (EdgeRule.good _) (EdgeRule.pos _)
example : ∃ st b n p cs, FceRun (Zpaq.chunk Ex.zpaq) Any sample st b n p cs ∧ cs.length = 2 :=
  ⟨_, _, _, _, _, .cut (e := 20) (.cut (e := 20) (.more (e := 0) .start (by decide) (by decide) trivial rfl)
    (by decide) (by decide) trivial rfl) (by decide) (by decide) trivial rfl, rfl⟩

theorem C18_rollsum (p : Bup.RollSum) :
    FceFollows (Bup.chunk p) Any
      (EdgeRule (Local (bupEdge p.windowLen))) :=
  (Bup.fce_conforms p).follows (EdgeRule.good _) (EdgeRule.pos _)
example : ∃ st b n p cs, FceRun (Bup.chunk (Bup.RollSum.withWindow 8)) Any sampleBup st b n p cs ∧ cs.length = 2 :=
  ⟨_, _, _, _, _, .cut (e := 19) (.cut (e := 19) (.more (e := 7) .start (by decide) (by decide) trivial rfl)
    (by decide) (by decide) trivial rfl) (by decide) (by decide) trivial rfl, rfl⟩

theorem C19_buzhash (p : Buzhash.BuzHash) (hk : 0 < p.k) :
    FceFollows (Buzhash.chunk p) Any
      (EdgeRule (Local (buzEdge p.k p.h p.mask))) :=
  (Buzhash.fce_conforms p hk).follows (EdgeRule.good _) (EdgeRule.pos _)
example : ∃ st b n p cs, FceRun (Buzhash.chunk Ex.buz) Any sample st b n p cs ∧ cs.length = 2 :=
  ⟨_, _, _, _, _, .cut (e := 20) (.cut (e := 20) (.more (e := 7) .start (by decide) (by decide) trivial rfl)
    (by decide) (by decide) trivial rfl) (by decide) (by decide) trivial rfl, rfl⟩

/-- C12 for all schedules in which no buffer ends exactly `max_size` bytes after the last cut. Missing: that
schedule, where the code reports a cut outside the buffer (`C12_refuted`). -/
theorem C12_partial (p : FastCdc.FastCdc) (h : p.normalSize ≤ p.maxSize) :
    FceFollows (FastCdc.chunk p) (fun prev _ e => e - prev ≠ p.maxSize)
      (EdgeRule (Local (fastFceEdge (lookup p.gear) p.minSize p.normalSize p.maxSize))) :=
  (FastCdc.fce_conforms p h).follows (EdgeRule.good _) (EdgeRule.pos _)
example : ∃ st b n p cs, FceRun (FastCdc.chunk Ex.fast) (fun prev _ e => e - prev ≠ 4) sample st b n p cs ∧ cs.length = 2 :=
  ⟨_, _, _, _, _, .cut (e := 20) (.cut (e := 20) (.more (e := 3) .start (by decide) (by decide) (by decide) rfl)
    (by decide) (by decide) (by decide) rfl) (by decide) (by decide) (by decide) rfl, rfl⟩

/-! ## `push` -/

theorem C21_gear (p : Gear.Gear32) :
    IncrFollows (Gear.incr p)
      (BeforeRule (Local (gearEdge (lookup p.gear) p.mask p.xxx))) :=
  (Gear.incr_conforms p).follows (BeforeRule.good _)
example : ∃ st b p cs, IncrRun (Gear.incr Ex.gear2) sample st b p cs ∧ cs.length = 2 :=
  ⟨_, _, _, _, .cut (e := 20) (.cut (e := 20) (.more (e := 1) .start (by decide) (by decide) rfl)
    (by decide) (by decide) rfl) (by decide) (by decide) rfl, rfl⟩

theorem C22_fastcdc (p : FastCdc.FastCdc) (h2 : p.normalSize ≤ p.maxSize) (h3 : p.minSize < p.maxSize) :
    IncrFollows (FastCdc.incr p)
      (fastIncrRule (lookup p.gear) p.minSize p.normalSize p.maxSize) :=
  (FastCdc.incr_conforms p h2 h3).follows (fastIncrRule.good _ _ _ _)
example : ∃ st b p cs, IncrRun (FastCdc.incr Ex.fast) sample st b p cs ∧ cs.length = 2 :=
  ⟨_, _, _, _, .cut (e := 20) (.cut (e := 20) (.more (e := 3) .start (by decide) (by decide) rfl)
    (by decide) (by decide) rfl) (by decide) (by decide) rfl, rfl⟩

theorem C23_pigz {prof : Profile} {bits : BitVec 8} {p : Pigz.PigzRsyncable}
    (h : Pigz.PigzRsyncable.withBits prof bits = .ok p) :
    IncrFollows (Pigz.incr p)
      (EdgeRule (Local (pigzEdge p.mask p.hit))) :=
  (Pigz.incr_conforms h).follows (EdgeRule.good _)
example : ∃ st b p cs, IncrRun (Pigz.incr Ex.pigz2) sample st b p cs ∧ cs.length = 2 :=
  ⟨_, _, _, _, .cut (e := 20) (.cut (e := 20) (.more (e := 0) .start (by decide) (by decide) rfl)
    (by decide) (by decide) rfl) (by decide) (by decide) rfl, rfl⟩

theorem C24_ram (p : Ram.Ram) :
    IncrFollows (Ram.incr p)
      (BeforeRule (Local (ramEdge p.w))) :=
  (Ram.incr_conforms p).follows (BeforeRule.good _)
example : ∃ st b p cs, IncrRun (Ram.incr (Ram.Ram.withW 2)) sample st b p cs ∧ cs.length = 2 :=
  ⟨_, _, _, _, .cut (e := 20) (.cut (e := 20) (.more (e := 3) .start (by decide) (by decide) rfl)
    (by decide) (by decide) rfl) (by decide) (by decide) rfl, rfl⟩

theorem C25_gzip (p : Gzip.GzipRsyncable) (hm : p.modulus ≠ 0) (hw : 0 < p.windowLen) :
    IncrFollows (Gzip.incr p)
      (EdgeRule (Local (gzipEdge p.windowLen p.modulus.toNat))) :=
  (Gzip.incr_conforms p hm hw).follows (EdgeRule.good _)
example : ∃ st b p cs, IncrRun (Gzip.incr Ex.gzip3) sample st b p cs ∧ cs.length = 2 :=
  ⟨_, _, _, _, .cut (e := 20) (.cut (e := 20) (.more (e := 4) .start (by decide) (by decide) rfl)
    (by decide) (by decide) rfl) (by decide) (by decide) rfl, rfl⟩

theorem C26_mii (p : Mii.Mii) :
    IncrFollows (Mii.incr p)
      (EdgeRule (miiIncrEdge p.w)) :=
  (Mii.incr_conforms p).follows (EdgeRule.good _)
example : ∃ st b p cs, IncrRun (Mii.incr (Mii.Mii.withW 2)) sample st b p cs ∧ cs.length = 2 :=
  ⟨_, _, _, _, .cut (e := 20) (.cut (e := 20) (.more (e := 5) .start (by decide) (by decide) rfl)
    (by decide) (by decide) rfl) (by decide) (by decide) rfl, rfl⟩

theorem C27_zpaq (p : Zpaq.Zpaq) :
    IncrFollows (Zpaq.incr p)
      (EdgeRule (Local (zpaqEdge p.range.start p.range.stop p.maxHash 0))) :=
  (Zpaq.incr_conforms p).follows (EdgeRule.good _)
example : ∃ st b p cs, IncrRun (Zpaq.incr Ex.zpaq) sample st b p cs ∧ cs.length = 2 :=
  ⟨_, _, _, _, .cut (e := 20) (.cut (e := 20) (.more (e := 1) .start (by decide) (by decide) rfl)
    (by decide) (by decide) rfl) (by decide) (by decide) rfl, rfl⟩

theorem C28_rollsum (n : Nat) :
    IncrFollows (Bup.incr (Bup.RollSum.withWindow (2 ^ n)))
      (EdgeRule (bupIncrEdge (2 ^ n))) :=
  (Bup.incr_conforms n).follows (EdgeRule.good _)
example : ∃ st b p cs, IncrRun (Bup.incr (Bup.RollSum.withWindow 8)) sampleBup st b p cs ∧ cs.length = 2 :=
  ⟨_, _, _, _, .cut (e := 19) (.cut (e := 19) (.more (e := 7) .start (by decide) (by decide) rfl)
    (by decide) (by decide) rfl) (by decide) (by decide) rfl, rfl⟩

theorem C29_buzhash (p : Buzhash.BuzHash) (hk : 0 < p.k) :
    IncrFollows (Buzhash.incr p)
      (EdgeRule (Local (buzIncrEdge p.k p.h p.mask p.maxChunkSize))) :=
  (Buzhash.incr_conforms p hk).follows (EdgeRule.good _)
example : ∃ st b p cs, IncrRun (Buzhash.incr Ex.buz) sample st b p cs ∧ cs.length = 2 :=
  ⟨_, _, _, _, .cut (e := 20) (.cut (e := 20) (.more (e := 6) .start (by decide) (by decide) rfl)
    (by decide) (by decide) rfl) (by decide) (by decide) rfl, rfl⟩

/-- C21, second half: fed one byte at a time and cutting after the byte, the chunks are those of
`find_chunk_edge`. -/
theorem C21_gear_bytewise (p : Gear.Gear32) :
    BytewiseFollows (Gear.incr p) (EdgeRule (Local (gearEdge (lookup p.gear) p.mask p.xxx))) :=
  (Gear.bytewise_conforms p).follows (EdgeRule.good _) (EdgeRule.pos _)
example : (Gear.incr Ex.gear2).bytewise (Gear.incr Ex.gear2).init 0 0 sample = .ok [2, 1, 3, 7, 3, 3, 1] := by
  decide +kernel

/-- … and for every slicing, if the caller cuts after the byte whose index is returned. -/
theorem C21_gear_after (p : Gear.Gear32) :
    IncrFollows (afterByte (Gear.incr p)) (EdgeRule (Local (gearEdge (lookup p.gear) p.mask p.xxx))) :=
  (Gear.after_conforms p).follows (EdgeRule.good _)
example : sumStrict (afterByte (Gear.incr Ex.gear2)) sample =
    .ok ([[3, 1], [4], [1, 5, 9], [2, 6, 5, 3, 5, 8, 9], [7, 9, 3], [2, 3, 8], [4]], [], true) := by
  decide +kernel

/-- C24, second half. -/
theorem C24_ram_bytewise (p : Ram.Ram) : BytewiseFollows (Ram.incr p) (EdgeRule (Local (ramEdge p.w))) :=
  (Ram.bytewise_conforms p).follows (EdgeRule.good _) (EdgeRule.pos _)
example : (Ram.incr (Ram.Ram.withW 2)).bytewise (Ram.incr (Ram.Ram.withW 2)).init 0 0 sample = .ok [5, 8] := by
  decide +kernel

theorem C24_ram_after (p : Ram.Ram) : IncrFollows (afterByte (Ram.incr p)) (EdgeRule (Local (ramEdge p.w))) :=
  (Ram.after_conforms p).follows (EdgeRule.good _)
example : sumStrict (afterByte (Ram.incr (Ram.Ram.withW 2))) sample =
    .ok ([[3, 1, 4, 1, 5], [9, 2, 6, 5, 3, 5, 8, 9]], [7, 9, 3, 2, 3, 8, 4], true) := by
  decide +kernel

/-- One-byte pushes of FastCdcIncr, cutting after the byte: the rule of `find_chunk_edge` with the forced cut
one byte earlier. -/
theorem C22_fastcdc_bytewise (p : FastCdc.FastCdc) (h : p.normalSize ≤ p.maxSize) :
    BytewiseFollows (FastCdc.incr p)
      (EdgeRule (Local (fastByteEdge (lookup p.gear) p.minSize p.normalSize p.maxSize))) :=
  (FastCdc.bytewise_conforms p h).follows (EdgeRule.good _) (EdgeRule.pos _)
example : (FastCdc.incr Ex.fast).bytewise (FastCdc.incr Ex.fast).init 0 0 sample = .ok [4, 4, 4, 4, 4] := by
  decide +kernel

end HashRoll.Props
