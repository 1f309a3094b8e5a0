import Verif.Props.Conformance
import Verif.Props.Constructors
import Verif.Props.Zstd
/-!
# C63: what the default instances do, with literal numbers

The conformance theorems are about arbitrary parameters; here the parameters the crate ships are pinned
down: each default constructor succeeds and its chunker follows the rule with exactly these constants.
-/

namespace HashRoll.Props
open HashRoll.Spec

/-- `FastCdc::new(gear, min, normal, max)`: every argument ends up in the field of its name. -/
theorem C63_fastcdc_new (g : Vector (BitVec 64) 256) (a b c : Nat) :
    (FastCdc.FastCdc.new g a b c).gear = g ∧ (FastCdc.FastCdc.new g a b c).minSize = a ∧
    (FastCdc.FastCdc.new g a b c).normalSize = b ∧ (FastCdc.FastCdc.new g a b c).maxSize = c :=
  ⟨rfl, rfl, rfl, rfl⟩
example : (FastCdc.FastCdc.new Tables.gear64 1 2 4).normalSize = 2 := (C63_fastcdc_new _ _ _ _).2.2.1

/-- `FastCdc::new` followed by any schedule of `push`: the rule with the arguments in this order. -/
theorem C63_fastcdc_incr (g : Vector (BitVec 64) 256) (a b c : Nat) (h1 : b ≤ c) (h2 : a < c) :
    IncrFollows (FastCdc.incr (FastCdc.FastCdc.new g a b c)) (fastIncrRule (lookup g) a b c) :=
  C22_fastcdc (FastCdc.FastCdc.new g a b c) h1 h2
example : (2 : Nat) ≤ 4 ∧ (1 : Nat) < 4 := by decide

theorem C63_fastcdc_default :
    IncrFollows (FastCdc.incr FastCdc.FastCdc.default) (fastIncrRule (lookup Tables.gear64) 2048 8192 65536) :=
  C22_fastcdc FastCdc.FastCdc.default (by decide) (by decide)

theorem C63_gear_default (prof : Profile) : ∃ p, Gear.Gear32.default prof = .ok p ∧
    FceFollows (Gear.chunk p) Any (EdgeRule (Local (gearEdge (lookup Tables.gear32) 0xfff80000 0))) :=
  ⟨_, C49_default prof, C11_gear Ex.gear⟩

theorem C63_pigz_default (prof : Profile) : ∃ p, Pigz.PigzRsyncable.default prof = .ok p ∧
    FceFollows (Pigz.chunk p) Any (EdgeRule (Local (pigzEdge 0xfff 0x7ff))) ∧
    IncrFollows (Pigz.incr p) (EdgeRule (Local (pigzEdge 0xfff 0x7ff))) :=
  ⟨_, C50_default prof, C13_pigz (C50_default prof), C23_pigz (C50_default prof)⟩

theorem C63_gzip_default :
    FceFollows (Gzip.chunk Gzip.GzipRsyncable.default) Any (EdgeRule (Local (gzipEdge 8192 4096))) ∧
    IncrFollows (Gzip.incr Gzip.GzipRsyncable.default) (EdgeRule (Local (gzipEdge 8192 4096))) :=
  ⟨C15_gzip Gzip.GzipRsyncable.default (by decide), C25_gzip Gzip.GzipRsyncable.default (by decide) (by decide)⟩

/-- `with_window_and_modulus(window, modulus)` -/
theorem C63_gzip_with (w : Nat) (m : BitVec 64) (hm : m ≠ 0) (hw : 0 < w) :
    FceFollows (Gzip.chunk (Gzip.GzipRsyncable.withWindowAndModulus w m)) Any
      (EdgeRule (Local (gzipEdge w m.toNat))) ∧
    IncrFollows (Gzip.incr (Gzip.GzipRsyncable.withWindowAndModulus w m)) (EdgeRule (Local (gzipEdge w m.toNat))) :=
  ⟨C15_gzip (Gzip.GzipRsyncable.withWindowAndModulus w m) hm,
   C25_gzip (Gzip.GzipRsyncable.withWindowAndModulus w m) hm hw⟩
example : (5 : BitVec 64) ≠ 0 ∧ 0 < 3 := by decide

theorem C63_mii_default :
    FceFollows (Mii.chunk Mii.Mii.default) Any (EdgeRule (Local (miiEdge 5))) ∧
    IncrFollows (Mii.incr Mii.Mii.default) (EdgeRule (miiIncrEdge 5)) :=
  ⟨C16_mii Mii.Mii.default, C26_mii Mii.Mii.default⟩

theorem C63_ram_with (w : Nat) :
    FceFollows (Ram.chunk (Ram.Ram.withW w)) Any (EdgeRule (Local (ramEdge w))) ∧
    IncrFollows (Ram.incr (Ram.Ram.withW w)) (BeforeRule (Local (ramEdge w))) :=
  ⟨C14_ram (Ram.Ram.withW w), C24_ram (Ram.Ram.withW w)⟩

theorem C63_zpaq_default (prof : Profile) : ∃ p, Zpaq.Zpaq.default prof = .ok p ∧
    FceFollows (Zpaq.chunk p) Any
      (EdgeRule (Local (zpaqEdge (.included 4096) (.excluded 532676608) 65536 1))) ∧
    IncrFollows (Zpaq.incr p) (EdgeRule (Local (zpaqEdge (.included 4096) (.excluded 532676608) 65536 0))) :=
  ⟨_, C52_default prof, C17_zpaq _, C27_zpaq _⟩

theorem C63_rollsum_default :
    FceFollows (Bup.chunk Bup.RollSum.default) Any (EdgeRule (Local (bupEdge 64))) ∧
    IncrFollows (Bup.incr Bup.RollSum.default) (EdgeRule (bupIncrEdge 64)) ∧
    Bup.RollSumIncr.default = (Bup.incr Bup.RollSum.default).init :=
  ⟨C18_rollsum Bup.RollSum.default, C28_rollsum 6, rfl⟩

/-- `BuzHash::new_nom(salt)` -/
theorem C63_buzhash_nom (salt : UInt8) : ∃ p, Buzhash.BuzHash.newNom salt = .ok p ∧
    FceFollows (Buzhash.chunk p) Any
      (EdgeRule (Local (buzEdge 67 (fun b => lookup Tables.goBuzhash (b ^^^ salt)) 0xfff))) ∧
    IncrFollows (Buzhash.incr p)
      (EdgeRule (Local (buzIncrEdge 67 (fun b => lookup Tables.goBuzhash (b ^^^ salt)) 0xfff 16777216))) := by
  refine ⟨{ k := 67, h := fun b => lookup Tables.goBuzhash (b ^^^ salt), mask := 0xfff, maxChunkSize := 16777216 },
    ?_, C19_buzhash _ (by show 0 < 67; decide), C29_buzhash _ (by show 0 < 67; decide)⟩
  rfl

/-- The in-source test `rs` (src/bup.rs:243-248) -/
theorem C63_rollsum_rs : (Bup.RollSumIncr.default.rollByte 3).map Bup.RollSumIncr.digest = .ok 130279491 := by
  decide +kernel

end HashRoll.Props
