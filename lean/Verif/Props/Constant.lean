import Verif.Props.Streaming
import Verif.Props.Loops
import Verif.Props.Defaults
import Verif.Props.ZstdDrift
import Verif.Props.IterMore
/-!
# C72: a stream that repeats one byte

Long runs of one byte (usually zero) are what disk images and sparse files are full of, and random tests never
contain them.
-/

namespace HashRoll.Spec

/-- Where the edge predicate `e` cuts a run of the byte `b`: after `some L` bytes, or (`none`) never. -/
def RunCut (e : Bytes → Prop) (b : UInt8) : Option Nat → Prop
  | some L => 1 ≤ L ∧ e (List.replicate L b) ∧ ∀ m, 1 ≤ m → m < L → ¬ e (List.replicate m b)
  | none   => ∀ m, 1 ≤ m → ¬ e (List.replicate m b)

/-- The chunks of `n` times the byte `b`. -/
def runChunks (b : UInt8) (n : Nat) : Option Nat → List Bytes
  | some L => List.replicate (n / L) (List.replicate L b)
  | none   => []

/-- What is behind the last chunk. -/
def runRest (b : UInt8) (n : Nat) : Option Nat → Bytes
  | some L => List.replicate (n % L) b
  | none   => List.replicate n b

/-- C72. `find_chunk_edge` on any run of the byte `b`: the documented loop prints chunks of `L` bytes, and under every
schedule of buffers these are the chunks found. -/
def ConstFce (A : Chunk) (b : UInt8) (L : Option Nat) : Prop :=
  (∀ n fuel, n < fuel → ∃ rest, A.docLoop (List.replicate n b) fuel A.init (List.replicate n b) 0 =
    .ok (runChunks b n L, some rest)) ∧
  ∀ n st base need prev cs, FceRun A Any (List.replicate n b) st base need prev cs → cs <+: runChunks b n L

/-- C72. The incremental chunker on any run of the byte `b`. -/
def ConstIncr (C : ChunkIncr) (b : UInt8) (L : Option Nat) : Prop :=
  (∀ n fuel, n < fuel → ∃ it, (C.iterSlicesStrict C.init (List.replicate n b)).run fuel =
    .ok (runChunks b n L, it, true) ∧ it.rem = runRest b n L) ∧
  ∀ n st pos prev cs, IncrRun C (List.replicate n b) st pos prev cs → cs <+: runChunks b n L

theorem chunked_run {e : Bytes → Prop} {b : UInt8} {L : Option Nat} (h : RunCut e b L) (n : Nat) (hist : Bytes) :
    Chunked (EdgeRule (Local e)) hist (List.replicate n b) (runChunks b n L) (runRest b n L) := by
  cases L with
  | none =>
    refine .rem ?_
    rintro m ⟨h1, h2, h3, -⟩
    change e _ at h3
    rw [List.take_replicate] at h3
    rw [List.length_replicate] at h2
    rw [Nat.min_eq_left h2] at h3
    exact h m h1 h3
  | some L =>
    obtain ⟨h1, h2, h3⟩ := h
    induction n using Nat.strongRecOn generalizing hist with
    | _ n ih =>
      by_cases hn : n < L
      · simp only [runChunks, runRest, Nat.div_eq_of_lt hn, Nat.mod_eq_of_lt hn, List.replicate_zero]
        refine .rem ?_
        rintro m ⟨k1, k2, k3, -⟩
        change e _ at k3
        rw [List.length_replicate] at k2
        rw [List.take_replicate, Nat.min_eq_left k2] at k3
        exact h3 m k1 (by omega) k3
      · have hle : L ≤ n := by omega
        have e1 : n / L = (n - L) / L + 1 := by rw [Nat.div_eq n L, if_pos ⟨by omega, hle⟩]
        have e2 : n % L = (n - L) % L := Nat.mod_eq_sub_mod hle
        have := ih (n - L) (by omega) (hist ++ (List.replicate n b).take L)
        have hc := Chunked.cut (rule := EdgeRule (Local e)) (hist := hist) (data := List.replicate n b) (n := L)
          (cs := runChunks b (n - L) (some L)) (r := runRest b (n - L) (some L))
          ⟨h1, by simpa using hle, by
            change e _
            rw [List.take_replicate, Nat.min_eq_left hle]; exact h2, by
            intro m k1 k2
            change ¬ e _
            rw [List.take_replicate, Nat.min_eq_left (by omega)]; exact h3 m k1 k2⟩
          (by rw [List.drop_replicate]; exact this)
        rw [List.take_replicate, Nat.min_eq_left hle] at hc
        simp only [runChunks, runRest, e1, e2, List.replicate_succ]
        exact hc

/-- The same with the cut before the matching byte: as long as `L` bytes are left the next chunk has `L - 1`. -/
theorem chunked_run_before {e : Bytes → Prop} {b : UInt8} {L : Nat} (h : RunCut e b (some L)) (hL : 2 ≤ L) (n : Nat)
    (hist : Bytes) : Chunked (BeforeRule (Local e)) hist (List.replicate n b)
      (List.replicate ((n - 1) / (L - 1)) (List.replicate (L - 1) b))
      (List.replicate (n - (n - 1) / (L - 1) * (L - 1)) b) := by
  obtain ⟨h1, h2, h3⟩ := h
  induction n using Nat.strongRecOn generalizing hist with
  | _ n ih =>
    by_cases hn : n < L
    · have e0 : (n - 1) / (L - 1) = 0 := Nat.div_eq_of_lt (by omega)
      rw [e0, Nat.zero_mul, Nat.sub_zero, List.replicate_zero]
      refine .rem ?_
      rintro m ⟨k1, k2, k3, -⟩
      change e _ at k3
      rw [List.length_replicate] at k2
      rw [List.take_replicate, Nat.min_eq_left k2] at k3
      exact h3 (m + 1) k1 (by omega) k3
    · have hle : L ≤ n := by omega
      have e1 : (n - 1) / (L - 1) = (n - (L - 1) - 1) / (L - 1) + 1 := by
        rw [Nat.div_eq (n - 1), if_pos ⟨by omega, by omega⟩, show n - 1 - (L - 1) = n - (L - 1) - 1 by omega]
      have e2 : n - ((n - (L - 1) - 1) / (L - 1) + 1) * (L - 1) =
          n - (L - 1) - (n - (L - 1) - 1) / (L - 1) * (L - 1) := by
        rw [Nat.add_mul, Nat.one_mul]; omega
      have := ih (n - (L - 1)) (by omega) (hist ++ (List.replicate n b).take (L - 1))
      have hc := Chunked.cut (rule := BeforeRule (Local e)) (hist := hist) (data := List.replicate n b) (n := L - 1)
        (show FirstCut _ _ (L - 1 + 1) from by
          rw [Nat.sub_add_cancel h1]
          refine ⟨h1, by simpa using hle, ?_, ?_⟩
          · change e _
            rw [List.take_replicate, Nat.min_eq_left hle]; exact h2
          · intro m k1 k2
            change ¬ e _
            rw [List.take_replicate, Nat.min_eq_left (by omega)]; exact h3 m k1 k2)
        (by rw [List.drop_replicate]; exact this)
      rw [List.take_replicate, Nat.min_eq_left (by omega)] at hc
      rw [e1, e2, List.replicate_succ]
      exact hc

variable {A : Chunk} {C : ChunkIncr} {rule : Rule} {b : UInt8} {L : Option Nat}

theorem constFce (hf : FceFollows A Any rule) (hd : DocLoopChunks A rule) (hg : rule.Good)
    (h : ∀ n, Chunked rule [] (List.replicate n b) (runChunks b n L) (runRest b n L)) : ConstFce A b L := by
  refine ⟨?_, fun n st base need prev cs hr => (hf.2.1 _ _ _ _ _ _ hr).2 _ _ (h n)⟩
  intro n fuel hn
  obtain ⟨cs, r, rest, h1, h2, -⟩ := hd (List.replicate n b) fuel (by simpa using hn)
  rw [(h2.det hg (h n)).1] at h1
  exact ⟨rest, h1⟩

theorem constIncr (hf : IncrFollows C rule) (hd : StrictChunks C rule) (hg : rule.Good)
    (h : ∀ n, Chunked rule [] (List.replicate n b) (runChunks b n L) (runRest b n L)) : ConstIncr C b L := by
  refine ⟨?_, fun n st pos prev cs hr => (hf.2.1 _ _ _ _ _ hr).2 _ _ (h n)⟩
  intro n fuel hn
  obtain ⟨it, cs, r, h1, h2, h3, -⟩ := hd (List.replicate n b) fuel (by simpa using hn)
  obtain ⟨rfl, rfl⟩ := h2.det hg (h n)
  exact ⟨it, h1, h3⟩

/-! ### the hashes of a run -/

theorem shl_one {w : Nat} (x : BitVec w) : x <<< 1 = x + x := by
  apply BitVec.eq_of_toNat_eq
  rw [BitVec.toNat_shiftLeft, BitVec.toNat_add, Nat.shiftLeft_eq]
  congr 1
  omega

theorem gearSum_run {w : Nat} (G : UInt8 → BitVec w) (b : UInt8) (k : Nat) :
    gearSum G (List.replicate k b) = (G b <<< k) - G b := by
  induction k with
  | zero => simp [gearSum, wsum]
  | succ k ih =>
    rw [List.replicate_succ', gearSum_snoc, ih, BitVec.shiftLeft_add, shl_one, shl_one]
    ring

/-- A cut behind more than `w` bytes of a run would also be one behind `w` bytes, if `e` only depends on the
saturating length. -/
theorem runCut_none {e : Bytes → Prop} {b : UInt8} {w : Nat} (hw : 1 ≤ w)
    (hs : ∀ k, w ≤ k → (e (List.replicate k b) ↔ e (List.replicate w b)))
    (h : ∀ k, 1 ≤ k → k ≤ w → ¬ e (List.replicate k b)) : RunCut e b none := by
  intro m hm he
  by_cases hmw : m ≤ w
  · exact h m hm hmw he
  · exact h w hw (Nat.le_refl _) ((hs m (by omega)).1 he)

end HashRoll.Spec

namespace HashRoll.Props
open HashRoll.Spec

/-! ## gear -/

/-- `Gear32::default()` cuts a run of `b` after every byte if `b mod 25` is 17 or 23, after every 20 bytes if
`b = 170`, and otherwise never. -/
def gearRun (b : UInt8) : Option Nat :=
  if b.toNat % 25 = 17 ∨ b.toNat % 25 = 23 then some 1 else if b = 170 then some 20 else none

theorem gearRun_table (b : UInt8) : ∀ k : Fin 33, 1 ≤ k.1 → k.1 ≤ (gearRun b).getD 32 →
    (((lookup Tables.gear32 b <<< k.1) - lookup Tables.gear32 b) &&& 0xfff80000 = 0 ↔ gearRun b = some k.1) :=
  byte_all (P := fun b => ∀ k : Fin 33, 1 ≤ k.1 → k.1 ≤ (gearRun b).getD 32 →
    (((lookup Tables.gear32 b <<< k.1) - lookup Tables.gear32 b) &&& 0xfff80000 = 0 ↔ gearRun b = some k.1))
    (by decide +kernel) b

/-- From a table that says at which of the lengths up to `w` a run is cut first. -/
theorem runCut_table {e : Bytes → Prop} {b : UInt8} {w : Nat} {L : Option Nat} (hw : 1 ≤ w)
    (hs : ∀ k, w ≤ k → (e (List.replicate k b) ↔ e (List.replicate w b)))
    (hL : ∀ l ∈ L, 1 ≤ l ∧ l ≤ w)
    (h : ∀ k : Fin (w + 1), 1 ≤ k.1 → k.1 ≤ L.getD w → (e (List.replicate k.1 b) ↔ L = some k.1)) :
    RunCut e b L := by
  cases L with
  | none =>
    refine runCut_none hw hs fun k h1 h2 he => ?_
    have := (h ⟨k, by omega⟩ h1 h2).1 he
    cases this
  | some L =>
    obtain ⟨h1, h2⟩ := hL L rfl
    refine ⟨h1, (h ⟨L, by omega⟩ h1 (Nat.le_refl _)).2 rfl, ?_⟩
    intro m k1 k2 he
    have := (h ⟨m, by omega⟩ k1 (Nat.le_of_lt k2)).1 he
    simp only [Option.some.injEq] at this
    omega

theorem gear_runCut (b : UInt8) : RunCut (gearEdge (lookup Tables.gear32) 0xfff80000 0) b (gearRun b) := by
  refine runCut_table (w := 32) (by decide) ?_ ?_ ?_
  · intro k hk
    rw [gearEdge, gearEdge, gearSum_run, gearSum_run, BitVec.shiftLeft_eq_zero hk,
      BitVec.shiftLeft_eq_zero (Nat.le_refl 32)]
  · intro l hl
    rw [Option.mem_def] at hl
    unfold gearRun at hl
    split at hl
    · cases hl; decide
    · split at hl
      · cases hl; decide
      · cases hl
  · intro k h1 h2
    rw [gearEdge, gearSum_run]
    exact gearRun_table b k h1 h2

/-- C72 for `Gear32::default()`. -/
theorem C72_gear (prof : Profile) (b : UInt8) : ∃ p, Gear.Gear32.default prof = .ok p ∧
    ConstFce (Gear.chunk p) b (gearRun b) :=
  ⟨Ex.gear, C49_default prof, constFce (C11_gear Ex.gear) (C08_gear Ex.gear) (EdgeRule.good _)
    fun n => chunked_run (gear_runCut b) n []⟩
example : gearRun 0 = none ∧ gearRun 17 = some 1 ∧ gearRun 170 = some 20 ∧
    ((List.range 256).filter fun n => (gearRun (UInt8.ofNat n)).isSome).length = 21 := by decide +kernel

/-- C72 for `GearIncr`, the bytes other than the 20 that hang it: not cut at all, except that runs of 170 are cut
every 19 bytes (under every schedule of pushes). -/
theorem C72_gear_incr (b : UInt8) (h : gearRun b ≠ some 1) (n : Nat) {st : (Gear.incr Ex.gear).State} {pos prev : Nat}
    {cs : List Bytes} (hr : IncrRun (Gear.incr Ex.gear) (List.replicate n b) st pos prev cs) :
    cs <+: if b = 170 then List.replicate ((n - 1) / 19) (List.replicate 19 b) else [] := by
  have hg := gear_runCut b
  have hf := ((C21_gear Ex.gear).2.1 _ _ _ _ _ hr).2
  unfold gearRun at hg h
  split at hg
  · rename_i hc
    exact absurd (if_pos hc) h
  · split at hg
    · rename_i hb
      rw [if_pos hb]
      exact hf _ _ (chunked_run_before hg (by decide) n [])
    · rename_i hb
      rw [if_neg hb]
      refine hf _ (List.replicate n b) (.rem ?_)
      rintro m ⟨k1, k2, k3, -⟩
      change gearEdge (lookup Tables.gear32) 0xfff80000 0 _ at k3
      rw [List.length_replicate] at k2
      rw [List.take_replicate, Nat.min_eq_left k2] at k3
      exact hg (m + 1) k1 k3
example : gearRun 170 ≠ some 1 ∧ Gear.Gear32.default .release = .ok Ex.gear := ⟨by decide, C49_default _⟩

/-! ## pigz -/

/-- hash of `k` times the byte `b` -/
def pigzIter (b : UInt8) : Nat → BitVec 32
  | 0 => 0x7ff
  | k + 1 => (pigzIter b k <<< 1) ^^^ word 32 b

theorem pigz_table (b : UInt8) : (∀ k : Fin 13, 1 ≤ k.1 → pigzIter b k.1 &&& 0xfff ≠ 0x7ff) ∧
    (pigzIter b 13) &&& 0xfff = (pigzIter b 12) &&& 0xfff :=
  byte_all (P := fun b => (∀ k : Fin 13, 1 ≤ k.1 → pigzIter b k.1 &&& 0xfff ≠ 0x7ff) ∧
    (pigzIter b 13) &&& 0xfff = (pigzIter b 12) &&& 0xfff) (by decide +kernel) b

theorem pigzHash_run (b : UInt8) (k : Nat) : pigzHash 0x7ff (List.replicate k b) = pigzIter b k := by
  induction k with
  | zero => simp [pigzHash, wxor, pigzIter]
  | succ k ih => rw [List.replicate_succ', Pigz.pigzHash_snoc, ih, pigzIter]

theorem xor_and_distrib {w : Nat} (x y m : BitVec w) : (x ^^^ y) &&& m = (x &&& m) ^^^ (y &&& m) := by
  apply BitVec.eq_of_getLsbD_eq
  intro i _
  simp only [BitVec.getLsbD_and, BitVec.getLsbD_xor]
  cases x.getLsbD i <;> cases y.getLsbD i <;> cases m.getLsbD i <;> rfl

theorem pigzIter_step (b : UInt8) (k : Nat) :
    pigzIter b (k + 1) &&& (0xfff : BitVec 32) =
      (((pigzIter b k &&& (0xfff : BitVec 32)) <<< 1) &&& (0xfff : BitVec 32)) ^^^ (word 32 b &&& (0xfff : BitVec 32)) := by
  have hm : Pigz.MaskOk 0xfff := Pigz.maskOk_pow 12
  rw [hm, pigzIter, xor_and_distrib]

theorem pigz_runCut (b : UInt8) : RunCut (pigzEdge 0xfff 0x7ff) b none := by
  refine runCut_none (w := 12) (by decide) ?_ ?_
  · intro k hk
    rw [pigzEdge, pigzEdge, pigzHash_run, pigzHash_run]
    have : pigzIter b k &&& (0xfff : BitVec 32) = pigzIter b 12 &&& (0xfff : BitVec 32) := by
      induction k, hk using Nat.le_induction with
      | base => rfl
      | succ k hk ih => rw [pigzIter_step, ih, ← pigzIter_step]; exact (pigz_table b).2
    rw [this]
  · intro k h1 h2
    rw [pigzEdge, pigzHash_run]
    exact (pigz_table b).1 ⟨k, by omega⟩ h1

/-- C72 for `PigzRsyncable::default()`: no run of any byte is ever cut. -/
theorem C72_pigz (prof : Profile) (b : UInt8) : ∃ p, Pigz.PigzRsyncable.default prof = .ok p ∧
    ConstFce (Pigz.chunk p) b none ∧ ConstIncr (Pigz.incr p) b none :=
  ⟨_, C50_default prof,
    constFce (C13_pigz (C50_default prof)) (C08_pigz (C50_default prof)) (EdgeRule.good _)
      fun n => chunked_run (pigz_runCut b) n [],
    constIncr (C23_pigz (C50_default prof)) (C05_pigz (C50_default prof)) (EdgeRule.good _)
      fun n => chunked_run (pigz_runCut b) n []⟩

/-! ## ram, mii -/

theorem ram_runCut (w : Nat) (b : UInt8) : RunCut (ramEdge w) b (some (w + 2)) := by
  refine ⟨by omega, ⟨b, ?_, by simp, ?_⟩, ?_⟩
  · simp [List.getLast?_replicate]
  · intro x hx
    rw [List.take_replicate] at hx
    rw [List.eq_of_mem_replicate hx]
    exact UInt8.le_refl _
  · rintro m - h2 ⟨_, -, h3, -⟩
    rw [List.length_replicate] at h3
    omega

/-- C72 for `Ram::with_w(w)`: chunks of exactly `w + 2` bytes. -/
theorem C72_ram (p : Ram.Ram) (b : UInt8) : ConstFce (Ram.chunk p) b (some (p.w + 2)) :=
  constFce (C14_ram p) (C08_ram p) (EdgeRule.good _) fun n => chunked_run (ram_runCut p.w b) n []
example : runChunks 7 9 (some (2 + 2)) = [[7, 7, 7, 7], [7, 7, 7, 7]] := by decide

/-- C72 for `RamIncr`: the chunk ends before the byte that would be number `w + 2`. -/
theorem C72_ram_incr (p : Ram.Ram) (b : UInt8) (n fuel : Nat) (hn : n < fuel) :
    ∃ it, ((Ram.incr p).iterSlicesStrict (Ram.incr p).init (List.replicate n b)).run fuel =
      .ok (List.replicate ((n - 1) / (p.w + 1)) (List.replicate (p.w + 1) b), it, true) ∧
      it.rem = List.replicate (n - (n - 1) / (p.w + 1) * (p.w + 1)) b := by
  obtain ⟨it, cs, r, h1, h2, h3, -⟩ := C05_ram p (List.replicate n b) fuel (by simpa using hn)
  obtain ⟨rfl, rfl⟩ := h2.det (BeforeRule.good _) (chunked_run_before (ram_runCut p.w b) (by omega) n [])
  exact ⟨it, h1, h3⟩
example : (List.replicate ((9 - 1) / (2 + 1)) (List.replicate (2 + 1) (7 : UInt8))) = [[7, 7, 7], [7, 7, 7]] := by decide

theorem mii_run (w : Nat) (b : UInt8) (m : Nat) : ¬ miiEdge w (List.replicate m b) := by
  rintro ⟨h1, h2, h3⟩
  rw [List.length_replicate] at h2
  rw [lastN, List.length_replicate, List.drop_replicate, Increasing,
    show m - (m - (w + 1)) = w - 1 + 1 + 1 by omega, List.replicate_succ, List.replicate_succ,
    List.pairwise_cons] at h3
  exact absurd (h3.1 b (by simp)) (UInt8.lt_irrefl b)

/-- C72 for `Mii`: a run is never cut. -/
theorem C72_mii (p : Mii.Mii) (b : UInt8) :
    ConstFce (Mii.chunk p) b none ∧ ConstIncr (Mii.incr p) b none := by
  refine ⟨constFce (C16_mii p) (C08_mii p) (EdgeRule.good _)
    fun n => chunked_run (e := miiEdge p.w) (L := none) (fun m _ => mii_run _ _ _) n [],
    constIncr (C26_mii p) (C05_mii p) (EdgeRule.good _) fun n => .rem ?_⟩
  rintro m ⟨-, -, h3, -⟩
  change miiIncrEdge p.w [] _ at h3
  rw [miiIncrEdge, if_pos rfl, List.take_replicate] at h3
  exact mii_run _ _ _ h3

/-! ## gzip -/

theorem lastN_run (W k : Nat) (b : UInt8) : lastN W (List.replicate k b) = List.replicate (min k W) b := by
  rw [lastN, List.length_replicate, List.drop_replicate, show k - (k - W) = min k W by omega]

theorem gzip_sum_run (W : Nat) (b : UInt8) (k : Nat) :
    ((lastN W (List.replicate k b)).map UInt8.toNat).sum = b.toNat * min k W := by
  rw [lastN_run, List.map_replicate, List.sum_replicate_nat, Nat.mul_comm]

/-- after how many bytes a run of `b` is cut by the gzip rule -/
def gzipRun (W m : Nat) (b : UInt8) : Option Nat :=
  if m / Nat.gcd m b.toNat ≤ W then some (m / Nat.gcd m b.toNat) else none

theorem dvd_iff_of_gcd {m c k : Nat} (hm : 0 < m) : m ∣ c * k ↔ m / Nat.gcd m c ∣ k := by
  have hg : 0 < Nat.gcd m c := Nat.gcd_pos_of_pos_left _ hm
  obtain ⟨m', hm'⟩ := Nat.gcd_dvd_left m c
  obtain ⟨c', hc'⟩ := Nat.gcd_dvd_right m c
  have e1 : m / Nat.gcd m c = m' := by rw [Nat.div_eq_iff_eq_mul_right hg ⟨m', hm'⟩]; exact hm'
  have e2 : c / Nat.gcd m c = c' := by rw [Nat.div_eq_iff_eq_mul_right hg ⟨c', hc'⟩]; exact hc'
  have hco : Nat.Coprime m' c' := by
    have := Nat.coprime_div_gcd_div_gcd hg
    rwa [e1, e2] at this
  rw [e1]
  have : m ∣ c * k ↔ Nat.gcd m c * m' ∣ Nat.gcd m c * (c' * k) := by
    rw [← hm', ← Nat.mul_assoc, ← hc']
  rw [this, Nat.mul_dvd_mul_iff_left hg]
  exact ⟨fun h => hco.dvd_of_dvd_mul_left h, fun h => Nat.dvd_mul_left_of_dvd h _⟩

theorem gzip_runCut (W m : Nat) (b : UInt8) (hm : 0 < m) (hw : 0 < W) (hW : 255 * W < 2 ^ 64) :
    RunCut (gzipEdge W m) b (gzipRun W m b) := by
  have hb : b.toNat ≤ 255 := by have := b.toNat_lt; omega
  have he : ∀ k, gzipEdge W m (List.replicate k b) ↔ m / Nat.gcd m b.toNat ∣ min k W := by
    intro k
    have : b.toNat * min k W < 2 ^ 64 :=
      Nat.lt_of_le_of_lt (Nat.mul_le_mul hb (Nat.min_le_right k W)) hW
    rw [gzipEdge, gzip_sum_run, Nat.mod_eq_of_lt this, ← Nat.dvd_iff_mod_eq_zero, dvd_iff_of_gcd hm]
  have hpos : 0 < m / Nat.gcd m b.toNat :=
    Nat.div_pos (Nat.le_of_dvd hm (Nat.gcd_dvd_left _ _)) (Nat.gcd_pos_of_pos_left _ hm)
  unfold gzipRun
  split
  · rename_i hle
    refine ⟨hpos, ?_, ?_⟩
    · rw [he, Nat.min_eq_left hle]
    · intro k h1 h2 h3
      rw [he, Nat.min_eq_left (by omega)] at h3
      exact absurd (Nat.le_of_dvd h1 h3) (by omega)
  · rename_i hle
    intro k h1 h3
    rw [he] at h3
    exact absurd (Nat.le_of_dvd (by omega) h3) (by omega)

/-- C72 for `GzipRsyncable`, any window (whose sums fit into 64 bits) and modulus: a run of `b` is cut every
`modulus / gcd(modulus, b)` bytes if the window is that long, and otherwise never. -/
theorem C72_gzip (W : Nat) (m : BitVec 64) (b : UInt8) (hm : m ≠ 0) (hw : 0 < W) (hW : 255 * W < 2 ^ 64) :
    ConstFce (Gzip.chunk (Gzip.GzipRsyncable.withWindowAndModulus W m)) b (gzipRun W m.toNat b) ∧
    ConstIncr (Gzip.incr (Gzip.GzipRsyncable.withWindowAndModulus W m)) b (gzipRun W m.toNat b) := by
  have hm' : 0 < m.toNat := by
    rcases Nat.eq_zero_or_pos m.toNat with h | h
    · exact absurd (BitVec.eq_of_toNat_eq h) hm
    · exact h
  exact ⟨constFce (C63_gzip_with W m hm hw).1
      (C08_gzip (Gzip.GzipRsyncable.withWindowAndModulus W m) hm) (EdgeRule.good _)
      fun n => chunked_run (gzip_runCut W m.toNat b hm' hw hW) n [],
    constIncr (C63_gzip_with W m hm hw).2
      (C05_gzip (Gzip.GzipRsyncable.withWindowAndModulus W m) hm hw) (EdgeRule.good _)
      fun n => chunked_run (gzip_runCut W m.toNat b hm' hw hW) n []⟩
/-- the defaults: zeros are cut after every byte, ones every 4096 bytes, never not at all -/
example : (4096 : BitVec 64) ≠ 0 ∧ 0 < 8192 ∧ 255 * 8192 < 2 ^ 64 ∧ gzipRun 8192 4096 0 = some 1 ∧
    gzipRun 8192 4096 1 = some 4096 ∧ gzipRun 8192 4096 192 = some 64 ∧ gzipRun 8192 16384 1 = none := by decide +kernel

/-! ## bup -/

theorem tri_sum (b : UInt8) (n : Nat) : ∀ i,
    2 * (((List.replicate n b).zipIdx i).map fun x => (x.2 + 1) * x.1.toNat).sum = b.toNat * n * (2 * i + n + 1) := by
  induction n with
  | zero => intro i; simp
  | succ n ih =>
    intro i
    rw [List.replicate_succ, List.zipIdx_cons, List.map_cons, List.sum_cons, Nat.mul_add, ih]
    ring

theorem bupS2_run (W k : Nat) (b : UInt8) :
    2 * bupS2 W (List.replicate k b) = 62 * W * (W - 1) + b.toNat * min k W * (min k W + 1) := by
  rw [bupS2, lastN_run, List.reverse_replicate, Nat.mul_add, tri_sum]
  ring

theorem bup_table (b : UInt8) : ∀ n : Fin 65, (62 * 64 * 63 + b.toNat * n.1 * (n.1 + 1)) % 16384 ≠ 16382 :=
  byte_all (P := fun b => ∀ n : Fin 65, (62 * 64 * 63 + b.toNat * n.1 * (n.1 + 1)) % 16384 ≠ 16382)
    (by decide +kernel) b

theorem bup_run (b : UInt8) (k : Nat) : ¬ bupEdge 64 (List.replicate k b) := by
  intro h
  rw [bupEdge] at h
  have h1 := bupS2_run 64 k b
  have h2 := bup_table b ⟨min k 64, by omega⟩
  simp only at h2
  omega

/-- C72 for `RollSum::default()`: a run is never cut. -/
theorem C72_rollsum (b : UInt8) :
    ConstFce (Bup.chunk Bup.RollSum.default) b none ∧ ConstIncr (Bup.incr Bup.RollSum.default) b none := by
  refine ⟨constFce (C18_rollsum Bup.RollSum.default) (C08_rollsum Bup.RollSum.default) (EdgeRule.good _)
    fun n => chunked_run (e := bupEdge 64) (L := none) (fun m _ => bup_run _ _) n [],
    constIncr (C28_rollsum 6) (C05_rollsum 6) (EdgeRule.good _) fun n => .rem ?_⟩
  rintro m ⟨-, -, h3, -⟩
  change bupEdge 64 ([] ++ _) at h3
  rw [List.nil_append, List.take_replicate] at h3
  exact bup_run _ _ h3

/-! ## buzhash -/

/-- parity of the number of one bits -/
def oddOnes (x : BitVec 32) : Bool := (List.range 32).foldl (fun a i => a ^^ x.getLsbD i) false

/-- after how many bytes `BuzHash::new_nom(0)` cuts a run of `c`: after 32 if the table entry has an odd number of
ones (then the hash is all ones), with three exceptions, and otherwise never -/
def buzRun (c : UInt8) : Option Nat :=
  if c = 28 then some 8 else if c = 30 then some 3 else if c = 108 then some 27
  else if oddOnes (lookup Tables.goBuzhash c) then some 32 else none

/-- hash of `k` times a byte with table entry `h` -/
def buzIter (h : BitVec 32) : Nat → BitVec 32
  | 0 => 0
  | k + 1 => (buzIter h k).rotateLeft 1 ^^^ (if k < 67 then 0 else h.rotateLeft 3) ^^^ h

theorem buzHash_run (H : UInt8 → BitVec 32) (b : UInt8) (k : Nat) :
    buzHash 67 H (List.replicate k b) = buzIter (H b) k := by
  induction k with
  | zero => simp [buzHash, wxor, buzIter]
  | succ k ih =>
    rw [List.replicate_succ', Buzhash.buzHash_snoc (by decide), ih, buzIter, List.reverse_replicate,
      List.getElem?_replicate]
    by_cases h : k < 67
    · rw [if_pos h, if_neg (by omega)]
    · rw [if_neg h, if_pos (by omega)]

theorem buz_table (c : UInt8) : (∀ k : Fin 68, 1 ≤ k.1 → k.1 ≤ (buzRun c).getD 67 →
      (buzIter (lookup Tables.goBuzhash c) k.1 &&& 0xfff = 0xfff ↔ buzRun c = some k.1)) ∧
    buzIter (lookup Tables.goBuzhash c) 68 = buzIter (lookup Tables.goBuzhash c) 67 :=
  byte_all (P := fun c => (∀ k : Fin 68, 1 ≤ k.1 → k.1 ≤ (buzRun c).getD 67 →
      (buzIter (lookup Tables.goBuzhash c) k.1 &&& 0xfff = 0xfff ↔ buzRun c = some k.1)) ∧
    buzIter (lookup Tables.goBuzhash c) 68 = buzIter (lookup Tables.goBuzhash c) 67) (by decide +kernel) c

theorem buzRun_le (c : UInt8) : ∀ l ∈ buzRun c, 1 ≤ l ∧ l ≤ 32 := by
  intro l hl
  rw [Option.mem_def] at hl
  unfold buzRun at hl
  repeat' split at hl
  all_goals first | (cases hl; decide) | cases hl

theorem buz_runCut (salt b : UInt8) :
    RunCut (buzEdge 67 (fun b => lookup Tables.goBuzhash (b ^^^ salt)) 0xfff) b (buzRun (b ^^^ salt)) := by
  refine runCut_table (w := 67) (by decide) ?_ ?_ ?_
  · intro k hk
    rw [buzEdge, buzEdge, buzHash_run, buzHash_run]
    have : buzIter (lookup Tables.goBuzhash (b ^^^ salt)) k = buzIter (lookup Tables.goBuzhash (b ^^^ salt)) 67 := by
      induction k, hk using Nat.le_induction with
      | base => rfl
      | succ k hk ih =>
        rw [← (buz_table (b ^^^ salt)).2, buzIter, buzIter, ih, if_neg (by omega), if_neg (by decide)]
    rw [this]
  · intro l hl
    have := buzRun_le _ l hl
    omega
  · intro k h1 h2
    rw [buzEdge, buzHash_run]
    exact (buz_table (b ^^^ salt)).1 k h1 h2

/-- the same with the size limit of `BuzHashIncr` -/
def buzIncrRun (c : UInt8) : Option Nat := some ((buzRun c).getD 16777217)

theorem buz_incr_runCut (salt b : UInt8) :
    RunCut (buzIncrEdge 67 (fun b => lookup Tables.goBuzhash (b ^^^ salt)) 0xfff 16777216) b (buzIncrRun (b ^^^ salt)) := by
  have h := buz_runCut salt b
  have hle := buzRun_le (b ^^^ salt)
  unfold buzIncrRun
  cases hL : buzRun (b ^^^ salt) with
  | none =>
    rw [hL] at h
    refine ⟨by decide, .inr (by rw [List.length_replicate]; decide), ?_⟩
    rintro m h1 h2 (h3 | h3)
    · exact h m h1 h3
    · rw [List.length_replicate] at h3
      rw [Option.getD_none] at h2
      omega
  | some L =>
    rw [hL] at h hle
    obtain ⟨h1, h2, h3⟩ := h
    refine ⟨h1, .inl h2, ?_⟩
    rintro m k1 k2 (k3 | k3)
    · exact h3 m k1 k2 k3
    · rw [List.length_replicate] at k3
      have := hle L rfl
      rw [Option.getD_some] at k2
      omega

/-- C72 for `BuzHash::new_nom(salt)`. -/
theorem C72_buzhash (salt b : UInt8) : ∃ p, Buzhash.BuzHash.newNom salt = .ok p ∧
    ConstFce (Buzhash.chunk p) b (buzRun (b ^^^ salt)) ∧ ConstIncr (Buzhash.incr p) b (buzIncrRun (b ^^^ salt)) := by
  refine ⟨{ k := 67, h := fun b => lookup Tables.goBuzhash (b ^^^ salt), mask := 0xfff, maxChunkSize := 16777216 },
    rfl, ?_, ?_⟩
  · exact constFce (C19_buzhash _ (by show 0 < 67; decide)) (C08_buzhash _ (by show 0 < 67; decide)) (EdgeRule.good _)
      fun n => chunked_run (buz_runCut salt b) n []
  · exact constIncr (C29_buzhash _ (by show 0 < 67; decide)) (C05_buzhash _ (by show 0 < 67; decide)) (EdgeRule.good _)
      fun n => chunked_run (buz_incr_runCut salt b) n []
example : buzRun 0 = none ∧ buzRun 30 = some 3 ∧ buzRun 3 = some 32 ∧ buzIncrRun 0 = some 16777217 ∧
    ((List.range 256).filter fun n => (buzRun (UInt8.ofNat n)).isSome).length = 122 := by decide +kernel

/-! ## fastcdc -/

theorem fast_table (b : UInt8) : (∀ k : Fin 65, 1 ≤ k.1 →
      ((lookup Tables.gear64 b <<< k.1) - lookup Tables.gear64 b) &&& 0x0003590703530000 ≠ 0) ∧
    ((0 : BitVec 64) - lookup Tables.gear64 b) &&& 0x0000d90003530000 ≠ 0 :=
  byte_all (P := fun b => (∀ k : Fin 65, 1 ≤ k.1 →
      ((lookup Tables.gear64 b <<< k.1) - lookup Tables.gear64 b) &&& 0x0003590703530000 ≠ 0) ∧
    ((0 : BitVec 64) - lookup Tables.gear64 b) &&& 0x0000d90003530000 ≠ 0) (by decide +kernel) b

theorem fast_run (b : UInt8) (k : Nat) (hk : 2048 < k) :
    ¬ fastHit (lookup Tables.gear64) 2048 8192 (List.replicate k b) := by
  have hz : ∀ j, 64 ≤ j → lookup Tables.gear64 b <<< j = 0 := fun j hj => BitVec.shiftLeft_eq_zero hj
  rw [fastHit, List.drop_replicate, gearSum_run, List.length_replicate]
  by_cases h : k ≤ 8192
  · rw [if_pos h]
    by_cases h2 : k - 2048 ≤ 64
    · exact (fast_table b).1 ⟨k - 2048, by omega⟩ (by simp only; omega)
    · have h3 := (fast_table b).1 ⟨64, by omega⟩ (by show 1 ≤ 64; omega)
      simp only at h3
      rw [hz 64 (Nat.le_refl _)] at h3
      rw [hz _ (by omega)]
      exact h3
  · rw [if_neg h, hz _ (by omega)]
    exact (fast_table b).2

theorem fast_runCut (b : UInt8) :
    RunCut (fastFceEdge (lookup Tables.gear64) 2048 8192 65536) b (some 65537) := by
  refine ⟨by decide, ⟨by rw [List.length_replicate]; decide, .inl (by rw [List.length_replicate]; decide)⟩, ?_⟩
  rintro m h1 h2 ⟨h3, h4⟩
  rw [List.length_replicate] at h3 h4
  rcases h4 with h4 | h4
  · omega
  · exact fast_run b m h3 h4

/-- C72 for `FastCdc::default()`, `find_chunk_edge`: chunks of 65537 bytes (one more than `max_size`); the documented
loop panics if the length is 65536 more than a multiple of that. -/
theorem C72_fastcdc (b : UInt8) (n fuel : Nat) (hn : n < fuel) :
    (FastCdc.chunk FastCdc.FastCdc.default).docLoop (List.replicate n b) fuel
      (FastCdc.chunk FastCdc.FastCdc.default).init (List.replicate n b) 0 =
    if n % 65537 = 65536 then .error .sliceIndex else .ok (runChunks b n (some 65537), some []) := by
  obtain ⟨cs, r, h1, h2⟩ := C64_fastcdc FastCdc.FastCdc.default (by decide) (by decide) (List.replicate n b) fuel
    (by simpa using hn)
  obtain ⟨rfl, rfl⟩ := h1.det (EdgeRule.good _) (chunked_run (fast_runCut b) n [])
  rw [h2]
  simp only [runRest, List.length_replicate]
  rfl
example : 131073 % 65537 = 65536 := by decide

/-- C72 for `FastCdc::default()`, `push` with re-pushing: chunks of exactly `max_size`. -/
theorem C72_fastcdc_incr (b : UInt8) : ConstIncr (FastCdc.incr FastCdc.FastCdc.default) b (some 65536) := by
  refine constIncr C63_fastcdc_default (C05_fastcdc FastCdc.FastCdc.default (by decide) (by decide) (by decide))
    (fastIncrRule.good _ _ _ _) ?_
  intro n
  generalize ([] : Bytes) = hist
  induction n using Nat.strongRecOn generalizing hist with
  | _ n ih =>
    have hno : ∀ m, 2048 ≤ m → ∀ k, m < k → k ≤ n → ¬ fastHit (lookup Tables.gear64) 2048 8192 ((List.replicate n b).take (m + 1)) := by
      intro m h1 k h2 h3
      rw [List.take_replicate, Nat.min_eq_left (by omega)]
      exact fast_run b _ (by omega)
    by_cases hlt : n < 65536
    · simp only [runChunks, runRest, Nat.div_eq_of_lt hlt, Nat.mod_eq_of_lt hlt, List.replicate_zero]
      refine .rem ?_
      rintro m ⟨h1, h2, h3, h4, -⟩
      rw [List.length_replicate] at h3 h4
      rcases h4 with h4 | ⟨h4, h5⟩
      · change m = 65536 at h4; omega
      · exact hno m h1 (m + 1) (by omega) h4 h5
    · have hle : 65536 ≤ n := by omega
      have e1 : n / 65536 = (n - 65536) / 65536 + 1 := by omega
      have e2 : n % 65536 = (n - 65536) % 65536 := by omega
      have := ih (n - 65536) (by omega) (hist ++ (List.replicate n b).take 65536)
      have hc := Chunked.cut (rule := fastIncrRule (lookup Tables.gear64) 2048 8192 65536) (hist := hist)
        (data := List.replicate n b) (n := 65536)
        (cs := runChunks b (n - 65536) (some 65536)) (r := runRest b (n - 65536) (some 65536))
        ⟨by decide, by decide, by simpa using hle, .inl rfl, fun m h1 h2 => hno m h1 65536 h2 hle⟩
        (by rw [List.drop_replicate]; exact this)
      rw [List.take_replicate, Nat.min_eq_left hle] at hc
      rw [runChunks, runRest, e1, e2, List.replicate_succ]
      exact hc

/-! ## zstd -/

theorem zstd_table (b : UInt8) : (zstdHash (List.replicate 32 b)).getLsbD 0 = false :=
  byte_all (P := fun b => (zstdHash (List.replicate 32 b)).getLsbD 0 = false) (by decide +kernel) b

theorem zstd_mask {prof : Profile} {size : BitVec 64} {p : Zstd.Zstd}
    (h : Zstd.Zstd.withTargetSectionSize prof size = .ok p) : p.hitMask.getLsbD 0 = true := by
  rw [C51_zstd] at h
  split at h
  · cases h
  · split at h
    · cases h
    · cases h
      show (BitVec.ofNat 64 _).getLsbD 0 = true
      rw [BitVec.getLsbD_ofNat, Nat.testBit_two_pow_sub_one]
      simp

theorem zstd_run {prof : Profile} {size : BitVec 64} {p : Zstd.Zstd}
    (h : Zstd.Zstd.withTargetSectionSize prof size = .ok p) (b : UInt8) (k : Nat) (hk : 32 < k) :
    zstdHash (lastN 32 (List.replicate k b)) &&& p.hitMask ≠ p.hitMask := by
  rw [lastN_run, Nat.min_eq_right (by omega)]
  intro he
  have h1 := congrArg (fun x => BitVec.getLsbD x 0) he
  simp only [BitVec.getLsbD_and, zstd_table, zstd_mask h] at h1
  cases h1

/-- C72 for `Zstd`, every size the constructor accepts: no run is ever cut, under every schedule of buffers and by
one-byte pushes. -/
theorem C72_zstd {prof : Profile} {size : BitVec 64} {p : Zstd.Zstd}
    (h : Zstd.Zstd.withTargetSectionSize prof size = .ok p) (b : UInt8) (n : Nat) :
    (∀ ends : List Nat, ends.Pairwise (· ≤ ·) → (∀ e ∈ ends, e ≤ n) →
      fceCalls (Zstd.chunk p) (List.replicate n b) (Zstd.chunk p).init 0 ends = .ok (ends.map fun _ => none)) ∧
    (Zstd.incr p).bytewise (Zstd.incr p).init 0 0 (List.replicate n b) = .ok [] := by
  constructor
  · intro ends hs hle
    obtain ⟨cuts, h1, h2⟩ := C66_exact h (List.replicate n b) ends hs (by simpa using hle)
    have h3 : ∀ (ends : List Nat) E, (∀ e ∈ ends, e ≤ n) →
        DriftCalls p.hitMask (List.replicate n b) E 0 ends (ends.map fun _ => none) := by
      intro ends
      induction ends with
      | nil => intro E _; exact .nil
      | cons e es ih =>
        intro E hle
        refine .none ?_ ?_
        · intro q k1 k2 k3
          have := hle e (by simp)
          rw [driftHash, windowHash, show (0 : BitVec 64) * 0xCF1BBCDCB7A56463 ^ (q - E) = 0 from MulZeroClass.zero_mul _,
            _root_.add_zero, List.take_replicate, Nat.min_eq_left (by omega)]
          exact zstd_run h b q k1
        · rw [driftHash, show (0 : BitVec 64) * 0xCF1BBCDCB7A56463 ^ (e - E) = 0 from MulZeroClass.zero_mul _,
            _root_.add_zero, BitVec.sub_self]
          exact ih e fun x hx => hle x (by simp [hx])
    rw [h1, C66_det h2 (h3 ends 0 hle)]
  · obtain ⟨cs, r, h1, h2⟩ := (Zstd.bytewise_conforms p (zstd_wf h)).all (EdgeRule.good _) (EdgeRule.pos _)
      (List.replicate n b)
    have h3 : Chunked (EdgeRule (zstdEdge p.hitMask)) [] (List.replicate n b) [] (List.replicate n b) := by
      refine .rem ?_
      rintro m ⟨-, k2, ⟨k3, k4⟩, -⟩
      rw [List.length_replicate] at k2
      rw [List.nil_append, List.take_replicate, Nat.min_eq_left k2] at k3 k4
      rw [List.length_replicate] at k3
      exact zstd_run h b m k3 k4
    rw [h1, (h2.det (EdgeRule.good _) h3).1]
    rfl
example : (0x100000 : BitVec 64).toNat = 2 ^ 20 ∧
    ∃ p, Zstd.Zstd.withTargetSectionSize .debug 0x100000 = .ok p ∧ p.hitMask = 0xfffff :=
  ⟨rfl, { hitMask := 0xfffff, primePower := 0xf5507fe35f91f8cb }, by decide +kernel, rfl⟩

end HashRoll.Props
