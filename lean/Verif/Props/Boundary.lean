import Verif.Props.BoundaryDefs
import Verif.Props.FreqBup
/-!
# C83: boundary strings of the algorithms

Gzip, Pigz, Mii and Ram: for all parameters. Gear32, RollSum, BuzHash, FastCdc and Zstd: `BoundaryStrings.lean`.
-/

namespace HashRoll.Props
open HashRoll.Spec

/-! ## Gzip: as many zeros as the window is long -/

theorem gzip_boundary (w m : Nat) : RuleBoundary (EdgeRule (Local (gzipEdge w m))) (List.replicate w 0) [] := by
  refine boundary_always ?_
  intro x h q _ hq
  show gzipEdge w m q
  have h1 : lastN w q <:+ x ++ List.replicate w 0 :=
    (List.drop_suffix _ _).trans (hq ▸ List.suffix_append h q)
  have h2 : lastN w q <:+ List.replicate w 0 :=
    List.suffix_of_suffix_length_le h1 (List.suffix_append _ _) (by rw [lastN_length, List.length_replicate]; omega)
  have h3 : ((lastN w q).map UInt8.toNat).sum = 0 := by
    have h4 := (List.suffix_replicate_iff.1 h2).2
    rw [h4, List.map_replicate]
    simp
  rw [gzipEdge, h3, Nat.zero_mod]

theorem C83_gzip (p : Gzip.GzipRsyncable) (hm : p.modulus ≠ 0) : DocBoundary (Gzip.chunk p) (List.replicate p.windowLen 0) :=
  (gzip_boundary _ _).doc (C08_gzip p hm) (EdgeRule.good _) (EdgeRule.fresh _)
example : Ex.gzip3.modulus ≠ 0 := by decide

theorem C83_gzip_incr (p : Gzip.GzipRsyncable) (hm : p.modulus ≠ 0) (hw : 0 < p.windowLen) :
    StrictBoundary (Gzip.incr p) (List.replicate p.windowLen 0) [] :=
  (gzip_boundary _ _).strict (C05_gzip p hm hw) (EdgeRule.good _) (EdgeRule.fresh _)
example : Ex.gzip3.modulus ≠ 0 ∧ 0 < Ex.gzip3.windowLen := by decide

/-! ## Pigz: a zero and ones, `bits` bytes in all -/

/-- After a zero and `i` ones: the low `i` bits are ones, the next one is zero. -/
theorem pigz_marker (hit : BitVec 32) (c : Bytes) : ∀ i, i < 32 →
    (∀ j < i, (pigzHash hit (c ++ 0 :: List.replicate i 1)).getLsbD j = true) ∧
    (pigzHash hit (c ++ 0 :: List.replicate i 1)).getLsbD i = false := by
  intro i
  induction i with
  | zero =>
    intro _
    refine ⟨fun j hj => absurd hj (Nat.not_lt_zero _), ?_⟩
    rw [List.replicate_zero, Pigz.pigzHash_snoc, BitVec.getLsbD_xor, BitVec.getLsbD_shiftLeft]
    simp [word]
  | succ i ih =>
    intro hi
    obtain ⟨h1, h2⟩ := ih (by omega)
    have e : c ++ 0 :: List.replicate (i + 1) 1 = (c ++ 0 :: List.replicate i 1) ++ [1] := by
      rw [List.replicate_succ', List.append_assoc, List.cons_append]
    have hw : ∀ j, (word 32 1).getLsbD j = decide (j = 0) := by
      intro j
      have : word 32 1 = 1#32 := rfl
      rw [this, BitVec.getLsbD_one]; simp
    have step : ∀ j < 32, (pigzHash hit (c ++ 0 :: List.replicate (i + 1) 1)).getLsbD j =
        if j = 0 then true else (pigzHash hit (c ++ 0 :: List.replicate i 1)).getLsbD (j - 1) := by
      intro j hj
      rw [e, Pigz.pigzHash_snoc, BitVec.getLsbD_xor, BitVec.getLsbD_shiftLeft, hw]
      rcases Nat.eq_zero_or_pos j with rfl | hj'
      · simp
      · simp [hj, show ¬ j < 1 by omega, show j ≠ 0 by omega]
    constructor
    · intro j hj
      rw [step j (by omega)]
      split
      · rfl
      · exact h1 _ (by omega)
    · rw [step _ hi, if_neg (by omega)]
      exact h2

theorem pigz_boundary {prof : Profile} {bits : BitVec 8} {p : Pigz.PigzRsyncable}
    (h : Pigz.PigzRsyncable.withBits prof bits = .ok p) :
    RuleBoundary (EdgeRule (Local (pigzEdge p.mask p.hit))) (0 :: List.replicate (bits.toNat % 32 - 1) 1) [] := by
  obtain ⟨-, hm, hh⟩ := Pigz.withBits_mask h
  have h32 : bits.toNat % 32 < 32 := Nat.mod_lt _ (by omega)
  generalize bits.toNat % 32 = b at hm h32
  have hhit : ∀ j < 32, p.hit.getLsbD j = decide (j + 1 < b) := by
    intro j hj
    rw [hh, hm, BitVec.getLsbD_ushiftRight, BitVec.getLsbD_ofNat, Nat.testBit_two_pow_sub_one, Nat.add_comm 1 j]
    by_cases h1 : j + 1 < b
    · simp [h1]; omega
    · simp [h1]
  have hmask : ∀ j < 32, p.mask.getLsbD j = decide (j < b) := by
    intro j hj
    rw [hm, BitVec.getLsbD_ofNat, Nat.testBit_two_pow_sub_one]
    simp [hj]
  refine boundary_quiet ?_ ?_
  · intro _ c
    show pigzHash p.hit (c ++ 0 :: List.replicate (b - 1) 1) &&& p.mask = p.hit
    obtain ⟨h1, h2⟩ := pigz_marker p.hit c (b - 1) (by omega)
    apply BitVec.eq_of_getLsbD_eq
    intro j hj
    rw [BitVec.getLsbD_and, hhit j hj, hmask j hj]
    rcases Nat.lt_trichotomy j (b - 1) with hj' | hj' | hj'
    · rw [h1 j hj']; simp; omega
    · rw [hj', h2]; simp; omega
    · simp [show ¬ j < b by omega, show ¬ j + 1 < b by omega]
  · intro _ c i hi hi'
    rw [List.length_cons, List.length_replicate] at hi'
    obtain ⟨i, rfl⟩ : ∃ i', i = i' + 1 := ⟨i - 1, by omega⟩
    rw [List.take_succ_cons, List.take_replicate, Nat.min_eq_left (by omega)]
    show ¬ (pigzHash p.hit (c ++ 0 :: List.replicate i 1) &&& p.mask = p.hit)
    intro he
    have := congrArg (fun x => x.getLsbD i) he
    simp only [BitVec.getLsbD_and] at this
    rw [(pigz_marker p.hit c i (by omega)).2, hhit i (by omega)] at this
    simp at this
    omega

theorem C83_pigz {prof : Profile} {bits : BitVec 8} {p : Pigz.PigzRsyncable}
    (h : Pigz.PigzRsyncable.withBits prof bits = .ok p) :
    DocBoundary (Pigz.chunk p) (0 :: List.replicate (bits.toNat % 32 - 1) 1) :=
  (pigz_boundary h).doc (C08_pigz h) (EdgeRule.good _) (EdgeRule.fresh _)
example : Pigz.PigzRsyncable.withBits .debug 2 = .ok Ex.pigz2 := Ex.pigz2_ok

theorem C83_pigz_incr {prof : Profile} {bits : BitVec 8} {p : Pigz.PigzRsyncable}
    (h : Pigz.PigzRsyncable.withBits prof bits = .ok p) :
    StrictBoundary (Pigz.incr p) (0 :: List.replicate (bits.toNat % 32 - 1) 1) [] :=
  (pigz_boundary h).strict (C05_pigz h) (EdgeRule.good _) (EdgeRule.fresh _)
example : Pigz.PigzRsyncable.withBits .debug 2 = .ok Ex.pigz2 := Ex.pigz2_ok

/-! ## Mii: `0, 1, …, w` -/

/-- `[0, 1, …, w]` -/
def upTo (w : Nat) : Bytes := (List.range (w + 1)).map UInt8.ofNat

theorem upTo_length (w : Nat) : (upTo w).length = w + 1 := by simp [upTo]

theorem upTo_increasing {w : Nat} (hw : w ≤ 255) : Increasing (upTo w) := by
  unfold upTo Increasing
  rw [List.pairwise_map]
  refine List.Pairwise.imp_of_mem ?_ List.pairwise_lt_range
  intro a b ha hb hab
  rw [List.mem_range] at ha hb
  rw [UInt8.lt_iff_toNat_lt, UInt8.toNat_ofNat', UInt8.toNat_ofNat']
  omega

/-- Nothing is smaller than 0: no run of `w + 1` bytes reaches back over the 0. -/
theorem mii_quiet {w i : Nat} (c : Bytes) (hi : 1 ≤ i) (hi' : i < w + 1) : ¬ miiEdge w (c ++ (upTo w).take i) := by
  rintro ⟨-, h2, h3⟩
  obtain ⟨j, rfl⟩ : ∃ j, i = j + 1 := ⟨i - 1, by omega⟩
  have e : ∃ rest, (upTo w).take (j + 1) = 0 :: rest := by
    unfold upTo
    rw [List.range_succ_eq_map, List.map_cons, List.take_succ_cons]
    exact ⟨_, rfl⟩
  obtain ⟨rest, e⟩ := e
  have hl : ((upTo w).take (j + 1)).length = j + 1 := by rw [List.length_take, upTo_length]; omega
  rw [List.length_append, hl] at h2
  rw [lastN_append_le _ (by omega), hl, e] at h3
  obtain ⟨b, hb⟩ : ∃ b, b ∈ lastN (w + 1 - (j + 1)) c := by
    apply List.exists_mem_of_length_pos
    rw [lastN_length]; omega
  have := (List.pairwise_append.1 h3).2.2 b hb 0 List.mem_cons_self
  rw [UInt8.lt_iff_toNat_lt] at this
  exact absurd this (Nat.not_lt_zero _)

theorem mii_hit {w : Nat} (h1 : 1 ≤ w) (h2 : w ≤ 255) (c : Bytes) : miiEdge w (c ++ upTo w) := by
  refine ⟨h1, by rw [List.length_append, upTo_length]; omega, ?_⟩
  rw [lastN_append_right _ (upTo_length w).ge, lastN_of_le (upTo_length w).le]
  exact upTo_increasing h2

theorem C83_mii (p : Mii.Mii) (h1 : 1 ≤ p.w) (h2 : p.w ≤ 255) : DocBoundary (Mii.chunk p) (upTo p.w) :=
  (boundary_quiet (fun _ c => mii_hit h1 h2 c) fun _ c i hi hi' => mii_quiet c hi (by rwa [upTo_length] at hi')).doc
    (C08_mii p) (EdgeRule.good _) (EdgeRule.fresh _)
example : upTo Mii.Mii.default.w = [0, 1, 2, 3, 4, 5] ∧ 1 ≤ Mii.Mii.default.w ∧ Mii.Mii.default.w ≤ 255 := by decide

theorem C83_mii_incr (p : Mii.Mii) (h1 : 1 ≤ p.w) (h2 : p.w ≤ 255) : StrictForgets (Mii.incr p) (upTo p.w) := by
  have hb : RuleBoundary (EdgeRule (miiIncrEdge p.w)) (upTo p.w) [] := by
    refine boundary_quiet ?_ ?_
    · intro h c
      unfold miiIncrEdge
      split
      · exact mii_hit h1 h2 c
      · exact mii_hit h1 h2 (0 :: c)
    · intro h c i hi hi'
      rw [upTo_length] at hi'
      unfold miiIncrEdge
      split
      · exact mii_quiet c hi hi'
      · exact mii_quiet (0 :: c) hi hi'
  refine hb.forgets (C05_mii p) (EdgeRule.good _) (EdgeRule.pos _) (R := fun h h' => h ≠ [] ∧ h' ≠ []) ?_ ?_ ?_
  · rintro h h' x ⟨a, b⟩
    exact ⟨by simp [a], by simp [b]⟩
  · rintro h h' d n ⟨a, b⟩
    have : miiIncrEdge p.w h = miiIncrEdge p.w h' := by
      funext c; unfold miiIncrEdge; rw [if_neg a, if_neg b]
    unfold EdgeRule; rw [this]
  · intro s
    have : upTo p.w ≠ [] := by
      intro h; have := congrArg List.length h; rw [upTo_length] at this; simp at this
    exact ⟨this, by simp [this]⟩
example : 1 ≤ Mii.Mii.default.w ∧ Mii.Mii.default.w ≤ 255 := by decide

/-! ## Ram: `255` `w + 2` times, then `0` `w + 1` times, then 255 -/

theorem ram_top {w : Nat} {p : Bytes} (h : w + 1 ≤ p.length) : ramEdge w (p ++ [255]) := by
  refine ⟨255, List.getLast?_concat, by simp; omega, ?_⟩
  intro x _
  exact UInt8.le_iff_toNat_le.2 (by have := x.toNat_lt; show x.toNat ≤ 255; omega)

theorem ram_first (w : Nat) (c : Bytes) : ramEdge w (c ++ List.replicate (w + 2) 255) := by
  rw [List.replicate_succ', ← List.append_assoc]
  exact ram_top (by simp)

theorem ram_quiet {w a i : Nat} (ha' : a ≤ w + 2) (hi : 1 ≤ i) (hi' : i ≤ w + 1) :
    ¬ ramEdge w ((List.replicate (w + 2) 255).drop a ++ (List.replicate (w + 1) 0).take i) := by
  rw [List.drop_replicate, List.take_replicate, Nat.min_eq_left hi']
  rintro ⟨b, h1, h2, h3⟩
  rw [List.length_append, List.length_replicate, List.length_replicate] at h2
  have hb : b = 0 := by
    obtain ⟨i, rfl⟩ : ∃ j, i = j + 1 := ⟨i - 1, by omega⟩
    rw [List.replicate_succ', ← List.append_assoc, List.getLast?_concat] at h1
    exact (Option.some.inj h1).symm
  subst hb
  have hm : (255 : UInt8) ∈ (List.replicate (w + 2 - a) (255 : UInt8) ++ List.replicate i 0).take (w + 1) := by
    obtain ⟨k, hk⟩ : ∃ k, w + 2 - a = k + 1 := ⟨w + 2 - a - 1, by omega⟩
    rw [hk, List.replicate_succ, List.cons_append, List.take_succ_cons]
    exact List.mem_cons_self
  exact absurd (h3 _ hm) (by decide)

theorem C83_ram (p : Ram.Ram) :
    DocBoundary (Ram.chunk p) (List.replicate (p.w + 2) 255 ++ (List.replicate (p.w + 1) 0 ++ [255])) := by
  refine RuleBoundary.doc ?_ (C08_ram p) (EdgeRule.good _) (EdgeRule.fresh _)
  refine boundary_pair (by simp) (fun _ c => ram_first p.w c) (fun _ c => ?_) (fun _ a _ _ => ?_) ?_
  · show ramEdge p.w _
    rw [← List.append_assoc, ← List.append_assoc]
    exact ram_top (by simp; omega)
  · show ramEdge p.w _
    rw [← List.append_assoc]
    exact ram_top (by simp)
  · intro _ a i ha ha' hi hi'
    rw [List.length_replicate] at ha'
    rw [List.length_append, List.length_replicate, List.length_singleton] at hi'
    rw [List.take_append_of_le_length (by rw [List.length_replicate]; omega)]
    exact ram_quiet ha' hi (by omega)
example := C83_ram (Ram.Ram.withW 2)

/-- `RamIncr` cuts before the byte that matches: the boundary is before the last 255. -/
theorem C83_ram_incr (p : Ram.Ram) :
    StrictBoundary (Ram.incr p) (List.replicate (p.w + 2) 255 ++ List.replicate (p.w + 1) 0) [255] := by
  refine RuleBoundary.strict ?_ (C05_ram p) (BeforeRule.good _) (BeforeRule.fresh _)
  refine boundary_before (BeforeRule.good _) (E := ramEdge p.w) (M := 2 * p.w + 4) ?_ (by simp; omega) (by simp)
    (ram_first p.w) (fun a _ _ => ?_) ?_
  · intro h d j hf
    have hj : 2 ≤ j := by
      obtain ⟨_, hj, ⟨_, _, hl, _⟩, _⟩ := hf
      rw [List.length_take] at hl; omega
    refine ⟨j - 1, by omega, by omega, ?_, fun _ => by omega⟩
    show FirstCut (ramEdge p.w) d (j - 1 + 1)
    rwa [Nat.sub_add_cancel (by omega)]
  · rw [← List.append_assoc]
    exact ram_top (by simp)
  · intro a i ha ha' hi hi'
    rw [List.length_replicate] at ha' hi'
    exact ram_quiet ha' hi hi'
example := C83_ram_incr (Ram.Ram.withW 2)

/-- How the boundary works in `Ram` with `w = 2`. -/
example : (((Ram.incr (Ram.Ram.withW 2)).iterSlicesStrict (Ram.incr (Ram.Ram.withW 2)).init
      ([9, 1] ++ [255, 255, 255, 255, 0, 0, 0] ++ [255, 1, 2, 3])).run 20).map (fun x => (x.1, x.2.1.rem)) =
    .ok ([[9, 1, 255], [255, 255, 255, 0, 0, 0]], [255, 1, 2, 3]) := by
  decide +kernel

end HashRoll.Props
