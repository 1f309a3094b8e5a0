import Verif.Props.Counting
import Verif.Props.Constructors
/-!
# C74 for the chunkers with tables or multipliers: how many of the 256 possible next bytes cut
-/

namespace HashRoll.Props
open HashRoll.Spec

/-! ## Gear -/

/-- `x` and `y` are less than `w` apart, going round at `2^32` -/
def near (w x y : Nat) : Bool := decide ((y + (2 ^ 32 - x)) % 2 ^ 32 < w) || decide ((x + (2 ^ 32 - y)) % 2 ^ 32 < w)

/-- the entries of the table as numbers -/
def gearNats : List Nat := Tables.gear32.toList.map BitVec.toNat

theorem gearNats_near : ∀ x ∈ gearNats, gearNats.countP (near (2 ^ 21) x) ≤ 20 := by decide +kernel

theorem gearNats_eq : allBytes.map (fun b => (lookup Tables.gear32 b).toNat) = gearNats := by decide +kernel

theorem gear_near (b : UInt8) :
    (allBytes.filter fun b' => near (2 ^ 21) (lookup Tables.gear32 b).toNat (lookup Tables.gear32 b').toNat).length ≤ 20 := by
  have h1 : (lookup Tables.gear32 b).toNat ∈ gearNats := by
    rw [← gearNats_eq]
    exact List.mem_map.2 ⟨b, mem_allBytes b, rfl⟩
  have h2 := gearNats_near _ h1
  rw [← gearNats_eq, List.countP_map] at h2
  rw [← List.countP_eq_length_filter]
  exact h2

theorem near_of_small {w : Nat} (x g g' : BitVec 32) (h : (x + g).toNat < w) (h' : (x + g').toNat < w) :
    near w g.toNat g'.toNat = true := by
  have e : ∀ g g' : BitVec 32, (g'.toNat + (2 ^ 32 - g.toNat)) % 2 ^ 32 = ((x + g') - (x + g)).toNat := by
    intro g g'
    have : (x + g') - (x + g) = g' - g := by ring
    rw [this, BitVec.toNat_sub, Nat.add_comm]
  rw [near, e g g', e g' g, Bool.or_eq_true, decide_eq_true_iff, decide_eq_true_iff]
  rcases Nat.le_total (x + g).toNat (x + g').toNat with hle | hle
  · left
    rw [BitVec.toNat_sub_of_le (BitVec.le_def.2 hle)]
    omega
  · right
    rw [BitVec.toNat_sub_of_le (BitVec.le_def.2 hle)]
    omega

/-- `Gear32::with_average_size_log2(n)` for `11 ≤ n ≤ 31`: in every state at most 20 of the 256 bytes cut. -/
theorem C74_gear {prof : Profile} {n : BitVec 64} {p : Gear.Gear32}
    (h : Gear.Gear32.withAverageSizeLog2 prof n = .ok p) (h1 : 11 ≤ n.toNat) (h2 : n.toNat ≤ 31) (st : Gear.GearIncr32)
    (hst : st.params = p) : cutCount (Gear.incr p) st ≤ 20 := by
  obtain ⟨p', e1, e2, e3, e4⟩ := C49_gear prof n (by omega) h2
  rw [h] at e1
  cases e1
  have key : ∀ b, cutsOn (Gear.incr p) st b = true →
      ((st.state.fp <<< 1) + lookup Tables.gear32 b).toNat < 2 ^ 21 := by
    intro b hb
    rw [cutsOn_loop (C := Gear.incr p) Gear.pushBody] at hb
    · have hadd : (st.state.push st.params b).2 =
          (((st.state.fp <<< 1) + lookup st.params.gear b) &&& st.params.mask == st.params.xxx) := rfl
      have hc : (st.state.push st.params b).2 = true := by
        obtain ⟨s', k, hb⟩ := hb
        simp only [Gear.pushBody] at hb
        cases hc : (st.state.push st.params b).2 with
        | true => rfl
        | false => rw [hc] at hb; simp at hb
      rw [hadd, hst, e2, e3, beq_iff_eq] at hc
      generalize (st.state.fp <<< 1) + lookup Tables.gear32 b = y at hc
      refine Nat.lt_pow_two_of_testBit _ fun i hi => ?_
      rw [BitVec.testBit_toNat]
      by_cases h32 : i < 32
      · have h3 : (y &&& p.mask).getLsbD i = false := by rw [hc]; exact BitVec.getLsbD_zero
        rw [BitVec.getLsbD_and, e4 i h32, decide_eq_true (by omega), Bool.and_true] at h3
        exact h3
      · exact BitVec.getLsbD_of_ge _ _ (by omega)
    · intro st data
      show Gear.GearIncr32.push st data = _
      rw [Gear.push_eq]
      rcases forEnum Gear.pushBody 0 data st with e | (s' | ⟨s', r⟩) <;> rfl
  refine countP_le_of_mem _ gear_near fun b b' hb hb' => ?_
  exact List.mem_filter.2 ⟨mem_allBytes b', near_of_small _ _ _ (key b hb) (key b' hb')⟩

example : Gear.Gear32.withAverageSizeLog2 .debug 13 = .ok Ex.gear ∧ (Gear.incr Ex.gear).init.params = Ex.gear := ⟨rfl, rfl⟩

/-- 20 is attained by the default after every cut: a chunk of one byte for 20 of 256 bytes, not for one of 8192. -/
theorem C74_gear_default : cutCount (Gear.incr Ex.gear) (Gear.incr Ex.gear).init = 20 := by decide +kernel

/-! ## BuzHash -/

def goLow : List Nat := Tables.goBuzhash.toList.map fun x => x.toNat % 4096

theorem goLow_mult : ∀ x ∈ goLow, goLow.countP (· == x) ≤ 2 := by decide +kernel

theorem goLow_eq : allBytes.map (fun b => (lookup Tables.goBuzhash b).toNat % 4096) = goLow := by decide +kernel

theorem go_mult (b : UInt8) : (allBytes.filter fun b' =>
    (lookup Tables.goBuzhash b').toNat % 4096 == (lookup Tables.goBuzhash b).toNat % 4096).length ≤ 2 := by
  have h1 : (lookup Tables.goBuzhash b).toNat % 4096 ∈ goLow := by
    rw [← goLow_eq]
    exact List.mem_map.2 ⟨b, mem_allBytes b, rfl⟩
  have h2 := goLow_mult _ h1
  rw [← goLow_eq, List.countP_map] at h2
  rw [← List.countP_eq_length_filter]
  exact h2

/-- `BuzHash::new_nom(salt)`: unless the chunk has reached its maximal size, at most 2 of the 256 bytes cut. -/
theorem C74_buzhash {salt : UInt8} {p : Buzhash.BuzHash} (h : Buzhash.BuzHash.newNom salt = .ok p)
    (st : Buzhash.BuzHashIncr) (hst : st.params = p) (hmax : st.inputIdx < p.maxChunkSize) :
    cutCount (Buzhash.incr p) st ≤ 2 := by
  have hp : p = ⟨67, Buzhash.tableByteSaltHash salt Tables.goBuzhash, 0xfff, 1 <<< 24⟩ := by
    cases h; rfl
  have hm : p.mask = 0xfff := by rw [hp]
  have hh : p.h = fun b => lookup Tables.goBuzhash (b ^^^ salt) := by rw [hp]; rfl
  have key : ∃ x : BitVec 32, ∀ b, cutsOn (Buzhash.incr p) st b = true →
      (x ^^^ lookup Tables.goBuzhash (b ^^^ salt)).toNat % 4096 = 4095 := by
    have hadd : ∃ x : BitVec 32, ∀ b s', st.pushByte b = .ok s' →
        s'.state.h = x ^^^ p.h b ∧ s'.params = p ∧ s'.inputIdx = st.inputIdx + 1 := by
      by_cases hi : st.inputIdx ≥ st.params.k
      · cases hd : index st.buf st.bufIdx with
        | error e =>
          refine ⟨0, fun b s' hs => ?_⟩
          rw [Buzhash.BuzHashIncr.pushByte, if_pos hi, hd] at hs
          cases hs
        | ok d =>
          refine ⟨st.state.h.rotateLeft 1 ^^^ (p.h d).rotateLeft (p.k % 8), fun b s' hs => ?_⟩
          rw [Buzhash.BuzHashIncr.pushByte, if_pos hi, hd] at hs
          simp only [] at hs
          split at hs
          · cases hs
          · cases hs
            rw [← hst]
            exact ⟨rfl, rfl, rfl⟩
      · refine ⟨st.state.h.rotateLeft 1, fun b s' hs => ?_⟩
        rw [Buzhash.BuzHashIncr.pushByte, if_neg hi] at hs
        simp only [] at hs
        split at hs
        · cases hs
        · split at hs
          · cases hs
          · cases hs
            rw [← hst]
            exact ⟨rfl, rfl, rfl⟩
    obtain ⟨x, hx⟩ := hadd
    refine ⟨x, fun b hb => ?_⟩
    rw [cutsOn_loop (C := Buzhash.incr p) Buzhash.pushBody] at hb
    · obtain ⟨s', k, hb⟩ := hb
      rw [Buzhash.pushBody] at hb
      cases hs : st.pushByte b with
      | error e => rw [hs] at hb; cases hb
      | ok s1 =>
        obtain ⟨h1, h2, h3⟩ := hx b s1 hs
        rw [hs] at hb
        simp only [] at hb
        rw [h2] at hb
        split at hb
        · rename_i hc
          have h5 := congrArg BitVec.toNat hc
          rw [hm, toNat_and_mask _ _ (k := 12) rfl, h1, hh] at h5
          exact h5
        · split at hb
          · omega
          · cases hb
    · intro st data
      show Buzhash.BuzHashIncr.push st data = _
      rw [Buzhash.push_eq]
      rcases forEnum Buzhash.pushBody 0 data st with e | (s' | ⟨s', r⟩) <;> rfl
  obtain ⟨x, hx⟩ := key
  refine Nat.le_trans (m := allBytes.countP fun b =>
    (fun c => decide ((x ^^^ lookup Tables.goBuzhash c).toNat % 4096 = 4095)) (b ^^^ salt)) ?_ ?_
  · exact List.countP_mono_left fun b _ hb => decide_eq_true (hx b hb)
  · rw [countP_xor (fun c => decide ((x ^^^ lookup Tables.goBuzhash c).toNat % 4096 = 4095))]
    refine countP_le_of_mem _ go_mult fun b b' hb hb' => ?_
    refine List.mem_filter.2 ⟨mem_allBytes b', ?_⟩
    have h1 := (decide_eq_true_iff.1 hb).trans (decide_eq_true_iff.1 hb').symm
    rw [show 4096 = 2 ^ 12 from rfl, BitVec.toNat_xor, BitVec.toNat_xor, Nat.xor_mod_two_pow,
      Nat.xor_mod_two_pow (b := (lookup Tables.goBuzhash b').toNat)] at h1
    have := congrArg (fun y => x.toNat % 2 ^ 12 ^^^ y) h1
    simp only [← Nat.xor_assoc, Nat.xor_self, Nat.zero_xor] at this
    rw [beq_iff_eq]
    exact this.symm

example : ∃ p, Buzhash.BuzHash.newNom 0 = .ok p ∧ (Buzhash.incr p).init.params = p ∧
    (Buzhash.incr p).init.inputIdx < p.maxChunkSize := ⟨_, rfl, rfl, by decide⟩

/-! ## Zpaq -/

theorem zpaq_apart : ∀ d : Fin 256, 1 ≤ d.1 →
    2 ^ 18 ≤ (d.1 * 271828182) % 2 ^ 32 ∧ (d.1 * 271828182) % 2 ^ 32 + 2 ^ 18 ≤ 2 ^ 32 := by decide +kernel

/-- two different mispredicted bytes cannot both give a small hash -/
theorem zpaq_mispredicted (h : BitVec 32) {b b' : UInt8} (hlt : b.toNat < b'.toNat)
    (h1 : ((h + word 32 b + 1) * 271828182).toNat < 2 ^ 18) (h2 : ((h + word 32 b' + 1) * 271828182).toNat < 2 ^ 18) :
    False := by
  have hb' := b'.toNat_lt
  obtain ⟨h3, h4⟩ := zpaq_apart ⟨b'.toNat - b.toNat, by omega⟩ (by simp only; omega)
  simp only at h3 h4
  have e : (h + word 32 b' + 1) * 271828182 =
      (h + word 32 b + 1) * 271828182 + BitVec.ofNat 32 ((b'.toNat - b.toNat) * 271828182) := by
    have e1 : word 32 b' = word 32 b + BitVec.ofNat 32 (b'.toNat - b.toNat) := by
      apply BitVec.eq_of_toNat_eq
      rw [BitVec.toNat_add, toNat_word (by decide), toNat_word (by decide), BitVec.toNat_ofNat]
      omega
    rw [e1, BitVec.ofNat_mul]
    have : BitVec.ofNat 32 271828182 = 271828182 := rfl
    rw [this]
    ring
  have e2 := congrArg BitVec.toNat e
  rw [BitVec.toNat_add, BitVec.toNat_ofNat] at e2
  generalize ((h + word 32 b + 1) * 271828182).toNat = u at *
  generalize ((h + word 32 b' + 1) * 271828182).toNat = v at *
  generalize (b'.toNat - b.toNat) * 271828182 % 2 ^ 32 = d at *
  omega

/-- `Zpaq` with `max_hash ≤ 2^18` (average of `2^14` or more; the default is `2^16`): while the size does not force a cut, at
most 2 of the 256 bytes cut (the predicted one, and one other). -/
theorem C74_zpaq (p : Zpaq.Zpaq) (hmh : p.maxHash.toNat ≤ 2 ^ 18) (st : Zpaq.ZpaqIncr) (hst : st.params = p)
    (hmax : p.range.exceedsMax (st.idx + 1) = false) : cutCount (Zpaq.incr p) st ≤ 2 := by
  have key : ∀ b, cutsOn (Zpaq.incr p) st b = true → (st.state.feed b).hash.toNat < 2 ^ 18 := by
    intro b hb
    rw [cutsOn_loop (C := Zpaq.incr p) Zpaq.pushBody] at hb
    · obtain ⟨s', k, hb⟩ := hb
      change (if st.params.splitHere (st.state.feed b).hash (st.idx + 1) = true then _ else _) = _ at hb
      by_cases hs : st.params.splitHere (st.state.feed b).hash (st.idx + 1) = true
      · rw [hst, Zpaq.Zpaq.splitHere, hmax, Bool.or_false, Bool.and_eq_true, decide_eq_true_iff, BitVec.lt_def] at hs
        omega
      · rw [if_neg hs] at hb; cases hb
    · intro st data
      show Zpaq.ZpaqIncr.push st data = _
      rw [Zpaq.push_eq]
      rcases forEnum Zpaq.pushBody 0 data st with e | (s' | ⟨s', r⟩) <;> rfl
  set q := lookup st.state.predictedByte st.state.lastByte with hq
  have hmis : ∀ b, b ≠ q → cutsOn (Zpaq.incr p) st b = true →
      ((st.state.hash + word 32 b + 1) * 271828182).toNat < 2 ^ 18 := by
    intro b hne hb
    have := key b hb
    rw [Zpaq.ZpaqHash.feed] at this
    simp only [if_neg (show ¬ b = lookup st.state.predictedByte st.state.lastByte from hne)] at this
    exact this
  have huniq : ∀ b b', b ≠ q → b' ≠ q → cutsOn (Zpaq.incr p) st b = true → cutsOn (Zpaq.incr p) st b' = true → b = b' := by
    intro b b' hne hne' hb hb'
    rcases Nat.lt_trichotomy b.toNat b'.toNat with hlt | heq | hgt
    · exact (zpaq_mispredicted _ hlt (hmis b hne hb) (hmis b' hne' hb')).elim
    · exact UInt8.toNat_inj.1 heq
    · exact (zpaq_mispredicted _ hgt (hmis b' hne' hb') (hmis b hne hb)).elim
  -- one mispredicted byte at most, and the predicted one
  have hle : allBytes.countP (fun b => cutsOn (Zpaq.incr p) st b && b != q) ≤ 1 := by
    refine countP_le_one fun b b' hb hb' => ?_
    rw [Bool.and_eq_true, bne_iff_ne] at hb hb'
    exact huniq b b' hb.2 hb'.2 hb.1 hb'.1
  have hle' : allBytes.countP (fun b => b == q) ≤ 1 :=
    countP_le_one fun b b' hb hb' => (beq_iff_eq.1 hb).trans (beq_iff_eq.1 hb').symm
  have : ∀ l : List UInt8, l.countP (cutsOn (Zpaq.incr p) st) ≤
      l.countP (fun b => cutsOn (Zpaq.incr p) st b && b != q) + l.countP (fun b => b == q) := by
    intro l
    induction l with
    | nil => simp
    | cons b bs ih =>
      rw [List.countP_cons, List.countP_cons, List.countP_cons]
      by_cases hbq : b = q
      · simp [hbq]
        split <;> omega
      · cases cutsOn (Zpaq.incr p) st b <;> simp [hbq] <;> omega
  have := this allBytes
  rw [cutCount]
  omega

example : ∃ p, Zpaq.Zpaq.default .debug = .ok p ∧ p.maxHash.toNat ≤ 2 ^ 18 ∧
    p.range.exceedsMax ((Zpaq.incr p).init.idx + 1) = false := ⟨_, rfl, by decide, by decide⟩

end HashRoll.Props
