import Verif.Props.Boundary
import Verif.Props.Zstd
import Verif.Props.Defaults
/-!
# C83: boundary strings for the default instances of the algorithms with tables

The strings are ASCII text; they were found by search, here it is only checked that they do what they should.
-/

namespace HashRoll.Props
open HashRoll.Spec

/-! ## Gear32::default -/

/-- `hash-roll gear boundary szpvh1pz` -/
def gearMark : Bytes :=
  [104, 97, 115, 104, 45, 114, 111, 108, 108, 32, 103, 101, 97, 114, 32, 98, 111, 117, 110, 100, 97, 114, 121, 32, 115, 122,
   112, 118, 104, 49, 112, 122]

/-- one byte of the gear hash -/
def gearStep {w : Nat} (G : UInt8 → BitVec w) (fp : BitVec w) (b : UInt8) : BitVec w := (fp <<< 1) + G b

theorem gearStep_spec {w : Nat} (G : UInt8 → BitVec w) (K : Nat) (p : Bytes) (v : UInt8) (_ : p.length < K) :
    gearSum G (p ++ [v]) = gearStep G (gearSum G p) v := gearSum_snoc G p v

theorem gear_mark_hit : gearSum (lookup Tables.gear32) gearMark &&& 0xfff80000 = 0 := by decide +kernel

theorem gear_mark_quiet : ∀ a : Fin 33, quietBy (gearStep (lookup Tables.gear32)) (fun fp => fp &&& 0xfff80000 == 0)
    (gearSum (lookup Tables.gear32) (gearMark.drop a.1)) (gearMark.take (min a.1 31)) = true := by decide +kernel

/-- `Gear32::default`: the string twice. -/
theorem C83_gear (prof : Profile) : ∃ p, Gear.Gear32.default prof = .ok p ∧ DocBoundary (Gear.chunk p) (gearMark ++ gearMark) := by
  refine ⟨_, C49_default prof, RuleBoundary.doc ?_ (C08_gear Ex.gear) (EdgeRule.good _) (EdgeRule.fresh _)⟩
  refine boundary_window (C40_edge _ _ _) (fun _ h => h) (fun _ _ h => h) (by decide) rfl gear_mark_hit ?_
  intro a i ha ha' hi hi' hia he
  have := quietBy_spec (gearStep_spec (lookup Tables.gear32) 1000) (gearMark.take (min a 31)) (gearMark.drop a)
    (by simp [gearMark]; omega) (gear_mark_quiet ⟨a, by omega⟩) i hi (by simp [gearMark]; omega)
  rw [List.take_take, Nat.min_eq_left (by omega)] at this
  have he : gearSum (lookup Tables.gear32) (gearMark.drop a ++ gearMark.take i) &&& 0xfff80000 = 0 := he
  rw [he] at this
  exact absurd this (by decide)
example : (gearMark.length, gearMark.getLast?) = (32, some 122) := by decide

/-! ## RollSum::default -/

/-- `hash-roll rollsum boundary, sixty-four bytes long as window 23sy` -/
def bupMark : Bytes :=
  [104, 97, 115, 104, 45, 114, 111, 108, 108, 32, 114, 111, 108, 108, 115, 117, 109, 32, 98, 111, 117, 110, 100, 97, 114,
   121, 44, 32, 115, 105, 120, 116, 121, 45, 102, 111, 117, 114, 32, 98, 121, 116, 101, 115, 32, 108, 111, 110, 103, 32, 97,
   115, 32, 119, 105, 110, 100, 111, 119, 32, 50, 51, 115, 121]

/-- sum and weighted sum, one byte -/
def bupStep (st : Nat × Nat) (b : UInt8) : Nat × Nat := (st.1 + b.toNat, st.2 + (st.1 + b.toNat))

theorem bupStep_spec (K : Nat) (p : Bytes) (v : UInt8) (_ : p.length < K) :
    (Bup.bsum (p ++ [v]), Bup.tsum (p ++ [v])) = bupStep (Bup.bsum p, Bup.tsum p) v := by
  rw [Bup.tsum_snoc, Bup.bsum_snoc]; rfl

theorem bup_short {p : Bytes} (h : p.length ≤ 64) : bupEdge 64 p ↔ (31 * 64 * 63 + Bup.tsum p) % 8192 = 8191 := by
  unfold bupEdge
  rw [Bup.bupS2_eq, lastN_of_le h]

theorem bup_mark_hit : (31 * 64 * 63 + Bup.tsum bupMark) % 8192 = 8191 := by decide +kernel

theorem bup_mark_quiet : ∀ a : Fin 65, quietBy bupStep (fun st => (31 * 64 * 63 + st.2) % 8192 == 8191)
    (Bup.bsum (bupMark.drop a.1), Bup.tsum (bupMark.drop a.1)) (bupMark.take (min a.1 63)) = true := by decide +kernel

theorem bup_local : WindowLocal 64 (bupEdge 64) := by
  intro p q h
  unfold bupEdge
  rw [Bup.bupS2_eq, Bup.bupS2_eq, h]

theorem bup_boundary : RuleBoundary (EdgeRule (Local (bupEdge 64))) (bupMark ++ bupMark) [] := by
  refine boundary_window bup_local (fun _ h => h) (fun _ _ h => h) (by decide) rfl
    ((bup_short (by decide)).2 bup_mark_hit) ?_
  intro a i ha ha' hi hi' hia he
  have hl : bupMark.length = 64 := by decide
  have := quietBy_spec (f := fun p => (Bup.bsum p, Bup.tsum p)) (bupStep_spec 1000) (bupMark.take (min a 63)) (bupMark.drop a)
    (by simp [hl]; omega) (bup_mark_quiet ⟨a, by omega⟩) i hi (by simp [hl]; omega)
  rw [List.take_take, Nat.min_eq_left (by omega)] at this
  have he := (bup_short (by simp [hl]; omega)).1 he
  simp only [beq_eq_false_iff_ne] at this
  exact this he

/-- `RollSum::default`, `find_chunk_edge`: the string twice. -/
theorem C83_rollsum : DocBoundary (Bup.chunk Bup.RollSum.default) (bupMark ++ bupMark) :=
  bup_boundary.doc (C08_rollsum Bup.RollSum.default) (EdgeRule.good _) (EdgeRule.fresh _)

/-- `RollSumIncr` looks across cuts: once is enough. -/
theorem C83_rollsum_incr : StrictForgets (Bup.incr Bup.RollSum.default) bupMark := by
  have hl : bupMark.length = 64 := by decide
  have hb : RuleBoundary (EdgeRule (bupIncrEdge 64)) bupMark [] := by
    refine boundary_always ?_
    intro x h q _ hq
    show bupEdge 64 (h ++ q)
    rw [hq]
    refine (bup_local _ bupMark ?_).2 ((bup_short hl.le).2 bup_mark_hit)
    rw [lastN_append_right _ hl.ge, lastN_of_le hl.le]
  refine hb.forgets (C05_rollsum 6) (EdgeRule.good _) (EdgeRule.pos _) (R := fun h h' => lastN 64 h = lastN 64 h') ?_ ?_ ?_
  · intro h h' x hh
    exact lastN_append_congr hh x
  · intro h h' d n hh
    exact FirstCut.congr fun c _ => bup_local _ _ (lastN_append_congr hh c)
  · intro s
    rw [lastN_append_right _ hl.ge, lastN_of_le hl.le]

/-! ## BuzHash::new_nom -/

/-- `hash-roll buzhash boundary, sixty-seven bytes long as window cqnj1r` -/
def buzMark : Bytes :=
  [104, 97, 115, 104, 45, 114, 111, 108, 108, 32, 98, 117, 122, 104, 97, 115, 104, 32, 98, 111, 117, 110, 100, 97, 114, 121,
   44, 32, 115, 105, 120, 116, 121, 45, 115, 101, 118, 101, 110, 32, 98, 121, 116, 101, 115, 32, 108, 111, 110, 103, 32, 97,
   115, 32, 119, 105, 110, 100, 111, 119, 32, 99, 113, 110, 106, 49, 114]

def buzStep (H : UInt8 → BitVec 32) (h : BitVec 32) (b : UInt8) : BitVec 32 := h.rotateLeft 1 ^^^ H b

theorem buzStep_spec (H : UInt8 → BitVec 32) (p : Bytes) (v : UInt8) (hp : p.length < 67) :
    buzHash 67 H (p ++ [v]) = buzStep H (buzHash 67 H p) v := by
  rw [Buzhash.buzHash_snoc (by decide)]
  rw [List.getElem?_eq_none (by simp; omega)]
  simp [buzStep]

theorem buz_mark_hit : buzHash 67 (lookup Tables.goBuzhash) buzMark &&& 0xfff = 0xfff := by decide +kernel

theorem buz_mark_quiet : ∀ a : Fin 68, quietBy (buzStep (lookup Tables.goBuzhash)) (fun h => h &&& 0xfff == 0xfff)
    (buzHash 67 (lookup Tables.goBuzhash) (buzMark.drop a.1)) (buzMark.take (min a.1 66)) = true := by decide +kernel

/-- The salt changes the bytes, not the hash. -/
theorem buz_salt (k : Nat) (H : UInt8 → BitVec 32) (salt : UInt8) (p : Bytes) :
    buzHash k (fun b => H (b ^^^ salt)) (p.map (· ^^^ salt)) = buzHash k H p := by
  unfold buzHash wxor
  rw [← List.map_reverse, List.zipIdx_map, List.map_map]
  congr 1
  refine List.map_congr_left ?_
  rintro ⟨b, j⟩ _
  have : b ^^^ salt ^^^ salt = b := by rw [UInt8.xor_assoc, UInt8.xor_self, UInt8.xor_zero]
  simp [this]

theorem buz_boundary (salt : UInt8) (e : Bytes → Prop)
    (h1 : ∀ p, buzEdge 67 (fun b => lookup Tables.goBuzhash (b ^^^ salt)) 0xfff p → e p)
    (h2 : ∀ p, p.length ≤ 2 * 67 → e p → buzEdge 67 (fun b => lookup Tables.goBuzhash (b ^^^ salt)) 0xfff p) :
    RuleBoundary (EdgeRule (Local e)) (buzMark.map (· ^^^ salt) ++ buzMark.map (· ^^^ salt)) [] := by
  have hl : buzMark.length = 67 := by decide
  refine boundary_window (W := 67) (w := buzEdge 67 (fun b => lookup Tables.goBuzhash (b ^^^ salt)) 0xfff) ?_ h1 h2
    (by decide) (by rw [List.length_map, hl]) ?_ ?_
  · intro p q h
    unfold buzEdge
    rw [C45_rolling _ _ (by decide) p q h]
  · unfold buzEdge
    rw [buz_salt 67 (lookup Tables.goBuzhash)]
    exact buz_mark_hit
  · intro a i ha ha' hi hi' hia he
    unfold buzEdge at he
    rw [← List.map_drop, ← List.map_take, ← List.map_append, buz_salt 67 (lookup Tables.goBuzhash)] at he
    have := quietBy_spec (buzStep_spec (lookup Tables.goBuzhash)) (buzMark.take (min a 66)) (buzMark.drop a)
      (by simp [hl]; omega) (buz_mark_quiet ⟨a, by omega⟩) i hi (by simp [hl]; omega)
    rw [List.take_take, Nat.min_eq_left (by omega), he] at this
    exact absurd this (by decide)

/-- `BuzHash::new_nom(salt)`: the string (each byte xored with the salt) twice. -/
theorem C83_buzhash (salt : UInt8) : ∃ p, Buzhash.BuzHash.newNom salt = .ok p ∧
    DocBoundary (Buzhash.chunk p) (buzMark.map (· ^^^ salt) ++ buzMark.map (· ^^^ salt)) ∧
    StrictBoundary (Buzhash.incr p) (buzMark.map (· ^^^ salt) ++ buzMark.map (· ^^^ salt)) [] := by
  refine ⟨{ k := 67, h := fun b => lookup Tables.goBuzhash (b ^^^ salt), mask := 0xfff, maxChunkSize := 16777216 },
    rfl, ?_, ?_⟩
  · exact (buz_boundary salt _ (fun _ h => h) (fun _ _ h => h)).doc (C08_buzhash _ (by show 0 < 67; decide))
      (EdgeRule.good _) (EdgeRule.fresh _)
  · refine (buz_boundary salt _ (fun _ h => Or.inl h) ?_).strict (C05_buzhash _ (by show 0 < 67; decide))
      (EdgeRule.good _) (EdgeRule.fresh _)
    rintro q hq (h | h)
    · exact h
    · exact absurd h (by show ¬ 16777216 < q.length; omega)

/-! ## Zstd -/

/-- `zstd boundary: NMPLQQJRLLKQLVLRO`: all 64 bits of the hash are ones. -/
def zstdMark : Bytes :=
  [122, 115, 116, 100, 32, 98, 111, 117, 110, 100, 97, 114, 121, 58, 32, 78, 77, 80, 76, 81, 81, 74, 82, 76, 76, 75, 81, 76,
   86, 76, 82, 79]

theorem zstd_mark_hash : zstdHash zstdMark = BitVec.allOnes 64 := by decide +kernel

/-- `Zstd` with any accepted section size, fed byte by byte: unless the string stands at the very beginning of the stream, its
last byte reports a cut. -/
theorem C83_zstd {prof : Profile} {size : BitVec 64} {p : Zstd.Zstd} (h : Zstd.Zstd.withTargetSectionSize prof size = .ok p)
    (s t : Bytes) (hs : s ≠ []) : ∃ st l, zstdFeed p (s ++ zstdMark ++ t) = .ok (st, l) ∧ l[s.length + 31]? = some true := by
  obtain ⟨st, l, h1, h2, h3⟩ := zstdFeed_eq h (s ++ zstdMark ++ t)
  have hl : zstdMark.length = 32 := by decide
  have := List.length_pos_iff.2 hs
  refine ⟨st, l, h1, ?_⟩
  rw [h3 _ (by simp [hl]; omega), Option.some.injEq, decide_eq_true_eq]
  refine ⟨by omega, ?_⟩
  rw [List.take_append_of_le_length (by simp [hl]), List.take_of_length_le (by simp [hl]),
    lastN_append_right _ hl.ge, lastN_of_le hl.le, zstd_mark_hash, BitVec.allOnes_and]
example : ∃ p, Zstd.Zstd.withTargetSectionSize .debug 0x100000 = .ok p ∧ p.hitMask = 0xfffff := ⟨_, rfl, by decide +kernel⟩

/-! ## FastCdc::default -/

/-- `hash-roll fastcdc boundary, sixty-four bytes ending with s45jpk3` -/
def fastText : Bytes :=
  [104, 97, 115, 104, 45, 114, 111, 108, 108, 32, 102, 97, 115, 116, 99, 100, 99, 32, 98, 111, 117, 110, 100, 97, 114, 121,
   44, 32, 115, 105, 120, 116, 121, 45, 102, 111, 117, 114, 32, 98, 121, 116, 101, 115, 32, 101, 110, 100, 105, 110, 103,
   32, 119, 105, 116, 104, 32, 115, 52, 53, 106, 112, 107, 51]

/-- `min_size` zeros and the text -/
def fastMark : Bytes := List.replicate 2048 0 ++ fastText

abbrev G64 : UInt8 → BitVec 64 := lookup Tables.gear64

theorem fast_text_hit : gearSum G64 fastText &&& 0x0003590703530000 = 0 ∧ gearSum G64 fastText &&& 0x0000d90003530000 = 0 := by
  decide +kernel

theorem fast_quiet_zeros : ∀ c : Fin 65, 1 ≤ c.1 → quietBy (gearStep G64) (fun fp => fp &&& 0x0003590703530000 == 0)
    (gearSum G64 (fastText.drop c.1)) (List.replicate 64 0) = true := by decide +kernel

theorem fast_quiet_text : ∀ z : Fin 65, quietBy (gearStep G64) (fun fp => fp &&& 0x0003590703530000 == 0)
    (gearSum G64 (List.replicate z.1 0)) (fastText.take 63) = true := by decide +kernel

theorem fastText_length : fastText.length = 64 := by decide

theorem fastMark_length : fastMark.length = 2112 := by
  rw [fastMark, List.length_append, List.length_replicate, fastText_length]

theorem gearSum64_append (x : Bytes) {y : Bytes} (h : 64 ≤ y.length) : gearSum G64 (x ++ y) = gearSum G64 y := by
  rw [gearSum_lastN, lastN_append_right _ h, ← gearSum_lastN]

/-- no match in zeros after an end piece of the text -/
theorem fast_no_zeros {c z : Nat} (h1 : 1 ≤ c) (h2 : 1 ≤ z) :
    gearSum G64 (fastText.drop c ++ List.replicate z 0) &&& 0x0003590703530000 ≠ 0 := by
  have key : ∀ c z, 1 ≤ c → c ≤ 64 → 1 ≤ z → z ≤ 64 →
      gearSum G64 (fastText.drop c ++ List.replicate z 0) &&& 0x0003590703530000 ≠ 0 := by
    intro c z h1 h1' h2 h2' he
    have := quietBy_spec (gearStep_spec G64 1000) (List.replicate 64 0) (fastText.drop c) (by simp [fastText_length]; omega)
      (fast_quiet_zeros ⟨c, by omega⟩ h1) z h2 (by simpa using h2')
    rw [List.take_replicate, Nat.min_eq_left h2', he] at this
    exact absurd this (by decide)
  have hd : ∀ c, 64 ≤ c → fastText.drop c = fastText.drop 64 := by
    intro c hc
    rw [List.drop_eq_nil_of_le (by rw [fastText_length]; omega), List.drop_eq_nil_of_le (by rw [fastText_length])]
  rcases Nat.lt_or_ge 64 z with hz | hz
  · rw [show z = (z - 64) + 64 by omega, ← List.replicate_append_replicate, ← List.append_assoc,
      gearSum64_append _ (by simp)]
    have := key 64 64 (by decide) (by decide) (by decide) (by decide)
    rwa [List.drop_eq_nil_of_le (by rw [fastText_length]), List.nil_append] at this
  · rcases Nat.lt_or_ge 64 c with hc | hc
    · rw [hd c (by omega)]
      exact key 64 z (by decide) (by decide) h2 hz
    · exact key c z h1 hc h2 hz

/-- no match inside the text after zeros -/
theorem fast_no_text {z d : Nat} (x : Bytes) (hx : x = [] ∨ 64 ≤ z) (h1 : 1 ≤ d) (h2 : d < 64) :
    gearSum G64 (x ++ (List.replicate z 0 ++ fastText.take d)) &&& 0x0003590703530000 ≠ 0 := by
  have key : ∀ z, z ≤ 64 → gearSum G64 (List.replicate z 0 ++ fastText.take d) &&& 0x0003590703530000 ≠ 0 := by
    intro z hz he
    have := quietBy_spec (gearStep_spec G64 1000) (fastText.take 63) (List.replicate z 0) (by simp [fastText_length]; omega)
      (fast_quiet_text ⟨z, by omega⟩) d h1 (by simp [fastText_length]; omega)
    rw [List.take_take, Nat.min_eq_left (by omega), he] at this
    exact absurd this (by decide)
  rcases Nat.lt_or_ge z 64 with hz | hz
  · rcases hx with rfl | hx
    · exact key z (by omega)
    · omega
  · rw [show z = (z - 64) + 64 by omega, ← List.replicate_append_replicate, List.append_assoc, ← List.append_assoc x,
      gearSum64_append _ (by simp)]
    exact key 64 le_rfl

/-- a match with `min_size` bytes skipped -/
def FastMatch (p : Bytes) : Prop := 2048 < p.length ∧ fastHit G64 2048 8192 p

theorem fast_match (c : Bytes) : FastMatch (c ++ fastMark) := by
  refine ⟨by rw [List.length_append, fastMark_length]; omega, ?_⟩
  unfold fastHit fastMark
  rw [← List.append_assoc, List.drop_append_of_le_length
    (by rw [List.length_append, List.length_replicate]; exact Nat.le_add_left _ _), gearSum64_append _ (by rw [fastText_length])]
  split
  · exact fast_text_hit.1
  · exact fast_text_hit.2

theorem fast_no_match {a i : Nat} (ha : 1 ≤ a) (ha' : a ≤ 2112) (hi : 1 ≤ i) (hi' : i < 2112) :
    ¬ FastMatch (fastMark.drop a ++ fastMark.take i) := by
  rintro ⟨h1, h2⟩
  have hl : (fastMark.drop a ++ fastMark.take i).length = 2112 - a + i := by
    rw [List.length_append, List.length_drop, List.length_take, fastMark_length]; omega
  rw [hl] at h1
  unfold fastHit at h2
  rw [hl, if_pos (by omega)] at h2
  revert h2
  have hz : ∀ {n : Nat}, 1 ≤ n → gearSum G64 (List.replicate n 0) &&& 0x0003590703530000 ≠ 0 := by
    intro n hn
    have := fast_no_zeros (c := 64) (by decide) hn
    rwa [List.drop_eq_nil_of_le (by rw [fastText_length]), List.nil_append] at this
  -- the part of `fastMark.take i`
  have ht : ∀ j, j ≤ 2048 → j ≤ i → (i ≤ 2048 ∧ (fastMark.take i).drop j = List.replicate (i - j) 0) ∨
      (2048 < i ∧ (fastMark.take i).drop j = List.replicate (2048 - j) 0 ++ fastText.take (i - 2048)) := by
    intro j hj hji
    unfold fastMark
    rcases Nat.lt_or_ge 2048 i with h | h
    · right
      refine ⟨h, ?_⟩
      rw [List.take_append, List.take_of_length_le (by rw [List.length_replicate]; omega), List.length_replicate,
        List.drop_append_of_le_length (by rw [List.length_replicate]; exact hj), List.drop_replicate]
    · left
      refine ⟨h, ?_⟩
      rw [List.take_append_of_le_length (by rw [List.length_replicate]; exact h), List.take_replicate, Nat.min_eq_left h, List.drop_replicate]
  rcases Nat.lt_or_ge a 64 with hlt | hge
  · have e : (fastMark.drop a ++ fastMark.take i).drop 2048 = fastText.drop a ++ (fastMark.take i).drop 0 := by
      rw [List.drop_append_of_le_length (by rw [List.length_drop, fastMark_length]; omega), List.drop_drop, fastMark,
        List.drop_append, List.drop_eq_nil_of_le (by rw [List.length_replicate]; exact Nat.le_add_left _ _), List.nil_append,
        List.length_replicate, List.drop_zero, Nat.add_sub_cancel]
    rw [e]
    rcases ht 0 (by omega) (by omega) with ⟨h, h'⟩ | ⟨h, h'⟩
    · rw [h']
      exact fast_no_zeros ha (by omega)
    · rw [h']
      exact fast_no_text _ (.inr (by omega)) (by omega) (by omega)
  · have e : (fastMark.drop a ++ fastMark.take i).drop 2048 = (fastMark.take i).drop (a - 64) := by
      rw [List.drop_append, List.drop_eq_nil_of_le (by rw [List.length_drop, fastMark_length]; omega), List.nil_append,
        List.length_drop, fastMark_length]
      congr 1
      omega
    rw [e]
    rcases ht (a - 64) (by omega) (by omega) with ⟨h, h'⟩ | ⟨h, h'⟩
    · rw [h']
      exact hz (by omega)
    · rw [h', ← List.nil_append (List.replicate _ _ ++ _)]
      exact fast_no_text _ (.inl rfl) (by omega) (by omega)

theorem fast_boundary : RuleBoundary (EdgeRule (Local (fastFceEdge G64 2048 8192 65536))) (fastMark ++ fastMark) [] := by
  have h1 : ∀ p, FastMatch p → fastFceEdge G64 2048 8192 65536 p := fun p h => ⟨h.1, .inr h.2⟩
  have h2 : ∀ p, p.length ≤ 65536 → fastFceEdge G64 2048 8192 65536 p → FastMatch p := by
    rintro p hp ⟨h, h' | h'⟩
    · omega
    · exact ⟨h, h'⟩
  refine boundary_pair (by intro h; have := congrArg List.length h; rw [fastMark_length] at this; simp at this)
    (fun _ c => h1 _ (fast_match c)) (fun _ c => h1 _ ?_) (fun _ a _ _ => h1 _ (fast_match _)) ?_
  · rw [← List.append_assoc]; exact fast_match _
  · intro _ a i ha ha' hi hi' he
    rw [fastMark_length] at ha' hi'
    refine fast_no_match ha ha' hi hi' (h2 _ ?_ he)
    rw [List.length_append, List.length_drop, List.length_take, fastMark_length]; omega

/-- `FastCdc::default`, the documented loop: after the string it does what it does on the rest alone (and panics exactly if it
panics on the rest, see C64). -/
theorem C83_fastcdc (s t : Bytes) (n : Nat) (hn : s.length + 4224 + t.length < n) : ∃ cs, cs.flatten = s ++ (fastMark ++ fastMark) ∧
    (FastCdc.chunk FastCdc.FastCdc.default).docLoop (s ++ (fastMark ++ fastMark) ++ t) n FastCdc.FastCdcState.default
        (s ++ (fastMark ++ fastMark) ++ t) 0 =
      ((FastCdc.chunk FastCdc.FastCdc.default).docLoop t n FastCdc.FastCdcState.default t 0).map fun x => (cs ++ x.1, x.2) := by
  obtain ⟨cs, h1, h2⟩ := fast_boundary [] s
  obtain ⟨ds, r, h3, h4⟩ := C64_fastcdc FastCdc.FastCdc.default (by decide) (by decide) t n (by omega)
  obtain ⟨all, r', h5, h6⟩ := C64_fastcdc FastCdc.FastCdc.default (by decide) (by decide) (s ++ (fastMark ++ fastMark) ++ t) n
    (by simp only [List.length_append, fastMark_length]; omega)
  obtain ⟨rfl, rfl⟩ := h5.det (EdgeRule.good _) (h2 t ds r (h3.fresh (EdgeRule.fresh _)))
  refine ⟨cs, h1, ?_⟩
  refine h6.trans ?_
  refine Eq.trans ?_ (congrArg (Except.map _) h4.symm)
  split <;> rfl
example : fastMark.length = 2112 ∧ fastMark.getLast? = some 51 := ⟨fastMark_length, by rw [fastMark, List.getLast?_append]; rfl⟩

/-- `FastCdcIncr`: the boundary is before the last byte of the string. -/
theorem C83_fastcdc_incr :
    StrictBoundary (FastCdc.incr FastCdc.FastCdc.default) (fastMark ++ fastMark.dropLast) [51] := by
  have hne : fastMark.dropLast ++ [51] = fastMark := by
    have : fastMark.getLast? = some 51 := by rw [fastMark, List.getLast?_append]; rfl
    have h0 : fastMark ≠ [] := by intro h; rw [h] at this; cases this
    rw [List.getLast?_eq_some_getLast h0, Option.some.injEq] at this
    rw [← this]
    exact List.dropLast_append_getLast h0
  have hdl : fastMark.dropLast.length = 2111 := by rw [List.length_dropLast, fastMark_length]
  refine RuleBoundary.strict ?_ (C05_fastcdc FastCdc.FastCdc.default (by decide) (by decide) (by decide))
    (fastIncrRule.good _ _ _ _) (fastIncrRule.fresh _ _ _ _)
  refine boundary_before (fastIncrRule.good _ _ _ _) (E := FastMatch) (M := 65536) ?_
    (by rw [hdl, fastMark_length]; omega) (by intro h; have := congrArg List.length h; rw [fastMark_length] at this; simp at this)
    fast_match (fun a _ _ => by rw [hne]; exact fast_match _) ?_
  · rintro h d j ⟨j1, j2, ⟨j3, j4⟩, j5⟩
    have hlj : (d.take j).length = j := by rw [List.length_take]; omega
    rw [hlj] at j3
    have hno : ∀ m, 2048 ≤ m → m < j - 1 → ¬ fastHit G64 2048 8192 (d.take (m + 1)) := by
      intro m m1 m2 m3
      refine j5 (m + 1) (by omega) (by omega) ⟨?_, m3⟩
      rw [List.length_take]; omega
    rcases Nat.lt_or_ge 65536 (j - 1) with hlt | hge
    · refine ⟨65536, by omega, by omega, ⟨?_, ?_, ?_, .inl rfl, ?_⟩, by omega⟩
      · show 2048 ≤ 65536; omega
      · show 65536 ≤ 65536; omega
      · omega
      · intro m m1 m2
        exact hno m m1 (by omega)
    · refine ⟨j - 1, by omega, by omega, ⟨?_, ?_, by omega, .inr ⟨by omega, ?_⟩, hno⟩, by omega⟩
      · show 2048 ≤ j - 1; omega
      · show j - 1 ≤ 65536; omega
      · rw [Nat.sub_add_cancel j1]; exact j4
  · intro a i ha ha' hi hi'
    rw [fastMark_length] at ha'
    rw [hdl] at hi'
    rw [List.dropLast_eq_take, List.take_take, Nat.min_eq_left (by rw [fastMark_length]; omega)]
    exact fast_no_match ha ha' hi (by omega)

end HashRoll.Props
