import Verif.Props.Zstd
import Verif.Props.Iterators
/-!
# C69, C70: `iter_slices` and `iter_slices_strict` over `ZstdIncr`; distance of cuts

`ZstdIncr::push` has consumed the byte whose index it returns (C30), while the iterators keep that byte in what is
left. The chunker thus sees it twice. Here: what the iterators yield, exactly, and that they end.
-/

namespace HashRoll.Props

open Spec Zstd

/-! ## C70: cuts are never adjacent -/

/-- the mask of an accepted section size has its 20 lowest bits set -/
theorem zstd_mask20 {prof : Profile} {size : BitVec 64} {p : Zstd.Zstd}
    (h : Zstd.withTargetSectionSize prof size = .ok p) (i : Nat) (hi : i < 20) : p.hitMask.getLsbD i = true := by
  rw [C51_zstd] at h
  split at h
  · cases h
  · split at h
    · cases h
    · cases h
      simp only [BitVec.getLsbD_ofNat, Nat.testBit_two_pow_sub_one]
      simp; omega

theorem hit20 {mask h : BitVec 64} (hm : ∀ i, i < 20 → mask.getLsbD i = true) (hh : h &&& mask = mask) :
    h.setWidth 20 = BitVec.allOnes 20 := by
  apply BitVec.eq_of_getLsbD_eq
  intro i hi
  have := congrArg (·.getLsbD i) hh
  simp only [BitVec.getLsbD_and, hm i hi, Bool.and_true] at this
  rw [BitVec.getLsbD_setWidth, BitVec.getLsbD_allOnes, this]
  simp [hi]

theorem adjacent_table : ∀ d : Fin 256, 256 ≤ (BitVec.allOnes 20 +
    (BitVec.ofNat 20 d.1 + 10) * ((0xCF1BBCDCB7A56463 : BitVec 64) ^ 32).setWidth 20 -
    BitVec.allOnes 20 * ((0xCF1BBCDCB7A56463 : BitVec 64)).setWidth 20 - 10).toNat := by
  decide +kernel

/-- C70. Two windows of 32 bytes, one a byte after the other, never both have a matching hash: all bytes, all
accepted section sizes. -/
theorem C70_adjacent {prof : Profile} {size : BitVec 64} {p : Zstd.Zstd}
    (h : Zstd.withTargetSectionSize prof size = .ok p) (d v : UInt8) (t : Bytes) (ht : t.length = 31)
    (h1 : zstdHash (d :: t) &&& p.hitMask = p.hitMask) : ¬ zstdHash (t ++ [v]) &&& p.hitMask = p.hitMask := by
  intro h2
  have k1 := hit20 (zstd_mask20 h) h1
  have k2 := hit20 (zstd_mask20 h) h2
  have hrel : zstdHash (t ++ [v]) + (word 64 d + 10) * 0xCF1BBCDCB7A56463 ^ 32 =
      zstdHash (d :: t) * 0xCF1BBCDCB7A56463 + (word 64 v + 10) := by
    rw [zstdHash_cons d t ht, zstdHash_snoc, wrappingPow_eq]
    show zstdHash t * 0xCF1BBCDCB7A56463 + (word 64 v + 10) + (word 64 d + 10) * 0xCF1BBCDCB7A56463 ^ 32 =
      (zstdHash t + (word 64 d + 10) * 0xCF1BBCDCB7A56463 ^ 31) * 0xCF1BBCDCB7A56463 + (word 64 v + 10)
    ring
  have h20 := congrArg (BitVec.setWidth 20) hrel
  rw [BitVec.setWidth_add _ _ (by omega), BitVec.setWidth_add _ _ (by omega), BitVec.setWidth_mul _ _ (by omega),
    BitVec.setWidth_mul _ _ (by omega), BitVec.setWidth_add _ _ (by omega), BitVec.setWidth_add _ _ (by omega),
    k1, k2] at h20
  have hw : ∀ b : UInt8, (word 64 b).setWidth 20 = BitVec.ofNat 20 b.toNat := by
    intro b
    apply BitVec.eq_of_toNat_eq
    have := b.toNat_lt
    simp [word]
  rw [hw, hw] at h20
  have hv : BitVec.ofNat 20 v.toNat = BitVec.allOnes 20 +
      (BitVec.ofNat 20 d.toNat + 10) * ((0xCF1BBCDCB7A56463 : BitVec 64) ^ 32).setWidth 20 -
      BitVec.allOnes 20 * ((0xCF1BBCDCB7A56463 : BitVec 64)).setWidth 20 - 10 := by
    have : BitVec.setWidth 20 (10 : BitVec 64) = 10 := by decide
    rw [this] at h20
    rw [h20]; ring
  have ht := adjacent_table ⟨d.toNat, d.toNat_lt⟩
  rw [← hv] at ht
  have := v.toNat_lt
  rw [BitVec.toNat_ofNat, Nat.mod_eq_of_lt (by omega)] at ht
  omega
example : zstdHash zhit &&& Ex.zstd.hitMask = Ex.zstd.hitMask ∧ zhit.length = 32 := by decide +kernel

theorem zstd_adjacent {prof : Profile} {size : BitVec 64} {p : Zstd.Zstd}
    (h : Zstd.withTargetSectionSize prof size = .ok p) {x : Bytes} (hx : 32 ≤ x.length)
    (h1 : zstdHash (lastN 32 x) &&& p.hitMask = p.hitMask) (v : UInt8) :
    ¬ zstdHash (lastN 32 (x ++ [v])) &&& p.hitMask = p.hitMask := by
  have hl : (lastN 32 x).length = 32 := by rw [lastN_length]; omega
  cases hdt : lastN 32 x with
  | nil => rw [hdt] at hl; simp at hl
  | cons d t =>
    rw [hdt] at hl h1
    rw [lastN_next hx hdt]
    exact C70_adjacent h d v t (by simpa using hl) h1

/-- Consequently every chunk of the cut rule of `ZstdIncr` has at least two bytes. -/
theorem C70_chunks {prof : Profile} {size : BitVec 64} {p : Zstd.Zstd}
    (h : Zstd.withTargetSectionSize prof size = .ok p) {data : Bytes} {cs : List Bytes} {r : Bytes}
    (hc : Chunked (EdgeRule (zstdEdge p.hitMask)) [] data cs r) : ∀ c ∈ cs, 2 ≤ c.length := by
  have key : ∀ hist data cs r, Chunked (EdgeRule (zstdEdge p.hitMask)) hist data cs r →
      (hist = [] ∨ 32 < hist.length ∧ zstdHash (lastN 32 hist) &&& p.hitMask = p.hitMask) →
      ∀ c ∈ cs, 2 ≤ c.length := by
    intro hist data cs r hc
    induction hc with
    | rem => intro _ c hc; cases hc
    | @cut hist data n cs r hr _ ih =>
      intro hh c hc
      obtain ⟨g1, g2, g3, _⟩ := hr
      rcases List.mem_cons.1 hc with rfl | hc
      · rw [List.length_take]
        rcases Nat.lt_or_ge n 2 with hlt | hge
        · exfalso
          have hn : n = 1 := by omega
          subst hn
          obtain ⟨b, rest, rfl⟩ : ∃ b rest, data = b :: rest := by
            cases data with
            | nil => simp at g2
            | cons b rest => exact ⟨b, rest, rfl⟩
          obtain ⟨g4, g5⟩ := g3
          rcases hh with rfl | ⟨k1, k2⟩
          · simp at g4
          · exact zstd_adjacent h (by omega) k2 b (by simpa using g5)
        · omega
      · exact ih (.inr g3) c hc
  exact key [] data cs r hc (.inl rfl)
/-- cuts can be two bytes apart or closer than the window, see `zdata2` (cuts after 33 and 37 bytes) -/
example : (zstdFeed Ex.zstd zdata2).map (fun x => x.2.findIdxs (·)) = .ok [32, 36] := by decide +kernel

/-! ## C69: the iterators -/

/-- The slices of the iterators over `data` when the chunker has been fed `fed`: the slice ends *before* the byte at
which the hash matches, and the search continues from that byte although the chunker has seen it already. -/
inductive Refed (mask : BitVec 64) : (fed data : Bytes) → (cs : List Bytes) → (r : Bytes) → Prop
  | rem {fed data} : (∀ n, ¬ FirstCut (zstdEdge mask fed) data n) → Refed mask fed data [] data
  | cut {fed data i cs r} : FirstCut (zstdEdge mask fed) data (i + 1) →
      Refed mask (fed ++ data.take (i + 1)) (data.drop i) cs r → Refed mask fed data (data.take i :: cs) r

/-- `Refed` determines the slices. -/
theorem C69_det {mask : BitVec 64} {fed data : Bytes} {cs cs' : List Bytes} {r r' : Bytes}
    (h : Refed mask fed data cs r) (h' : Refed mask fed data cs' r') : cs = cs' ∧ r = r' := by
  induction h generalizing cs' r' with
  | rem hno =>
    cases h' with
    | rem => exact ⟨rfl, rfl⟩
    | cut hc => exact absurd hc (hno _)
  | @cut fed data i cs r hc _ ih =>
    cases h' with
    | rem hno => exact absurd hc (hno _)
    | @cut _ _ j _ _ hc' hr' =>
      have : i + 1 = j + 1 := (EdgeRule.good (zstdEdge mask)).det (hist := fed) hc hc'
      have : i = j := by omega
      subst this
      obtain ⟨e1, e2⟩ := ih hr'
      exact ⟨by rw [e1], e2⟩

theorem refed_slices {prof : Profile} {size : BitVec 64} {p : Zstd.Zstd}
    (h : Zstd.withTargetSectionSize prof size = .ok p) :
    ∀ (n : Nat) (data fed : Bytes) (st : ZstdIncr), StInv p st fed → (∀ b ∈ data.head?, ¬ zstdEdge p.hitMask fed [b]) →
      data.length < n → ∃ cs r ck ck',
        IterSlicesStrict.run (C := Zstd.incr p) n ⟨data, st⟩ = .ok (cs, ⟨r, ck⟩, true) ∧
        IterSlices.run (C := Zstd.incr p) n ⟨data, st⟩ = .ok (cs ++ tailSlice r, ⟨[], ck'⟩, true) ∧
        Refed p.hitMask fed data cs r ∧ (∀ c ∈ cs, c ≠ []) ∧ cs.flatten ++ r = data ∧
        (cs ++ tailSlice r).length ≤ data.length := by
  intro n
  induction n with
  | zero => intro _ _ _ _ _ h; omega
  | succ n ih =>
    intro data fed st hi hhead hn
    have hpush := push_spec (zstd_wf h) st fed hi data
    have he : (fun x => cutAt p (fed ++ x)) = zstdEdge p.hitMask fed := by
      funext x; rfl
    rw [he] at hpush
    rcases hpush with ⟨st', h1, h2, h3⟩ | ⟨st', i, h1, h2, h3, h4⟩
    · refine ⟨[], data, st', if data = [] then st else st', strict_end n (strict_next_none (C := Zstd.incr p) ⟨data, st⟩ h1),
        ?_, .rem h3.not_firstCut, by simp, by simp, ?_⟩
      · by_cases hd : data = []
        · subst hd
          exact run_end n (iter_next_nil (C := Zstd.incr p) ⟨[], st⟩ rfl)
        · have e1 := iter_next_none (C := Zstd.incr p) ⟨data, st⟩ hd h1
          have hdl : 0 < data.length := List.length_pos_iff.2 hd
          cases n with
          | zero => omega
          | succ n =>
            have e2 := run_end n (iter_next_nil (C := Zstd.incr p) ⟨[], st'⟩ rfl)
            simpa [tailSlice, hd] using run_step (n + 1) e1 e2
      · unfold tailSlice
        split
        · simp
        · have hdl : 0 < data.length := List.length_pos_iff.2 ‹_›
          simp only [List.nil_append, List.length_singleton]; omega
    · have hd : data ≠ [] := by intro hd; subst hd; simp at h2
      have hi0 : 0 < i := by
        rcases Nat.eq_zero_or_pos i with rfl | hp
        · exfalso
          cases data with
          | nil => exact hd rfl
          | cons b rest => exact hhead b rfl (by simpa using h4.2.2.1)
        · exact hp
      obtain ⟨g1, g2, g3, g4⟩ := h4
      have hhead' : ∀ b ∈ (data.drop i).head?, ¬ zstdEdge p.hitMask (fed ++ data.take (i + 1)) [b] := by
        rintro b _ ⟨_, k2⟩
        exact zstd_adjacent h (Nat.le_of_lt g3.1) g3.2 b k2
      obtain ⟨cs, r, ck, ck', k1, k2, k3, k4, k5, k6⟩ := ih (data.drop i) _ st' h3 hhead' (by simp; omega)
      have e1 := strict_next_some (C := Zstd.incr p) ⟨data, st⟩ h1 (Nat.le_of_lt h2)
      have e2 := iter_next_some (C := Zstd.incr p) ⟨data, st⟩ hd h1 (Nat.le_of_lt h2)
      refine ⟨data.take i :: cs, r, ck, ck', strict_step n e1 k1, run_step n e2 k2, .cut ⟨g1, g2, g3, g4⟩ k3, ?_, ?_, ?_⟩
      · intro c hc
        rcases List.mem_cons.1 hc with rfl | hc
        · intro h0
          have := congrArg List.length h0
          rw [List.length_take, List.length_nil] at this; omega
        · exact k4 c hc
      · rw [List.flatten_cons, List.append_assoc, k5, List.take_append_drop]
      · rw [List.length_drop] at k6
        rw [List.cons_append, List.length_cons]; omega

/-- C69. `iter_slices_strict` over a new `ZstdIncr` ends, on every input; the slices are those of `Refed`, none is
empty, together with the remainder they are the input. -/
theorem C69_strict {prof : Profile} {size : BitVec 64} {p : Zstd.Zstd}
    (h : Zstd.withTargetSectionSize prof size = .ok p) (data : Bytes) (n : Nat) (hn : data.length < n) :
    ∃ it cs, ((Zstd.incr p).iterSlicesStrict (Zstd.incr p).init data).run n = .ok (cs, it, true) ∧
      Refed p.hitMask [] data cs it.intoParts.2 ∧ (∀ c ∈ cs, c ≠ []) ∧ cs.flatten ++ it.intoParts.2 = data := by
  obtain ⟨cs, r, ck, _, h1, _, h3, h4, h5, _⟩ := refed_slices h n data [] _ (init_inv p)
    (by rintro b _ ⟨k, _⟩; simp at k) hn
  exact ⟨⟨r, ck⟩, cs, h1, h3, h4, h5⟩

/-- `iter_slices` likewise, the remainder being the last slice: it ends after at most `data.len()` slices. -/
theorem C69_iter {prof : Profile} {size : BitVec 64} {p : Zstd.Zstd}
    (h : Zstd.withTargetSectionSize prof size = .ok p) (data : Bytes) (n : Nat) (hn : data.length < n) :
    ∃ it cs r, ((Zstd.incr p).iterSlices (Zstd.incr p).init data).run n = .ok (cs ++ tailSlice r, it, true) ∧
      Refed p.hitMask [] data cs r ∧ (∀ c ∈ cs, c ≠ []) ∧ cs.flatten ++ r = data ∧
      (cs ++ tailSlice r).length ≤ data.length := by
  obtain ⟨cs, r, _, ck, _, h2, h3, h4, h5, h6⟩ := refed_slices h n data [] _ (init_inv p)
    (by rintro b _ ⟨k, _⟩; simp at k) hn
  exact ⟨⟨[], ck⟩, cs, r, h2, h3, h4, h5, h6⟩

/-- `zdata2` has cuts after 33 and 37 bytes (C30); the iterators cut it after 32 bytes only -/
example : (((Zstd.incr Ex.zstd).iterSlices (Zstd.incr Ex.zstd).init zdata2).run (zdata2.length + 1)).map
    (fun x => (x.1.map List.length, x.2.2)) = .ok ([32, zdata2.length - 32], true) := by decide +kernel

end HashRoll.Props
