import Verif.Props.IterMore
import Verif.Props.FastCdc
import Verif.Proofs.DocRest
import Verif.Proofs.FastCdcLoops
/-!
# C57 for FastCdc, C64 (the documented loop on FastCdc), C65 (what the documented loop prints as the remainder)
-/

namespace HashRoll.Props
open HashRoll.Spec

/-- C64. The documented loop on FastCdc, for every input: it panics (slice index out of range) exactly when the
piece behind the last cut of the rule has exactly `max_size` bytes, and otherwise prints the chunks of the rule
and an empty remainder. -/
theorem C64_fastcdc (p : FastCdc.FastCdc) (hnm : p.normalSize ≤ p.maxSize) (hmm : p.minSize < p.maxSize)
    (data : Bytes) (n : Nat) (hn : data.length < n) : ∃ cs r,
    Chunked (EdgeRule (Local (fastFceEdge (lookup p.gear) p.minSize p.normalSize p.maxSize))) [] data cs r ∧
    (FastCdc.chunk p).docLoop data n (FastCdc.chunk p).init data 0 =
      if r.length = p.maxSize then .error .sliceIndex else .ok (cs, some []) := by
  obtain ⟨cs, r, h1, h2⟩ := FastCdc.doc_exact p hnm hmm data n 0 (Nat.zero_le _) (by omega)
  exact ⟨cs, r, by simpa using h1, by simpa using h2⟩
example : (8192 : Nat) ≤ 65536 ∧ (2048 : Nat) < 65536 ∧
    FastCdc.FastCdc.default.normalSize = 8192 := ⟨by decide, by decide, rfl⟩

/-- C57 for FastCdc: with positive buffer sizes `splits_fce` panics exactly when the piece behind the last cut
has exactly `max_size` bytes (subtraction overflow), whatever the sizes, and otherwise gives the chunk lengths of
the rule. -/
theorem C57_fastcdc (p : FastCdc.FastCdc) (hnm : p.normalSize ≤ p.maxSize) (hmm : p.minSize < p.maxSize)
    (data : Bytes) (sizes : List Nat) (n : Nat) (hs : sizes ≠ []) (hs' : ∀ z ∈ sizes, 0 < z)
    (hn : (data.length + 1) * (data.length + 1) ≤ n) : ∃ cs r,
    Chunked (EdgeRule (Local (fastFceEdge (lookup p.gear) p.minSize p.normalSize p.maxSize))) [] data cs r ∧
    (FastCdc.chunk p).splitsFce data sizes n (FastCdc.chunk p).init 0 0 0 0 =
      if r.length = p.maxSize then .error .overflow else .ok (some (cs.map List.length)) := by
  have hlt : (data.length - 0) * (data.length + 1) + (data.length - 0) < n := by
    have : (data.length + 1) * (data.length + 1) = data.length * (data.length + 1) + (data.length + 1) := by
      rw [Nat.succ_mul]
    simp only [Nat.sub_zero]
    omega
  obtain ⟨cs, r, h1, h2⟩ := FastCdc.splits_exact p hnm hmm data hs hs' n FastCdc.FastCdcState.default 0 0 0 0
    (Nat.le_refl _) (Nat.zero_le _) (by rw [sub_self]; exact FastCdc.finv_default p) (fun _ => rfl) hlt
  exact ⟨cs, r, by simpa using h1, h2⟩

/-- C57 for FastCdc: the result does not depend on the buffer sizes (a panic is a result). -/
theorem C57_fastcdc_sizes (p : FastCdc.FastCdc) (hnm : p.normalSize ≤ p.maxSize) (hmm : p.minSize < p.maxSize)
    (data : Bytes) (xs ys : List Nat) (n : Nat) (hx : xs ≠ []) (hx' : ∀ z ∈ xs, 0 < z)
    (hy : ys ≠ []) (hy' : ∀ z ∈ ys, 0 < z) (hn : (data.length + 1) * (data.length + 1) ≤ n) :
    (FastCdc.chunk p).splitsFce data xs n (FastCdc.chunk p).init 0 0 0 0 =
    (FastCdc.chunk p).splitsFce data ys n (FastCdc.chunk p).init 0 0 0 0 := by
  obtain ⟨cs, r, h1, h2⟩ := C57_fastcdc p hnm hmm data xs n hx hx' hn
  obtain ⟨cs', r', h3, h4⟩ := C57_fastcdc p hnm hmm data ys n hy hy' hn
  obtain ⟨rfl, rfl⟩ := h1.det (EdgeRule.good _) h3
  rw [h2, h4]
example : ([1, 7] : List Nat) ≠ [] ∧ ∀ z ∈ ([1, 7] : List Nat), 0 < z := by decide

/-! ## C65: the printed remainder -/

/-- C65. The documented loop prints the chunks of `rule` and, as the remainder, only the last `w` bytes of what
lies behind the last cut. -/
def DocRest (A : Chunk) (rule : Rule) (w : Nat) : Prop :=
  ∀ data n, data.length < n → ∃ cs r, Chunked rule [] data cs r ∧
    A.docLoop data n A.init data 0 = .ok (cs, some (lastN w r))

theorem DocRest.of_loop {A : Chunk} {rule : Rule} (h : ∀ data n, data.length < n → ∃ cs r,
    Chunked rule [] data cs r ∧ A.docLoop data n A.init data 0 = .ok (cs, some [])) : DocRest A rule 0 := by
  intro data n hn
  obtain ⟨cs, r, h1, h2⟩ := h data n hn
  exact ⟨cs, r, h1, by rw [lastN, Nat.sub_zero, List.drop_length]; exact h2⟩

theorem C65_gear (p : Gear.Gear32) :
    DocRest (Gear.chunk p) (EdgeRule (Local (gearEdge (lookup p.gear) p.mask p.xxx))) 0 :=
  .of_loop fun d n h => (Gear.fceLoop p).docRest d n h

theorem C65_pigz {prof : Profile} {bits : BitVec 8} {p : Pigz.PigzRsyncable}
    (h : Pigz.PigzRsyncable.withBits prof bits = .ok p) :
    DocRest (Pigz.chunk p) (EdgeRule (Local (pigzEdge p.mask p.hit))) 0 :=
  .of_loop fun d n hn => (Pigz.fceLoop p (Pigz.withBits_maskOk h).1 (Pigz.withBits_maskOk h).2).docRest d n hn
example := C65_pigz Ex.pigz2_ok

theorem C65_ram (p : Ram.Ram) : DocRest (Ram.chunk p) (EdgeRule (Local (ramEdge p.w))) 0 := by
  intro d n hn
  obtain ⟨cs, r, h1, h2⟩ := FceSpec.docRest (W := 0) (Ram.fceSpec p) (fun st c k h => by rw [h.2.2]; simp) d n 0
    (Ram.chunk p).init (Ram.fceSpec p).init (Nat.zero_le _) (by omega)
  exact ⟨cs, r, by simpa using h1, by simpa using h2⟩

theorem C65_mii (p : Mii.Mii) : DocRest (Mii.chunk p) (EdgeRule (Local (miiEdge p.w))) 0 := by
  intro d n hn
  obtain ⟨cs, r, h1, h2⟩ := FceSpec.docRest (W := 0) (Mii.fceSpec p) (fun st c k h => by rw [h.2.2]; simp) d n 0
    (Mii.chunk p).init (Mii.fceSpec p).init (Nat.zero_le _) (by omega)
  exact ⟨cs, r, by simpa using h1, by simpa using h2⟩

theorem C65_zpaq (p : Zpaq.Zpaq) :
    DocRest (Zpaq.chunk p) (EdgeRule (Local (zpaqEdge p.range.start p.range.stop p.maxHash 1))) 0 :=
  .of_loop fun d n h => (Zpaq.fceLoop p).docRest d n h

theorem C65_gzip (p : Gzip.GzipRsyncable) (hm : p.modulus ≠ 0) :
    DocRest (Gzip.chunk p) (EdgeRule (Local (gzipEdge p.windowLen p.modulus.toNat))) p.windowLen :=
  fun d n h => (Gzip.fceWindow p hm).docRest d n h
example := C65_gzip Ex.gzip3 (by decide)

theorem C65_rollsum (p : Bup.RollSum) :
    DocRest (Bup.chunk p) (EdgeRule (Local (bupEdge p.windowLen))) p.windowLen :=
  fun d n h => (Bup.fceWindow p).docRest d n h

theorem C65_buzhash (p : Buzhash.BuzHash) (hk : 0 < p.k) :
    DocRest (Buzhash.chunk p) (EdgeRule (Local (buzEdge p.k p.h p.mask))) p.k :=
  fun d n h => (Buzhash.fceWindow p hk).docRest d n h
example := C65_buzhash Ex.buz (by decide)

/-- The documented loop loses bytes: the printed chunks and the printed remainder do not make up the input.
(Three bytes through RAM with a window of 2: no cut, empty remainder.) -/
theorem C65_loses : ∃ (data : Bytes) (cs : List Bytes) (rest : Bytes),
    (Ram.chunk (Ram.Ram.withW 2)).docLoop data (data.length + 1) (Ram.chunk (Ram.Ram.withW 2)).init data 0 =
      .ok (cs, some rest) ∧ cs.flatten ++ rest ≠ data :=
  ⟨[1, 2, 3], [], [], by decide +kernel, by decide⟩

end HashRoll.Props
