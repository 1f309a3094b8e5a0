import Verif.Props.Zstd
import Verif.Proofs.ZstdDrift
import Verif.Proofs.Iter
/-!
# C66: what `Zstd::find_chunk_edge` does for every schedule of growing buffers; C57 for Zstd
-/

namespace HashRoll.Props
open HashRoll.Spec Zstd

/-- `find_chunk_edge` on a stream `s`, the buffers ending at the positions `ends` and starting behind what was
discarded; the reported cuts as positions in the stream. -/
def fceCalls (A : Chunk) (s : Bytes) : A.State → Nat → List Nat → R (List (Option Nat))
  | _, _, [] => .ok []
  | st, base, e :: es =>
    match A.fce st (Spec.sub s base e) with
    | .error x => .error x
    | .ok (st', r, d) =>
      match fceCalls A s st' (base + d) es with
      | .error x => .error x
      | .ok l => .ok (r.map (base + ·) :: l)

/-- hash of the 32 bytes before position `q` -/
def windowHash (s : Bytes) (q : Nat) : BitVec 64 := zstdHash (lastN 32 (s.take q))

/-- the hash compared at position `q`, if it was off by `δ` at position `E` -/
def driftHash (s : Bytes) (E : Nat) (δ : BitVec 64) (q : Nat) : BitVec 64 :=
  windowHash s q + δ * 0xCF1BBCDCB7A56463 ^ (q - E)

/-- The calls on buffers with the given ends report `cuts`, if the data up to `E` was presented before and the
hash kept is off by `δ`: the first position behind `E` (and behind the first 32 bytes) at which the kept hash
matches. After a cut at `q` in a buffer that ends at `e` the bytes between `q` and `e` are never looked at, but
treated as if they had been rolled in: the hash kept for `e` is the one of `q`. -/
inductive DriftCalls (mask : BitVec 64) (s : Bytes) : Nat → BitVec 64 → List Nat → List (Option Nat) → Prop
  | nil {E δ} : DriftCalls mask s E δ [] []
  | none {E δ e es cuts} : (∀ q, 32 < q → E < q → q ≤ e → driftHash s E δ q &&& mask ≠ mask) →
      DriftCalls mask s e (driftHash s E δ e - windowHash s e) es cuts →
      DriftCalls mask s E δ (e :: es) (none :: cuts)
  | hit {E δ e es cuts q} : 32 < q → E < q → q ≤ e → driftHash s E δ q &&& mask = mask →
      (∀ q', 32 < q' → E < q' → q' < q → driftHash s E δ q' &&& mask ≠ mask) →
      DriftCalls mask s e (driftHash s E δ q - windowHash s e) es cuts →
      DriftCalls mask s E δ (e :: es) (some q :: cuts)

theorem drift_calls {p : Zstd.Zstd} (hp : p.Wf) (s : Bytes) : ∀ (ends : List Nat) (st : ZstdSearchState)
    (base E : Nat) (δ : BitVec 64), DInv s st base E δ → (E :: ends).Pairwise (· ≤ ·) → (∀ e ∈ ends, e ≤ s.length) →
    ∃ cuts, fceCalls (Zstd.chunk p) s st base ends = .ok cuts ∧ DriftCalls p.hitMask s E δ ends cuts := by
  intro ends
  induction ends with
  | nil => intro st base E δ _ _ _; exact ⟨[], rfl, .nil⟩
  | cons e es ih =>
    intro st base E δ hi hs hle
    rw [List.pairwise_cons] at hs
    have hE : E ≤ e := hs.1 e (by simp)
    have he : e ≤ s.length := hle e (by simp)
    have hle' : ∀ x ∈ es, x ≤ s.length := fun x hx => hle x (by simp [hx])
    rcases drift_call hp hi hE he with ⟨st', d, h1, h2, h3⟩ | ⟨st', c, d, q, h1, h2, h3, h4, h5, h6, h7, h8⟩
    · obtain ⟨cuts, k1, k2⟩ := ih st' (base + d) e _ h2 hs.2 hle'
      refine ⟨Option.none :: cuts, ?_, .none h3 ?_⟩
      · rw [fceCalls]; simp only [h1, k1]; rfl
      · have : driftHash s E δ e - windowHash s e = δ * prime8Bytes ^ (e - E) := by
          rw [driftHash]; show _ + δ * prime8Bytes ^ (e - E) - _ = _; ring
        rw [this]; exact k2
    · obtain ⟨cuts, k1, k2⟩ := ih st' (base + d) e _ h3 hs.2 hle'
      refine ⟨some q :: cuts, ?_, .hit h4 h5 h6 h7 h8 k2⟩
      rw [fceCalls]; simp only [h1, k1, Option.map_some, h2]

/-- C66. Every schedule of growing buffers on every stream: the calls do not panic and report exactly the cuts of
`DriftCalls`. -/
theorem C66_exact {prof : Profile} {size : BitVec 64} {p : Zstd.Zstd}
    (h : Zstd.withTargetSectionSize prof size = .ok p) (s : Bytes) (ends : List Nat)
    (hs : ends.Pairwise (· ≤ ·)) (hle : ∀ e ∈ ends, e ≤ s.length) :
    ∃ cuts, fceCalls (Zstd.chunk p) s (Zstd.chunk p).init 0 ends = .ok cuts ∧
      DriftCalls p.hitMask s 0 0 ends cuts :=
  drift_calls (zstd_wf h) s ends ZstdSearchState.default 0 0 0
    (.inl ⟨by decide, rfl, rfl, rfl, by simp [ZstdSearchState.default, zstdHash, wsum]⟩)
    (by rw [List.pairwise_cons]; exact ⟨fun _ _ => Nat.zero_le _, hs⟩) hle

/-- two schedules on the same data: with the buffer ending at the cut the second cut is found, otherwise not -/
example : fceCalls (Zstd.chunk Ex.zstd) zdata ZstdSearchState.default 0 [33, 65] = .ok [some 33, some 65] ∧
    fceCalls (Zstd.chunk Ex.zstd) zdata ZstdSearchState.default 0 [65, 65] = .ok [some 33, none] ∧
    [33, 65].Pairwise (· ≤ ·) ∧ ∀ e ∈ [33, 65], e ≤ zdata.length := by decide +kernel

/-- `DriftCalls` determines the cuts. -/
theorem C66_det {mask : BitVec 64} {s : Bytes} {E : Nat} {δ : BitVec 64} {ends : List Nat} {x y : List (Option Nat)}
    (hx : DriftCalls mask s E δ ends x) (hy : DriftCalls mask s E δ ends y) : x = y := by
  induction hx generalizing y with
  | nil => cases hy; rfl
  | none h1 _ ih =>
    cases hy with
    | none _ k => rw [ih k]
    | hit k1 k2 k3 k4 => exact absurd k4 (h1 _ k1 k2 k3)
  | @hit E δ e es cuts q h1 h2 h3 h4 h5 _ ih =>
    cases hy with
    | none k1 _ => exact absurd h4 (k1 _ h1 h2 h3)
    | @hit _ _ _ _ _ q' k1 k2 k3 k4 k5 k6 =>
      have : q = q' := by
        rcases Nat.lt_trichotomy q q' with h | h | h
        · exact absurd h4 (k5 _ h1 h2 h)
        · exact h
        · exact absurd k4 (h5 _ k1 k2 h)
      subst this
      rw [ih k6]

theorem prime_mul_inj (x : BitVec 64) (h : x * 0xCF1BBCDCB7A56463 = 0) : x = 0 := by
  have h2 : x * 0xCF1BBCDCB7A56463 * 0xb4cff5731e03d4b = x := by
    rw [BitVec.mul_assoc, show (0xCF1BBCDCB7A56463 : BitVec 64) * 0xb4cff5731e03d4b = 1#64 by decide, BitVec.mul_one]
  rw [h] at h2
  rw [← h2]; exact MulZeroClass.zero_mul _

theorem prime_pow_inj (x : BitVec 64) : ∀ n : Nat, x * 0xCF1BBCDCB7A56463 ^ n = 0 → x = 0
  | 0, h => by rwa [BitVec.pow_zero, BitVec.mul_one] at h
  | n + 1, h => by
    rw [BitVec.pow_succ, ← BitVec.mul_assoc] at h
    exact prime_pow_inj x n (prime_mul_inj _ h)

/-- The prime is odd, so an error never goes away by itself: as long as there is no further cut, the hash compared
is wrong at every position. -/
theorem C66_never_recovers (s : Bytes) (E : Nat) (δ : BitVec 64) (h : δ ≠ 0) (q : Nat) :
    driftHash s E δ q ≠ windowHash s q := by
  intro hq
  apply h
  apply prime_pow_inj δ (q - E)
  have : windowHash s q + δ * 0xCF1BBCDCB7A56463 ^ (q - E) - windowHash s q = windowHash s q - windowHash s q := by
    rw [← driftHash, hq]
  rwa [BitVec.sub_self, show windowHash s q + δ * 0xCF1BBCDCB7A56463 ^ (q - E) - windowHash s q =
    δ * 0xCF1BBCDCB7A56463 ^ (q - E) by ring] at this
example : windowHash zdata 33 - windowHash zdata 64 ≠ 0 := by decide +kernel

/-- The first cut `q` in a buffer ending at `e`: from there on the hash compared at every later position (until the
next cut) is right exactly if the windows before `q` and before `e` have the same hash. -/
theorem C66_after_first (s : Bytes) (q e r : Nat) :
    driftHash s e (windowHash s q - windowHash s e) r = windowHash s r ↔ windowHash s q = windowHash s e := by
  constructor
  · intro h
    by_cases hδ : windowHash s q - windowHash s e = 0
    · rwa [BitVec.sub_eq_iff_eq_add, show (0 : BitVec 64) + windowHash s e = windowHash s e from
        BitVec.zero_add _] at hδ
    · exact absurd h (C66_never_recovers s e _ hδ r)
  · intro h
    rw [h, driftHash, BitVec.sub_self]
    show windowHash s r + 0 * _ = _
    rw [MulZeroClass.zero_mul, _root_.add_zero]

/-! ## C57: `splits_fce` on Zstd -/

/-- The test `zstd_fce_self_consistent_with_varying_buf_size` (tests/cuts_qc.rs:165-176) states something false:
with the default parameters the result depends on the buffer sizes. -/
theorem C57_zstd_refuted : Zstd.default .debug = .ok Ex.zstd ∧
    (Zstd.chunk Ex.zstd).splitsFce zdata [33] 4356 (Zstd.chunk Ex.zstd).init 0 0 0 0 = .ok (some [33, 32]) ∧
    (Zstd.chunk Ex.zstd).splitsFce zdata [65] 4356 (Zstd.chunk Ex.zstd).init 0 0 0 0 = .ok (some [33]) := by
  decide +kernel

theorem zstd_splits (p : Zstd.Zstd) (s : Bytes) {sizes : List Nat} (hz : sizes ≠ []) (hz' : ∀ z ∈ sizes, 0 < z) :
    ∀ (n : Nat) (st : ZstdSearchState) (k last cd pbs : Nat), st.offset ≤ 32 → (st.offset < 32 → st.offset ≤ pbs ∧ cd + pbs ≤ s.length) →
      last ≤ cd + 32 → last ≤ s.length → cd ≤ s.length →
      (s.length - cd) * (s.length + 1) + (s.length - pbs) < n →
      ∃ ls, (Zstd.chunk p).splitsFce s sizes n st k last cd pbs = .ok (some ls) ∧ (∀ l ∈ ls, 0 < l) ∧
        last + ls.sum ≤ s.length := by
  intro n
  induction n with
  | zero => intro st k last cd pbs _ _ _ _ _ h; omega
  | succ n ih =>
    intro st k last cd pbs ho ho' h1 h2 h3 hn
    rw [Chunk.splitsFce]
    by_cases hd : s.length = cd
    · rw [if_pos hd]; exact ⟨[], rfl, by simp, by simpa using h2⟩
    · rw [if_neg hd]
      have hk : k % sizes.length < sizes.length := Nat.mod_lt _ (List.length_pos_iff.2 hz)
      have hi : index sizes (k % sizes.length) = .ok (sizes[k % sizes.length]'hk) :=
        index_of (List.getElem?_eq_getElem hk)
      have hpos : 0 < sizes[k % sizes.length]'hk := hz' _ (List.getElem_mem hk)
      rw [hi]
      dsimp only
      generalize sizes[k % sizes.length]'hk = z at hpos
      rw [if_neg (by omega)]
      obtain ⟨L, hL⟩ : ∃ L, L = min (z + pbs) (s.length - cd) := ⟨_, rfl⟩
      rw [← hL]
      have hsl : slice s cd (L + cd) = .ok ((s.take (L + cd)).drop cd) := by
        simp only [slice]; rw [if_pos (by omega)]
      rw [hsl]
      dsimp only
      obtain ⟨b, hb⟩ : ∃ b, b = (s.take (L + cd)).drop cd := ⟨_, rfl⟩
      rw [← hb]
      have hbl : b.length = L := by rw [hb]; simp; omega
      obtain ⟨st', r, hf, hcase⟩ := zstd_call_ok p st b ho (by intro h; have := ho' h; omega)
      rw [hbl] at hf hcase
      simp only [hf]
      have hmono : ∀ d, 0 < d → cd + d ≤ s.length →
          (s.length - (cd + d)) * (s.length + 1) + s.length < n := by
        intro d hd1 hd2
        have e1 : (s.length - cd) = (s.length - (cd + d)) + d := by omega
        rw [e1, Nat.add_mul] at hn
        have : 1 * (s.length + 1) ≤ d * (s.length + 1) := Nat.mul_le_mul_right _ hd1
        omega
      rcases hcase with ⟨rfl, hoff⟩ | ⟨c, rfl, hc1, hc2, hoff⟩
      · dsimp only
        by_cases he : L = s.length - cd
        · rw [if_pos he]; exact ⟨[], rfl, by simp, by simpa using h2⟩
        · rw [if_neg he]
          refine ih st' (k + 1) last (cd + (L - 32)) L (by omega) (by omega) (by omega) h2 (by omega) ?_
          by_cases h32 : L ≤ 32
          · rw [show cd + (L - 32) = cd by omega]; omega
          · have := hmono (L - 32) (by omega) (by omega); omega
      · dsimp only
        rw [if_neg (by omega)]
        obtain ⟨ls, k1, k2, k3⟩ := ih st' (k + 1) (cd + c) (cd + (L - 32)) 0 (by omega) (by omega) (by omega) (by omega)
          (by omega) (by have := hmono (L - 32) (by omega) (by omega); omega)
        rw [k1]
        refine ⟨_, rfl, ?_, ?_⟩
        · intro l hl
          rcases List.mem_cons.1 hl with rfl | hl
          · omega
          · exact k2 l hl
        · rw [List.sum_cons]; omega

/-- What does hold of it, for any parameters and any positive buffer sizes: it ends without a panic, and the splits
are non-empty and inside the data. -/
theorem C57_zstd_total (p : Zstd.Zstd) (data : Bytes) (sizes : List Nat) (n : Nat) (hs : sizes ≠ [])
    (hs' : ∀ z ∈ sizes, 0 < z) (hn : (data.length + 1) * (data.length + 1) ≤ n) :
    ∃ ls, (Zstd.chunk p).splitsFce data sizes n (Zstd.chunk p).init 0 0 0 0 = .ok (some ls) ∧
      (∀ l ∈ ls, 0 < l) ∧ ls.sum ≤ data.length := by
  have hlt : (data.length - 0) * (data.length + 1) + (data.length - 0) < n := by
    have : (data.length + 1) * (data.length + 1) = data.length * (data.length + 1) + (data.length + 1) := by
      rw [Nat.succ_mul]
    simp only [Nat.sub_zero]
    omega
  obtain ⟨ls, h1, h2, h3⟩ := zstd_splits p data hs hs' n ZstdSearchState.default 0 0 0 0 (Nat.zero_le _)
    (fun _ => ⟨Nat.le_refl _, Nat.zero_le _⟩) (Nat.zero_le _) (Nat.zero_le _) (Nat.zero_le _) hlt
  exact ⟨ls, h1, h2, by omega⟩
example : (zdata.length + 1) * (zdata.length + 1) ≤ 4356 := by decide

end HashRoll.Props
