import Verif.Proofs.Zstd
/-!
# The state of `Zstd::find_chunk_edge` after a cut inside a buffer

The hash in the search state is the hash of the window plus an error that is multiplied by the prime for every
further byte.
-/

namespace HashRoll.Zstd
open Spec

/-- hash of the (up to) 32 bytes before stream position `q` -/
abbrev win (s : Bytes) (q : Nat) : BitVec 64 := zstdHash (lastN 32 (s.take q))

theorem rotate_add (st : ZstdState) (d v : UInt8) (pp h x : BitVec 64) (hh : st.hash = h + x) :
    (st.rotate d v pp).hash = (ZstdState.rotate { hash := h } d v pp).hash + x * prime8Bytes := by
  simp only [ZstdState.rotate, hh]; ring

theorem win_rotate {p : Zstd} (hp : p.Wf) {s : Bytes} {q : Nat} (h32 : 32 ≤ q) (hq : q < s.length)
    {d v : UInt8} (hd : s[q - 32]? = some d) (hv : s[q]? = some v) (st : ZstdState) (x : BitVec 64)
    (h : st.hash = win s q + x) :
    (st.rotate d v p.primePower).hash = win s (q + 1) + x * prime8Bytes := by
  rw [rotate_add st d v _ _ x h]
  have hlen : (s.take q).length = q := by simp; omega
  have hsnoc : s.take (q + 1) = s.take q ++ [v] := by rw [List.take_add_one, hv]; rfl
  obtain ⟨d', t, ht⟩ : ∃ d' t, lastN 32 (s.take q) = d' :: t := by
    cases hl : lastN 32 (s.take q) with
    | nil => have := congrArg List.length hl; rw [lastN_length, hlen] at this; simp at this; omega
    | cons a b => exact ⟨a, b, rfl⟩
  have hdd : d' = d := by
    have := congrArg (·[0]?) ht
    simp only [lastN, List.getElem?_drop, List.getElem?_cons_zero, Nat.add_zero, hlen] at this
    rw [List.getElem?_take_of_lt (by omega), hd] at this
    exact (Option.some.inj this).symm
  subst hdd
  have htl : t.length = 31 := by
    have := congrArg List.length ht; rw [lastN_length, hlen] at this; simp at this; omega
  congr 1
  show _ = zstdHash (lastN 32 (s.take (q + 1)))
  rw [hsnoc, lastN_next (by omega) ht]
  exact rotate_hash hp htl (congrArg zstdHash ht)

/-- the loop of `find_chunk_edge`, on a buffer that starts at `b` and ends at `e`, from position `b + i` on -/
theorem drift_loop {p : Zstd} (hp : p.Wf) {s : Bytes} {b e E : Nat} (hbe : b ≤ e) (he : e ≤ s.length)
    (δ : BitVec 64) : ∀ (count i : Nat) (st : ZstdSearchState), 32 ≤ i → i + count = e - b → E ≤ b + i →
    st.state.hash = win s (b + i) + δ * prime8Bytes ^ (b + i - E) →
    (∃ st', forRange (fceBody p (Spec.sub s b e)) count i st = .ok (.next st') ∧ st'.offset = st.offset ∧
      st'.state.hash = win s e + δ * prime8Bytes ^ (e - E) ∧
      ∀ q, b + i < q → q ≤ e → (win s q + δ * prime8Bytes ^ (q - E)) &&& p.hitMask ≠ p.hitMask) ∨
    (∃ st' q, forRange (fceBody p (Spec.sub s b e)) count i st =
        .ok (.ret st' (some (q - b), e - b - 32)) ∧ st'.offset = st.offset ∧ b + i < q ∧ q ≤ e ∧
      st'.state.hash = win s q + δ * prime8Bytes ^ (q - E) ∧
      (win s q + δ * prime8Bytes ^ (q - E)) &&& p.hitMask = p.hitMask ∧
      ∀ q', b + i < q' → q' < q → (win s q' + δ * prime8Bytes ^ (q' - E)) &&& p.hitMask ≠ p.hitMask) := by
  have hlen : (Spec.sub s b e).length = e - b := by rw [sub_length]; omega
  intro count
  induction count with
  | zero =>
    intro i st hi hc hE hh
    left
    have e1 : b + i = e := by omega
    rw [e1] at hh
    exact ⟨st, rfl, rfl, hh, fun q h1 h2 => by omega⟩
  | succ n ih =>
    intro i st hi hc hE hh
    obtain ⟨d, hd⟩ : ∃ d, s[b + i - 32]? = some d := ⟨_, List.getElem?_eq_getElem (by omega)⟩
    obtain ⟨v, hv⟩ : ∃ v, s[b + i]? = some v := ⟨_, List.getElem?_eq_getElem (by omega)⟩
    have hget : ∀ j, b + j < e → (Spec.sub s b e)[j]? = s[b + j]? := by
      intro j hj
      rw [Spec.sub, List.getElem?_drop, List.getElem?_take_of_lt (by omega)]
    have hd' : index (Spec.sub s b e) (i - rsyncLength) = .ok d := by
      apply index_of
      show (Spec.sub s b e)[i - 32]? = some d
      rw [hget _ (by omega), show b + (i - 32) = b + i - 32 by omega, hd]
    have hv' : index (Spec.sub s b e) i = .ok v := index_of (by rw [hget _ (by omega), hv])
    have hrot := win_rotate hp (q := b + i) (by omega) (by omega) hd hv st.state _ hh
    have hpow : δ * prime8Bytes ^ (b + i - E) * prime8Bytes = δ * prime8Bytes ^ (b + i + 1 - E) := by
      rw [show b + i + 1 - E = (b + i - E) + 1 by omega, BitVec.pow_succ, BitVec.mul_assoc]
    rw [hpow] at hrot
    have hi' : ¬ i < rsyncLength := by show ¬ i < 32; omega
    have hbody : fceBody p (Spec.sub s b e) i st =
        if (st.state.rotate d v p.primePower).atSplit p then
          .ok (.ret { st with state := st.state.rotate d v p.primePower } (some (i + 1), e - b - 32))
        else .ok (.next { st with state := st.state.rotate d v p.primePower }) := by
      rw [fceBody, if_neg hi', hd']; dsimp only; rw [hv']; dsimp only; rw [hlen]; rfl
    have hsp : (st.state.rotate d v p.primePower).atSplit p = true ↔
        (win s (b + i + 1) + δ * prime8Bytes ^ (b + i + 1 - E)) &&& p.hitMask = p.hitMask := by
      rw [ZstdState.atSplit, beq_iff_eq, hrot]
    by_cases hc' : (st.state.rotate d v p.primePower).atSplit p = true
    · right
      refine ⟨{ st with state := st.state.rotate d v p.primePower }, b + i + 1, ?_, rfl, by omega, by omega, hrot,
        hsp.1 hc', fun q' h1 h2 => by omega⟩
      rw [forRange, hbody, if_pos hc', show b + i + 1 - b = i + 1 by omega]
    · rw [forRange, hbody, if_neg hc']
      have hne : ∀ q, b + i < q → ¬ b + (i + 1) < q →
          (win s q + δ * prime8Bytes ^ (q - E)) &&& p.hitMask ≠ p.hitMask := by
        intro q h1 h2 hq
        have e1 : q = b + i + 1 := by omega
        subst e1
        exact hc' (hsp.2 hq)
      rcases ih (i + 1) { st with state := st.state.rotate d v p.primePower } (by omega) (by omega) (by omega) hrot with
        ⟨st', h1, h2, h3, h4⟩ | ⟨st', q, h1, h2, h3, h4, h5, h6, h7⟩
      · left
        refine ⟨st', h1, h2, h3, fun q k1 k2 => ?_⟩
        by_cases hq : b + (i + 1) < q
        · exact h4 q hq k2
        · exact hne q k1 hq
      · right
        refine ⟨st', q, h1, h2, by omega, h4, h5, h6, fun q' k1 k2 => ?_⟩
        by_cases hq : b + (i + 1) < q'
        · exact h7 q' hq k2
        · exact hne q' k1 hq

/-- `find_chunk_edge` with a full window ending at `E`, whose hash is off by `δ` -/
theorem drift_full {p : Zstd} (hp : p.Wf) {s : Bytes} {E e : Nat} (h32 : 32 ≤ E) (hE : E ≤ e) (he : e ≤ s.length)
    (δ : BitVec 64) (st : ZstdSearchState) (ho : st.offset = 32) (hh : st.state.hash = win s E + δ) :
    (∃ st', p.findChunkEdgeFull st (Spec.sub s (E - 32) e) = .ok (st', none, e - E) ∧ st'.offset = 32 ∧
      st'.state.hash = win s e + δ * prime8Bytes ^ (e - E) ∧
      ∀ q, E < q → q ≤ e → (win s q + δ * prime8Bytes ^ (q - E)) &&& p.hitMask ≠ p.hitMask) ∨
    (∃ st' q, p.findChunkEdgeFull st (Spec.sub s (E - 32) e) = .ok (st', some (q - (E - 32)), e - E) ∧
      st'.offset = 32 ∧ E < q ∧ q ≤ e ∧ st'.state.hash = win s q + δ * prime8Bytes ^ (q - E) ∧
      (win s q + δ * prime8Bytes ^ (q - E)) &&& p.hitMask = p.hitMask ∧
      ∀ q', E < q' → q' < q → (win s q' + δ * prime8Bytes ^ (q' - E)) &&& p.hitMask ≠ p.hitMask) := by
  have hlen : (Spec.sub s (E - 32) e).length = e - (E - 32) := by rw [sub_length]; omega
  have e0 : E - 32 + 32 = E := by omega
  have hl := drift_loop hp (b := E - 32) (e := e) (E := E) (s := s) (by omega) he δ (e - E) 32 st (Nat.le_refl _)
    (by omega) (by omega) (by rw [e0, hh, Nat.sub_self, BitVec.pow_zero, BitVec.mul_one])
  rw [e0] at hl
  have hcnt : (Spec.sub s (E - 32) e).length - st.offset = e - E := by rw [hlen, ho]; omega
  have hR : rsyncLength = 32 := rfl
  rw [fceFull_eq, hcnt, ho]
  rcases hl with ⟨st', h1, h2, h3, h4⟩ | ⟨st', q, h1, h2, h3, h4, h5, h6, h7⟩
  · left
    refine ⟨{ st' with offset := 32 }, ?_, rfl, h3, h4⟩
    rw [h1]
    dsimp only
    have e1 : (Spec.sub s (E - 32) e).length - rsyncLength = e - E := by rw [hlen, hR]; omega
    have e2 : (Spec.sub s (E - 32) e).length - (e - E) = 32 := by rw [hlen]; omega
    rw [e1, e2]
  · right
    refine ⟨st', q, ?_, by rw [h2, ho], h3, h4, h5, h6, h7⟩
    rw [h1, show e - (E - 32) - 32 = e - E by omega]

/-- The search state after buffers that ended at `E` at most, with error `δ`. -/
def DInv (s : Bytes) (st : ZstdSearchState) (base E : Nat) (δ : BitVec 64) : Prop :=
  (E < 32 ∧ base = 0 ∧ δ = 0 ∧ st.offset = E ∧ st.state.hash = zstdHash (s.take E)) ∨
  (32 ≤ E ∧ base = E - 32 ∧ st.offset = 32 ∧ st.state.hash = win s E + δ)

theorem drift_call {p : Zstd} (hp : p.Wf) {s : Bytes} {st : ZstdSearchState} {base E e : Nat} {δ : BitVec 64}
    (hi : DInv s st base E δ) (hE : E ≤ e) (he : e ≤ s.length) :
    (∃ st' d, p.findChunkEdge st (Spec.sub s base e) = .ok (st', none, d) ∧
      DInv s st' (base + d) e (δ * prime8Bytes ^ (e - E)) ∧
      ∀ q, 32 < q → E < q → q ≤ e → (win s q + δ * prime8Bytes ^ (q - E)) &&& p.hitMask ≠ p.hitMask) ∨
    (∃ st' c d q, p.findChunkEdge st (Spec.sub s base e) = .ok (st', some c, d) ∧ base + c = q ∧
      DInv s st' (base + d) e (win s q + δ * prime8Bytes ^ (q - E) - win s e) ∧ 32 < q ∧ E < q ∧ q ≤ e ∧
      (win s q + δ * prime8Bytes ^ (q - E)) &&& p.hitMask = p.hitMask ∧
      ∀ q', 32 < q' → E < q' → q' < q → (win s q' + δ * prime8Bytes ^ (q' - E)) &&& p.hitMask ≠ p.hitMask) := by
  have hR : rsyncLength = 32 := rfl
  rcases hi with ⟨h1, rfl, rfl, h4, h5⟩ | ⟨h1, rfl, h3, h4⟩
  · rw [Spec.sub_zero]
    have hlen : (s.take e).length = e := by simp; omega
    have hsl : slice (s.take e) st.offset (min rsyncLength (s.take e).length) =
        .ok (Spec.sub s E (min 32 e)) := by
      simp only [slice, hlen, h4, hR]
      rw [if_pos (by omega), Spec.sub, List.take_take]
      congr 3; omega
    have hsub : (Spec.sub s E (min 32 e)).length = min 32 e - E := by rw [sub_length]; omega
    have hha : ((st.state.append (Spec.sub s E (min 32 e)))).hash = zstdHash (s.take (min 32 e)) := by
      rw [append_hash _ _ _ h5, Spec.take_append_sub]
      omega
    unfold Zstd.findChunkEdge
    rw [if_pos (by omega), hsl]
    dsimp only
    by_cases h : e < 32
    · left
      rw [if_pos (by rw [hsub]; omega)]
      refine ⟨_, _, rfl, .inl ⟨h, rfl, by simp, ?_, ?_⟩, fun q k1 k2 k3 => by omega⟩
      · dsimp only; rw [hsub]; omega
      · dsimp only; rw [hha]; congr 2; omega
    · rw [if_neg (by rw [hsub]; omega)]
      have e1 : min 32 e = 32 := by omega
      rw [e1] at hha hsub
      rw [e1]
      have hd := drift_full hp (E := 32) (e := e) (s := s) (Nat.le_refl _) (by omega) he 0
        { state := st.state.append (Spec.sub s E 32), offset := st.offset + (Spec.sub s E 32).length }
        (by dsimp only; rw [hsub]; omega)
        (by dsimp only
            rw [hha, win, lastN_of_le (by simp), _root_.add_zero])
      rw [show 32 - 32 = 0 from rfl, Spec.sub_zero] at hd
      simp only [MulZeroClass.zero_mul, _root_.add_zero, Nat.sub_zero] at hd
      simp only [MulZeroClass.zero_mul, _root_.add_zero, Nat.zero_add]
      rcases hd with ⟨st', k1, k2, k3, k4⟩ | ⟨st', q, k1, k2, k3, k4, k5, k6, k7⟩
      · left
        refine ⟨st', _, k1, .inr ⟨by omega, rfl, k2, by rw [k3]; simp⟩, fun q j1 j2 j3 => k4 q j1 j3⟩
      · right
        refine ⟨st', _, _, q, k1, rfl, .inr ⟨by omega, rfl, k2, by rw [k5]; ring⟩, k3, by omega, k4, k6,
          fun q' j1 j2 j3 => k7 q' j1 j3⟩
  · unfold Zstd.findChunkEdge
    rw [if_neg (by omega)]
    rcases drift_full hp h1 hE he δ st h3 h4 with ⟨st', k1, k2, k3, k4⟩ | ⟨st', q, k1, k2, k3, k4, k5, k6, k7⟩
    · left
      exact ⟨st', _, k1, .inr ⟨by omega, by omega, k2, k3⟩, fun q _ j2 j3 => k4 q j2 j3⟩
    · right
      exact ⟨st', _, _, q, k1, by omega, .inr ⟨by omega, by omega, k2, by rw [k5]; ring⟩, by omega, k3, k4, k6,
        fun q' _ j2 j3 => k7 q' j2 j3⟩

end HashRoll.Zstd
