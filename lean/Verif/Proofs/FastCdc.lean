import Verif.Proofs.Conform
import Verif.Proofs.Sums
import Verif.Model.FastCdc
/-!
# FastCdc conforms to its rules
-/

namespace HashRoll.FastCdc

open Spec

/-- the fingerprint matches at the last byte of the prefix -/
abbrev hit (p : FastCdc) : Bytes → Prop := fastHit (lookup p.gear) p.minSize p.normalSize

/-- fingerprint after the first `n` bytes of `d` -/
abbrev fpAt (p : FastCdc) (d : Bytes) (n : Nat) : BitVec 64 := gearSum (lookup p.gear) ((d.take n).drop p.minSize)

theorem drop_eq_cons {d vs : Bytes} {v : UInt8} {n : Nat} (h : d.drop n = v :: vs) :
    n < d.length ∧ d.take (n + 1) = d.take n ++ [v] ∧ d.drop (n + 1) = vs := by
  have hlt : n < d.length := by
    by_contra hge
    rw [List.drop_of_length_le (by omega)] at h
    cases h
  rw [List.drop_eq_getElem_cons hlt, List.cons.injEq] at h
  refine ⟨hlt, ?_, h.2⟩
  rw [List.take_add_one, List.getElem?_eq_getElem hlt, h.1]; rfl

theorem fpAt_succ {p : FastCdc} {d vs : Bytes} {v : UInt8} {n : Nat} (h : d.drop n = v :: vs)
    (hm : p.minSize ≤ n) : (fpAt p d n <<< 1) + lookup p.gear v = fpAt p d (n + 1) := by
  obtain ⟨hlt, ht, _⟩ := drop_eq_cons h
  unfold fpAt
  rw [ht, List.drop_append_of_le_length (by simp; omega), gearSum_snoc]

theorem hit_iff (p : FastCdc) (d : Bytes) (n : Nat) (h : n < d.length) :
    hit p (d.take (n + 1)) ↔ fpAt p d (n + 1) &&& (if n < p.normalSize then maskS else maskL) = 0 := by
  unfold hit fastHit
  have hl : (d.take (n + 1)).length = n + 1 := by simp; omega
  rw [hl]
  rfl

theorem loop1_spec (p : FastCdc) (d : Bytes) : ∀ rest gi i, d.drop gi = rest → gi ≤ d.length →
    p.minSize ≤ gi →
    (∃ n, loop1 p rest gi i (fpAt p d gi) = .ret (i + (n - gi)) ∧ gi ≤ n ∧ n < d.length ∧
      n < p.normalSize ∧ hit p (d.take (n + 1)) ∧ ∀ m, gi ≤ m → m < n → ¬ hit p (d.take (m + 1))) ∨
    (∃ g, loop1 p rest gi i (fpAt p d gi) = .done g (i + (g - gi)) (fpAt p d g) ∧ gi ≤ g ∧ g ≤ d.length ∧
      (p.normalSize ≤ g ∨ g = d.length) ∧ (gi < g → g ≤ p.normalSize) ∧
      ∀ m, gi ≤ m → m < g → ¬ hit p (d.take (m + 1))) := by
  intro rest
  induction rest with
  | nil =>
    intro gi i hd hg hm
    right
    have : d.length ≤ gi := by simpa using hd
    refine ⟨gi, by simp [loop1], by omega, hg, by omega, by omega, ?_⟩
    intro m h1 h2; omega
  | cons v vs ih =>
    intro gi i hd hg hm
    obtain ⟨hlt, ht, hd'⟩ := drop_eq_cons hd
    by_cases hn : p.normalSize ≤ gi
    · right
      refine ⟨gi, by simp [loop1, hn], by omega, hg, .inl hn, by omega, ?_⟩
      intro m h1 h2; omega
    · have hfp := fpAt_succ hd hm
      have hh := hit_iff p d gi hlt
      rw [if_pos (by omega)] at hh
      by_cases hz : hit p (d.take (gi + 1))
      · left
        refine ⟨gi, ?_, by omega, hlt, by omega, hz, ?_⟩
        · simp [loop1, hn, hfp, hh.1 hz]
        · intro m h1 h2; omega
      · have hz' : ¬ fpAt p d (gi + 1) &&& maskS = 0 := fun h => hz (hh.2 h)
        have hstep : loop1 p (v :: vs) gi i (fpAt p d gi) =
            loop1 p vs (gi + 1) (i + 1) (fpAt p d (gi + 1)) := by
          simp only [loop1, ge_iff_le, hn, if_false, hfp, hz']
        rw [hstep]
        rcases ih (gi + 1) (i + 1) hd' (by omega) (by omega) with
          ⟨n, h1, h2, h3, h4, h5, h6⟩ | ⟨g, h1, h2, h3, h4, h5, h6⟩
        · left
          refine ⟨n, ?_, by omega, h3, h4, h5, ?_⟩
          · rw [h1]; congr 1; omega
          · intro m hm1 hm2
            by_cases hmg : m = gi
            · subst hmg; exact hz
            · exact h6 m (by omega) hm2
        · right
          refine ⟨g, ?_, by omega, h3, h4, by omega, ?_⟩
          · rw [h1]; congr 1; omega
          · intro m hm1 hm2
            by_cases hmg : m = gi
            · subst hmg; exact hz
            · exact h6 m (by omega) hm2

theorem loop2_spec (p : FastCdc) (d : Bytes) : ∀ rest gi i, d.drop gi = rest → gi ≤ d.length →
    p.minSize ≤ gi → (p.normalSize ≤ gi ∨ gi = d.length) →
    (∃ n, loop2 p rest gi i (fpAt p d gi) = .ret (i + (n - gi)) ∧ gi ≤ n ∧ n ≤ d.length ∧
      (p.maxSize ≤ n ∨ n < d.length ∧ hit p (d.take (n + 1))) ∧
      ∀ m, gi ≤ m → m < n → m < p.maxSize ∧ ¬ hit p (d.take (m + 1))) ∨
    (∃ g i', loop2 p rest gi i (fpAt p d gi) = .done g i' (fpAt p d d.length) ∧ d.length < p.maxSize ∧
      ∀ m, gi ≤ m → m < d.length → ¬ hit p (d.take (m + 1))) := by
  intro rest
  induction rest with
  | nil =>
    intro gi i hd hg hm hnl
    have hge : d.length ≤ gi := by simpa using hd
    have he : gi = d.length := by omega
    by_cases hmax : p.maxSize ≤ gi
    · left
      refine ⟨gi, by simp [loop2, hmax], by omega, hg, .inl hmax, ?_⟩
      intro m h1 h2; omega
    · right
      refine ⟨gi, i, by simp [loop2, hmax, ← he], by omega, ?_⟩
      intro m h1 h2; omega
  | cons v vs ih =>
    intro gi i hd hg hm hnl
    obtain ⟨hlt, ht, hd'⟩ := drop_eq_cons hd
    by_cases hmax : p.maxSize ≤ gi
    · left
      refine ⟨gi, by simp [loop2, hmax], by omega, hg, .inl hmax, ?_⟩
      intro m h1 h2; omega
    · have hfp := fpAt_succ hd hm
      have hh := hit_iff p d gi hlt
      rw [if_neg (by omega)] at hh
      by_cases hz : hit p (d.take (gi + 1))
      · left
        refine ⟨gi, ?_, by omega, hg, .inr ⟨hlt, hz⟩, ?_⟩
        · simp [loop2, hmax, hfp, hh.1 hz]
        · intro m h1 h2; omega
      · have hz' : ¬ fpAt p d (gi + 1) &&& maskL = 0 := fun h => hz (hh.2 h)
        have hstep : loop2 p (v :: vs) gi i (fpAt p d gi) =
            loop2 p vs (gi + 1) (i + 1) (fpAt p d (gi + 1)) := by
          simp only [loop2, ge_iff_le, hmax, if_false, hfp, hz']
        rw [hstep]
        rcases ih (gi + 1) (i + 1) hd' (by omega) (by omega) (by omega) with
          ⟨n, h1, h2, h3, h4, h6⟩ | ⟨g, i', h1, h2, h6⟩
        · left
          refine ⟨n, ?_, by omega, h3, h4, ?_⟩
          · rw [h1]; congr 1; omega
          · intro m hm1 hm2
            by_cases hmg : m = gi
            · subst hmg; exact ⟨by omega, hz⟩
            · exact h6 m (by omega) hm2
        · right
          refine ⟨g, i', h1, h2, ?_⟩
          intro m hm1 hm2
          by_cases hmg : m = gi
          · subst hmg; exact hz
          · exact h6 m (by omega) hm2

/-- `l` counts the bytes, `fp` covers those after `min_size`. -/
def StInv (p : FastCdc) (st : FastCdcState) (c : Bytes) : Prop :=
  st.l = c.length ∧ st.fp = gearSum (lookup p.gear) (c.drop p.minSize)

theorem stInv_default (p : FastCdc) : StInv p FastCdcState.default [] := by
  refine ⟨rfl, ?_⟩
  simp [FastCdcState.default, gearSum]

/-- What one `FastCdcState::push` does: it looks, from position `max |c| min` on, for the first position `n`
that is at least `max` or whose byte matches. -/
theorem push_spec (p : FastCdc) (hnm : p.normalSize ≤ p.maxSize) (st : FastCdcState) (c : Bytes)
    (hi : StInv p st c) (new : Bytes) :
    (∃ st', st.push p new = (st', none) ∧ StInv p st' (c ++ new) ∧
      ((c ++ new).length ≤ p.minSize ∨ p.minSize < (c ++ new).length ∧ (c ++ new).length < p.maxSize ∧
        ∀ m, c.length ≤ m → p.minSize ≤ m → m < (c ++ new).length → ¬ hit p ((c ++ new).take (m + 1)))) ∨
    (∃ i n, st.push p new = (FastCdcState.default, some i) ∧ n = c.length + i ∧ i ≤ new.length ∧
      p.minSize ≤ n ∧ p.minSize < (c ++ new).length ∧
      (p.maxSize ≤ n ∨ n < (c ++ new).length ∧ hit p ((c ++ new).take (n + 1))) ∧
      ∀ m, c.length ≤ m → p.minSize ≤ m → m < n → m < p.maxSize ∧ ¬ hit p ((c ++ new).take (m + 1))) := by
  obtain ⟨hl, hfp⟩ := hi
  generalize hd : c ++ new = d
  have hdl : d.length = c.length + new.length := by rw [← hd]; simp
  by_cases hge : d.length ≤ p.minSize
  · left
    refine ⟨{ st with l := new.length + st.l }, ?_, ⟨?_, ?_⟩, .inl hge⟩
    · simp [FastCdcState.push, hl, show new.length + c.length ≤ p.minSize by omega]
    · simp [hl, hdl]; omega
    · show st.fp = _
      rw [hfp, List.drop_of_length_le (by omega), List.drop_of_length_le (by omega)]
  · -- common part: the loops start at `gi`
    obtain ⟨skip, hskip⟩ : ∃ skip, skip = if c.length ≤ p.minSize then p.minSize - c.length else 0 := ⟨_, rfl⟩
    have hgi1 : p.minSize ≤ c.length + skip := by rw [hskip]; split <;> omega
    have hgi2 : c.length + skip ≤ d.length := by rw [hskip]; split <;> omega
    have hgi3 : ∀ m, c.length ≤ m → p.minSize ≤ m → c.length + skip ≤ m := by
      intro m h1 h2; rw [hskip]; split <;> omega
    have hdrop : ∀ k, d.drop (c.length + k) = new.drop k := by
      intro k; rw [← hd, List.drop_append]; simp
    have hfp' : st.fp = fpAt p d (c.length + skip) := by
      rw [hfp]
      unfold fpAt
      by_cases hc : c.length ≤ p.minSize
      · rw [if_pos hc] at hskip
        rw [List.drop_of_length_le hc, List.drop_of_length_le (by simp; omega)]
      · rw [if_neg hc] at hskip
        rw [hskip, Nat.add_zero, ← hd, List.take_left']
        rfl
    have hge' : ¬ new.length + c.length ≤ p.minSize := by omega
    rcases loop1_spec p d (new.drop skip) (c.length + skip) skip (hdrop skip) hgi2 hgi1 with
      ⟨n, h1, h2, h3, h4, h5, h6⟩ | ⟨g, h1, h2, h3, h4, h5, h6⟩
    · right
      refine ⟨skip + (n - (c.length + skip)), n, ?_, by omega, by omega, by omega, by omega, .inr ⟨h3, h5⟩, ?_⟩
      · unfold FastCdcState.push
        simp only [hl, hge', if_false, ← hskip, hfp', h1]
      · intro m hm1 hm2 hm3
        exact ⟨by omega, h6 m (hgi3 m hm1 hm2) hm3⟩
    · have hgd : new.drop (skip + (g - (c.length + skip))) = d.drop g := by
        rw [← hdrop]; congr 1; omega
      rcases loop2_spec p d (d.drop g) g (skip + (g - (c.length + skip))) rfl h3 (by omega) h4 with
        ⟨n, k1, k2, k3, k4, k6⟩ | ⟨g', i', k1, k2, k6⟩
      · right
        refine ⟨skip + (g - (c.length + skip)) + (n - g), n, ?_, by omega, by omega, by omega, by omega, k4, ?_⟩
        · unfold FastCdcState.push
          simp only [hl, hge', if_false, ← hskip, hfp', h1, hgd, k1]
        · intro m hm1 hm2 hm3
          by_cases hmg : m < g
          · refine ⟨?_, h6 m (hgi3 m hm1 hm2) hmg⟩
            have := hgi3 m hm1 hm2
            have := h5 (by omega)
            omega
          · exact k6 m (by omega) hm3
      · left
        refine ⟨{ l := new.length + c.length, fp := fpAt p d d.length }, ?_, ⟨?_, ?_⟩,
          .inr ⟨by omega, k2, ?_⟩⟩
        · unfold FastCdcState.push
          simp only [hl, hge', if_false, ← hskip, hfp', h1, hgd, k1]
        · simp only [hdl]; omega
        · simp [fpAt]
        · intro m hm1 hm2 hm3
          by_cases hmg : m < g
          · exact h6 m (hgi3 m hm1 hm2) hmg
          · exact k6 m (by omega) hm3

/-! ## `find_chunk_edge` -/

abbrev fceEdge (p : FastCdc) : Bytes → Prop :=
  fastFceEdge (lookup p.gear) p.minSize p.normalSize p.maxSize
abbrev byteEdge (p : FastCdc) : Bytes → Prop :=
  fastByteEdge (lookup p.gear) p.minSize p.normalSize p.maxSize
abbrev incrRule (p : FastCdc) : Rule := fastIncrRule (lookup p.gear) p.minSize p.normalSize p.maxSize

def fceSpec (p : FastCdc) (hnm : p.normalSize ≤ p.maxSize) :
    FceSpec (chunk p) (fun n => n ≠ p.maxSize) (FirstCut (fceEdge p)) where
  Inv st c k := StInv p st c ∧ NoEdge (fceEdge p) c ∧ (c.length ≤ p.minSize ∨ c.length < p.maxSize) ∧ k = 0
  init := ⟨stInv_default p, NoEdge.nil _, by simp, rfl⟩
  step := by
    rintro st c k ⟨hi, hno, hlen, rfl⟩ - new hg
    simp only [Nat.sub_zero, List.drop_length, List.nil_append, Nat.zero_add]
    have htl : ∀ m, m ≤ (c ++ new).length → ((c ++ new).take m).length = m := by
      intro m hm; simp at hm ⊢; omega
    have hold : ∀ m, 1 ≤ m → m ≤ c.length → ¬ fceEdge p ((c ++ new).take m) := by
      intro m h1 h2
      rw [List.take_append_of_le_length h2]
      exact hno m h1 h2
    rcases push_spec p hnm st c hi new with ⟨st', hp, hi', hcase⟩ | ⟨i, n, hp, hn, hle, hmin, hminl, hwhy, hearly⟩
    · have hno' : NoEdge (fceEdge p) (c ++ new) := by
        intro m h1 h2 he
        by_cases hm : m ≤ c.length
        · exact hold m h1 hm he
        · obtain ⟨e1, e2⟩ := he
          rw [htl m h2] at e1 e2
          rcases hcase with hc | ⟨hc1, hc2, hc3⟩
          · omega
          · rcases e2 with e2 | e2
            · omega
            · apply hc3 (m - 1) (by omega) (by omega) (by omega)
              rw [Nat.sub_add_cancel h1]; exact e2
      refine ⟨st', none, new.length, ?_, Nat.le_refl _, ⟨hi', hno', ?_, by omega⟩, hno'.not_firstCut⟩
      · simp [FastCdc.findChunkEdge, hp]
      · rcases hcase with hc | ⟨_, hc, _⟩
        · exact .inl hc
        · exact .inr hc
    · have hcl : (c ++ new).length = c.length + new.length := by simp
      have hnlt : n < (c ++ new).length := by
        rcases hwhy with h | h
        · by_contra hge
          have hne : n = (c ++ new).length := by omega
          -- the position is exactly `max`, excluded by the guard
          have : n ≤ p.maxSize := by
            by_contra hgt
            have hn1 := hearly (n - 1)
            rcases Nat.lt_or_ge (n - 1) c.length with h' | h'
            · rcases hlen with h'' | h''
              · omega
              · omega
            · rcases Nat.lt_or_ge (n - 1) p.minSize with h'' | h''
              · omega
              · have := (hn1 h' h'' (by omega)).1; omega
          omega
        · exact h.1
      refine ⟨FastCdcState.default, some (i + 1), i + 1, ?_, rfl, by omega,
        ⟨stInv_default p, NoEdge.nil _, by simp, trivial⟩, ?_⟩
      · simp [FastCdc.findChunkEdge, hp]
      · rw [show c.length + (i + 1) = n + 1 by omega]
        refine ⟨by omega, by omega, ⟨?_, ?_⟩, ?_⟩
        · rw [htl _ (by omega)]; omega
        · rw [htl _ (by omega)]
          rcases hwhy with h | h
          · left; omega
          · exact .inr h.2
        · intro m h1 h2 he
          by_cases hm : m ≤ c.length
          · exact hold m h1 hm he
          · obtain ⟨e1, e2⟩ := he
            rw [htl m (by omega)] at e1 e2
            have := hearly (m - 1) (by omega) (by omega) (by omega)
            rw [Nat.sub_add_cancel h1] at this
            rcases e2 with e2 | e2
            · omega
            · exact this.2 e2

/-- `find_chunk_edge` conforms as long as no buffer ends exactly `max` bytes after the last cut. -/
theorem fce_conforms (p : FastCdc) (hnm : p.normalSize ≤ p.maxSize) :
    FceConforms (chunk p) (fun prev _ e => e - prev ≠ p.maxSize) (EdgeRule (Local (fceEdge p))) :=
  (fceSpec p hnm).conforms

/-! ## `push` -/

def incrSpec (p : FastCdc) (hnm : p.normalSize ≤ p.maxSize) (hmm : p.minSize < p.maxSize) :
    IncrSpec (incr p) (incrRule p) where
  Inv st _ c := st.params = p ∧ StInv p st.state c ∧ c.length < p.maxSize ∧
    ∀ m, p.minSize ≤ m → m < c.length → ¬ hit p (c.take (m + 1))
  init := ⟨rfl, stInv_default p, by simp; omega, by simp⟩
  step := by
    rintro st h c ⟨hpar, hi, hlt, hno⟩ new
    have hold : ∀ m, p.minSize ≤ m → m < c.length → ¬ hit p ((c ++ new).take (m + 1)) := by
      intro m h1 h2
      rw [List.take_append_of_le_length (by omega)]
      exact hno m h1 h2
    have hcl : (c ++ new).length = c.length + new.length := by simp
    rcases push_spec p hnm st.state c hi new with ⟨st', hp, hi', hcase⟩ | ⟨i, n, hp, hn, hle, hmin, hminl, hwhy, hearly⟩
    · have hall : ∀ m, p.minSize ≤ m → m < (c ++ new).length → ¬ hit p ((c ++ new).take (m + 1)) := by
        intro m h1 h2
        by_cases hm : m < c.length
        · exact hold m h1 hm
        · rcases hcase with hc | ⟨_, _, hc⟩
          · omega
          · exact hc m (by omega) h1 h2
      have hmax : (c ++ new).length < p.maxSize := by
        rcases hcase with hc | ⟨_, hc, _⟩ <;> omega
      refine ⟨{ st with state := st' }, none, ?_, ⟨hpar, hi', hmax, hall⟩, ?_⟩
      · simp [FastCdcIncr.push, hpar, hp]
      · rintro n ⟨r1, r2, r3, r4, r5⟩
        rcases r4 with r4 | ⟨r4, r4'⟩
        · omega
        · exact hall n r1 r4 r4'
    · refine ⟨{ st with state := FastCdcState.default }, some i, ?_, hle,
        ⟨hpar, stInv_default p, by simp; omega, by simp⟩, ?_⟩
      · simp [FastCdcIncr.push, hpar, hp]
      · rw [← hn]
        have hnmax : n ≤ p.maxSize := by
          by_contra hgt
          have := (hearly (n - 1) (by omega) (by omega) (by omega)).1
          omega
        refine ⟨hmin, hnmax, by omega, ?_, ?_⟩
        · rcases hwhy with h' | h'
          · left; omega
          · exact .inr h'
        · intro m h1 h2
          by_cases hm : m < c.length
          · exact hold m h1 hm
          · exact (hearly m (by omega) h1 h2).2

theorem incr_conforms (p : FastCdc) (hnm : p.normalSize ≤ p.maxSize) (hmm : p.minSize < p.maxSize) :
    IncrConforms (incr p) (incrRule p) := (incrSpec p hnm hmm).conforms

def byteSpec (p : FastCdc) (hnm : p.normalSize ≤ p.maxSize) :
    ByteSpec (incr p) (EdgeRule (Local (byteEdge p))) where
  Inv st _ c := st.params = p ∧ StInv p st.state c ∧ NoEdge (byteEdge p) c
  init := ⟨rfl, stInv_default p, NoEdge.nil _⟩
  step := by
    rintro st h c ⟨hpar, hi, hno⟩ v
    have hcl : (c ++ [v]).length = c.length + 1 := by simp
    have hfull : (c ++ [v]).take (c.length + 1) = c ++ [v] := List.take_of_length_le (by simp)
    rcases push_spec p hnm st.state c hi [v] with ⟨st', hp, hi', hcase⟩ | ⟨i, n, hp, hn, hle, hmin, hminl, hwhy, hearly⟩
    · have hne : ¬ byteEdge p (c ++ [v]) := by
        rintro ⟨e1, e2⟩
        rw [hcl] at e1 e2
        rcases hcase with hc | ⟨hc1, hc2, hc3⟩
        · omega
        · rcases e2 with e2 | e2
          · omega
          · have := hc3 c.length (Nat.le_refl _) (by omega) (by omega)
            rw [hfull] at this
            exact this e2
      have hno' := hno.snoc hne
      refine ⟨{ st with state := st' }, none, ?_, ⟨hpar, hi', hno'⟩, hno'.not_firstCut⟩
      simp [FastCdcIncr.push, hpar, hp]
    · refine ⟨{ st with state := FastCdcState.default }, some i, ?_,
        ⟨hpar, stInv_default p, NoEdge.nil _⟩, ?_⟩
      · simp [FastCdcIncr.push, hpar, hp]
      · refine ⟨by omega, by omega, ?_, ?_⟩
        · show byteEdge p ((c ++ [v]).take (c.length + 1))
          rw [hfull]
          refine ⟨hminl, ?_⟩
          rw [hcl]
          rcases hwhy with h' | ⟨h1, h2⟩
          · simp at hle; left; omega
          · have : n = c.length := by omega
            rw [this, hfull] at h2
            exact .inr h2
        · intro m h1 h2
          show ¬ byteEdge p ((c ++ [v]).take m)
          rw [List.take_append_of_le_length (by omega)]
          exact hno m h1 (by omega)

theorem bytewise_conforms (p : FastCdc) (hnm : p.normalSize ≤ p.maxSize) :
    BytewiseConforms (incr p) (EdgeRule (Local (byteEdge p))) := (byteSpec p hnm).conforms

end HashRoll.FastCdc
