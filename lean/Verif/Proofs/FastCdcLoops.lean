import Verif.Proofs.FastCdc
import Verif.Proofs.Iter
/-!
# The documented loop and `splits_fce` on FastCdc, including the out-of-range cut
-/

namespace HashRoll.FastCdc

open Spec

/-- what is known of the search state between two calls: `c` are the bytes since the last cut -/
def FInv (p : FastCdc) (st : FastCdcState) (c : Bytes) : Prop :=
  StInv p st c ∧ NoEdge (fceEdge p) c ∧ (c.length ≤ p.minSize ∨ c.length < p.maxSize)

theorem finv_default (p : FastCdc) : FInv p FastCdcState.default [] :=
  ⟨stInv_default p, NoEdge.nil _, by simp⟩

/-- One call of `find_chunk_edge`: no cut, the rule's cut, or the cut one past the end. -/
theorem fce_step (p : FastCdc) (hnm : p.normalSize ≤ p.maxSize) (hmm : p.minSize < p.maxSize)
    {st : FastCdcState} {c : Bytes} (hi : FInv p st c) (new : Bytes) :
    (∃ st', p.findChunkEdge st new = .ok (st', none, new.length) ∧ FInv p st' (c ++ new) ∧
      (c ++ new).length ≠ p.maxSize ∧ ∀ n, ¬ FirstCut (fceEdge p) (c ++ new) n) ∨
    (∃ i, p.findChunkEdge st new = .ok (FastCdcState.default, some (i + 1), i + 1) ∧ i + 1 ≤ new.length ∧
      FirstCut (fceEdge p) (c ++ new) (c.length + (i + 1))) ∨
    (p.findChunkEdge st new = .ok (FastCdcState.default, some (new.length + 1), new.length + 1) ∧
      (c ++ new).length = p.maxSize ∧ ∀ n, ¬ FirstCut (fceEdge p) (c ++ new) n) := by
  by_cases hlen : c.length + new.length = p.maxSize
  · have hcl : (c ++ new).length = c.length + new.length := by simp
    have htl : ∀ m, m ≤ (c ++ new).length → ((c ++ new).take m).length = m := by
      intro m hm; simp at hm ⊢; omega
    have hold : ∀ m, 1 ≤ m → m ≤ c.length → ¬ fceEdge p ((c ++ new).take m) := by
      intro m h1 h2
      rw [List.take_append_of_le_length h2]
      exact hi.2.1 m h1 h2
    rcases push_spec p hnm st c hi.1 new with ⟨st', hp, hi', hcase⟩ | ⟨i, n, hp, hn, hle, hmin, hminl, hwhy, hearly⟩
    · omega
    · have hearly' : ∀ m, 1 ≤ m → m < n + 1 → m ≤ (c ++ new).length → ¬ fceEdge p ((c ++ new).take m) := by
        intro m h1 h2 h3 he
        by_cases hm : m ≤ c.length
        · exact hold m h1 hm he
        · obtain ⟨e1, e2⟩ := he
          rw [htl m h3] at e1 e2
          have := hearly (m - 1) (by omega) (by omega) (by omega)
          rw [Nat.sub_add_cancel h1] at this
          rcases e2 with e2 | e2
          · omega
          · exact this.2 e2
      have hne : p.findChunkEdge st new = .ok (FastCdcState.default, some (i + 1), i + 1) := by
        simp [FastCdc.findChunkEdge, hp]
      rcases Nat.lt_or_ge i new.length with hlt | hge
      · right; left
        refine ⟨i, hne, by omega, by omega, by omega, ?_, ?_⟩
        · have : n < (c ++ new).length ∧ hit p ((c ++ new).take (n + 1)) := by
            rcases hwhy with h | h
            · omega
            · exact h
          rw [show c.length + (i + 1) = n + 1 by omega]
          exact ⟨by rw [htl _ (by omega)]; omega, .inr this.2⟩
        · intro m h1 h2
          exact hearly' m h1 (by omega) (by omega)
      · right; right
        have : i = new.length := by omega
        subst this
        refine ⟨hne, by omega, ?_⟩
        rintro m ⟨h1, h2, h3, -⟩
        exact hearly' m h1 (by omega) h2 h3
  · have := (fceSpec p hnm).step st c 0 ⟨hi.1, hi.2.1, hi.2.2, rfl⟩ (Nat.zero_le _) new hlen
    simp only [Nat.sub_zero, List.drop_length, List.nil_append, Nat.zero_add] at this
    obtain ⟨st', r, d, hf, hm⟩ := this
    have hf : p.findChunkEdge st new = .ok (st', r, d) := hf
    rcases push_spec p hnm st c hi.1 new with ⟨st2, hp, -, -⟩ | ⟨i, n, hp, -⟩
    · have h2 : p.findChunkEdge st new = .ok (st2, none, new.length) := by simp [FastCdc.findChunkEdge, hp]
      rw [hf] at h2
      cases h2
      left
      exact ⟨st', hf, ⟨hm.2.1.1, hm.2.1.2.1, hm.2.1.2.2.1⟩, by simpa using hlen, hm.2.2⟩
    · have h2 : p.findChunkEdge st new = .ok (FastCdcState.default, some (i + 1), i + 1) := by
        simp [FastCdc.findChunkEdge, hp]
      rw [hf] at h2
      cases h2
      right; left
      exact ⟨i, hf, hm.2.1, hm.2.2.2⟩

/-- `find_chunk_edge` rule as a `Rule` -/
abbrev fceRule (p : FastCdc) : Rule := EdgeRule (Local (fceEdge p))

/-- a remainder of length `max` that has no cut gets one as soon as a byte follows -/
theorem firstCut_succ (p : FastCdc) (hmm : p.minSize < p.maxSize) {d : Bytes} (hl : p.maxSize < d.length)
    (hno : ∀ n, ¬ FirstCut (fceEdge p) (d.take p.maxSize) n) : FirstCut (fceEdge p) d (p.maxSize + 1) := by
  have hne : ∀ m, 1 ≤ m → m ≤ p.maxSize → ¬ fceEdge p (d.take m) := by
    intro m
    induction m using Nat.strongRecOn with
    | _ m ih =>
      intro h1 h2 he
      apply hno m
      refine ⟨h1, by simp; omega, ?_, ?_⟩
      · rwa [List.take_take, Nat.min_eq_left h2]
      · intro k k1 k2
        rw [List.take_take, Nat.min_eq_left (by omega)]
        exact ih k k2 k1 (by omega)
  refine ⟨by omega, by omega, ⟨?_, .inl ?_⟩, fun m h1 h2 => hne m h1 (by omega)⟩
  · rw [List.length_take, Nat.min_eq_left (by omega)]; omega
  · rw [List.length_take, Nat.min_eq_left (by omega)]; omega

theorem doc_error {A : Chunk} {orig data : Bytes} {n : Nat} {ss ss' : A.State} {prev c d : Nat}
    (h : A.fce ss data = .ok (ss', some c, d)) (hle : data.length ≤ orig.length) (hc : data.length < c) :
    A.docLoop orig (n + 1) ss data prev = .error .sliceIndex := by
  rw [Chunk.docLoop]
  have : ¬ c + orig.length - data.length ≤ orig.length := by omega
  simp [h, slice, this]

theorem doc_rec_error {A : Chunk} {orig data : Bytes} {n : Nat} {ss ss' : A.State} {prev c d g : Nat} {x : Panic}
    (h : A.fce ss data = .ok (ss', some c, d)) (hd : d ≤ data.length)
    (hg : c + orig.length - data.length = g) (hg1 : prev ≤ g) (hg2 : g ≤ orig.length)
    (hrec : A.docLoop orig n ss' (data.drop d) g = .error x) :
    A.docLoop orig (n + 1) ss data prev = .error x := by
  rw [Chunk.docLoop]; simp [h, slice, hd, hg, hg1, hg2, hrec]

/-- the documented loop on FastCdc -/
theorem doc_exact (p : FastCdc) (hnm : p.normalSize ≤ p.maxSize) (hmm : p.minSize < p.maxSize) (s : Bytes) :
    ∀ (n prev : Nat), prev ≤ s.length → s.length - prev < n → ∃ cs r,
      Chunked (fceRule p) (s.take prev) (s.drop prev) cs r ∧
      (chunk p).docLoop s n FastCdcState.default (s.drop prev) prev =
        if r.length = p.maxSize then .error .sliceIndex else .ok (cs, some []) := by
  intro n
  induction n with
  | zero => intro prev _ h; omega
  | succ n ih =>
    intro prev hp hn
    have hst := fce_step p hnm hmm (finv_default p) (s.drop prev)
    simp only [List.nil_append, List.length_nil, Nat.zero_add] at hst
    rcases hst with ⟨st', hf, -, hl, hno⟩ | ⟨i, hf, hle, hcut⟩ | ⟨hf, hl, hno⟩
    · refine ⟨[], s.drop prev, .rem hno, ?_⟩
      rw [if_neg hl, doc_none (A := chunk p) hf (Nat.le_refl _),
        List.drop_eq_nil_of_le (Nat.le_refl _)]
    · have hle' : prev + (i + 1) ≤ s.length := by simp at hle; omega
      obtain ⟨cs, r, h1, h2⟩ := ih (prev + (i + 1)) hle' (by omega)
      have hch := chunked_cons (EdgeRule.good _) (s := s) (prev := prev) (p := prev + (i + 1)) (e := s.length)
        (rule := fceRule p) (by omega) hle' (Nat.le_refl _)
        (by rw [sub_full, show prev + (i + 1) - prev = i + 1 by omega]; exact hcut) h1
      refine ⟨_, r, hch, ?_⟩
      by_cases hr : r.length = p.maxSize
      · rw [if_pos hr] at h2 ⊢
        exact doc_rec_error (A := chunk p) hf hle (by simp; omega) (by omega) hle' (by rw [List.drop_drop]; exact h2)
      · rw [if_neg hr] at h2 ⊢
        exact doc_some (A := chunk p) hf hle (by simp; omega) (by omega) hle' (by rw [List.drop_drop]; exact h2)
    · refine ⟨[], s.drop prev, .rem hno, ?_⟩
      rw [if_pos hl]
      exact doc_error (A := chunk p) hf (by simp) (by omega)

/-- `splits_fce` on FastCdc -/
theorem splits_exact (p : FastCdc) (hnm : p.normalSize ≤ p.maxSize) (hmm : p.minSize < p.maxSize) (s : Bytes)
    {sizes : List Nat} (hsz : sizes ≠ []) (hsz' : ∀ z ∈ sizes, 0 < z) :
    ∀ (n : Nat) (st : FastCdcState) (base prev k pbs : Nat), prev ≤ base → base ≤ s.length →
      FInv p st (Spec.sub s prev base) → (base = s.length → prev = base) →
      (s.length - prev) * (s.length + 1) + (s.length - base) < n → ∃ cs r,
      Chunked (fceRule p) (s.take prev) (s.drop prev) cs r ∧
      (chunk p).splitsFce s sizes n st k prev base pbs =
        if r.length = p.maxSize then .error .overflow else .ok (some (cs.map List.length)) := by
  intro n
  induction n with
  | zero => intro st base prev k pbs _ _ _ _ h; omega
  | succ n ih =>
    intro st base prev k pbs hpb hbs hinv hend hn
    by_cases hb : base = s.length
    · have hp : prev = s.length := by rw [hend hb, hb]
      refine ⟨[], s.drop prev, .rem ?_, ?_⟩
      · rintro j ⟨h1, h2, -⟩
        simp at h2; omega
      · rw [if_neg (by simp; omega), hb]; exact splits_done (chunk p) s sizes n st k prev _
    · have hkl : k % sizes.length < sizes.length := Nat.mod_lt _ (List.length_pos_iff.2 hsz)
      have hk : sizes[k % sizes.length]? = some sizes[k % sizes.length] := List.getElem?_eq_getElem hkl
      have hz := hsz' _ (List.getElem_mem hkl)
      generalize sizes[k % sizes.length] = sz at hk hz
      obtain ⟨e, he⟩ : ∃ e, e = base + min (sz + pbs) (s.length - base) := ⟨_, rfl⟩
      have hes : e ≤ s.length := by omega
      have hbe : base < e := by omega
      have hlb : (Spec.sub s base e).length = e - base := by rw [sub_length]; omega
      have hlc : (Spec.sub s prev base).length = base - prev := by rw [sub_length]; omega
      have hlf : (Spec.sub s prev e).length = e - prev := by rw [sub_length]; omega
      have hst := fce_step p hnm hmm hinv (Spec.sub s base e)
      rw [sub_append s hpb (by omega), hlb, hlc, hlf] at hst
      rcases hst with ⟨st', hf, hinv', hl, hno⟩ | ⟨i, hf, hle, hcut⟩ | ⟨hf, hl, hno⟩
      · rw [splits_eq (by omega) hk he]; simp only [hf]
        by_cases hee : e = s.length
        · refine ⟨[], s.drop prev, .rem ?_, ?_⟩
          · rw [hee, sub_full] at hno; exact hno
          · rw [if_pos hee, if_neg (by simp; omega)]; rfl
        · rw [if_neg hee, show base + (e - base) = e by omega]
          exact ih st' e prev (k + 1) (e - base) (by omega) hes hinv' (by omega) (by omega)
      · rw [splits_eq (by omega) hk he]; simp only [hf]
        have hmul : (s.length - (base + (i + 1))) * (s.length + 1) + (s.length + 1) ≤
            (s.length - prev) * (s.length + 1) := by
          rw [← Nat.succ_mul]
          exact Nat.mul_le_mul_right _ (by omega)
        obtain ⟨cs, r, h1, h2⟩ := ih FastCdcState.default (base + (i + 1)) (base + (i + 1)) (k + 1) 0
          (Nat.le_refl _) (by omega) (by rw [sub_self]; exact finv_default p) (fun _ => rfl) (by omega)
        have hch := chunked_cons (EdgeRule.good _) (s := s) (prev := prev) (p := base + (i + 1)) (e := e)
          (rule := fceRule p) (by omega) (by omega) hes
          (by rw [show base + (i + 1) - prev = base - prev + (i + 1) by omega]; exact hcut) h1
        refine ⟨_, r, hch, ?_⟩
        rw [if_neg (by omega), h2]
        by_cases hr : r.length = p.maxSize
        · rw [if_pos hr, if_pos hr]
        · rw [if_neg hr, if_neg hr]
          simp only [List.map_cons]
          rw [sub_length]
          congr 3
          omega
      · rw [splits_eq (by omega) hk he]; simp only [hf]
        rw [if_neg (by omega), show base + (e - base + 1) = e + 1 by omega]
        by_cases hee : e = s.length
        · refine ⟨[], s.drop prev, .rem ?_, ?_⟩
          · rw [hee, sub_full] at hno; exact hno
          · rw [if_pos (by simp; omega)]
            cases n with
            | zero => exfalso; have := Nat.mul_pos (show 0 < s.length - prev by omega) (show 0 < s.length + 1 by omega); omega
            | succ n =>
              rw [Chunk.splitsFce]
              have hkl : (k + 1) % sizes.length < sizes.length := Nat.mod_lt _ (List.length_pos_iff.2 hsz)
              have hk : sizes[(k + 1) % sizes.length]? = some sizes[(k + 1) % sizes.length] :=
                List.getElem?_eq_getElem hkl
              simp only [index, hk]
              rw [if_neg (by omega), if_pos (by omega)]
        · have hmul : (s.length - (e + 1)) * (s.length + 1) + (s.length + 1) ≤
              (s.length - prev) * (s.length + 1) := by
            rw [← Nat.succ_mul]
            exact Nat.mul_le_mul_right _ (by omega)
          obtain ⟨cs, r, h1, h2⟩ := ih FastCdcState.default (e + 1) (e + 1) (k + 1) 0
            (Nat.le_refl _) (by omega) (by rw [sub_self]; exact finv_default p) (fun _ => rfl) (by omega)
          have hcut : FirstCut (fceEdge p) (s.drop prev) (p.maxSize + 1) := by
            apply firstCut_succ p hmm (by simp; omega)
            have : (s.drop prev).take p.maxSize = Spec.sub s prev e := by
              rw [← hl, ← sub_full, sub_take_of_le s (b := e) (by omega) _ (by omega)]
            rw [this]; exact hno
          have hch := chunked_cons (EdgeRule.good _) (s := s) (prev := prev) (p := e + 1) (e := s.length)
            (rule := fceRule p) (by omega) (by omega) (Nat.le_refl _)
            (by rw [sub_full, show e + 1 - prev = p.maxSize + 1 by omega]; exact hcut) h1
          refine ⟨_, r, hch, ?_⟩
          rw [h2]
          by_cases hr : r.length = p.maxSize
          · rw [if_pos hr, if_pos hr]
          · rw [if_neg hr, if_neg hr]
            simp only [List.map_cons]
            rw [sub_length]
            congr 3
            omega

end HashRoll.FastCdc
