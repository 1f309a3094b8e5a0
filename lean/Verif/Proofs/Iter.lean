import Verif.Spec.Stream
import Verif.Proofs.Chunks
import Verif.Proofs.Conform
/-!
# Consequences of conformance: the iterators and the callers' loops
-/

namespace HashRoll.Spec

variable {rule : Rule}

/-! ## `IterSlices` -/

theorem iter_next_nil {C : ChunkIncr} (it : IterSlices C) (h : it.rem = []) : it.next = .ok (it, none) := by
  unfold IterSlices.next; simp [h]

theorem iter_next_none {C : ChunkIncr} (it : IterSlices C) (h : it.rem ≠ []) {ck : C.State}
    (hp : C.push it.chunker it.rem = .ok (ck, none)) : it.next = .ok (⟨[], ck⟩, some it.rem) := by
  unfold IterSlices.next; simp [h, hp]

theorem iter_next_some {C : ChunkIncr} (it : IterSlices C) (h : it.rem ≠ []) {ck : C.State} {l : Nat}
    (hp : C.push it.chunker it.rem = .ok (ck, some l)) (hl : l ≤ it.rem.length) :
    it.next = .ok (⟨it.rem.drop l, ck⟩, some (it.rem.take l)) := by
  unfold IterSlices.next; simp [h, hp, splitAt, hl]

theorem run_end {C : ChunkIncr} {it it' : IterSlices C} (n : Nat) (h : it.next = .ok (it', none)) :
    it.run (n + 1) = .ok ([], it', true) := by
  rw [IterSlices.run]; simp [h]

theorem run_step {C : ChunkIncr} {it it' it'' : IterSlices C} {v : Bytes} {vs : List Bytes} {b : Bool}
    (n : Nat) (h : it.next = .ok (it', some v)) (hr : it'.run n = .ok (vs, it'', b)) :
    it.run (n + 1) = .ok (v :: vs, it'', b) := by
  rw [IterSlices.run]; simp [h, hr]

/-- Safe chunkers: nothing is lost, from any reachable state, for any number of `next` calls. -/
theorem Safe.iter {C : ChunkIncr} (hs : Safe C) : ∀ (n : Nat) (it : IterSlices C), Reachable C it.chunker →
    ∃ vs it' b, it.run n = .ok (vs, it', b) ∧ Reachable C it'.chunker ∧ vs.flatten ++ it'.rem = it.rem ∧
      (b = true → it'.rem = []) := by
  intro n
  induction n with
  | zero => intro it hr; exact ⟨[], it, false, rfl, hr, by simp, by simp⟩
  | succ n ih =>
    intro it hr
    by_cases h : it.rem = []
    · exact ⟨[], it, true, run_end n (iter_next_nil it h), hr, by simp [h], fun _ => h⟩
    · obtain ⟨ck, r, hp, hle⟩ := hs _ hr it.rem
      have hr' := Reachable.push hr hp
      cases r with
      | none =>
        obtain ⟨vs, it', b, h1, h2, h3, h4⟩ := ih ⟨[], ck⟩ hr'
        exact ⟨_, it', b, run_step n (iter_next_none it h hp) h1, h2, by simp [h3], h4⟩
      | some l =>
        obtain ⟨vs, it', b, h1, h2, h3, h4⟩ := ih ⟨it.rem.drop l, ck⟩ hr'
        exact ⟨_, it', b, run_step n (iter_next_some it h hp (hle l rfl)) h1, h2, by simp [h3], h4⟩

/-- `iter_slices` yields the chunks of the rule, then the tail, then `None`. -/
theorem IncrConforms.iter {C : ChunkIncr} (hc : IncrConforms C rule) (hg : rule.Good) (hp : rule.Pos)
    {s : Bytes} : ∀ (n : Nat) (st : C.State) (pos : Nat) (cs : List Bytes), IncrRun C s st pos pos cs →
    s.length - pos < n → ∃ ck cs' r,
      IterSlices.run n ⟨s.drop pos, st⟩ = .ok (cs' ++ tailSlice r, ⟨[], ck⟩, true) ∧
      Chunked rule (s.take pos) (s.drop pos) cs' r := by
  intro n
  induction n with
  | zero => intro st pos cs _ h; omega
  | succ n ih =>
    intro st pos cs hr hn
    obtain ⟨_, hle, _⟩ := hc.chunks hg hr
    by_cases h : s.drop pos = []
    · refine ⟨st, [], [], ?_, ?_⟩
      · rw [h]; simpa [tailSlice] using run_end n (iter_next_nil (C := C) ⟨[], st⟩ rfl)
      · rw [h]
        refine .rem fun k hk => ?_
        have h1 := hp _ _ _ hk
        have h2 := hg.le hk
        simp at h2; omega
    · obtain ⟨ck, r, hpush, hm⟩ := hc _ _ _ _ _ hr s.length hle (Nat.le_refl _)
      have hlt : pos < s.length := by
        rcases Nat.lt_or_ge pos s.length with h' | h'
        · exact h'
        · exact absurd (List.drop_of_length_le h') h
      rw [sub_full] at hpush hm
      cases r with
      | none =>
        refine ⟨ck, [], s.drop pos, ?_, .rem hm⟩
        have h1 := iter_next_none (C := C) ⟨s.drop pos, st⟩ h hpush
        cases n with
        | zero => omega
        | succ n =>
          have h2 := run_end n (iter_next_nil (C := C) ⟨[], ck⟩ rfl)
          simpa [tailSlice, h] using run_step (n + 1) h1 h2
      | some i =>
        obtain ⟨k1, k2⟩ := hm
        have e1 : pos + i - pos = i := by omega
        rw [e1] at k2
        have hpos := hp _ _ _ k2
        have h1 := iter_next_some (C := C) ⟨s.drop pos, st⟩ h hpush (by simp; omega)
        have hr' := IncrRun.cut hr hle (Nat.le_refl _) (by rw [sub_full]; exact hpush)
        obtain ⟨ck', cs', r, h2, h3⟩ := ih ck (pos + i) _ hr' (by omega)
        refine ⟨ck', (s.drop pos).take i :: cs', r, ?_, ?_⟩
        · have e2 : (⟨(s.drop pos).drop i, ck⟩ : IterSlices C) = ⟨s.drop (pos + i), ck⟩ := by
            rw [List.drop_drop]
          rw [e2] at h1
          exact run_step n h1 h2
        · refine .cut k2 ?_
          rw [List.drop_drop]
          have e3 : s.take pos ++ (s.drop pos).take i = s.take (pos + i) := by
            rw [List.take_add]
          rw [e3]; exact h3

/-! ## `IterSlicesStrict` -/

theorem strict_next_none {C : ChunkIncr} (it : IterSlicesStrict C) {ck : C.State}
    (hp : C.push it.chunker it.rem = .ok (ck, none)) : it.next = .ok (⟨it.rem, ck⟩, none) := by
  unfold IterSlicesStrict.next; simp [hp]

theorem strict_next_some {C : ChunkIncr} (it : IterSlicesStrict C) {ck : C.State} {l : Nat}
    (hp : C.push it.chunker it.rem = .ok (ck, some l)) (hl : l ≤ it.rem.length) :
    it.next = .ok (⟨it.rem.drop l, ck⟩, some (it.rem.take l)) := by
  unfold IterSlicesStrict.next; simp [hp, splitAt, hl]

theorem strict_end {C : ChunkIncr} {it it' : IterSlicesStrict C} (n : Nat) (h : it.next = .ok (it', none)) :
    it.run (n + 1) = .ok ([], it', true) := by
  rw [IterSlicesStrict.run]; simp [h]

theorem strict_step {C : ChunkIncr} {it it' it'' : IterSlicesStrict C} {v : Bytes} {vs : List Bytes} {b : Bool}
    (n : Nat) (h : it.next = .ok (it', some v)) (hr : it'.run n = .ok (vs, it'', b)) :
    it.run (n + 1) = .ok (v :: vs, it'', b) := by
  rw [IterSlicesStrict.run]; simp [h, hr]

/-- `iter_slices_strict` yields the complete chunks and keeps the rest. -/
theorem IncrConforms.strict {C : ChunkIncr} (hc : IncrConforms C rule) (hg : rule.Good) (hp : rule.Pos)
    {s : Bytes} : ∀ (n : Nat) (st : C.State) (pos : Nat) (cs : List Bytes), IncrRun C s st pos pos cs →
    s.length - pos < n → ∃ ck cs' r,
      IterSlicesStrict.run n ⟨s.drop pos, st⟩ = .ok (cs', ⟨r, ck⟩, true) ∧
      Chunked rule (s.take pos) (s.drop pos) cs' r := by
  intro n
  induction n with
  | zero => intro st pos cs _ h; omega
  | succ n ih =>
    intro st pos cs hr hn
    obtain ⟨_, hle, _⟩ := hc.chunks hg hr
    obtain ⟨ck, r, hpush, hm⟩ := hc _ _ _ _ _ hr s.length hle (Nat.le_refl _)
    rw [sub_full] at hpush hm
    cases r with
    | none =>
      exact ⟨ck, [], s.drop pos, strict_end n (strict_next_none (C := C) ⟨s.drop pos, st⟩ hpush), .rem hm⟩
    | some i =>
      obtain ⟨k1, k2⟩ := hm
      have e1 : pos + i - pos = i := by omega
      rw [e1] at k2
      have hpos := hp _ _ _ k2
      have h1 := strict_next_some (C := C) ⟨s.drop pos, st⟩ hpush (by simp; omega)
      have hr' := IncrRun.cut hr hle (Nat.le_refl _) (by rw [sub_full]; exact hpush)
      obtain ⟨ck', cs', r, h2, h3⟩ := ih ck (pos + i) _ hr' (by omega)
      refine ⟨ck', (s.drop pos).take i :: cs', r, ?_, ?_⟩
      · have e2 : (⟨(s.drop pos).drop i, ck⟩ : IterSlicesStrict C) = ⟨s.drop (pos + i), ck⟩ := by
          rw [List.drop_drop]
        rw [e2] at h1
        exact strict_step n h1 h2
      · refine .cut k2 ?_
        rw [List.drop_drop]
        have e3 : s.take pos ++ (s.drop pos).take i = s.take (pos + i) := by
          rw [List.take_add]
        rw [e3]; exact h3

/-! ## where `Safe` comes from -/

theorem IncrSpec.safe {C : ChunkIncr} (S : IncrSpec C rule) : Safe C := by
  intro st hr
  have hinv : ∃ h c, S.Inv st h c := by
    induction hr with
    | init => exact ⟨_, _, S.init⟩
    | @push st data st' r _ hp ih =>
      obtain ⟨h, c, hi⟩ := ih
      obtain ⟨st2, r2, hp2, hm⟩ := S.step _ _ _ hi data
      rw [hp] at hp2
      cases hp2
      cases r with
      | none => exact ⟨_, _, hm.1⟩
      | some i => exact ⟨_, _, hm.2.1⟩
  obtain ⟨h, c, hi⟩ := hinv
  intro data
  obtain ⟨st2, r2, hp2, hm⟩ := S.step _ _ _ hi data
  refine ⟨st2, r2, hp2, ?_⟩
  intro i hi'
  cases r2 with
  | none => cases hi'
  | some j => cases hi'; exact hm.1

/-- A property of states kept by `push` that gives success and range. -/
theorem Safe.of_inv {C : ChunkIncr} (Inv : C.State → Prop) (h0 : Inv C.init)
    (h : ∀ st, Inv st → ∀ data, ∃ st' r, C.push st data = .ok (st', r) ∧ Inv st' ∧ ∀ i ∈ r, i ≤ data.length) :
    Safe C := by
  intro st hr
  have hinv : Inv st := by
    induction hr with
    | init => exact h0
    | @push st data st' r _ hp ih =>
      obtain ⟨st2, r2, hp2, hm, _⟩ := h _ ih data
      rw [hp] at hp2
      cases hp2
      exact hm
  intro data
  obtain ⟨st2, r2, hp2, _, hm⟩ := h _ hinv data
  exact ⟨st2, r2, hp2, hm⟩

/-! ## one-byte pushes -/

theorem bytewise_nil (C : ChunkIncr) (st : C.State) (i l : Nat) : C.bytewise st i l [] = .ok [] := by
  rw [ChunkIncr.bytewise]

theorem bytewise_none (C : ChunkIncr) {st st' : C.State} (i l : Nat) {v : UInt8} (vs : Bytes)
    (h : C.push st [v] = .ok (st', none)) : C.bytewise st i l (v :: vs) = C.bytewise st' (i + 1) l vs := by
  rw [ChunkIncr.bytewise]; simp [h]

theorem bytewise_some (C : ChunkIncr) {st st' : C.State} (i l : Nat) {v : UInt8} (vs : Bytes) {k : Nat}
    (h : C.push st [v] = .ok (st', some k)) {ls : List Nat} (h' : C.bytewise st' (i + 1) (i + 1) vs = .ok ls) :
    C.bytewise st i l (v :: vs) = .ok ((i + 1 - l) :: ls) := by
  rw [ChunkIncr.bytewise]; simp [h, h']

/-- The byte-at-a-time test harness records the lengths of the chunks of the rule. -/
theorem BytewiseConforms.splits {C : ChunkIncr} (hc : BytewiseConforms C rule) (hg : rule.Good)
    (hpos : rule.Pos) {s : Bytes} : ∀ (n : Nat) (st : C.State) (pos prev : Nat) (cs : List Bytes), ByteRun C s st pos prev cs →
    s.length - pos = n → (∀ k, ¬ rule (s.take prev) (sub s prev pos) k) → ∃ cs' r,
      C.bytewise st pos prev (s.drop pos) = .ok (cs'.map List.length) ∧
      Chunked rule (s.take prev) (s.drop prev) cs' r := by
  intro n
  induction n with
  | zero =>
    intro st pos prev cs hr hn hno
    have hd : s.drop pos = [] := List.drop_of_length_le (by omega)
    refine ⟨[], s.drop prev, by rw [hd]; exact bytewise_nil C st pos prev, .rem ?_⟩
    rwa [drop_eq_sub s (by omega)] at hno
  | succ n ih =>
    intro st pos prev cs hr hn hno
    obtain ⟨hpp, _, _⟩ := hc.chunks hg hr
    have hlt : pos < s.length := by omega
    obtain ⟨st', r, hp, hm⟩ := hc _ _ _ _ _ hr hlt
    have hd : s.drop pos = s[pos] :: s.drop (pos + 1) := List.drop_eq_getElem_cons hlt
    have hp' := hp
    rw [sub_one s hlt] at hp'
    cases r with
    | none =>
      obtain ⟨cs', r, h1, h2⟩ := ih st' (pos + 1) prev cs (.more hr hlt hp) (by omega) hm
      exact ⟨cs', r, by rw [hd, bytewise_none C pos prev _ hp', h1], h2⟩
    | some k =>
      have k3 : rule (s.take prev) (sub s prev (pos + 1)) (pos + 1 - prev) := hm
      obtain ⟨cs', r, h1, h2⟩ := ih st' (pos + 1) (pos + 1) _ (.cut hr hlt hp) (by omega)
        (by
          rw [sub_self]
          intro k hk
          have h1 := hpos _ _ _ hk
          have h2 := hg.le hk
          simp at h2; omega)
      refine ⟨sub s prev (pos + 1) :: cs', r, ?_, ?_⟩
      · rw [hd, bytewise_some C pos prev _ hp' h1]
        simp [sub_length, show min (pos + 1) s.length = pos + 1 by omega]
      · have hmono := hg.mono (s.drop (pos + 1)) k3
        rw [sub_append_drop s (by omega) (by omega)] at hmono
        have htk : (s.drop prev).take (pos + 1 - prev) = sub s prev (pos + 1) := by
          rw [← sub_full, sub_take_of_le s (b := pos + 1) (by omega) _ (by omega)]
        rw [← htk]
        refine .cut hmono ?_
        rw [htk, take_append_sub s (by omega), List.drop_drop]
        have : prev + (pos + 1 - prev) = pos + 1 := by omega
        rwa [this]

theorem BytewiseConforms.all {C : ChunkIncr} (hc : BytewiseConforms C rule) (hg : rule.Good)
    (hpos : rule.Pos) (s : Bytes) : ∃ cs r, C.bytewise C.init 0 0 s = .ok (cs.map List.length) ∧
      Chunked rule [] s cs r := by
  have := hc.splits hg hpos (s := s) _ C.init 0 0 [] .start rfl (by
    rw [sub_self]
    intro k hk
    have h1 := hpos _ _ _ hk
    have h2 := hg.le hk
    simp at h2; omega)
  simpa using this

/-! ## the documented `find_chunk_edge` loop -/

theorem FceConforms.bounds {A : Chunk} {G : Nat → Nat → Nat → Prop} (hc : FceConforms A G rule) {s : Bytes}
    {st : A.State} {base need prev : Nat} {cs : List Bytes} (hr : FceRun A G s st base need prev cs) :
    base ≤ need ∧ prev ≤ need ∧ need ≤ s.length := by
  induction hr with
  | start => simp
  | @cut st base need prev cs e st' c d hr h1 h2 hg' hf ih =>
    obtain ⟨st2, r2, d2, hf2, hd, hm⟩ := hc _ _ _ _ _ _ hr e h1 h2 hg'
    rw [hf] at hf2
    cases hf2
    obtain ⟨k1, k2, k3⟩ := hm
    omega
  | @more st base need prev cs e st' d hr h1 h2 hg' hf ih =>
    obtain ⟨st2, r2, d2, hf2, hd, hm⟩ := hc _ _ _ _ _ _ hr e h1 h2 hg'
    rw [hf] at hf2
    cases hf2
    omega

theorem chunked_cons (hg : rule.Good) {s : Bytes} {prev p e : Nat} (h1 : prev ≤ p) (h2 : p ≤ e)
    (h3 : e ≤ s.length) (hr : rule (s.take prev) (sub s prev e) (p - prev)) {cs : List Bytes} {r : Bytes}
    (hc : Chunked rule (s.take p) (s.drop p) cs r) :
    Chunked rule (s.take prev) (s.drop prev) (sub s prev p :: cs) r := by
  have hmono := hg.mono (s.drop e) hr
  rw [sub_append_drop s (by omega) h3] at hmono
  have htk : (s.drop prev).take (p - prev) = sub s prev p := by
    rw [← sub_full, sub_take_of_le s (b := p) (by omega) _ (by omega)]
  rw [← htk]
  refine .cut hmono ?_
  rw [htk, take_append_sub s h1, List.drop_drop]
  have : prev + (p - prev) = p := by omega
  rwa [this]

theorem doc_none {A : Chunk} {orig data : Bytes} {n : Nat} {ss ss' : A.State} {prev d : Nat}
    (h : A.fce ss data = .ok (ss', none, d)) (hd : d ≤ data.length) :
    A.docLoop orig (n + 1) ss data prev = .ok ([], some (data.drop d)) := by
  rw [Chunk.docLoop]; simp [h, slice, hd]

theorem doc_some {A : Chunk} {orig data : Bytes} {n : Nat} {ss ss' : A.State} {prev c d g : Nat}
    {cs : List Bytes} {r : Option Bytes}
    (h : A.fce ss data = .ok (ss', some c, d)) (hd : d ≤ data.length)
    (hg : c + orig.length - data.length = g) (hg1 : prev ≤ g) (hg2 : g ≤ orig.length)
    (hrec : A.docLoop orig n ss' (data.drop d) g = .ok (cs, r)) :
    A.docLoop orig (n + 1) ss data prev = .ok (sub orig prev g :: cs, r) := by
  rw [Chunk.docLoop]; simp [h, slice, hd, hg, hg1, hg2, hrec, sub]

/-- The documented loop prints exactly the chunks of the rule. -/
theorem FceConforms.doc {A : Chunk} (hc : FceConforms A Any rule) (hdc : DiscardsToCut A Any)
    (hg : rule.Good) (hpos : rule.Pos) {s : Bytes} : ∀ (n : Nat) (st : A.State) (base need prev : Nat) (cs : List Bytes),
    FceRun A Any s st base need prev cs → prev ≤ base → s.length - prev < n → ∃ cs' r rest,
      A.docLoop s n st (s.drop base) prev = .ok (cs', some rest) ∧ rest <:+ r ∧
      Chunked rule (s.take prev) (s.drop prev) cs' r := by
  intro n
  induction n with
  | zero => intro st base need prev cs _ _ h; omega
  | succ n ih =>
    intro st base need prev cs hr hpb hn
    obtain ⟨b1, b2, b3⟩ := hc.bounds hr
    obtain ⟨st', r, d, hf, hd, hm⟩ := hc _ _ _ _ _ _ hr s.length b3 (Nat.le_refl _) trivial
    have hf' := hf
    rw [sub_full] at hf'
    cases r with
    | none =>
      refine ⟨[], s.drop prev, _, doc_none hf' (by simp; omega), ?_, .rem (by rw [← sub_full]; exact hm)⟩
      rw [List.drop_drop]; exact List.drop_suffix_drop_left _ (by omega)
    | some c =>
      obtain ⟨k1, k2, k3⟩ := hm
      have h1 := hpos _ _ _ k3
      obtain ⟨cs', r, rest, h2, h3, h4⟩ := ih st' (base + d) _ (base + c) _
        (.cut hr b3 (Nat.le_refl _) trivial hf)
        (by have := hdc _ _ _ _ _ _ hr _ b3 (Nat.le_refl _) trivial _ _ _ hf; omega) (by omega)
      refine ⟨sub s prev (base + c) :: cs', r, rest, ?_, h3, chunked_cons hg k1 k2 (Nat.le_refl _) k3 h4⟩
      exact doc_some hf' (by simp; omega) (by simp; omega) k1 k2 (by rw [List.drop_drop]; exact h2)

/-! ## `splits_fce` -/

theorem FceSpec.discards {A : Chunk} {g : Nat → Prop} {rule : Bytes → Nat → Prop} (S : FceSpec A g rule) :
    DiscardsToCut A (fun prev _ e => g (e - prev)) := by
  intro s st base need prev cs hr e h4 h5 hg st' c d hf
  obtain ⟨h1, h2, h3, hi⟩ := S.run hr
  have hlen : (sub s prev need).length = need - prev := by rw [sub_length]; omega
  have hlen2 : (sub s need e).length = e - need := by rw [sub_length]; omega
  have := S.step st (sub s prev need) (need - base) hi (by omega) (sub s need e)
    (by rw [hlen, hlen2, show need - prev + (e - need) = e - prev by omega]; exact hg)
  rw [hlen, hlen2, sub_append s (by omega) h4] at this
  have e1 : need - prev - (need - base) = base - prev := by omega
  rw [e1, sub_drop] at this
  have e2 : prev + (base - prev) = base := by omega
  rw [e2, sub_append s h2 h4] at this
  obtain ⟨st2, r, d2, hf2, hm⟩ := this
  rw [hf] at hf2
  cases hf2
  exact hm.1

theorem splits_done (A : Chunk) (buf : Bytes) (sizes : List Nat) (n : Nat) (ss : A.State) (k l pbs : Nat) :
    A.splitsFce buf sizes (n + 1) ss k l buf.length pbs = .ok (some []) := by
  rw [Chunk.splitsFce]; simp

theorem splits_eq {A : Chunk} {buf : Bytes} {sizes : List Nat} {n : Nat} {ss : A.State} {k l cd pbs sz e : Nat}
    (h0 : cd < buf.length) (hk : sizes[k % sizes.length]? = some sz)
    (he : e = cd + min (sz + pbs) (buf.length - cd)) :
    A.splitsFce buf sizes (n + 1) ss k l cd pbs =
      (match A.fce ss (sub buf cd e) with
       | .error e => .error e
       | .ok (ss', some c, d) =>
         if cd + c < l then .error .overflow else
           match A.splitsFce buf sizes n ss' (k + 1) (cd + c) (cd + d) 0 with
           | .error e => .error e
           | .ok none => .ok none
           | .ok (some ls) => .ok (some ((cd + c - l) :: ls))
       | .ok (ss', none, d) =>
         if e = buf.length then .ok (some [])
         else A.splitsFce buf sizes n ss' (k + 1) l (cd + d) (e - cd)) := by
  rw [Chunk.splitsFce]
  have e1 : ¬ buf.length = cd := by omega
  have e2 : ¬ buf.length < cd := by omega
  have e3 : min (sz + pbs) (buf.length - cd) + cd ≤ buf.length := by omega
  have e4 : cd ≤ min (sz + pbs) (buf.length - cd) + cd := by omega
  have e5 : slice buf cd (min (sz + pbs) (buf.length - cd) + cd) = .ok (sub buf cd e) := by
    unfold slice
    rw [if_pos ⟨e4, e3⟩, he, Nat.add_comm cd]; rfl
  have e6 : e - cd = min (sz + pbs) (buf.length - cd) := by omega
  have e7 : (min (sz + pbs) (buf.length - cd) = buf.length - cd) = (e = buf.length) := by
    apply propext; omega
  simp only [e1, e2, if_false, index, hk, e5, e6, e7]
  cases h : A.fce ss (sub buf cd e) with
  | error _ => rfl
  | ok x =>
    obtain ⟨st', r, d⟩ := x
    cases r with
    | none => simp only
    | some c =>
      simp only
      split
      · rfl
      · cases h2 : A.splitsFce buf sizes n st' (k + 1) (cd + c) (cd + d) 0 with
        | error _ => rfl
        | ok y => cases y <;> rfl

/-- The split list of `tests/cuts_qc.rs` is the list of chunk lengths, whatever the buffer sizes. -/
theorem FceConforms.splits {A : Chunk} (hc : FceConforms A Any rule) (hd : DiscardsToCut A Any)
    (hg : rule.Good) (hpos : rule.Pos) {s : Bytes} {sizes : List Nat} (hsz : sizes ≠ [])
    (hsz' : ∀ z ∈ sizes, 0 < z) :
    ∀ (n : Nat) (st : A.State) (base need prev k pbs : Nat) (cs : List Bytes),
    FceRun A Any s st base need prev cs → need ≤ base + pbs → (base = s.length → prev = s.length) →
    (s.length - prev) * (s.length + 1) + (s.length - need) < n → ∃ cs' r,
      A.splitsFce s sizes n st k prev base pbs = .ok (some (cs'.map List.length)) ∧
      Chunked rule (s.take prev) (s.drop prev) cs' r := by
  intro n
  induction n with
  | zero => intro st base need prev k pbs cs _ _ _ h; omega
  | succ n ih =>
    intro st base need prev k pbs cs hr hpb hend hn
    obtain ⟨b1, b2, b3⟩ := hc.bounds hr
    by_cases hb : base = s.length
    · refine ⟨[], s.drop prev, by rw [hb]; exact splits_done A s sizes n st k prev _, .rem ?_⟩
      rw [hend hb]
      intro j hj
      have h1 := hpos _ _ _ hj
      have h2 := hg.le hj
      simp at h2; omega
    · have hkl : k % sizes.length < sizes.length :=
        Nat.mod_lt _ (List.length_pos_iff.2 hsz)
      have hk : sizes[k % sizes.length]? = some sizes[k % sizes.length] := List.getElem?_eq_getElem hkl
      have hz := hsz' _ (List.getElem_mem hkl)
      generalize sizes[k % sizes.length] = sz at hk hz
      obtain ⟨e, he⟩ : ∃ e, e = base + min (sz + pbs) (s.length - base) := ⟨_, rfl⟩
      have hne : need ≤ e := by omega
      have hes : e ≤ s.length := by omega
      obtain ⟨st', r, d, hf, hde, hm⟩ := hc _ _ _ _ _ _ hr e hne hes trivial
      cases r with
      | none =>
        by_cases hee : e = s.length
        · refine ⟨[], s.drop prev, ?_, .rem ?_⟩
          · rw [splits_eq (by omega) hk he]; simp only [hf]; rw [if_pos hee]; rfl
          · rw [hee, sub_full] at hm; exact hm
        · obtain ⟨cs', r, h1, h2⟩ := ih st' (base + d) e prev (k + 1) (e - base) cs (.more hr hne hes trivial hf)
            (by omega) (by omega) (by omega)
          refine ⟨cs', r, ?_, h2⟩
          rw [splits_eq (by omega) hk he]; simp only [hf]; rw [if_neg hee, h1]
      | some c =>
        obtain ⟨k1, k2, k3⟩ := hm
        have h1 := hpos _ _ _ k3
        have hdc : d = c := hd _ _ _ _ _ _ hr e hne hes trivial _ _ _ hf
        subst hdc
        have hmul : (s.length - (base + d)) * (s.length + 1) + (s.length + 1) ≤
            (s.length - prev) * (s.length + 1) := by
          rw [← Nat.succ_mul]
          exact Nat.mul_le_mul_right _ (by omega)
        obtain ⟨cs', r, h2, h3⟩ := ih st' (base + d) _ (base + d) (k + 1) 0 _ (.cut hr hne hes trivial hf)
          (by omega) (fun h => h) (by omega)
        refine ⟨sub s prev (base + d) :: cs', r, ?_, chunked_cons hg k1 k2 hes k3 h3⟩
        rw [splits_eq (by omega) hk he]; simp only [hf]; rw [if_neg (by omega)]
        simp only [h2]
        simp [sub_length, show min (base + d) s.length = base + d by omega]

end HashRoll.Spec
