import Verif.Proofs.Lists
import Verif.Spec.Edges
/-!
# Consequences of conformance: chunk sequences
-/

namespace HashRoll.Spec

/-! ## rules -/

theorem EdgeRule.good (e : Bytes → Bytes → Prop) : (EdgeRule e).Good where
  le := fun h => h.2.1
  det := fun h h' => FirstCut.det h h'
  mono := fun more h => FirstCut.mono more h

theorem EdgeRule.pos (e : Bytes → Bytes → Prop) : (EdgeRule e).Pos := fun _ _ _ h => h.1

theorem EdgeRule.fresh (e : Bytes → Prop) : (EdgeRule (Local e)).Fresh := fun _ _ _ _ h => h

theorem BeforeRule.good (e : Bytes → Bytes → Prop) : (BeforeRule e).Good where
  le := fun h => Nat.le_of_succ_le h.2.1
  det := fun h h' => Nat.succ.inj (FirstCut.det h h')
  mono := fun more h => FirstCut.mono more h

theorem BeforeRule.fresh (e : Bytes → Prop) : (BeforeRule (Local e)).Fresh := fun _ _ _ _ h => h

theorem fastIncrRule.good (G : UInt8 → BitVec 64) (min normal max : Nat) :
    (fastIncrRule G min normal max).Good where
  le := fun h => h.2.2.1
  det := by
    intro _ data n m ⟨a1, a2, a3, a4, a5⟩ ⟨b1, b2, b3, b4, b5⟩
    rcases Nat.lt_trichotomy n m with h | h | h
    · rcases a4 with a4 | ⟨_, a4⟩
      · omega
      · exact absurd a4 (b5 n a1 h)
    · exact h
    · rcases b4 with b4 | ⟨_, b4⟩
      · omega
      · exact absurd b4 (a5 m b1 h)
  mono := by
    intro _ data n more ⟨a1, a2, a3, a4, a5⟩
    refine ⟨a1, a2, by simp; omega, ?_, ?_⟩
    · rcases a4 with a4 | ⟨h, a4⟩
      · exact .inl a4
      · refine .inr ⟨by simp; omega, ?_⟩
        rwa [List.take_append_of_le_length (by omega)]
    · intro m h1 h2
      rw [List.take_append_of_le_length (by omega)]
      exact a5 m h1 h2

theorem fastIncrRule.pos (G : UInt8 → BitVec 64) {min : Nat} (normal max : Nat) (h : 1 ≤ min) :
    (fastIncrRule G min normal max).Pos := fun _ _ _ hr => Nat.le_trans h hr.1

theorem fastIncrRule.fresh (G : UInt8 → BitVec 64) (min normal max : Nat) :
    (fastIncrRule G min normal max).Fresh := fun _ _ _ _ h => h

/-! ## chunk sequences -/

variable {rule : Rule}

theorem Chunked.flatten {hist data : Bytes} {cs : List Bytes} {r : Bytes}
    (h : Chunked rule hist data cs r) : cs.flatten ++ r = data := by
  induction h with
  | rem _ => simp
  | cut _ _ ih => simp [ih]

theorem Chunked.det (hg : rule.Good) {hist data : Bytes} {cs cs' : List Bytes} {r r' : Bytes}
    (h : Chunked rule hist data cs r) (h' : Chunked rule hist data cs' r') : cs = cs' ∧ r = r' := by
  induction h generalizing cs' r' with
  | rem hn =>
    cases h' with
    | rem _ => exact ⟨rfl, rfl⟩
    | cut hr _ => exact absurd hr (hn _)
  | cut hr _ ih =>
    cases h' with
    | rem hn => exact absurd hr (hn _)
    | cut hr' h2 =>
      have := hg.det hr hr'
      subst this
      obtain ⟨e1, e2⟩ := ih h2
      exact ⟨by rw [e1], e2⟩

theorem Chunked.exists (hg : rule.Good) (hp : rule.Pos) (hist data : Bytes) :
    ∃ cs r, Chunked rule hist data cs r := by
  classical
  generalize hn : data.length = n
  induction n using Nat.strongRecOn generalizing hist data with
  | _ n ih =>
    by_cases h : ∃ k, rule hist data k
    · obtain ⟨k, hk⟩ := h
      have h1 := hp _ _ _ hk
      have h2 := hg.le hk
      obtain ⟨cs, r, hc⟩ := ih (data.drop k).length (by simp; omega) (hist ++ data.take k) (data.drop k) rfl
      exact ⟨_, _, .cut hk hc⟩
    · exact ⟨[], data, .rem fun k hk => h ⟨k, hk⟩⟩

/-- Appending data does not change the chunks already found. -/
theorem Chunked.append (hg : rule.Good) {hist data : Bytes} {cs cs' : List Bytes} {r r' more : Bytes}
    (h : Chunked rule hist data cs r) (h' : Chunked rule (hist ++ cs.flatten) (r ++ more) cs' r') :
    Chunked rule hist (data ++ more) (cs ++ cs') r' := by
  induction h with
  | rem _ => simpa using h'
  | @cut hist data n cs r hr _ ih =>
    have hle := hg.le hr
    have h1 : (data ++ more).take n = data.take n := List.take_append_of_le_length hle
    have h2 : (data ++ more).drop n = data.drop n ++ more := List.drop_append_of_le_length hle
    rw [List.cons_append, ← h1]
    refine .cut (hg.mono more hr) ?_
    rw [h1, h2]
    apply ih
    simpa [List.append_assoc] using h'

/-- Conversely, cutting a chunk sequence at a chunk boundary. -/
theorem Chunked.split {hist data : Bytes} {cs cs' : List Bytes} {r : Bytes}
    (h : Chunked rule hist data (cs ++ cs') r) :
    Chunked rule (hist ++ cs.flatten) (data.drop cs.flatten.length) cs' r := by
  induction cs generalizing hist data with
  | nil => simpa using h
  | cons c cs ih =>
    cases h with
    | @cut _ _ n _ _ hr h2 =>
      have := ih h2
      rw [List.append_assoc, List.drop_drop] at this
      have hn : (data.take n ++ cs.flatten).length = min n data.length + cs.flatten.length := by simp
      rw [List.flatten_cons, hn]
      by_cases hle : n ≤ data.length
      · rw [Nat.min_eq_left hle]; exact this
      · rw [List.drop_of_length_le (by omega)] at this ⊢
        exact this

/-- A rule that does not look back gives the same chunks after any history. -/
theorem Chunked.fresh (hf : rule.Fresh) {h h' data : Bytes} {cs : List Bytes} {r : Bytes}
    (hc : Chunked rule h data cs r) : Chunked rule h' data cs r := by
  induction hc generalizing h' with
  | rem hn => exact .rem fun n hr => hn n (hf _ _ _ _ hr)
  | cut hr _ ih => exact .cut (hf _ _ _ _ hr) ih

theorem Chunked.ne_nil (hg : rule.Good) (hp : rule.Pos) {hist data : Bytes} {cs : List Bytes} {r : Bytes}
    (h : Chunked rule hist data cs r) : ∀ c ∈ cs, c ≠ [] := by
  induction h with
  | rem _ => simp
  | @cut hist data n cs r hr _ ih =>
    intro c hc
    rcases List.mem_cons.1 hc with rfl | hc
    · intro h0
      have := congrArg List.length h0
      have h1 := hp _ _ _ hr
      have h2 := hg.le hr
      simp only [List.length_take, List.length_nil] at this; omega
    · exact ih c hc

/-- Every complete chunk is a chunk of the rule. -/
theorem Chunked.mem {hist data : Bytes} {cs : List Bytes} {r : Bytes} (h : Chunked rule hist data cs r) :
    ∀ c ∈ cs, ∃ h' d' n, rule h' d' n ∧ c = d'.take n := by
  induction h with
  | rem _ => simp
  | cut hr _ ih =>
    intro c hc
    rcases List.mem_cons.1 hc with rfl | hc
    · exact ⟨_, _, _, hr, rfl⟩
    · exact ih c hc

theorem Chunked.rem_no {hist data : Bytes} {cs : List Bytes} {r : Bytes} (h : Chunked rule hist data cs r) :
    ∀ n, ¬ rule (hist ++ cs.flatten) r n := by
  induction h with
  | rem hn => simpa using hn
  | cut _ _ ih => simpa [List.append_assoc] using ih

theorem Chunked.of_iff {rule' : Rule} (hiff : ∀ h d n, rule h d n ↔ rule' h d n) {hist data : Bytes}
    {cs : List Bytes} {r : Bytes} (h : Chunked rule hist data cs r) : Chunked rule' hist data cs r := by
  induction h with
  | rem hn => exact .rem fun n hr => hn n ((hiff _ _ _).2 hr)
  | cut hr _ ih => exact .cut ((hiff _ _ _).1 hr) ih

/-! ## runs -/

theorem sub_append_drop (s : Bytes) {a e : Nat} (h : a ≤ e) (he : e ≤ s.length) :
    Spec.sub s a e ++ s.drop e = s.drop a := by
  rw [← sub_full s e, sub_append s h he, sub_full]

/-- The chunks reported by a history of `find_chunk_edge` calls are the first chunks of the stream. -/
theorem FceConforms.chunks {A : Chunk} {G : Nat → Nat → Nat → Prop} (hc : FceConforms A G rule)
    (hg : rule.Good) {s : Bytes} {st : A.State} {base need prev : Nat} {cs : List Bytes}
    (hr : FceRun A G s st base need prev cs) :
    prev ≤ s.length ∧ ∀ cs' r, Chunked rule (s.take prev) (s.drop prev) cs' r → Chunked rule [] s (cs ++ cs') r := by
  induction hr with
  | start => exact ⟨Nat.zero_le _, by intro cs' r h; simpa using h⟩
  | @cut st base need prev cs e st' c d hr h1 h2 hg' hf ih =>
    obtain ⟨st2, r2, d2, hf2, _, hm⟩ := hc _ _ _ _ _ _ hr e h1 h2 hg'
    rw [hf] at hf2
    cases hf2
    obtain ⟨k1, k2, k3⟩ := hm
    refine ⟨by omega, ?_⟩
    intro cs' r h
    have hmono := hg.mono (s.drop e) k3
    rw [sub_append_drop s (by omega) h2] at hmono
    have := ih.2 (Spec.sub s prev (base + c) :: cs') r (by
      have htk : (s.drop prev).take (base + c - prev) = Spec.sub s prev (base + c) := by
        rw [← sub_full, sub_take_of_le s (b := base + c) (by omega) _ (by omega)]
      rw [← htk]
      refine .cut hmono ?_
      rw [htk, take_append_sub s k1, List.drop_drop]
      have : prev + (base + c - prev) = base + c := by omega
      rwa [this])
    simpa using this
  | more _ _ _ _ _ ih => exact ih

/-- … and when a call that saw the whole stream finds nothing, they are all of them. -/
theorem FceConforms.complete {A : Chunk} {G : Nat → Nat → Nat → Prop} (hc : FceConforms A G rule)
    (hg : rule.Good) {s : Bytes} {st st' : A.State} {base need prev d : Nat} {cs : List Bytes}
    (hr : FceRun A G s st base need prev cs) (hn : need ≤ s.length) (hG : G prev need s.length)
    (hf : A.fce st (s.drop base) = .ok (st', none, d)) :
    Chunked rule [] s cs (s.drop prev) := by
  obtain ⟨st2, r2, d2, hf2, _, hm⟩ := hc _ _ _ _ _ _ hr s.length hn (Nat.le_refl _) hG
  rw [sub_full, hf] at hf2
  cases hf2
  have := (hc.chunks hg hr).2 [] (s.drop prev) (.rem (by rw [← sub_full]; exact hm))
  simpa using this

theorem IncrConforms.chunks {C : ChunkIncr} (hc : IncrConforms C rule) (hg : rule.Good) {s : Bytes}
    {st : C.State} {pos prev : Nat} {cs : List Bytes} (hr : IncrRun C s st pos prev cs) :
    prev ≤ pos ∧ pos ≤ s.length ∧
      ∀ cs' r, Chunked rule (s.take prev) (s.drop prev) cs' r → Chunked rule [] s (cs ++ cs') r := by
  induction hr with
  | start => exact ⟨Nat.le_refl _, Nat.zero_le _, by intro cs' r h; simpa using h⟩
  | @cut st pos prev cs e st' i hr h1 h2 hf ih =>
    obtain ⟨st2, r2, hf2, hm⟩ := hc _ _ _ _ _ hr e h1 h2
    rw [hf] at hf2
    cases hf2
    obtain ⟨k2, k3⟩ := hm
    obtain ⟨ih1, ih2, ih3⟩ := ih
    refine ⟨Nat.le_refl _, by omega, ?_⟩
    intro cs' r h
    have hmono := hg.mono (s.drop e) k3
    rw [sub_append_drop s (by omega) h2] at hmono
    have := ih3 (Spec.sub s prev (pos + i) :: cs') r (by
      have htk : (s.drop prev).take (pos + i - prev) = Spec.sub s prev (pos + i) := by
        rw [← sub_full, sub_take_of_le s (b := pos + i) (by omega) _ (by omega)]
      rw [← htk]
      refine .cut hmono ?_
      rw [htk, take_append_sub s (by omega), List.drop_drop]
      have : prev + (pos + i - prev) = pos + i := by omega
      rwa [this])
    simpa using this
  | @more st pos prev cs e st' hr h1 h2 hf ih =>
    obtain ⟨ih1, ih2, ih3⟩ := ih
    exact ⟨by omega, h2, ih3⟩

theorem BytewiseConforms.chunks {C : ChunkIncr} (hc : BytewiseConforms C rule) (hg : rule.Good) {s : Bytes}
    {st : C.State} {pos prev : Nat} {cs : List Bytes} (hr : ByteRun C s st pos prev cs) :
    prev ≤ pos ∧ pos ≤ s.length ∧
      ∀ cs' r, Chunked rule (s.take prev) (s.drop prev) cs' r → Chunked rule [] s (cs ++ cs') r := by
  induction hr with
  | start => exact ⟨Nat.le_refl _, Nat.zero_le _, by intro cs' r h; simpa using h⟩
  | @cut st pos prev cs st' i hr h1 hf ih =>
    obtain ⟨st2, r2, hf2, hm⟩ := hc _ _ _ _ _ hr h1
    rw [hf] at hf2
    cases hf2
    have k3 : rule (s.take prev) (Spec.sub s prev (pos + 1)) (pos + 1 - prev) := hm
    obtain ⟨ih1, ih2, ih3⟩ := ih
    refine ⟨Nat.le_refl _, by omega, ?_⟩
    intro cs' r h
    have hmono := hg.mono (s.drop (pos + 1)) k3
    rw [sub_append_drop s (by omega) (by omega)] at hmono
    have := ih3 (Spec.sub s prev (pos + 1) :: cs') r (by
      have htk : (s.drop prev).take (pos + 1 - prev) = Spec.sub s prev (pos + 1) := by
        rw [← sub_full, sub_take_of_le s (b := pos + 1) (by omega) _ (by omega)]
      rw [← htk]
      refine .cut hmono ?_
      rw [htk, take_append_sub s (by omega), List.drop_drop]
      have : prev + (pos + 1 - prev) = pos + 1 := by omega
      rwa [this])
    simpa using this
  | @more st pos prev cs st' hr h1 hf ih =>
    obtain ⟨ih1, ih2, ih3⟩ := ih
    exact ⟨by omega, h1, ih3⟩

end HashRoll.Spec
