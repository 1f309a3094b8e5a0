import Verif.Spec.Stream
import Verif.Proofs.Chunks
/-!
# Statements about all schedules of calls

`FceConforms`, `IncrConforms` (Spec/Rule.lean) say that the *next* call is as the rule demands. Here they are
combined with what this means for the whole sequence of chunks.
-/

namespace HashRoll.Spec

/-- C11-C20. `find_chunk_edge` implements `rule` for the schedules allowed by `G`: every call is as the rule
demands; the chunks reported so far are the first chunks of the stream; if a call that saw the stream to its
end found nothing, they are all of them. -/
def FceFollows (A : Chunk) (G : (prev need e : Nat) → Prop) (rule : Rule) : Prop :=
  FceConforms A G rule ∧
  (∀ s st base need prev cs, FceRun A G s st base need prev cs →
    cs.flatten = s.take prev ∧ ∀ all r, Chunked rule [] s all r → cs <+: all) ∧
  (∀ s st base need prev cs st' d, FceRun A G s st base need prev cs → need ≤ s.length → G prev need s.length →
    A.fce st (s.drop base) = .ok (st', none, d) → Chunked rule [] s cs (s.drop prev))

/-- C21-C29. `push` implements `rule` for every slicing, likewise. -/
def IncrFollows (C : ChunkIncr) (rule : Rule) : Prop :=
  IncrConforms C rule ∧
  (∀ s st pos prev cs, IncrRun C s st pos prev cs →
    cs.flatten = s.take prev ∧ ∀ all r, Chunked rule [] s all r → cs <+: all) ∧
  (∀ s st pos prev cs st', IncrRun C s st pos prev cs →
    C.push st (s.drop pos) = .ok (st', none) → Chunked rule [] s cs (s.drop prev))

/-- One-byte pushes implement `rule`, likewise. -/
def BytewiseFollows (C : ChunkIncr) (rule : Rule) : Prop :=
  BytewiseConforms C rule ∧
  (∀ s st pos prev cs, ByteRun C s st pos prev cs →
    cs.flatten = s.take prev ∧ ∀ all r, Chunked rule [] s all r → cs <+: all)

variable {A : Chunk} {C : ChunkIncr} {G : Nat → Nat → Nat → Prop} {rule : Rule}

theorem Chunked.prefix_of_ext (hg : rule.Good) (hp : rule.Pos) {s : Bytes} {prev : Nat} {cs : List Bytes}
    (h : ∀ cs' r, Chunked rule (s.take prev) (s.drop prev) cs' r → Chunked rule [] s (cs ++ cs') r)
    (all : List Bytes) (r : Bytes) (ha : Chunked rule [] s all r) : cs <+: all := by
  obtain ⟨cs', r', h1⟩ := Chunked.exists hg hp (s.take prev) (s.drop prev)
  exact ⟨cs', ((h cs' r' h1).det hg ha).1⟩

theorem Chunked.flatten_of_ext (hg : rule.Good) (hp : rule.Pos) {s : Bytes} {prev : Nat} {cs : List Bytes}
    (h : ∀ cs' r, Chunked rule (s.take prev) (s.drop prev) cs' r → Chunked rule [] s (cs ++ cs') r) :
    cs.flatten = s.take prev := by
  obtain ⟨cs', r', h1⟩ := Chunked.exists hg hp (s.take prev) (s.drop prev)
  have h2 := (h cs' r' h1).flatten
  have h3 := h1.flatten
  rw [List.flatten_append, List.append_assoc, h3] at h2
  exact List.append_cancel_right (h2.trans (List.take_append_drop prev s).symm)

theorem FceConforms.follows (hc : FceConforms A G rule) (hg : rule.Good) (hp : rule.Pos) :
    FceFollows A G rule :=
  ⟨hc, fun _ _ _ _ _ _ hr => ⟨Chunked.flatten_of_ext hg hp (hc.chunks hg hr).2,
    Chunked.prefix_of_ext hg hp (hc.chunks hg hr).2⟩,
   fun _ _ _ _ _ _ _ _ hr hn hG hf => hc.complete hg hr hn hG hf⟩

theorem IncrConforms.run_prefix (hc : IncrConforms C rule) (hg : rule.Good) {s : Bytes} {st : C.State}
    {pos prev : Nat} {cs : List Bytes} (hr : IncrRun C s st pos prev cs) :
    cs.flatten = s.take prev ∧ ∀ all r, Chunked rule [] s all r →
      ∃ cs', all = cs ++ cs' ∧ Chunked rule (s.take prev) (s.drop prev) cs' r := by
  induction hr with
  | start => exact ⟨rfl, fun all r h => ⟨all, rfl, h⟩⟩
  | @cut st pos prev cs e st' i hr h1 h2 hf ih =>
    obtain ⟨ih1, ih2⟩ := ih
    obtain ⟨hle, hle', _⟩ := hc.chunks hg hr
    obtain ⟨st2, r2, hf2, hm⟩ := hc _ _ _ _ _ hr e h1 h2
    rw [hf] at hf2
    cases hf2
    obtain ⟨k2, k3⟩ := hm
    have hmono := hg.mono (s.drop e) k3
    rw [sub_append_drop s (by omega) h2] at hmono
    have htk : (s.drop prev).take (pos + i - prev) = Spec.sub s prev (pos + i) := by
      rw [← sub_full, sub_take_of_le s (b := pos + i) (by omega) _ (by omega)]
    refine ⟨?_, ?_⟩
    · simp [ih1, take_append_sub s (show prev ≤ pos + i by omega)]
    · intro all r ha
      obtain ⟨cs', rfl, h3⟩ := ih2 all r ha
      cases h3 with
      | rem hno => exact absurd hmono (hno _)
      | @cut _ _ n cs'' _ hr' h4 =>
        have hn := hg.det hmono hr'
        subst hn
        refine ⟨cs'', by simp [htk], ?_⟩
        rw [htk, take_append_sub s (by omega), List.drop_drop,
          show prev + (pos + i - prev) = pos + i by omega] at h4
        exact h4
  | more _ _ _ _ ih => exact ih

theorem IncrConforms.follows (hc : IncrConforms C rule) (hg : rule.Good) : IncrFollows C rule := by
  refine ⟨hc, fun _ _ _ _ _ hr => ⟨(hc.run_prefix hg hr).1, ?_⟩, ?_⟩
  · intro all r h
    obtain ⟨cs', h1, _⟩ := (hc.run_prefix hg hr).2 all r h
    exact ⟨cs', h1.symm⟩
  intro s st pos prev cs st' hr hf
  obtain ⟨h1, h2, h3⟩ := hc.chunks hg hr
  obtain ⟨st2, r, hf2, hm⟩ := hc _ _ _ _ _ hr s.length h2 (Nat.le_refl _)
  rw [sub_full, hf] at hf2
  cases hf2
  have := h3 [] (s.drop prev) (.rem (by rw [← sub_full]; exact hm))
  simpa using this

/-- Every chunk of a run is a chunk of the rule. -/
theorem IncrConforms.run_mem (hc : IncrConforms C rule) (hg : rule.Good) {s : Bytes} {st : C.State}
    {pos prev : Nat} {cs : List Bytes} (hr : IncrRun C s st pos prev cs) :
    ∀ c ∈ cs, ∃ h d n, rule h d n ∧ c = d.take n := by
  induction hr with
  | start => simp
  | @cut st pos prev cs e st' i hr h1 h2 hf ih =>
    intro c hc'
    rcases List.mem_append.1 hc' with h | h
    · exact ih c h
    · obtain ⟨hle, hle', _⟩ := hc.chunks hg hr
      obtain ⟨st2, r2, hf2, hm⟩ := hc _ _ _ _ _ hr e h1 h2
      rw [hf] at hf2
      cases hf2
      obtain ⟨k2, k3⟩ := hm
      refine ⟨_, _, _, k3, ?_⟩
      rw [List.mem_singleton.1 h, sub_take_of_le s (b := pos + i) (by omega) _ (by omega)]
  | more _ _ _ _ ih => exact ih

theorem FceConforms.run_mem (hc : FceConforms A G rule) (hg : rule.Good) {s : Bytes} {st : A.State}
    {base need prev : Nat} {cs : List Bytes} (hr : FceRun A G s st base need prev cs) :
    ∀ c ∈ cs, ∃ h d n, rule h d n ∧ c = d.take n := by
  induction hr with
  | start => simp
  | @cut st base need prev cs e st' i d hr h1 h2 hG hf ih =>
    intro c hc'
    rcases List.mem_append.1 hc' with h | h
    · exact ih c h
    · obtain ⟨st2, r2, d2, hf2, _, hm⟩ := hc _ _ _ _ _ _ hr e h1 h2 hG
      rw [hf] at hf2
      cases hf2
      obtain ⟨k1, k2, k3⟩ := hm
      refine ⟨_, _, _, k3, ?_⟩
      rw [List.mem_singleton.1 h, sub_take_of_le s (b := base + i) (by omega) _ (by omega)]
  | more _ _ _ _ _ ih => exact ih

/-- Between two pushes: either nothing was consumed since the last cut, or what was has no cut. -/
theorem IncrConforms.run_pending (hc : IncrConforms C rule) {s : Bytes} {st : C.State}
    {pos prev : Nat} {cs : List Bytes} (hr : IncrRun C s st pos prev cs) :
    pos = prev ∨ ∀ n, ¬ rule (s.take prev) (Spec.sub s prev pos) n := by
  cases hr with
  | start => exact .inl rfl
  | cut => exact .inl rfl
  | more hr h1 h2 hf =>
    obtain ⟨st2, r2, hf2, hm⟩ := hc _ _ _ _ _ hr _ h1 h2
    rw [hf] at hf2
    cases hf2
    exact .inr hm

/-- Between two calls of `find_chunk_edge`: either the last call found a cut, or what was presented since the last
cut has none. -/
theorem FceConforms.run_pending (hc : FceConforms A G rule) {s : Bytes} {st : A.State}
    {base need prev : Nat} {cs : List Bytes} (hr : FceRun A G s st base need prev cs) :
    need = max base prev ∨ ∀ n, ¬ rule (s.take prev) (Spec.sub s prev need) n := by
  cases hr with
  | start => exact .inl rfl
  | cut => exact .inl rfl
  | more hr h1 h2 hG hf =>
    obtain ⟨st2, r2, d2, hf2, _, hm⟩ := hc _ _ _ _ _ _ hr _ h1 h2 hG
    rw [hf] at hf2
    cases hf2
    exact .inr hm

theorem BytewiseConforms.follows (hc : BytewiseConforms C rule) (hg : rule.Good) (hp : rule.Pos) :
    BytewiseFollows C rule :=
  ⟨hc, fun _ _ _ _ _ hr => ⟨Chunked.flatten_of_ext hg hp (hc.chunks hg hr).2.2,
    Chunked.prefix_of_ext hg hp (hc.chunks hg hr).2.2⟩⟩

end HashRoll.Spec
