import Verif.Props.Recover
import Verif.Props.Loops
/-!
# C85: chunks put together again

A store keeps chunks and puts streams together from them, perhaps in another order, with some left out or used twice. Is
such a stream cut into the chunks it was put together from? For the chunkers that start anew after a cut and cut after the
byte that matches: yes, so their chunks are a prefix code. The chunkers that look at the byte after the chunk or at what came
before it do not have this property.
-/

namespace HashRoll.Spec

/-- The documented loop prints `c` as a chunk of some stream. -/
def DocChunk (A : Chunk) (c : Bytes) : Prop :=
  ∃ (data : Bytes) (n : Nat) (cs : List Bytes) (r : Bytes), data.length < n ∧
    A.docLoop data n A.init data 0 = .ok (cs, some r) ∧ c ∈ cs

def StrictChunk (C : ChunkIncr) (c : Bytes) : Prop :=
  ∃ (data : Bytes) (n : Nat) (cs : List Bytes) (it : IterSlicesStrict C), data.length < n ∧
    (C.iterSlicesStrict C.init data).run n = .ok (cs, it, true) ∧ c ∈ cs

/-- C85. Chunks of any streams, in any order, before any stream: the documented loop prints these chunks and then those of the
stream. -/
def DocCode (A : Chunk) : Prop :=
  ∀ (l : List Bytes) (t : Bytes) (n : Nat), (∀ c ∈ l, DocChunk A c) → l.flatten.length + t.length < n →
    ∀ ds r, A.docLoop t n A.init t 0 = .ok (ds, some r) →
      ∃ r', A.docLoop (l.flatten ++ t) n A.init (l.flatten ++ t) 0 = .ok (l ++ ds, some r')

def StrictCode (C : ChunkIncr) : Prop :=
  ∀ (l : List Bytes) (t : Bytes) (n : Nat), (∀ c ∈ l, StrictChunk C c) → l.flatten.length + t.length < n →
    ∀ ds it, (C.iterSlicesStrict C.init t).run n = .ok (ds, it, true) →
      ∃ it', (C.iterSlicesStrict C.init (l.flatten ++ t)).run n = .ok (l ++ ds, it', true) ∧ it'.takeRem.2 = it.takeRem.2

/-- No chunk is a proper prefix of another. -/
def DocPrefixFree (A : Chunk) : Prop := ∀ c c', DocChunk A c → DocChunk A c' → c <+: c' → c = c'

def StrictPrefixFree (C : ChunkIncr) : Prop := ∀ c c', StrictChunk C c → StrictChunk C c' → c <+: c' → c = c'

variable {A : Chunk} {C : ChunkIncr} {e : Bytes → Prop}

theorem firstCut_take {d : Bytes} {n : Nat} (h : FirstCut e d n) : FirstCut e (d.take n) (d.take n).length := by
  obtain ⟨h1, h2, h3, h4⟩ := h
  have hl : (d.take n).length = n := by rw [List.length_take]; omega
  rw [hl]
  refine ⟨h1, by rw [hl], by rwa [List.take_take, Nat.min_self], ?_⟩
  intro m m1 m2
  rw [List.take_take, Nat.min_eq_left (by omega)]
  exact h4 m m1 m2

theorem Chunked.own {hist data : Bytes} {cs : List Bytes} {r : Bytes} (h : Chunked (EdgeRule (Local e)) hist data cs r) :
    ∀ c ∈ cs, FirstCut e c c.length := by
  intro c hc
  obtain ⟨h', d', n, hr, rfl⟩ := h.mem c hc
  exact firstCut_take hr

theorem chunked_concat {l : List Bytes} (hl : ∀ c ∈ l, FirstCut e c c.length) {hist t : Bytes} {ds : List Bytes} {r : Bytes}
    (h : Chunked (EdgeRule (Local e)) (hist ++ l.flatten) t ds r) :
    Chunked (EdgeRule (Local e)) hist (l.flatten ++ t) (l ++ ds) r := by
  induction l generalizing hist with
  | nil => simpa using h
  | cons c l ih =>
    have h1 : FirstCut e (c ++ (l.flatten ++ t)) c.length := (hl c List.mem_cons_self).mono _
    have e1 : (c ++ (l.flatten ++ t)).take c.length = c := by simp
    have e2 : (c ++ (l.flatten ++ t)).drop c.length = l.flatten ++ t := by simp
    have := Chunked.cut (rule := EdgeRule (Local e)) (hist := hist) h1 (cs := l ++ ds) (r := r) (by
      rw [e1, e2]
      refine ih (fun x hx => hl x (List.mem_cons_of_mem _ hx)) ?_
      rwa [List.append_assoc, ← List.flatten_cons])
    rw [e1] at this
    rwa [List.flatten_cons, List.append_assoc, List.cons_append]

theorem prefixFree_of {c c' : Bytes} (h : FirstCut e c c.length) (h' : FirstCut e c' c'.length) (hp : c <+: c') : c = c' := by
  obtain ⟨t, rfl⟩ := hp
  have := (h.mono t).det h'
  rw [List.length_append] at this
  have : t = [] := List.length_eq_zero_iff.1 (by omega)
  rw [this, List.append_nil]

theorem docChunk_own (hd : DocLoopChunks A (EdgeRule (Local e))) {c : Bytes} (h : DocChunk A c) : FirstCut e c c.length := by
  obtain ⟨data, n, cs, r, hn, h1, hc⟩ := h
  obtain ⟨cs', r', rest, h2, h3, -⟩ := hd data n hn
  rw [h1] at h2
  cases h2
  exact h3.own c hc

theorem docCode (hd : DocLoopChunks A (EdgeRule (Local e))) : DocCode A ∧ DocPrefixFree A := by
  constructor
  · intro l t n hl hn ds r ht
    obtain ⟨ds', r1, rest, h1, h2, -⟩ := hd t n (by omega)
    rw [ht] at h1
    cases h1
    obtain ⟨cs, r2, rest', h3, h4, -⟩ := hd (l.flatten ++ t) n (by rw [List.length_append]; omega)
    have h5 := chunked_concat (hist := []) (fun c hc => docChunk_own hd (hl c hc)) (h2.fresh (EdgeRule.fresh _))
    obtain ⟨rfl, -⟩ := h4.det (EdgeRule.good _) h5
    exact ⟨rest', h3⟩
  · intro c c' h h' hp
    exact prefixFree_of (docChunk_own hd h) (docChunk_own hd h') hp

theorem strictChunk_own (hd : StrictChunks C (EdgeRule (Local e))) {c : Bytes} (h : StrictChunk C c) : FirstCut e c c.length := by
  obtain ⟨data, n, cs, it, hn, h1, hc⟩ := h
  obtain ⟨it', cs', r', h2, h3, -⟩ := hd data n hn
  rw [h1] at h2
  cases h2
  exact h3.own c hc

theorem strictCode (hd : StrictChunks C (EdgeRule (Local e))) : StrictCode C ∧ StrictPrefixFree C := by
  constructor
  · intro l t n hl hn ds it ht
    obtain ⟨it1, ds', r1, h1, h2, -, h2', -⟩ := hd t n (by omega)
    rw [ht] at h1
    cases h1
    obtain ⟨it', cs, r2, h3, h4, -, h4', -⟩ := hd (l.flatten ++ t) n (by rw [List.length_append]; omega)
    have h5 := chunked_concat (hist := []) (fun c hc => strictChunk_own hd (hl c hc)) (h2.fresh (EdgeRule.fresh _))
    obtain ⟨rfl, rfl⟩ := h4.det (EdgeRule.good _) h5
    exact ⟨it', h3, h4'.trans h2'.symm⟩
  · intro c c' h h' hp
    exact prefixFree_of (strictChunk_own hd h) (strictChunk_own hd h') hp

end HashRoll.Spec

namespace HashRoll.Props
open Spec

/-! ## the chunkers whose chunks are a code -/

theorem C85_gear (p : Gear.Gear32) : DocCode (Gear.chunk p) ∧ DocPrefixFree (Gear.chunk p) := docCode (C08_gear p)
example : DocChunk (Gear.chunk Ex.gear2) [86, 90] := ⟨[86, 90], 3, [[86, 90]], [], by decide, by decide +kernel, by decide⟩

theorem C85_pigz {prof : Profile} {bits : BitVec 8} {p : Pigz.PigzRsyncable}
    (h : Pigz.PigzRsyncable.withBits prof bits = .ok p) :
    (DocCode (Pigz.chunk p) ∧ DocPrefixFree (Pigz.chunk p)) ∧ StrictCode (Pigz.incr p) ∧ StrictPrefixFree (Pigz.incr p) :=
  ⟨docCode (C08_pigz h), strictCode (C05_pigz h)⟩
example := C85_pigz Ex.pigz2_ok

theorem C85_gzip (p : Gzip.GzipRsyncable) (hm : p.modulus ≠ 0) :
    (DocCode (Gzip.chunk p) ∧ DocPrefixFree (Gzip.chunk p)) ∧
    (0 < p.windowLen → StrictCode (Gzip.incr p) ∧ StrictPrefixFree (Gzip.incr p)) :=
  ⟨docCode (C08_gzip p hm), fun hw => strictCode (C05_gzip p hm hw)⟩
example := C85_gzip Ex.gzip3 (by decide)

theorem C85_mii (p : Mii.Mii) : DocCode (Mii.chunk p) ∧ DocPrefixFree (Mii.chunk p) := docCode (C08_mii p)

theorem C85_ram (p : Ram.Ram) : DocCode (Ram.chunk p) ∧ DocPrefixFree (Ram.chunk p) := docCode (C08_ram p)

theorem C85_zpaq (p : Zpaq.Zpaq) : (DocCode (Zpaq.chunk p) ∧ DocPrefixFree (Zpaq.chunk p)) ∧
    StrictCode (Zpaq.incr p) ∧ StrictPrefixFree (Zpaq.incr p) := ⟨docCode (C08_zpaq p), strictCode (C05_zpaq p)⟩

theorem C85_rollsum (p : Bup.RollSum) : DocCode (Bup.chunk p) ∧ DocPrefixFree (Bup.chunk p) := docCode (C08_rollsum p)

theorem C85_buzhash (p : Buzhash.BuzHash) (hk : 0 < p.k) : (DocCode (Buzhash.chunk p) ∧ DocPrefixFree (Buzhash.chunk p)) ∧
    StrictCode (Buzhash.incr p) ∧ StrictPrefixFree (Buzhash.incr p) :=
  ⟨docCode (C08_buzhash p hk), strictCode (C05_buzhash p hk)⟩
example := C85_buzhash Ex.buz (by decide)

/-- C85. FastCdc; the loop can panic on the stream `t` at the end (C64), then it panics here too. -/
theorem C85_fastcdc (p : FastCdc.FastCdc) (hnm : p.normalSize ≤ p.maxSize) (hmm : p.minSize < p.maxSize) :
    DocCode (FastCdc.chunk p) ∧ DocPrefixFree (FastCdc.chunk p) := by
  have key : ∀ {c : Bytes}, DocChunk (FastCdc.chunk p) c →
      FirstCut (fastFceEdge (lookup p.gear) p.minSize p.normalSize p.maxSize) c c.length := by
    rintro c ⟨data, n, cs, r, hn, h1, hc⟩
    obtain ⟨cs', r', h3, h2⟩ := C64_fastcdc p hnm hmm data n hn
    rw [h1] at h2
    split at h2
    · cases h2
    · cases h2
      exact h3.own c hc
  constructor
  · intro l t n hl hn ds r ht
    obtain ⟨ds', r1, h2, h1⟩ := C64_fastcdc p hnm hmm t n (by omega)
    rw [ht] at h1
    split at h1
    · cases h1
    rename_i hr
    cases h1
    obtain ⟨cs, r2, h4, h3⟩ := C64_fastcdc p hnm hmm (l.flatten ++ t) n (by rw [List.length_append]; omega)
    have h5 := chunked_concat (hist := []) (fun c hc => key (hl c hc)) (h2.fresh (EdgeRule.fresh _))
    obtain ⟨rfl, rfl⟩ := h4.det (EdgeRule.good _) h5
    rw [if_neg hr] at h3
    exact ⟨_, h3⟩
  · intro c c' h h' hp
    exact prefixFree_of (key h) (key h') hp
example := C85_fastcdc Ex.fast (by decide) (by decide)

-- chunks of two streams
example : DocChunk (Gzip.chunk Ex.gzip3) [1, 4] ∧ DocChunk (Gzip.chunk Ex.gzip3) [1, 2, 2] :=
  ⟨⟨[1, 4], 3, [[1, 4]], [], by decide, by decide +kernel, by decide⟩,
   ⟨[5, 1, 2, 2, 7], 6, [[5], [1, 2, 2]], [7], by decide, by decide +kernel, by decide⟩⟩
-- put together, and what the theorem says about them
example : ∃ r', (Gzip.chunk Ex.gzip3).docLoop [1, 4, 1, 2, 2, 1, 4, 7] 9 (Gzip.chunk Ex.gzip3).init [1, 4, 1, 2, 2, 1, 4, 7] 0 =
    .ok ([[1, 4], [1, 2, 2], [1, 4]], some r') := ⟨[7], by decide +kernel⟩

/-! ## the others -/

/-- the chunk is not found again when the stream ends with it -/
theorem not_strictCode {C : ChunkIncr} {c : Bytes} (h : StrictChunk C c) {it it' : IterSlicesStrict C} {n : Nat}
    (h0 : (C.iterSlicesStrict C.init []).run n = .ok ([], it, true)) (hn : c.length < n)
    (h1 : (C.iterSlicesStrict C.init c).run n = .ok ([], it', true)) : ¬ StrictCode C := by
  intro hc
  have := hc [c] [] n (by intro x hx; cases List.mem_singleton.1 hx; exact h) (by simpa using hn) [] it h0
  obtain ⟨it2, h2, -⟩ := this
  rw [List.flatten_singleton, List.append_nil, h1] at h2
  cases h2

/-- C85. `RamIncr`, every `w`: no chunk can be recognised without the byte after it. -/
theorem C85_not_ram_incr (p : Ram.Ram) : ¬ StrictCode (Ram.incr p) := by
  have hd := C05_ram p
  have short : ∀ (d : Bytes) (n : Nat), d.length ≤ p.w + 1 → d.length < n →
      ∃ it, ((Ram.incr p).iterSlicesStrict (Ram.incr p).init d).run n = .ok ([], it, true) := by
    intro d n hl hn
    obtain ⟨it, cs, r, h1, h2, -⟩ := hd d n hn
    cases h2 with
    | rem _ => exact ⟨it, h1⟩
    | @cut _ _ k _ _ hr _ =>
      obtain ⟨-, k2, ⟨b, -, k3, -⟩, -⟩ := hr
      rw [List.length_take] at k3
      omega
  obtain ⟨it, h0⟩ := short [] (p.w + 2) (by simp) (by simp)
  obtain ⟨it', h1⟩ := short (List.replicate (p.w + 1) 0) (p.w + 2) (by simp) (by simp)
  refine not_strictCode ?_ h0 (by simp) h1
  obtain ⟨it, cs, r, h1, h2, -⟩ := hd (List.replicate (p.w + 2) 0) (p.w + 3) (by simp)
  refine ⟨_, _, cs, it, by simp, h1, ?_⟩
  have hf : BeforeRule (Local (ramEdge p.w)) [] (List.replicate (p.w + 2) 0) (p.w + 1) := by
    refine ⟨by omega, by simp, ?_, ?_⟩
    · refine ⟨0, by rw [List.take_of_length_le (by simp), List.getLast?_replicate, if_neg (by omega)], by simp, ?_⟩
      intro x hx
      have := List.eq_of_mem_replicate (List.mem_of_mem_take (List.mem_of_mem_take hx))
      rw [this]
      exact UInt8.le_refl 0
    · rintro m m1 m2 ⟨b, -, k3, -⟩
      rw [List.length_take, List.length_replicate] at k3
      omega
  cases h2 with
  | rem hn => exact absurd hf (hn _)
  | @cut _ _ k _ _ hr _ =>
    cases (BeforeRule.good _).det hf hr
    rw [List.take_replicate, Nat.min_eq_left (by omega)]
    exact List.mem_cons_self

/-- C85. `MiiIncr::default()`: after the first cut it needs one byte less. -/
theorem C85_not_mii_incr : ¬ StrictCode (Mii.incr Mii.Mii.default) :=
  not_strictCode (c := [1, 2, 3, 4, 5]) (n := 20)
    ⟨[0, 1, 2, 3, 4, 5, 1, 2, 3, 4, 5], 12, [[0, 1, 2, 3, 4, 5], [1, 2, 3, 4, 5]], _, by decide, rfl, by decide⟩ rfl (by decide) rfl

/-- C85. `RollSumIncr` (window 8): the single byte `185` is a chunk because of what came before it. -/
theorem C85_not_rollsum_incr : ¬ StrictCode (Bup.incr (Bup.RollSum.withWindow 8)) :=
  not_strictCode (c := [185]) (n := 20)
    ⟨[180, 180, 180, 175, 180, 180, 180, 180, 185], 12, [[180, 180, 180, 175, 180, 180, 180, 180], [185]], _, by decide, rfl,
      by decide⟩ rfl (by decide) rfl

/-- C85. `FastCdcIncr` (sizes 1, 2, 4): a chunk shorter than the maximum is recognised by the byte after it. -/
theorem C85_not_fastcdc_incr : ¬ StrictCode (FastCdc.incr Ex.fast) :=
  not_strictCode (c := [92, 93, 94]) (n := 20)
    ⟨[92, 93, 94, 95], 12, [[92, 93, 94]], _, by decide, rfl, by decide⟩ rfl (by decide) rfl

end HashRoll.Props
