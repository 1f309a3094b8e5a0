import Verif.Props.IterMore
import Verif.Props.ConformDefs
/-!
# C68: one chunker, successive buffers

The documentation of `iter_slices_strict` (src/lib.rs:163-169) warns that using it several times on the same
chunker may give unexpected results. Here: what it gives when the chunker is taken back with `into_parts` and used for
the next buffer, as a reader of a file or socket would do.
-/

namespace HashRoll.Spec

/-- The caller: run `iter_slices_strict` over each buffer in turn. The first slice found in a buffer is completed by
the bytes kept from before; what `into_parts` gives back is kept for the next buffer. The result is the list of
chunks and what is kept at the end. -/
def streamed (C : ChunkIncr) : (bufs : List Bytes) → (st : C.State) → (kept : Bytes) → R (List Bytes × Bytes)
  | [],        _,  kept => .ok ([], kept)
  | b :: bufs, st, kept =>
    match (C.iterSlicesStrict st b).run (b.length + 2) with
    | .error e => .error e
    | .ok (slices, it, _) =>
      match slices with
      | [] => streamed C bufs it.intoParts.1 (kept ++ it.intoParts.2)
      | v :: vs =>
        match streamed C bufs it.intoParts.1 it.intoParts.2 with
        | .error e => .error e
        | .ok (cs, k) => .ok ((kept ++ v) :: vs ++ cs, k)

/-- C68. However the stream is divided into buffers, the chunks are those of `rule` on the whole stream. -/
def StreamChunks (C : ChunkIncr) (rule : Rule) : Prop :=
  ∀ bufs, ∃ cs r, streamed C bufs C.init [] = .ok (cs, r) ∧ Chunked rule [] bufs.flatten cs r

variable {rule : Rule}

/-- One buffer `s[pos..e]`. -/
theorem IncrConforms.buffer {C : ChunkIncr} (hc : IncrConforms C rule) (hg : rule.Good) (hp : rule.Pos)
    {s : Bytes} {e : Nat} (he : e ≤ s.length) :
    ∀ (n : Nat) (st : C.State) (pos prev : Nat) (cs : List Bytes), IncrRun C s st pos prev cs → pos ≤ e →
    (e - pos) + 1 ≤ n → (pos = prev ∨ (e - pos) + 2 ≤ n) → ∃ ck vs r prev' cs',
      IterSlicesStrict.run n ⟨Spec.sub s pos e, st⟩ = .ok (vs, ⟨r, ck⟩, true) ∧
      IncrRun C s ck e prev' (cs ++ cs') ∧
      ((vs = [] ∧ cs' = [] ∧ prev' = prev ∧ r = Spec.sub s pos e) ∨
       (∃ v vs', vs = v :: vs' ∧ cs' = (Spec.sub s prev pos ++ v) :: vs' ∧ r = Spec.sub s prev' e)) := by
  intro n
  induction n with
  | zero => intro st pos prev cs _ _ h; omega
  | succ n ih =>
    intro st pos prev cs hr hpe hn hn'
    obtain ⟨hpp, hle, _⟩ := hc.chunks hg hr
    obtain ⟨ck, r, hpush, hm⟩ := hc _ _ _ _ _ hr e hpe he
    cases r with
    | none =>
      exact ⟨ck, [], _, prev, [], strict_end n (strict_next_none (C := C) ⟨Spec.sub s pos e, st⟩ hpush),
        by simpa using IncrRun.more hr hpe he hpush, .inl ⟨rfl, rfl, rfl, rfl⟩⟩
    | some i =>
      obtain ⟨k1, k2⟩ := hm
      have hpos := hp _ _ _ k2
      have hlen : (Spec.sub s pos e).length = e - pos := by rw [sub_length]; omega
      have h1 := strict_next_some (C := C) ⟨Spec.sub s pos e, st⟩ hpush (by show i ≤ (Spec.sub s pos e).length; omega)
      have e2 : (Spec.sub s pos e).drop i = Spec.sub s (pos + i) e := by rw [sub_drop]
      have e3 : (Spec.sub s pos e).take i = Spec.sub s pos (pos + i) :=
        (sub_take_of_le s (by omega) _ (by omega)).trans rfl
      have hr' := IncrRun.cut hr hpe he hpush
      obtain ⟨ck', vs, r, prev', cs', g1, g2, g3⟩ := ih ck (pos + i) (pos + i) _ hr' k1 (by omega) (.inl rfl)
      dsimp only at h1
      rw [e2, e3] at h1
      refine ⟨ck', Spec.sub s pos (pos + i) :: vs, r, prev', Spec.sub s prev (pos + i) :: cs', strict_step n h1 g1,
        by simpa using g2, .inr ⟨_, vs, rfl, ?_, ?_⟩⟩
      · rw [sub_append s hpp (by omega)]
        rcases g3 with ⟨rfl, rfl, _⟩ | ⟨v, vs', rfl, rfl, _⟩
        · rfl
        · rw [sub_self]; rfl
      · rcases g3 with ⟨_, _, rfl, h⟩ | ⟨_, _, _, _, h⟩ <;> exact h

theorem IncrConforms.streamed {C : ChunkIncr} (hc : IncrConforms C rule) (hg : rule.Good) (hp : rule.Pos)
    {s : Bytes} : ∀ (bufs : List Bytes) (st : C.State) (pos prev : Nat) (cs : List Bytes), IncrRun C s st pos prev cs →
    s.drop pos = bufs.flatten → ∃ cs' r, streamed C bufs st (Spec.sub s prev pos) = .ok (cs', r) ∧
      Chunked rule [] s (cs ++ cs') r := by
  intro bufs
  induction bufs with
  | nil =>
    intro st pos prev cs hr hd
    obtain ⟨hpp, hle, h3⟩ := hc.chunks hg hr
    have hpl : pos = s.length := by
      have := congrArg List.length hd
      simp at this; omega
    subst hpl
    refine ⟨[], _, rfl, h3 [] _ ?_⟩
    rw [sub_full]
    refine .rem ?_
    rcases hc.run_pending hr with h | h
    · intro n hn
      have h1 := hp _ _ _ hn
      have h2 := hg.le hn
      rw [List.length_drop] at h2; omega
    · rwa [sub_full] at h
  | cons b bufs ih =>
    intro st pos prev cs hr hd
    obtain ⟨hpp, hle, _⟩ := hc.chunks hg hr
    have hl : s.length = pos + (b.length + bufs.flatten.length) := by
      have := congrArg List.length hd
      simp only [List.length_drop, List.flatten_cons, List.length_append] at this; omega
    have hb : Spec.sub s pos (pos + b.length) = b := by
      rw [← sub_take_of_le s (e := s.length) (a := pos) (b := pos + b.length) (by omega) b.length rfl, sub_full, hd,
        List.flatten_cons, List.take_left]
    have hd' : s.drop (pos + b.length) = bufs.flatten := by
      rw [← List.drop_drop, hd, List.flatten_cons, List.drop_left]
    obtain ⟨ck, vs, r, prev', cs', h1, h2, h3⟩ := hc.buffer hg hp (e := pos + b.length) (by omega) (b.length + 2)
      st pos prev cs hr (by omega) (by omega) (.inr (by omega))
    obtain ⟨cs'', r', h4, h5⟩ := ih ck _ _ _ h2 hd'
    rw [hb] at h1
    have h1' : (C.iterSlicesStrict st b).run (b.length + 2) = .ok (vs, ⟨r, ck⟩, true) := h1
    rcases h3 with ⟨rfl, rfl, rfl, rfl⟩ | ⟨v, vs', rfl, rfl, rfl⟩
    · refine ⟨cs'', r', ?_, by simpa using h5⟩
      rw [Spec.streamed, h1']
      dsimp only [IterSlicesStrict.intoParts]
      rw [sub_append s hpp (by omega)]
      exact h4
    · refine ⟨(Spec.sub s prev pos ++ v) :: vs' ++ cs'', r', ?_, by simpa using h5⟩
      rw [Spec.streamed, h1']
      dsimp only [IterSlicesStrict.intoParts]
      rw [h4]

theorem IncrConforms.streamChunks {C : ChunkIncr} (hc : IncrConforms C rule) (hg : rule.Good) (hp : rule.Pos) :
    StreamChunks C rule := by
  intro bufs
  have := hc.streamed hg hp (s := bufs.flatten) bufs C.init 0 0 [] .start (by rw [List.drop_zero])
  rw [sub_self] at this
  simpa using this

end HashRoll.Spec

namespace HashRoll.Props

open Spec

theorem C68_pigz {prof : Profile} {bits : BitVec 8} {p : Pigz.PigzRsyncable}
    (h : Pigz.PigzRsyncable.withBits prof bits = .ok p) :
    StreamChunks (Pigz.incr p)
      (EdgeRule (Local (pigzEdge p.mask p.hit))) :=
  (Pigz.incr_conforms h).streamChunks (EdgeRule.good _) (EdgeRule.pos _)
example := C68_pigz Ex.pigz2_ok

theorem C68_ram (p : Ram.Ram) :
    StreamChunks (Ram.incr p)
      (BeforeRule (Local (ramEdge p.w))) :=
  (Ram.incr_conforms p).streamChunks (BeforeRule.good _) (ram_pos p.w)
example := C68_ram (Ram.Ram.withW 2)

theorem C68_gzip (p : Gzip.GzipRsyncable) (hm : p.modulus ≠ 0) (hw : 0 < p.windowLen) :
    StreamChunks (Gzip.incr p)
      (EdgeRule (Local (gzipEdge p.windowLen p.modulus.toNat))) :=
  (Gzip.incr_conforms p hm hw).streamChunks (EdgeRule.good _) (EdgeRule.pos _)
example := C68_gzip Ex.gzip3 (by decide) (by decide)

theorem C68_mii (p : Mii.Mii) :
    StreamChunks (Mii.incr p)
      (EdgeRule (miiIncrEdge p.w)) :=
  (Mii.incr_conforms p).streamChunks (EdgeRule.good _) (EdgeRule.pos _)
example := C68_mii (Mii.Mii.withW 2)

theorem C68_zpaq (p : Zpaq.Zpaq) :
    StreamChunks (Zpaq.incr p)
      (EdgeRule (Local (zpaqEdge p.range.start p.range.stop p.maxHash 0))) :=
  (Zpaq.incr_conforms p).streamChunks (EdgeRule.good _) (EdgeRule.pos _)
example := C68_zpaq Ex.zpaq

theorem C68_rollsum (n : Nat) :
    StreamChunks (Bup.incr (Bup.RollSum.withWindow (2 ^ n)))
      (EdgeRule (bupIncrEdge (2 ^ n))) :=
  (Bup.incr_conforms n).streamChunks (EdgeRule.good _) (EdgeRule.pos _)
example := C68_rollsum 3

theorem C68_buzhash (p : Buzhash.BuzHash) (hk : 0 < p.k) :
    StreamChunks (Buzhash.incr p)
      (EdgeRule (Local (buzIncrEdge p.k p.h p.mask p.maxChunkSize))) :=
  (Buzhash.incr_conforms p hk).streamChunks (EdgeRule.good _) (EdgeRule.pos _)
example := C68_buzhash Ex.buz (by decide)

theorem C68_fastcdc (p : FastCdc.FastCdc) (h1 : 1 ≤ p.minSize) (h2 : p.normalSize ≤ p.maxSize) (h3 : p.minSize < p.maxSize) :
    StreamChunks (FastCdc.incr p)
      (fastIncrRule (lookup p.gear) p.minSize p.normalSize p.maxSize) :=
  (FastCdc.incr_conforms p h2 h3).streamChunks (fastIncrRule.good _ _ _ _) (fastIncrRule.pos _ _ _ h1)
example := C68_fastcdc Ex.fast (by decide) (by decide) (by decide)

/-- gear: as C03, for parameters that no table entry matches by itself -/
theorem C68_gear (p : Gear.Gear32) (h : ∀ b, lookup p.gear b &&& p.mask ≠ p.xxx) :
    StreamChunks (Gear.incr p) (BeforeRule (Local (gearEdge (lookup p.gear) p.mask p.xxx))) :=
  (Gear.incr_conforms p).streamChunks (BeforeRule.good _) (gear_before_pos p h)
example := C68_gear gear25 (byte_all (by decide +kernel))

/-- chunks that span buffers, an empty buffer, nothing kept at the end -/
example : streamed (Pigz.incr Ex.pigz2) [[3, 1], [], [4, 1, 5], [9, 2, 6, 5, 3]] (Pigz.incr Ex.pigz2).init [] =
    .ok ([[3], [1, 4, 1], [5, 9, 2, 6, 5], [3]], []) := by decide +kernel

/-- a cut just before the first byte of a buffer: the slice found there is empty, the chunk is what was kept -/
example : streamed (Ram.incr (Ram.Ram.withW 2)) [[3, 1, 4], [5], [1, 5, 9], [9, 2], [6, 5, 3, 5]]
    (Ram.incr (Ram.Ram.withW 2)).init [] = .ok ([[3, 1, 4], [5, 1, 5]], [9, 9, 2, 6, 5, 3, 5]) := by decide +kernel

end HashRoll.Props
