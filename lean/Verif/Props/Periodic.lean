import Mathlib.Data.Finset.Card
import Mathlib.Data.Finset.Range
import Mathlib.Data.List.Dedup
import Verif.Props.Recover
/-!
# C78: streams with a period

A stream of period `p` (a repeated record, a filled disk) is cut into at most `p` different chunks, and the sequence of
chunks is itself periodic from some point on. This is what makes deduplication work on such data. `MiiIncr` starts its first
chunk differently from the later ones and can have one more; `RollSumIncr` never forgets and can have one more per byte of
the window.
-/

namespace HashRoll.Spec

/-- the stream repeats itself after `p` bytes -/
def Periodic (p : Nat) (data : Bytes) : Prop := ∀ i, i + p < data.length → data[i + p]? = data[i]?

/-- From some chunk on the chunks repeat, the part before and the repeated part have together at most `K` chunks, and there
are at most `K` different ones. -/
def ChunksRepeat (K : Nat) (cs : List Bytes) : Prop :=
  (∃ i j, i < j ∧ j ≤ K ∧ ∀ k, j + k < cs.length → cs[j + k]? = cs[i + k]?) ∧ cs.dedup.length ≤ K

/-- C78 for the documented loop over `find_chunk_edge`. -/
def DocPeriodic (A : Chunk) (K : Nat → Nat) : Prop :=
  ∀ p data N, 1 ≤ p → Periodic p data → data.length < N → ∃ cs rest,
    A.docLoop data N A.init data 0 = .ok (cs, some rest) ∧ ChunksRepeat (K p) cs

/-- C78 for `iter_slices_strict`. -/
def StrictPeriodic (C : ChunkIncr) (K : Nat → Nat) : Prop :=
  ∀ p data N, 1 ≤ p → Periodic p data → data.length < N → ∃ cs it,
    (C.iterSlicesStrict C.init data).run N = .ok (cs, it, true) ∧ ChunksRepeat (K p) cs

/-- The rule looks at no more than the `T` bytes before the chunk, once there are so many. -/
def Rule.Looks (T : Nat) (rule : Rule) : Prop :=
  ∀ h h' data n, T ≤ h.length → T ≤ h'.length → lastN T h = lastN T h' → rule h data n → rule h' data n

variable {rule : Rule}

theorem Rule.Fresh.looks (hf : rule.Fresh) : rule.Looks 0 := fun h h' data n _ _ _ hr => hf h h' data n hr

theorem Periodic.mul {p : Nat} {data : Bytes} (h : Periodic p data) (m i : Nat) (hi : i + m * p < data.length) :
    data[i + m * p]? = data[i]? := by
  induction m with
  | zero => simp
  | succ m ih =>
    rw [Nat.succ_mul, ← Nat.add_assoc] at hi ⊢
    rw [h _ hi, ih (by omega)]

theorem Periodic.get {p : Nat} {data : Bytes} (h : Periodic p data) {i i' : Nat} (hle : i ≤ i') (hm : i % p = i' % p)
    (hi : i' < data.length) : data[i']? = data[i]? := by
  have h1 := Nat.div_add_mod i p
  have h2 := Nat.div_add_mod i' p
  have h3 : i / p ≤ i' / p := Nat.div_le_div_right hle
  obtain ⟨m, hm'⟩ : ∃ m, i' / p = i / p + m := ⟨i' / p - i / p, by omega⟩
  have h4 : i' = i + m * p := by
    rw [hm', Nat.mul_add, Nat.mul_comm p m] at h2
    omega
  rw [h4] at hi ⊢
  exact h.mul m i hi

theorem Periodic.drop_prefix {p : Nat} {data : Bytes} (h : Periodic p data) {o o' : Nat} (hle : o ≤ o')
    (hm : o % p = o' % p) : data.drop o' <+: data.drop o := by
  rw [List.prefix_iff_eq_take]
  apply List.ext_getElem?
  intro i
  rw [List.getElem?_take, List.length_drop]
  split
  · rw [List.getElem?_drop, List.getElem?_drop]
    refine h.get (by omega) ?_ (by omega)
    rw [Nat.add_mod, hm, ← Nat.add_mod]
  · rw [List.getElem?_eq_none]
    rw [List.length_drop]
    omega

theorem Periodic.lastN {p : Nat} {data : Bytes} (h : Periodic p data) {o o' T : Nat} (hT : T ≤ o) (hle : o ≤ o')
    (ho : o' ≤ data.length) (hm : o % p = o' % p) : Spec.lastN T (data.take o') = Spec.lastN T (data.take o) := by
  apply List.ext_getElem?
  intro i
  simp only [Spec.lastN, List.getElem?_drop, List.length_take, List.getElem?_take]
  rw [Nat.min_eq_left ho, Nat.min_eq_left (show o ≤ data.length by omega)]
  by_cases hi : i < T
  · rw [if_pos (by omega), if_pos (by omega)]
    refine h.get (by omega) ?_ (by omega)
    have : (o - T + i + (T - i)) % p = (o' - T + i + (T - i)) % p := by
      rw [show o - T + i + (T - i) = o by omega, show o' - T + i + (T - i) = o' by omega, hm]
    exact Nat.ModEq.add_right_cancel' (T - i) this
  · rw [if_neg (by omega), if_neg (by omega)]

/-- where chunk number `k` begins -/
def startOf (cs : List Bytes) (k : Nat) : Nat := (cs.take k).flatten.length

theorem startOf_succ {cs : List Bytes} {k : Nat} {c : Bytes} (h : cs[k]? = some c) :
    startOf cs (k + 1) = startOf cs k + c.length := by
  unfold startOf
  rw [List.take_add_one, h, List.flatten_append, List.length_append]
  simp

theorem Chunked.at {data : Bytes} {cs : List Bytes} {r : Bytes} (hg : rule.Good) (h : Chunked rule [] data cs r) {k : Nat}
    (hk : k < cs.length) : ∃ c, cs[k]? = some c ∧ rule (data.take (startOf cs k)) (data.drop (startOf cs k)) c.length ∧
      c = (data.drop (startOf cs k)).take c.length := by
  have hfl := h.flatten
  have hsp : Chunked rule [] data (cs.take k ++ cs.drop k) r := by rwa [List.take_append_drop]
  have h1 := hsp.split
  have h2 : (cs.take k).flatten = data.take (startOf cs k) := by
    rw [← hfl]
    conv_rhs => rw [← List.take_append_drop k cs, List.flatten_append, List.append_assoc]
    rw [show startOf (List.take k cs ++ List.drop k cs) k = (cs.take k).flatten.length by rw [List.take_append_drop]; rfl,
      List.take_left']
    rfl
  rw [List.nil_append, h2, ← h2] at h1
  rw [h2] at h1
  change Chunked rule _ (data.drop (data.take (startOf cs k)).length) _ _ at h1
  rw [← h2] at h1
  change Chunked rule _ (data.drop (startOf cs k)) _ _ at h1
  rw [h2, List.drop_eq_getElem_cons hk] at h1
  generalize hc : cs[k] = c at h1
  refine ⟨c, by rw [← hc]; exact List.getElem?_eq_getElem hk, ?_⟩
  cases h1 with
  | @cut _ _ n _ _ hr _ =>
    have hl := hg.le hr
    rw [List.length_take, Nat.min_eq_left hl]
    exact ⟨hr, rfl⟩

theorem Chunked.startOf_le {data : Bytes} {cs : List Bytes} {r : Bytes} (h : Chunked rule [] data cs r) (k : Nat) :
    startOf cs k ≤ data.length := by
  have hfl := congrArg List.length h.flatten
  conv at hfl => lhs; rw [← List.take_append_drop k cs, List.flatten_append, List.length_append, List.length_append]
  unfold startOf
  omega

theorem Chunked.startOf_lt {data : Bytes} {cs : List Bytes} {r : Bytes} (hg : rule.Good) (hp : rule.Pos)
    (h : Chunked rule [] data cs r) {i j : Nat} (hij : i < j) (hj : j ≤ cs.length) : startOf cs i < startOf cs j := by
  induction j with
  | zero => omega
  | succ j ih =>
    obtain ⟨c, hc, hr, -⟩ := h.at hg (show j < cs.length by omega)
    have := hp _ _ _ hr
    rw [startOf_succ hc]
    by_cases h' : i = j
    · subst h'; omega
    · have := ih (by omega) (by omega)
      omega

/-- two chunks that begin at the same place of the period are equal -/
theorem Chunked.same {data : Bytes} {cs : List Bytes} {r : Bytes} (hg : rule.Good) {T p : Nat} (hl : rule.Looks T)
    (hper : Periodic p data) (h : Chunked rule [] data cs r) {i j : Nat} (hj : j < cs.length)
    (hi : i < cs.length) (hT : T ≤ startOf cs i) (hle : startOf cs i ≤ startOf cs j)
    (hm : startOf cs i % p = startOf cs j % p) : cs[j]? = cs[i]? := by
  obtain ⟨c, hc, hr, ht⟩ := h.at hg hj
  obtain ⟨d, hd, hr', ht'⟩ := h.at hg hi
  have h1 := h.startOf_le j
  obtain ⟨more, hmore⟩ := hper.drop_prefix hle hm
  have h2 : rule (data.take (startOf cs i)) (data.drop (startOf cs i)) c.length := by
    rw [← hmore]
    refine hg.mono more (hl _ _ _ _ ?_ ?_ (hper.lastN hT hle h1 hm) hr)
    · rw [List.length_take, Nat.min_eq_left h1]; omega
    · rw [List.length_take, Nat.min_eq_left (by omega)]; exact hT
  have h3 := hg.det h2 hr'
  have hle' := hg.le hr
  rw [hc, hd, ht, ht', ← h3, ← hmore, List.take_append_of_le_length hle']

theorem chunksRepeat_dedup {K : Nat} {cs : List Bytes}
    (h : ∃ i j, i < j ∧ j ≤ K ∧ ∀ k, j + k < cs.length → cs[j + k]? = cs[i + k]?) : cs.dedup.length ≤ K := by
  obtain ⟨i, j, hij, hjK, hk⟩ := h
  have hmem : ∀ m, m < cs.length → ∀ c, cs[m]? = some c → c ∈ cs.take j := by
    intro m
    induction m using Nat.strongRecOn with
    | _ m ih =>
      intro hm c hc
      by_cases hmj : m < j
      · refine List.mem_of_getElem? (i := m) ?_
        rw [List.getElem?_take, if_pos hmj, hc]
      · have h1 := hk (m - j) (by omega)
        rw [show j + (m - j) = m by omega, hc] at h1
        exact ih (i + (m - j)) (by omega) (by omega) c h1.symm
  have hsub : cs.dedup ⊆ cs.take j := by
    intro c hc
    rw [List.mem_dedup] at hc
    obtain ⟨m, hm⟩ := List.mem_iff_getElem?.1 hc
    exact hmem m (List.getElem?_eq_some_iff.1 hm).1 c hm
  have h2 := ((List.nodup_dedup cs).subperm hsub).length_le
  rw [List.length_take] at h2
  omega

/-- a rule that looks back at most `T` bytes cuts a stream of period `p` into at most `T + p` different chunks -/
theorem Chunked.repeats {data : Bytes} {cs : List Bytes} {r : Bytes} (hg : rule.Good) (hp : rule.Pos) {T p : Nat}
    (hl : rule.Looks T) (h1 : 1 ≤ p) (hper : Periodic p data) (h : Chunked rule [] data cs r) : ChunksRepeat (T + p) cs := by
  suffices hx : ∃ i j, i < j ∧ j ≤ T + p ∧ ∀ k, j + k < cs.length → cs[j + k]? = cs[i + k]? from ⟨hx, chunksRepeat_dedup hx⟩
  by_cases hlen : cs.length ≤ T + p
  · exact ⟨T + p - 1, T + p, by omega, Nat.le_refl _, fun k hk => by omega⟩
  · obtain ⟨i, hi, j, hj, hne, hf⟩ := Finset.exists_ne_map_eq_of_card_lt_of_maps_to
      (s := Finset.range (T + p + 1)) (t := Finset.range (T + p))
      (f := fun k => if startOf cs k < T then startOf cs k else T + startOf cs k % p) (by simp) (by
        intro k _
        rw [Finset.coe_range, Set.mem_Iio]
        dsimp only
        split
        · omega
        · have := Nat.mod_lt (startOf cs k) (show 0 < p by omega)
          omega)
    rw [Finset.mem_range] at hi hj
    have main : ∀ i j, i < j → j ≤ T + p → T ≤ startOf cs i → startOf cs i % p = startOf cs j % p →
        ∀ k, j + k < cs.length → cs[j + k]? = cs[i + k]? := by
      intro i j hij hj hT hm
      have step : ∀ k, j + k < cs.length → startOf cs (i + k) % p = startOf cs (j + k) % p ∧ T ≤ startOf cs (i + k) ∧
          cs[j + k]? = cs[i + k]? := by
        intro k
        induction k with
        | zero =>
          intro hk
          exact ⟨hm, hT, h.same hg hl hper hk (by omega) hT (Nat.le_of_lt (h.startOf_lt hg hp hij (by omega))) hm⟩
        | succ k ih =>
          intro hk
          obtain ⟨g1, g2, g3⟩ := ih (by omega)
          obtain ⟨c, hc, -, -⟩ := h.at hg (show j + k < cs.length by omega)
          have hc' := hc
          rw [g3] at hc'
          have e1 := startOf_succ hc
          have e2 := startOf_succ hc'
          have g1' : startOf cs (i + (k + 1)) % p = startOf cs (j + (k + 1)) % p := by
            rw [← Nat.add_assoc, ← Nat.add_assoc, e1, e2, Nat.add_mod, g1, ← Nat.add_mod]
          have g2' : T ≤ startOf cs (i + (k + 1)) := by rw [← Nat.add_assoc, e2]; omega
          exact ⟨g1', g2', h.same hg hl hper hk (by omega) g2'
            (Nat.le_of_lt (h.startOf_lt hg hp (by omega) (by omega))) g1'⟩
      exact fun k hk => (step k hk).2.2
    have key : ∀ i j, i < j → j ≤ T + p →
        (if startOf cs i < T then startOf cs i else T + startOf cs i % p) =
          (if startOf cs j < T then startOf cs j else T + startOf cs j % p) →
        T ≤ startOf cs i ∧ startOf cs i % p = startOf cs j % p := by
      intro i j hij hj hf
      have := h.startOf_lt hg hp hij (by omega)
      split at hf <;> split at hf <;> omega
    rcases Nat.lt_or_gt_of_ne hne with hlt | hlt
    · obtain ⟨a, b⟩ := key i j hlt (by omega) hf
      exact ⟨i, j, hlt, by omega, main i j hlt (by omega) a b⟩
    · obtain ⟨a, b⟩ := key j i hlt (by omega) hf.symm
      exact ⟨j, i, hlt, by omega, main j i hlt (by omega) a b⟩

theorem DocLoopChunks.periodic {A : Chunk} (h : DocLoopChunks A rule) (hg : rule.Good) (hp : rule.Pos) (hf : rule.Fresh) :
    DocPeriodic A (fun p => p) := by
  intro p data N h1 hper hN
  obtain ⟨cs, r, rest, hd, hc, -⟩ := h data N hN
  have := hc.repeats hg hp hf.looks h1 hper
  rw [Nat.zero_add] at this
  exact ⟨cs, rest, hd, this⟩

theorem StrictChunks.periodic {C : ChunkIncr} (h : StrictChunks C rule) (hg : rule.Good) (hp : rule.Pos) {T : Nat}
    (hl : rule.Looks T) : StrictPeriodic C (fun p => T + p) := by
  intro p data N h1 hper hN
  obtain ⟨it, cs, r, hd, hc, -⟩ := h data N hN
  exact ⟨cs, it, hd, hc.repeats hg hp hl h1 hper⟩

end HashRoll.Spec

namespace HashRoll.Props

open Spec


theorem strictPeriodic_fresh {C : ChunkIncr} {rule : Rule} (h : StrictChunks C rule) (hg : rule.Good) (hp : rule.Pos)
    (hf : rule.Fresh) : StrictPeriodic C (fun p => p) := by
  intro p data N h1 hper hN
  have := h.periodic hg hp hf.looks p data N h1 hper hN
  simpa using this

/-- C78. Gear32, `find_chunk_edge`. -/
theorem C78_gear (p : Gear.Gear32) : DocPeriodic (Gear.chunk p) (fun p => p) :=
  (C08_gear p).periodic (EdgeRule.good _) (EdgeRule.pos _) (EdgeRule.fresh _)
example : DocPeriodic (Gear.chunk Ex.gear2) (fun p => p) := C78_gear Ex.gear2

/-- C78. Pigz, both APIs. -/
theorem C78_pigz {prof : Profile} {bits : BitVec 8} {p : Pigz.PigzRsyncable}
    (h : Pigz.PigzRsyncable.withBits prof bits = .ok p) :
    DocPeriodic (Pigz.chunk p) (fun p => p) ∧ StrictPeriodic (Pigz.incr p) (fun p => p) :=
  ⟨(C08_pigz h).periodic (EdgeRule.good _) (EdgeRule.pos _) (EdgeRule.fresh _),
    strictPeriodic_fresh (C05_pigz h) (EdgeRule.good _) (EdgeRule.pos _) (EdgeRule.fresh _)⟩
example : ∃ p, Pigz.PigzRsyncable.default .debug = .ok p ∧ DocPeriodic (Pigz.chunk p) (fun p => p) :=
  ⟨_, rfl, (C78_pigz (prof := .debug) (bits := 12) rfl).1⟩

/-- C78. Ram, both APIs. -/
theorem C78_ram (p : Ram.Ram) : DocPeriodic (Ram.chunk p) (fun p => p) ∧ StrictPeriodic (Ram.incr p) (fun p => p) :=
  ⟨(C08_ram p).periodic (EdgeRule.good _) (EdgeRule.pos _) (EdgeRule.fresh _),
    strictPeriodic_fresh (C05_ram p) (BeforeRule.good _) (ram_pos p.w) (fun _ _ _ _ h => h)⟩
example := C78_ram (Ram.Ram.withW 2)

/-- C78. Gzip, both APIs. -/
theorem C78_gzip (p : Gzip.GzipRsyncable) (hm : p.modulus ≠ 0) (hw : 0 < p.windowLen) :
    DocPeriodic (Gzip.chunk p) (fun p => p) ∧ StrictPeriodic (Gzip.incr p) (fun p => p) :=
  ⟨(C08_gzip p hm).periodic (EdgeRule.good _) (EdgeRule.pos _) (EdgeRule.fresh _),
    strictPeriodic_fresh (C05_gzip p hm hw) (EdgeRule.good _) (EdgeRule.pos _) (EdgeRule.fresh _)⟩
example := C78_gzip Ex.gzip3 (by decide) (by decide)

/-- C78. Mii, `find_chunk_edge`. -/
theorem C78_mii (p : Mii.Mii) : DocPeriodic (Mii.chunk p) (fun p => p) :=
  (C08_mii p).periodic (EdgeRule.good _) (EdgeRule.pos _) (EdgeRule.fresh _)
example := C78_mii (Mii.Mii.withW 2)

theorem miiIncr_looks (w : Nat) : (EdgeRule (miiIncrEdge w)).Looks 1 := by
  intro h h' data n h1 h2 _ hr
  have e1 : h ≠ [] := fun e => by subst e; simp at h1
  have e2 : h' ≠ [] := fun e => by subst e; simp at h2
  have : miiIncrEdge w h = miiIncrEdge w h' := by
    funext x
    unfold miiIncrEdge
    rw [if_neg e1, if_neg e2]
  unfold EdgeRule at hr ⊢
  rwa [← this]

/-- C78. MiiIncr: one more, because the first chunk is cut differently (C32). -/
theorem C78_mii_incr (p : Mii.Mii) : StrictPeriodic (Mii.incr p) (fun p => 1 + p) :=
  (C05_mii p).periodic (EdgeRule.good _) (EdgeRule.pos _) (miiIncr_looks p.w)
example := C78_mii_incr (Mii.Mii.withW 2)

/-- the one more occurs: 1 2 1 2 1 2 … is cut into `[1, 2]`, `[1]`, `[2]`, `[1]`, `[2]`, … -/
theorem C78_mii_incr_sharp : ¬ StrictPeriodic (Mii.incr (Mii.Mii.withW 1)) (fun p => p) := by
  intro h
  have hper : Periodic 2 [1, 2, 1, 2] := by
    intro i hi
    have : i < 2 := by simp only [List.length_cons, List.length_nil] at hi; omega
    rcases (show i = 0 ∨ i = 1 by omega) with rfl | rfl <;> rfl
  obtain ⟨cs, it, h1, -, h3⟩ := h 2 [1, 2, 1, 2] 5 (by decide) hper (by decide)
  have h4 : (((Mii.incr (Mii.Mii.withW 1)).iterSlicesStrict (Mii.incr (Mii.Mii.withW 1)).init [1, 2, 1, 2]).run 5).toOption.map
      (fun x => x.1) = some [[1, 2], [1], [2]] := by decide +kernel
  rw [h1] at h4
  cases h4
  exact absurd h3 (by decide)

/-- C78. Zpaq, both APIs. -/
theorem C78_zpaq (p : Zpaq.Zpaq) : DocPeriodic (Zpaq.chunk p) (fun p => p) ∧ StrictPeriodic (Zpaq.incr p) (fun p => p) :=
  ⟨(C08_zpaq p).periodic (EdgeRule.good _) (EdgeRule.pos _) (EdgeRule.fresh _),
    strictPeriodic_fresh (C05_zpaq p) (EdgeRule.good _) (EdgeRule.pos _) (EdgeRule.fresh _)⟩
example := C78_zpaq Ex.zpaq

/-- C78. RollSum, `find_chunk_edge`. -/
theorem C78_rollsum (p : Bup.RollSum) : DocPeriodic (Bup.chunk p) (fun p => p) :=
  (C08_rollsum p).periodic (EdgeRule.good _) (EdgeRule.pos _) (EdgeRule.fresh _)
example := C78_rollsum (Bup.RollSum.withWindow 8)

theorem bupIncr_looks (W : Nat) : (EdgeRule (bupIncrEdge W)).Looks W := by
  intro h h' data n h1 h2 he hr
  have : bupIncrEdge W h = bupIncrEdge W h' := by
    funext x
    unfold bupIncrEdge
    unfold bupEdge bupS2
    rw [lastN_append_congr he x]
  unfold EdgeRule at hr ⊢
  rwa [← this]

/-- C78. RollSumIncr, window 2^n. -/
theorem C78_rollsum_incr (n : Nat) : StrictPeriodic (Bup.incr (Bup.RollSum.withWindow (2 ^ n))) (fun p => 2 ^ n + p) :=
  (C05_rollsum n).periodic (EdgeRule.good _) (EdgeRule.pos _) (bupIncr_looks _)
example := C78_rollsum_incr 3

/-- C78. BuzHash, both APIs. -/
theorem C78_buzhash (p : Buzhash.BuzHash) (hk : 0 < p.k) :
    DocPeriodic (Buzhash.chunk p) (fun p => p) ∧ StrictPeriodic (Buzhash.incr p) (fun p => p) :=
  ⟨(C08_buzhash p hk).periodic (EdgeRule.good _) (EdgeRule.pos _) (EdgeRule.fresh _),
    strictPeriodic_fresh (C05_buzhash p hk) (EdgeRule.good _) (EdgeRule.pos _) (EdgeRule.fresh _)⟩
example := C78_buzhash Ex.buz (by decide)

/-- C78. FastCdcIncr. -/
theorem C78_fastcdc (p : FastCdc.FastCdc) (h1 : 1 ≤ p.minSize) (h2 : p.normalSize ≤ p.maxSize) (h3 : p.minSize < p.maxSize) :
    StrictPeriodic (FastCdc.incr p) (fun p => p) :=
  strictPeriodic_fresh (C05_fastcdc p h1 h2 h3) (fastIncrRule.good _ _ _ _) (fastIncrRule.pos _ _ _ h1)
    (fastIncrRule.fresh _ _ _ _)
example := C78_fastcdc Ex.fast (by decide) (by decide) (by decide)

/-- `p` different chunks do occur -/
example : Periodic 3 [0, 3, 6, 0, 3, 6, 0] ∧
    ((Gzip.chunk (Gzip.GzipRsyncable.withWindowAndModulus 1 3)).docLoop [0, 3, 6, 0, 3, 6, 0] 8
      (Gzip.chunk (Gzip.GzipRsyncable.withWindowAndModulus 1 3)).init [0, 3, 6, 0, 3, 6, 0] 0).toOption.map (fun x => x.1) =
      some [[0], [3], [6], [0], [3], [6], [0]] := by
  refine ⟨?_, by decide +kernel⟩
  intro i hi
  have : i < 4 := by simp only [List.length_cons, List.length_nil] at hi; omega
  rcases (show i = 0 ∨ i = 1 ∨ i = 2 ∨ i = 3 by omega) with rfl | rfl | rfl | rfl <;> rfl

end HashRoll.Props
