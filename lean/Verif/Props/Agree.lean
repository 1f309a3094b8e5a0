import Verif.Props.Sizes
/-!
# C09 (rule form), C19 (window form), C31-C34, C53: relations between runs and between the APIs
-/

namespace HashRoll.Props

open Spec

/-! ## generic -/

/-- Edge predicates that agree on non-empty prefixes up to length `m`. -/
theorem edgeRule_congr {e e' : Bytes → Bytes → Prop} {m : Nat}
    (h : ∀ hist p, p ≠ [] → p.length ≤ m → (e hist p ↔ e' hist p)) {hist data : Bytes} {n : Nat} (hn : n ≤ m) :
    EdgeRule e hist data n ↔ EdgeRule e' hist data n := by
  have hk : ∀ k, 1 ≤ k → k ≤ n → n ≤ data.length → (e hist (data.take k) ↔ e' hist (data.take k)) := by
    intro k h1 h2 h3
    have hl : (data.take k).length = k := by rw [List.length_take]; omega
    exact h _ _ (List.ne_nil_of_length_pos (by omega)) (by omega)
  constructor
  · rintro ⟨h1, h2, h3, h4⟩
    exact ⟨h1, h2, (hk n h1 (Nat.le_refl _) h2).1 h3, fun k k1 k2 k3 => h4 k k1 k2 ((hk k k1 (by omega) h2).2 k3)⟩
  · rintro ⟨h1, h2, h3, h4⟩
    exact ⟨h1, h2, (hk n h1 (Nat.le_refl _) h2).2 h3, fun k k1 k2 k3 => h4 k k1 k2 ((hk k k1 (by omega) h2).1 k3)⟩

/-- … give the same chunks as long as no chunk (and not the remainder) is longer than `m`. -/
theorem _root_.HashRoll.Spec.Chunked.congr_upTo {e e' : Bytes → Bytes → Prop} {m : Nat}
    (h : ∀ hist p, p ≠ [] → p.length ≤ m → (e hist p ↔ e' hist p)) {hist data r : Bytes} {cs : List Bytes}
    (hc : Chunked (EdgeRule e) hist data cs r) (h1 : ∀ c ∈ cs, c.length ≤ m) (h2 : r.length ≤ m) :
    Chunked (EdgeRule e') hist data cs r := by
  induction hc with
  | rem hno =>
    refine .rem fun n hn => hno n ?_
    have := hn.2.1
    exact (edgeRule_congr h (by omega)).2 hn
  | @cut hist data n cs r hr _ ih =>
    have hn := h1 _ List.mem_cons_self
    have hle := hr.2.1
    rw [List.length_take] at hn
    exact .cut ((edgeRule_congr h (by omega)).1 hr) (ih (fun c hc => h1 c (List.mem_cons_of_mem _ hc)) h2)

/-- Rules that agree after the empty history have the same first chunk. -/
theorem _root_.HashRoll.Spec.Chunked.head_eq {e e' : Bytes → Bytes → Prop} (h : ∀ p, p ≠ [] → (e [] p ↔ e' [] p)) {data r r' : Bytes}
    {cs cs' : List Bytes} (hc : Chunked (EdgeRule e) [] data cs r) (hc' : Chunked (EdgeRule e') [] data cs' r') :
    cs.head? = cs'.head? := by
  have hiff : ∀ n, EdgeRule e [] data n ↔ EdgeRule e' [] data n := by
    intro n
    have h0 : ∀ (_ p : Bytes), p ≠ [] → p.length ≤ n → (e [] p ↔ e' [] p) := fun _ p hp _ => h p hp
    exact edgeRule_congr (e := fun _ => e []) (e' := fun _ => e' []) h0 (hist := []) (Nat.le_refl _)
  cases hc with
  | rem hno =>
    cases hc' with
    | rem _ => rfl
    | cut hr _ => exact absurd ((hiff _).2 hr) (hno _)
  | @cut _ _ n _ _ hr _ =>
    cases hc' with
    | rem hno => exact absurd ((hiff _).1 hr) (hno _)
    | @cut _ _ n' _ _ hr' _ =>
      have := (EdgeRule.good e').det ((hiff _).1 hr) hr'
      subst this
      rfl

/-- Wherever `find_chunk_edge` (the documented loop) finds only chunks of at most `m` bytes and leaves at most
`m` bytes, one-byte pushes find the same chunks. -/
def ApisAgreeUpTo (m : Nat) (A : Chunk) (C : ChunkIncr) : Prop :=
  ∀ data n cs rest, data.length < n → A.docLoop data n A.init data 0 = .ok (cs, some rest) →
    (∀ c ∈ cs, c.length ≤ m) → data.length ≤ cs.flatten.length + m →
    C.bytewise C.init 0 0 data = .ok (cs.map List.length)

/-- The first chunk is the same. -/
def FirstAgree (A : Chunk) (C : ChunkIncr) : Prop :=
  ∀ data n, data.length < n → ∃ cs rest ls,
    A.docLoop data n A.init data 0 = .ok (cs, some rest) ∧ C.bytewise C.init 0 0 data = .ok ls ∧
    (cs.map List.length).head? = ls.head?

theorem agreeUpTo {A : Chunk} {C : ChunkIncr} {e e' : Bytes → Bytes → Prop} {m : Nat}
    (hA : DocLoopChunks A (EdgeRule e)) (hC : BytewiseConforms C (EdgeRule e'))
    (h : ∀ hist p, p ≠ [] → p.length ≤ m → (e hist p ↔ e' hist p)) : ApisAgreeUpTo m A C := by
  intro data n cs rest hn hd h1 h2
  obtain ⟨cs', r, rest', k1, k2, _⟩ := hA data n hn
  rw [hd] at k1
  cases k1
  have hfl := k2.flatten
  have hr : r.length ≤ m := by
    have := congrArg List.length hfl
    rw [List.length_append] at this
    omega
  obtain ⟨cs2, r2, k3, k4⟩ := hC.all (EdgeRule.good _) (EdgeRule.pos _) data
  have := (k2.congr_upTo h h1 hr).det (EdgeRule.good _) k4
  rw [k3, this.1]

theorem firstAgree {A : Chunk} {C : ChunkIncr} {e e' : Bytes → Bytes → Prop}
    (hA : DocLoopChunks A (EdgeRule e)) (hC : BytewiseConforms C (EdgeRule e'))
    (h : ∀ p, p ≠ [] → (e [] p ↔ e' [] p)) : FirstAgree A C := by
  intro data n hn
  obtain ⟨cs', r, rest', k1, k2, _⟩ := hA data n hn
  obtain ⟨cs2, r2, k3, k4⟩ := hC.all (EdgeRule.good _) (EdgeRule.pos _) data
  refine ⟨_, _, _, k1, k3, ?_⟩
  have := k2.head_eq h k4
  rw [List.head?_map, List.head?_map, this]

/-! ## C09, C19 -/

/-- C09 for any rule: if `data` is split into `cs` and `r`, then `data ++ more` is split into `cs` followed by the
chunks of `r ++ more` (with `cs` as history, for the algorithms that look back). -/
theorem C09_append {rule : Rule} (hg : rule.Good) (hp : rule.Pos) {data more r : Bytes} {cs : List Bytes}
    (h : Chunked rule [] data cs r) :
    ∃ cs' r', Chunked rule cs.flatten (r ++ more) cs' r' ∧
      ∀ all r'', Chunked rule [] (data ++ more) all r'' → all = cs ++ cs' ∧ r'' = r' := by
  obtain ⟨cs', r', h'⟩ := Chunked.exists hg hp cs.flatten (r ++ more)
  refine ⟨cs', r', h', fun all r'' ha => ?_⟩
  have := (h.append hg (by simpa using h')).det hg ha
  exact ⟨this.1.symm, this.2.symm⟩
example : (EdgeRule (miiIncrEdge 5)).Good ∧ (EdgeRule (miiIncrEdge 5)).Pos := ⟨EdgeRule.good _, EdgeRule.pos _⟩

/-- C19, second half: for `k mod 32 < 8` the hash in the rule is the cyclic polynomial of the last `k` bytes. -/
theorem C19_window (p : Buzhash.BuzHash) (hk : 0 < p.k) (hr : p.k % 32 < 8) :
    FceFollows (Buzhash.chunk p) Any (EdgeRule (Local fun q => buzWindow p.k p.h q &&& p.mask = p.mask)) := by
  have h : (fun q => buzWindow p.k p.h q &&& p.mask = p.mask) = buzEdge p.k p.h p.mask := by
    funext q
    rw [buzEdge, Buzhash.buzHash_window _ hr]
  rw [h]
  exact C19_buzhash p hk
example : 0 < nom.k ∧ nom.k % 32 < 8 := by decide

/-- The same for `push`. -/
theorem C29_window (p : Buzhash.BuzHash) (hk : 0 < p.k) (hr : p.k % 32 < 8) :
    IncrFollows (Buzhash.incr p) (EdgeRule (Local fun q =>
      buzWindow p.k p.h q &&& p.mask = p.mask ∨ p.maxChunkSize < q.length)) := by
  have h : (fun q => buzWindow p.k p.h q &&& p.mask = p.mask ∨ p.maxChunkSize < q.length) =
      buzIncrEdge p.k p.h p.mask p.maxChunkSize := by
    funext q
    rw [buzIncrEdge, buzEdge, Buzhash.buzHash_window _ hr]
  rw [h]
  exact C29_buzhash p hk
example : 0 < nom.k ∧ nom.k % 32 < 8 := by decide

/-! ## C31, the conditional cases -/

theorem C31_buzhash (p : Buzhash.BuzHash) (hk : 0 < p.k) :
    ApisAgreeUpTo p.maxChunkSize (Buzhash.chunk p) (Buzhash.incr p) := by
  refine agreeUpTo (C08_buzhash p hk) (Buzhash.bytewise_conforms p hk) ?_
  intro _ q _ hq
  show buzEdge p.k p.h p.mask q ↔ buzEdge p.k p.h p.mask q ∨ p.maxChunkSize < q.length
  constructor
  · exact .inl
  · rintro (h | h)
    · exact h
    · omega
example : (sumDoc (Buzhash.chunk { Ex.buz with maxChunkSize := 8 }) sample).map (·.1.map List.length) = .ok [8, 6] := by
  decide +kernel

theorem C31_zpaq (p : Zpaq.Zpaq) (h1 : p.range.start = .unbounded) (h2 : p.range.stop = .unbounded) :
    ApisAgree (Zpaq.chunk p) (Zpaq.incr p) := by
  have e : Zpaq.fceEdge p = Zpaq.incrEdge p := by
    funext q
    simp [Zpaq.fceEdge, Zpaq.incrEdge, zpaqEdge, h1, h2, Below, Beyond]
  have hd := C08_zpaq p
  rw [show zpaqEdge p.range.start p.range.stop p.maxHash 1 = Zpaq.incrEdge p from e] at hd
  exact hd.agree (Zpaq.bytewise_conforms p) (EdgeRule.good _) (EdgeRule.pos _)
example : ∃ p : Zpaq.Zpaq, Zpaq.Zpaq.withRange .debug { start := .unbounded, stop := .unbounded } = .ok p ∧
    p.range.start = .unbounded ∧ p.range.stop = .unbounded ∧ p.maxHash = 65536 := ⟨_, rfl, rfl, rfl, rfl⟩

/-- FastCdc: any schedule of `find_chunk_edge` calls that saw all of `s`; if no chunk found (nor what is left) reaches
`max_size`, one-byte pushes find the same chunks. -/
theorem C31_fastcdc (p : FastCdc.FastCdc) (hnm : p.normalSize ≤ p.maxSize) {s : Bytes}
    {st : (FastCdc.chunk p).State} {base need prev : Nat} {cs : List Bytes} {st' : (FastCdc.chunk p).State} {d : Nat}
    (hr : FceRun (FastCdc.chunk p) (fun prev _ e => e - prev ≠ p.maxSize) s st base need prev cs)
    (hn : need ≤ s.length) (hG : s.length - prev ≠ p.maxSize)
    (hf : (FastCdc.chunk p).fce st (s.drop base) = .ok (st', none, d))
    (h1 : ∀ c ∈ cs, c.length < p.maxSize) (h2 : s.length - prev < p.maxSize) :
    (FastCdc.incr p).bytewise (FastCdc.incr p).init 0 0 s = .ok (cs.map List.length) := by
  have hc := (C12_partial p hnm).2.2 s st base need prev cs st' d hr hn hG hf
  obtain ⟨cs2, r2, k3, k4⟩ := (FastCdc.bytewise_conforms p hnm).all (EdgeRule.good _) (EdgeRule.pos _) s
  have := (Chunked.congr_upTo (m := p.maxSize - 1) (e' := Local (FastCdc.byteEdge p)) (by
      intro _ q _ hq
      show fastFceEdge _ _ _ _ q ↔ fastByteEdge _ _ _ _ q
      unfold fastFceEdge fastByteEdge
      constructor
      · rintro ⟨a, b⟩
        exact ⟨a, b.imp (by omega) id⟩
      · rintro ⟨a, b | b⟩
        · omega
        · exact ⟨a, .inr b⟩) hc
    (fun c hc => by have := h1 c hc; omega) (by rw [List.length_drop]; omega)).det (EdgeRule.good _) k4
  rw [k3, this.1]

example : ∃ st b n p cs st' d, FceRun (FastCdc.chunk (FastCdc.FastCdc.new (Vector.replicate 256 0) 3 4 10))
    (fun prev _ e => e - prev ≠ 10) sample st b n p cs ∧ n ≤ sample.length ∧ sample.length - p ≠ 10 ∧
    (FastCdc.chunk (FastCdc.FastCdc.new (Vector.replicate 256 0) 3 4 10)).fce st (sample.drop b) = .ok (st', none, d) ∧
    cs.map List.length = [4, 4, 4, 4, 4] ∧ sample.length - p < 10 :=
  ⟨_, _, _, _, _, _, _, .cut (e := 20) (.cut (e := 20) (.cut (e := 20) (.cut (e := 20) (.cut (e := 20) .start
    (by decide) (by decide) (by decide) rfl) (by decide) (by decide) (by decide) rfl) (by decide) (by decide) (by decide)
    rfl) (by decide) (by decide) (by decide) rfl) (by decide) (by decide) (by decide) rfl,
    by decide, by decide, rfl, rfl, by decide⟩

/-- FastCdc disagrees at the maximum: `find_chunk_edge` cuts after five bytes where pushes cut after four. -/
theorem C31_fastcdc_max : ∃ cs rest,
    (FastCdc.chunk Ex.fast).docLoop [0, 0, 0, 0, 0, 0] 7 (FastCdc.chunk Ex.fast).init [0, 0, 0, 0, 0, 0] 0 =
      .ok (cs, some rest) ∧ cs.map List.length = [5] ∧
    (FastCdc.incr Ex.fast).bytewise (FastCdc.incr Ex.fast).init 0 0 [0, 0, 0, 0, 0, 0] = .ok [4] :=
  ⟨_, _, rfl, rfl, rfl⟩

/-! ## C32 -/

/-- C32 is false of the code: the default Mii (w = 5). -/
theorem C32_refuted : ∃ (data : Bytes) (cs : List Bytes) (rest : Bytes),
    (Mii.chunk Mii.Mii.default).docLoop data 12 (Mii.chunk Mii.Mii.default).init data 0 = .ok (cs, some rest) ∧
    cs.map List.length = [6] ∧
    (Mii.incr Mii.Mii.default).bytewise (Mii.incr Mii.Mii.default).init 0 0 data = .ok [6, 5] :=
  ⟨[0, 1, 2, 3, 4, 5, 1, 2, 3, 4, 5], _, _, rfl, rfl, rfl⟩

/-- What remains of C32: the first chunk is the same. Missing: all later ones, which differ as `C32_later` says. -/
theorem C32_partial (p : Mii.Mii) : FirstAgree (Mii.chunk p) (Mii.incr p) := by
  refine firstAgree (C08_mii p) (Mii.bytewise_conforms p) ?_
  intro q _
  show miiEdge p.w q ↔ miiIncrEdge p.w [] q
  rw [miiIncrEdge, if_pos rfl]
example : sumDoc (Mii.chunk (Mii.Mii.withW 2)) sample ≠ .error .overflow := by decide +kernel

/-- After the first cut MiiIncr cuts where `find_chunk_edge` would, and in addition after the first `w` bytes of
a chunk if these are non-zero and increasing. -/
theorem C32_later (w : Nat) {hist : Bytes} (hh : hist ≠ []) (p : Bytes) :
    miiIncrEdge w hist p ↔ miiEdge w p ∨ (1 ≤ w ∧ p.length = w ∧ Increasing (0 :: p)) := by
  rw [miiIncrEdge, if_neg hh]
  unfold miiEdge
  rcases Nat.lt_or_ge w p.length with h | h
  · have e : lastN (w + 1) (0 :: p) = lastN (w + 1) p := lastN_append_right [0] (by omega)
    rw [e]
    simp only [List.length_cons]
    constructor
    · rintro ⟨a, _, c⟩; exact .inl ⟨a, by omega, c⟩
    · rintro (⟨a, b, c⟩ | ⟨_, b, _⟩)
      · exact ⟨a, by omega, c⟩
      · omega
  · have e : lastN (w + 1) (0 :: p) = 0 :: p := lastN_of_le (by simp; omega)
    rw [e]
    simp only [List.length_cons]
    constructor
    · rintro ⟨a, b, c⟩; exact .inr ⟨a, by omega, c⟩
    · rintro (⟨a, b, c⟩ | ⟨a, b, c⟩)
      · omega
      · exact ⟨a, by omega, c⟩
example : miiIncrEdge 2 [7] [1, 2] ∧ ¬ miiEdge 2 [1, 2] := by
  constructor
  · simp [miiIncrEdge, miiEdge, lastN, Increasing]
  · simp [miiEdge]

/-! ## C33 -/

/-- C33 is false of the code: with a window of 8 bytes RollSumIncr cuts again one byte after the cut, because
it does not start afresh. -/
theorem C33_refuted : ∃ (data : Bytes) (cs : List Bytes) (rest : Bytes),
    (Bup.chunk (Bup.RollSum.withWindow 8)).docLoop data 10 (Bup.chunk (Bup.RollSum.withWindow 8)).init data 0 =
      .ok (cs, some rest) ∧ cs.map List.length = [8] ∧
    (Bup.incr (Bup.RollSum.withWindow 8)).bytewise (Bup.incr (Bup.RollSum.withWindow 8)).init 0 0 data = .ok [8, 1] :=
  ⟨[165, 253, 201, 178, 196, 84, 20, 192, 196], _, _, rfl, rfl, rfl⟩

/-- … and with a window whose length is not a power of two even the first chunk differs. -/
theorem C33_refuted_window : ∃ (data : Bytes) (cs : List Bytes) (rest : Bytes),
    (Bup.chunk (Bup.RollSum.withWindow 7)).docLoop data 8 (Bup.chunk (Bup.RollSum.withWindow 7)).init data 0 =
      .ok (cs, some rest) ∧ cs.map List.length = [7] ∧
    (Bup.incr (Bup.RollSum.withWindow 7)).bytewise (Bup.incr (Bup.RollSum.withWindow 7)).init 0 0 data = .ok [] :=
  ⟨[232, 254, 252, 252, 249, 253, 220], _, _, rfl, rfl, rfl⟩

/-- What remains of C33: with a power-of-two window the first chunk is the same. Missing: later chunks
(`C33_later` says where they may differ) and other windows. -/
theorem C33_partial (n : Nat) :
    FirstAgree (Bup.chunk (Bup.RollSum.withWindow (2 ^ n))) (Bup.incr (Bup.RollSum.withWindow (2 ^ n))) := by
  refine firstAgree (C08_rollsum _) (Bup.bytewise_conforms n) ?_
  intro q _
  show bupEdge (2 ^ n) q ↔ bupIncrEdge (2 ^ n) [] q
  rw [bupIncrEdge, List.nil_append]
example : sumDoc (Bup.chunk (Bup.RollSum.withWindow 8)) sampleBup ≠ .error .overflow := by decide +kernel

/-- At least a window after the last cut both decide alike. -/
theorem C33_later (W : Nat) (hist p : Bytes) (h : W ≤ p.length) : bupIncrEdge W hist p ↔ bupEdge W p := by
  unfold bupIncrEdge bupEdge bupS2
  rw [lastN_append_right _ h]
example : 8 ≤ (sampleBup : Bytes).length := by decide

/-! ## C34 -/

/-- a bound one lower -/
def lowerBound : Bound Nat → Bound Nat
  | .included a => .included (a - 1)
  | .excluded a => .excluded (a - 1)
  | .unbounded  => .unbounded

def lower (p : Zpaq.Zpaq) : Zpaq.Zpaq :=
  { range := { start := lowerBound p.range.start, stop := lowerBound p.range.stop }, maxHash := p.maxHash }

/-- C34 is false of the code. -/
theorem C34_refuted : ∃ cs rest,
    (Zpaq.chunk Ex.zpaq).docLoop sample 21 (Zpaq.chunk Ex.zpaq).init sample 0 = .ok (cs, some rest) ∧
    (cs.map List.length).head? = some 1 ∧
    ((Zpaq.incr Ex.zpaq).bytewise (Zpaq.incr Ex.zpaq).init 0 0 sample).map (·.head?) = .ok (some 2) :=
  ⟨_, _, rfl, rfl, rfl⟩

theorem lower_edge (p : Zpaq.Zpaq) (q : Bytes) (hq : q ≠ []) :
    Zpaq.fceEdge p q ↔ Zpaq.incrEdge (lower p) q := by
  have hl := List.length_pos_iff.2 hq
  have h1 : Below p.range.start (q.length + 1) ↔ Below (lower p).range.start (q.length + 0) := by
    unfold lower lowerBound Below
    cases p.range.start <;> simp only <;> omega
  have h2 : Beyond p.range.stop (q.length + 1) ↔ Beyond (lower p).range.stop (q.length + 0) := by
    unfold lower lowerBound Beyond
    cases p.range.stop <;> simp only <;> omega
  unfold Zpaq.fceEdge Zpaq.incrEdge zpaqEdge
  rw [h1, h2]
  rfl

/-- What is true instead of C34: `find_chunk_edge` behaves exactly like ZpaqIncr with both bounds lowered by one. -/
theorem C34_partial (p : Zpaq.Zpaq) : ApisAgree (Zpaq.chunk p) (Zpaq.incr (lower p)) := by
  intro data n hn
  obtain ⟨cs, r, rest, h1, h2, _⟩ := C08_zpaq p data n hn
  obtain ⟨cs', r', h3, h4⟩ := (Zpaq.bytewise_conforms (lower p)).all (EdgeRule.good _) (EdgeRule.pos _) data
  have h5 : Chunked (EdgeRule (Local (Zpaq.incrEdge (lower p)))) [] data cs r :=
    Chunked.of_iff (rule := EdgeRule (Local (Zpaq.fceEdge p))) (fun h d k =>
      edgeRule_congr (m := k) (e := Local (Zpaq.fceEdge p)) (fun _ q hq _ => lower_edge p q hq) (Nat.le_refl _)) h2
  have := h5.det (EdgeRule.good _) h4
  exact ⟨cs, rest, h1, by rw [h3, this.1]⟩
example : ApisAgree (Zpaq.chunk Ex.zpaq) (Zpaq.incr
    { range := { start := .included 1, stop := .excluded 4 }, maxHash := 0x80000000 }) := C34_partial Ex.zpaq

/-! ## C53 -/

/-- `BuzHash` with the salted table, `BuzHash` with the plain one -/
def salted (k : Nat) (mask : BitVec 32) (max : Nat) (t : Vector (BitVec 32) 256) (salt : UInt8) : Buzhash.BuzHash :=
  { k := k, h := Buzhash.tableByteSaltHash salt t, mask := mask, maxChunkSize := max }

def plain (k : Nat) (mask : BitVec 32) (max : Nat) (t : Vector (BitVec 32) 256) : Buzhash.BuzHash :=
  { k := k, h := Buzhash.tableHash t, mask := mask, maxChunkSize := max }

/-- the data xor-ed bytewise with the salt -/
def xorSalt (salt : UInt8) (data : Bytes) : Bytes := data.map (· ^^^ salt)

/-- Every call of `find_chunk_edge` with the salted table, in any state, is the call with the plain table on the
xor-ed data: same result, same state afterwards. -/
theorem C53_fce (k : Nat) (mask : BitVec 32) (max : Nat) (t : Vector (BitVec 32) 256) (salt : UInt8)
    (st : Buzhash.BuzHashSearchState) (data : Bytes) :
    (Buzhash.chunk (salted k mask max t salt)).fce st data =
      (Buzhash.chunk (plain k mask max t)).fce st (xorSalt salt data) := by
  show (salted k mask max t salt).findChunkEdge st data = (plain k mask max t).findChunkEdge st (xorSalt salt data)
  rw [Buzhash.fce_eq, Buzhash.fce_eq]
  have hl : (xorSalt salt data).length = data.length := by simp [xorSalt]
  have hidx : ∀ i, index (xorSalt salt data) i = (index data i).map (· ^^^ salt) := by
    intro i
    unfold index xorSalt
    rw [List.getElem?_map]
    cases data[i]? <;> rfl
  have hadd : ∀ (s : Buzhash.BuzHashState) i, s.addBuf data (salted k mask max t salt) i =
      s.addBuf (xorSalt salt data) (plain k mask max t) i := by
    intro s i
    unfold Buzhash.BuzHashState.addBuf
    rw [show (salted k mask max t salt).k = k from rfl, show (plain k mask max t).k = k from rfl, hidx, hidx]
    cases index data i <;> cases index data (i - k) <;> rfl
  have hb : Buzhash.fceBody (salted k mask max t salt) data = Buzhash.fceBody (plain k mask max t) (xorSalt salt data) := by
    funext i s
    unfold Buzhash.fceBody
    rw [hadd]
    rfl
  rw [hb, hl]
  rfl

theorem wxor_bytes {w : Nat} (F : UInt8 → Nat → BitVec w) (f : UInt8 → UInt8) (p : Bytes) :
    wxor (fun b j => F (f b) j) p = wxor F (p.map f) := by
  induction p using snoc_induction generalizing F with
  | nil => rfl
  | snoc p v ih =>
    rw [wxor_snoc, List.map_append, List.map_singleton, wxor_snoc, ih (fun b j => F b (j + 1))]

theorem _root_.HashRoll.Spec.Chunked.map_bytes {e e' : Bytes → Prop} (f : UInt8 → UInt8) (h : ∀ p, e p ↔ e' (p.map f)) {hist data r : Bytes}
    {cs : List Bytes} (hc : Chunked (EdgeRule (Local e)) hist data cs r) :
    Chunked (EdgeRule (Local e')) (hist.map f) (data.map f) (cs.map (List.map f)) (r.map f) := by
  have hiff : ∀ (h' h'' d : Bytes) n, EdgeRule (Local e) h' d n ↔ EdgeRule (Local e') h'' (d.map f) n := by
    intro h' h'' d n
    show FirstCut e d n ↔ FirstCut e' (d.map f) n
    unfold FirstCut
    simp only [List.length_map, ← List.map_take, ← h]
  induction hc with
  | rem hno => exact .rem fun n hn => hno n ((hiff _ _ _ _).2 hn)
  | @cut hist data n cs r hr _ ih =>
    rw [List.map_cons, List.map_take]
    refine .cut ((hiff _ _ _ _).1 hr) ?_
    rw [← List.map_take, ← List.map_append, ← List.map_drop]
    exact ih

/-- BuzHashIncr with the salted table finds the chunks (and leaves the remainder) that it finds with the plain table
in the xor-ed data. -/
theorem C53_incr (k : Nat) (hk : 0 < k) (mask : BitVec 32) (max : Nat) (t : Vector (BitVec 32) 256) (salt : UInt8)
    (data : Bytes) (n : Nat) (hn : data.length < n) :
    ∃ cs it it',
      let C := Buzhash.incr (salted k mask max t salt)
      let C' := Buzhash.incr (plain k mask max t)
      (C.iterSlicesStrict C.init data).run n = .ok (cs, it, true) ∧
      (C'.iterSlicesStrict C'.init (xorSalt salt data)).run n = .ok (cs.map (xorSalt salt), it', true) ∧
      it'.rem = xorSalt salt it.rem := by
  obtain ⟨it, cs, r, h1, h2, h3, _⟩ := C05_buzhash (salted k mask max t salt) hk data n hn
  obtain ⟨it', cs', r', h1', h2', h3', _⟩ := C05_buzhash (plain k mask max t) hk (xorSalt salt data) n
    (by simpa [xorSalt] using hn)
  have he : ∀ p, buzIncrEdge (salted k mask max t salt).k (salted k mask max t salt).h (salted k mask max t salt).mask
      (salted k mask max t salt).maxChunkSize p ↔ buzIncrEdge (plain k mask max t).k (plain k mask max t).h
      (plain k mask max t).mask (plain k mask max t).maxChunkSize (p.map (· ^^^ salt)) := by
    intro p
    unfold buzIncrEdge buzEdge buzHash
    rw [List.length_map, ← wxor_bytes]
    rfl
  have := (h2.map_bytes (· ^^^ salt) he).det (EdgeRule.good _) h2'
  refine ⟨cs, it, it', h1, ?_, ?_⟩
  · rw [h1', ← this.1]; rfl
  · have e1 : it.rem = r := h3
    have e2 : it'.rem = r' := h3'
    rw [e1, e2, ← this.2]; rfl
example : sumStrict (Buzhash.incr (salted 4 3 6 Tables.goBuzhash 0x5a)) sample ≠ .error .overflow := by decide +kernel

end HashRoll.Props
