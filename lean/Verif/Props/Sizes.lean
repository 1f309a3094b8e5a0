import Verif.Props.Constructors
/-!
# C35, C37, C38, C39: chunk sizes, for every schedule of calls
-/

namespace HashRoll.Props

open Spec

/-- If every prefix of length `m` is an edge, no chunk is longer and no longer piece is uncut. -/
theorem edge_len_le {e : Bytes → Bytes → Prop} {m : Nat} (hm : 1 ≤ m) (h : ∀ hist p, p.length = m → e hist p)
    {hist data : Bytes} {n : Nat} (hr : EdgeRule e hist data n) : n ≤ m := by
  obtain ⟨_, h2, _, h4⟩ := hr
  by_contra hlt
  exact h4 m hm (by omega) (h _ _ (by rw [List.length_take]; omega))

theorem edge_uncut_lt {e : Bytes → Bytes → Prop} {m : Nat} (hm : 1 ≤ m) (h : ∀ hist p, p.length = m → e hist p)
    {hist data : Bytes} (hr : ∀ n, ¬ EdgeRule e hist data n) : data.length < m := by
  by_contra hlt
  obtain ⟨n, _, hn⟩ := FirstCut.exists_of_edge (e := e hist) (d := data) hm (by omega)
    (h _ _ (by rw [List.length_take]; omega))
  exact hr n hn

/-! ## C35 -/

/-- For every slicing: no chunk of BuzHashIncr is longer than `max_chunk_size + 1`, and no more than
`max_chunk_size` bytes are ever pending. -/
theorem C35_incr (p : Buzhash.BuzHash) (hk : 0 < p.k) {s : Bytes} {st pos prev cs}
    (hr : IncrRun (Buzhash.incr p) s st pos prev cs) :
    (∀ c ∈ cs, c.length ≤ p.maxChunkSize + 1) ∧ pos - prev ≤ p.maxChunkSize := by
  have he : ∀ hist q : Bytes, q.length = p.maxChunkSize + 1 → Local (buzIncrEdge p.k p.h p.mask p.maxChunkSize) hist q :=
    fun _ q hq => .inr (by omega)
  have hc := Buzhash.incr_conforms p hk
  constructor
  · intro c hcs
    obtain ⟨h, d, n, hrule, rfl⟩ := hc.run_mem (EdgeRule.good _) hr c hcs
    have := edge_len_le (by omega) he hrule
    rw [List.length_take]; omega
  · rcases hc.run_pending hr with h | h
    · omega
    · have h1 := edge_uncut_lt (by omega) he h
      obtain ⟨_, h2, _⟩ := hc.chunks (EdgeRule.good _) hr
      rw [sub_length] at h1
      omega
example : ∃ st b p cs, IncrRun (Buzhash.incr Ex.buz) sample st b p cs ∧ cs.map List.length = [7] :=
  ⟨_, _, _, _, .cut (e := 20) .start (by decide) (by decide) rfl, rfl⟩

/-- `BuzHash::new_nom(0)` -/
def nom : Buzhash.BuzHash :=
  { k := 67, h := Buzhash.tableByteSaltHash 0 Tables.goBuzhash, mask := 0xfff, maxChunkSize := 2 ^ 24 }
example : Buzhash.BuzHash.newNom 0 = .ok nom := rfl

theorem nom_zeros (n : Nat) : ¬ buzEdge nom.k nom.h nom.mask (List.replicate n 0) := by
  have key : ∀ m : Fin 68, ¬ buzWindow nom.k nom.h (List.replicate m.1 0) &&& nom.mask = nom.mask := by
    decide +kernel
  unfold buzEdge
  rw [Buzhash.buzHash_window _ (by decide : nom.k % 32 < 8)]
  rcases Nat.lt_or_ge n 68 with h | h
  · exact key ⟨n, h⟩
  · have e : buzWindow nom.k nom.h (List.replicate n 0) = buzWindow nom.k nom.h (List.replicate 67 0) := by
      unfold buzWindow lastN
      rw [List.drop_replicate, List.drop_replicate, List.length_replicate, List.length_replicate,
        show n - (n - nom.k) = 67 - (67 - nom.k) by have : nom.k = 67 := rfl; omega]
    rw [e]
    exact key ⟨67, by omega⟩

/-- C35 is false of `find_chunk_edge`: `BuzHash::new_nom(0)` (maximum 2^24) finds no cut in zeros, however many
there are and however they are presented. -/
theorem C35_refuted (n : Nat) {st base need prev cs}
    (hr : FceRun (Buzhash.chunk nom) Any (List.replicate n 0) st base need prev cs) : cs = [] := by
  cases hcs : cs with
  | nil => rfl
  | cons c cs' =>
    obtain ⟨h1, h2⟩ := (C19_buzhash nom (by decide)).2.1 _ _ _ _ _ _ hr
    obtain ⟨all, r, ha⟩ := Chunked.exists (EdgeRule.good (Local (buzEdge nom.k nom.h nom.mask))) (EdgeRule.pos _)
      [] (List.replicate n 0)
    have hp := h2 all r ha
    cases ha with
    | rem => rw [hcs] at hp; simp at hp
    | @cut _ _ m _ _ hrule _ =>
      exfalso
      have := hrule.2.2.1
      rw [List.take_replicate] at this
      exact nom_zeros _ this

/-- … so with 2^24 + 2 zeros, the whole of them is one chunk (the remainder), longer than the maximum allows. -/
theorem C35_refuted_doc (n k : Nat) (hk : n < k) : ∃ rest,
    (Buzhash.chunk nom).docLoop (List.replicate n 0) k (Buzhash.chunk nom).init (List.replicate n 0) 0 = .ok ([], some rest) := by
  obtain ⟨cs, r, rest, h1, h2, _⟩ := C08_buzhash nom (by decide) (List.replicate n 0) k (by simpa using hk)
  cases h2 with
  | rem => exact ⟨rest, h1⟩
  | @cut _ _ m _ _ hrule _ =>
    exfalso
    have := hrule.2.2.1
    rw [List.take_replicate] at this
    exact nom_zeros _ this

/-- A complete chunk above the maximum: 8 bytes with `max_chunk_size = 6`. -/
theorem C35_refuted_chunk : ∃ cs rest, (Buzhash.chunk Ex.buz).docLoop sample 21 (Buzhash.chunk Ex.buz).init sample 0 =
    .ok (cs, some rest) ∧ (cs.map List.length).head? = some 8 ∧ Ex.buz.maxChunkSize = 6 :=
  ⟨_, _, rfl, rfl, rfl⟩

/-! ## C37 -/

theorem C37_incr (p : Ram.Ram) {s : Bytes} {st pos prev cs} (hr : IncrRun (Ram.incr p) s st pos prev cs) :
    ∀ c ∈ cs, p.w + 1 ≤ c.length := by
  intro c hc
  obtain ⟨h, d, n, ⟨h1, h2, ⟨b, _, h3, _⟩, _⟩, rfl⟩ := (Ram.incr_conforms p).run_mem (BeforeRule.good _) hr c hc
  rw [List.length_take] at h3 ⊢
  omega
example : ∃ st b p cs, IncrRun (Ram.incr (Ram.Ram.withW 2)) sample st b p cs ∧ cs.map List.length = [4] :=
  ⟨_, _, _, _, .cut (e := 20) .start (by decide) (by decide) rfl, rfl⟩

theorem C37_fce (p : Ram.Ram) {s : Bytes} {st base need prev cs}
    (hr : FceRun (Ram.chunk p) Any s st base need prev cs) : ∀ c ∈ cs, p.w + 2 ≤ c.length := by
  intro c hc
  obtain ⟨h, d, n, ⟨h1, h2, ⟨b, _, h3, _⟩, _⟩, rfl⟩ := (Ram.fce_conforms p).run_mem (EdgeRule.good _) hr c hc
  omega
example : ∃ st b n p cs, FceRun (Ram.chunk (Ram.Ram.withW 2)) Any sample st b n p cs ∧ cs.map List.length = [5] :=
  ⟨_, _, _, _, _, .cut (e := 20) .start (by decide) (by decide) trivial rfl, rfl⟩

/-- Both bounds are reached. -/
theorem C37_tight :
    ((Ram.incr (Ram.Ram.withW 2)).push (Ram.incr (Ram.Ram.withW 2)).init [1, 1, 1, 1]).map (·.2) = .ok (some 3) ∧
    ((Ram.chunk (Ram.Ram.withW 2)).fce (Ram.chunk (Ram.Ram.withW 2)).init [1, 1, 1, 1]).map (·.2) =
      .ok (some 4, 4) := by decide +kernel

/-! ## C38 -/

theorem increasing_length {l : Bytes} (h : Increasing l) : l.length ≤ 256 := by
  have key : ∀ (l : List UInt8) (x : UInt8), l.Pairwise (· < ·) → (∀ y ∈ l, x < y) → l.length + x.toNat ≤ 255 := by
    intro l
    induction l with
    | nil =>
      intro x _ _
      have := x.toNat_lt
      simp only [List.length_nil]; omega
    | cons a l ih =>
      intro x hp hx
      have h1 := ih a (List.pairwise_cons.1 hp).2 (List.pairwise_cons.1 hp).1
      have h2 : x.toNat < a.toNat := UInt8.lt_iff_toNat_lt.1 (hx a List.mem_cons_self)
      simp only [List.length_cons]; omega
  cases l with
  | nil => simp
  | cons a l =>
    have := key l a (List.pairwise_cons.1 h).2 (List.pairwise_cons.1 h).1
    simp only [List.length_cons]; omega

theorem C38_fce (p : Mii.Mii) {s : Bytes} {st base need prev cs}
    (hr : FceRun (Mii.chunk p) Any s st base need prev cs) : ∀ c ∈ cs, p.w + 1 ≤ c.length := by
  intro c hc
  obtain ⟨h, d, n, ⟨h1, h2, ⟨_, h3, _⟩, _⟩, rfl⟩ := (Mii.fce_conforms p).run_mem (EdgeRule.good _) hr c hc
  exact h3
example : ∃ st b n p cs, FceRun (Mii.chunk (Mii.Mii.withW 2)) Any sample st b n p cs ∧ cs.map List.length = [6] :=
  ⟨_, _, _, _, _, .cut (e := 20) .start (by decide) (by decide) trivial rfl, rfl⟩

theorem C38_incr (p : Mii.Mii) {s : Bytes} {st pos prev cs} (hr : IncrRun (Mii.incr p) s st pos prev cs) :
    (∀ c ∈ cs, p.w ≤ c.length) ∧ ∀ c ∈ cs.head?, p.w + 1 ≤ c.length := by
  constructor
  · intro c hc
    obtain ⟨h, d, n, ⟨h1, h2, h3, _⟩, rfl⟩ := (Mii.incr_conforms p).run_mem (EdgeRule.good _) hr c hc
    unfold miiIncrEdge at h3
    split at h3
    · have := h3.2.1; omega
    · have := h3.2.1
      simp only [List.length_cons] at this; omega
  · intro c hc
    obtain ⟨_, h2⟩ := (C26_mii p).2.1 _ _ _ _ _ hr
    obtain ⟨all, r, ha⟩ := Chunked.exists (EdgeRule.good (miiIncrEdge p.w)) (EdgeRule.pos _) [] s
    obtain ⟨cs', hp⟩ := h2 all r ha
    cases cs with
    | nil => cases hc
    | cons c0 cs0 =>
      cases hc
      subst hp
      cases ha with
      | @cut _ _ n _ _ hrule _ =>
        have := hrule.2.2.1
        rw [miiIncrEdge, if_pos rfl] at this
        exact this.2.1
example : ∃ st b p cs, IncrRun (Mii.incr (Mii.Mii.withW 2)) sample st b p cs ∧ cs.map List.length = [6, 2] :=
  ⟨_, _, _, _, .cut (e := 20) (.cut (e := 20) .start (by decide) (by decide) rfl) (by decide) (by decide) rfl, rfl⟩

/-- With `w = 0` or `w >= 256` nothing is ever cut. -/
theorem C38_silent (p : Mii.Mii) (hw : p.w = 0 ∨ 256 ≤ p.w) (s : Bytes) :
    (∀ st base need prev cs, FceRun (Mii.chunk p) Any s st base need prev cs → cs = []) ∧
    ∀ st pos prev cs, IncrRun (Mii.incr p) s st pos prev cs → cs = [] := by
  have hno : ∀ q, ¬ miiEdge p.w q := by
    rintro q ⟨h1, h2, h3⟩
    have := increasing_length h3
    rw [lastN_length] at this
    omega
  constructor
  · intro st base need prev cs hr
    cases cs with
    | nil => rfl
    | cons c cs =>
      obtain ⟨h, d, n, hrule, _⟩ := (Mii.fce_conforms p).run_mem (EdgeRule.good _) hr c List.mem_cons_self
      exact absurd hrule.2.2.1 (hno _)
  · intro st pos prev cs hr
    cases cs with
    | nil => rfl
    | cons c cs =>
      obtain ⟨h, d, n, hrule, _⟩ := (Mii.incr_conforms p).run_mem (EdgeRule.good _) hr c List.mem_cons_self
      have h3 := hrule.2.2.1
      unfold miiIncrEdge at h3
      split at h3 <;> exact absurd h3 (hno _)
example : (Mii.Mii.withW 256).w = 0 ∨ 256 ≤ (Mii.Mii.withW 256).w := by decide

/-- `w = 255` does cut (by the 256 bytes 0, 1, …, 255). -/
theorem C38_255 : ((Mii.chunk (Mii.Mii.withW 255)).fce (Mii.chunk (Mii.Mii.withW 255)).init
    ((List.range 256).map UInt8.ofNat)).map (·.2) = .ok (some 256, 256) := by decide +kernel

/-! ## C39 -/

theorem zpaq_len {lo hi : Nat} {mh : BitVec 32} {d : Nat} (hlh : lo < hi) :
    (∀ hist p, p.length = max 1 (hi - d) → Local (zpaqEdge (.included lo) (.excluded hi) mh d) hist p) ∧
    ∀ p, zpaqEdge (.included lo) (.excluded hi) mh d p → lo ≤ p.length + d := by
  constructor
  · intro _ p hp
    right
    show hi ≤ p.length + d
    omega
  · rintro p (⟨_, h⟩ | h)
    · have : ¬ p.length + d < lo := h
      omega
    · have : hi ≤ p.length + d := h
      omega

/-- With a range `lo..hi`, for every slicing: every complete chunk of ZpaqIncr has between `lo` and `hi` bytes, and
fewer than `hi` bytes are pending. -/
theorem C39_incr (p : Zpaq.Zpaq) {lo hi : Nat} (hlo : p.range.start = .included lo) (hhi : p.range.stop = .excluded hi)
    (hlh : lo < hi) {s : Bytes} {st pos prev cs} (hr : IncrRun (Zpaq.incr p) s st pos prev cs) :
    (∀ c ∈ cs, lo ≤ c.length ∧ c.length ≤ hi) ∧ pos - prev < hi := by
  have hc := Zpaq.incr_conforms p
  simp only [Zpaq.incrEdge, hlo, hhi] at hc
  obtain ⟨l1, l2⟩ := zpaq_len (mh := p.maxHash) (d := 0) hlh
  constructor
  · intro c hcs
    obtain ⟨h, d, n, hrule, rfl⟩ := hc.run_mem (EdgeRule.good _) hr c hcs
    have h1 := edge_len_le (by omega) l1 hrule
    have h2 := l2 _ hrule.2.2.1
    rw [List.length_take] at h2 ⊢
    omega
  · rcases hc.run_pending hr with h | h
    · omega
    · have h1 := edge_uncut_lt (by omega) l1 h
      obtain ⟨_, h2, _⟩ := hc.chunks (EdgeRule.good _) hr
      rw [sub_length] at h1
      omega
example : ∃ st b p cs, IncrRun (Zpaq.incr Ex.zpaq) sample st b p cs ∧ cs.map List.length = [2, 3] :=
  ⟨_, _, _, _, .cut (e := 20) (.cut (e := 20) .start (by decide) (by decide) rfl) (by decide) (by decide) rfl, rfl⟩

/-- For every schedule of `find_chunk_edge`: between `lo - 1` and `hi - 1` (at least one). -/
theorem C39_fce (p : Zpaq.Zpaq) {lo hi : Nat} (hlo : p.range.start = .included lo) (hhi : p.range.stop = .excluded hi)
    (hlh : lo < hi) {s : Bytes} {st base need prev cs} (hr : FceRun (Zpaq.chunk p) Any s st base need prev cs) :
    ∀ c ∈ cs, lo - 1 ≤ c.length ∧ c.length ≤ max 1 (hi - 1) := by
  have hc := Zpaq.fce_conforms p
  simp only [Zpaq.fceEdge, hlo, hhi] at hc
  obtain ⟨l1, l2⟩ := zpaq_len (mh := p.maxHash) (d := 1) hlh
  intro c hcs
  obtain ⟨h, d, n, hrule, rfl⟩ := hc.run_mem (EdgeRule.good _) hr c hcs
  have h1 := edge_len_le (by omega) l1 hrule
  have h2 := l2 _ hrule.2.2.1
  rw [List.length_take] at h2 ⊢
  omega
example : ∃ st b n p cs, FceRun (Zpaq.chunk Ex.zpaq) Any sample st b n p cs ∧ cs.map List.length = [1, 1] :=
  ⟨_, _, _, _, _, .cut (e := 20) (.cut (e := 20) .start (by decide) (by decide) trivial rfl) (by decide) (by decide)
    trivial rfl, rfl⟩

/-- The documented minimum is violated by `find_chunk_edge`: range `2..5`, first chunk one byte long. -/
theorem C39_refuted : ∃ cs rest, (Zpaq.chunk Ex.zpaq).docLoop sample 21 (Zpaq.chunk Ex.zpaq).init sample 0 =
    .ok (cs, some rest) ∧ (cs.map List.length).head? = some 1 := ⟨_, _, rfl, rfl⟩

/-- The documented maximum is violated by ZpaqIncr: with range `2..5` and a hash threshold that no byte meets, every
chunk has 5 bytes, which is outside the range. -/
theorem C39_refuted_max :
    let C := Zpaq.incr { Ex.zpaq with maxHash := 0 }
    (C.push C.init sample).map (·.2) = .ok (some 5) ∧ Ex.zpaq.range.contains 5 = false := by decide +kernel

end HashRoll.Props
