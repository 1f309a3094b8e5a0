import Verif.Props.Recover
import Verif.Props.Local
import Verif.Props.Loops
import Verif.Props.Constructors
import Verif.Props.Zstd
/-!
# C84: what a larger size parameter does

Every algorithm has a parameter for the wanted chunk size. COMPARE.md speaks of it as if it only changed how often a cut
happens. Here: when does the larger parameter only leave cuts out, so that a store filled with the old parameter still
matches? For most algorithms only the first chunk can be compared; for Pigz not a single cut is kept.
-/

namespace HashRoll.Spec

/-- C84. The coarser `B` never finds a shorter first chunk than `A`: where `B` finds one, `A` does, and it is a prefix. -/
def DocCoarser (A B : Chunk) : Prop :=
  ∀ (data : Bytes) (n : Nat), data.length < n → ∃ cs ds r r',
    A.docLoop data n A.init data 0 = .ok (cs, some r) ∧ B.docLoop data n B.init data 0 = .ok (ds, some r') ∧
    ∀ d ds', ds = d :: ds' → ∃ c cs', cs = c :: cs' ∧ c <+: d

def StrictCoarser (A B : ChunkIncr) : Prop :=
  ∀ (data : Bytes) (n : Nat), data.length < n → ∃ cs ds it it',
    (A.iterSlicesStrict A.init data).run n = .ok (cs, it, true) ∧ (B.iterSlicesStrict B.init data).run n = .ok (ds, it', true) ∧
    ∀ d ds', ds = d :: ds' → ∃ c cs', cs = c :: cs' ∧ c <+: d

/-- All cuts of `B` are cuts of `A`. -/
def DocNested (A B : Chunk) : Prop :=
  ∀ (data : Bytes) (n : Nat) cs ds r r', data.length < n →
    A.docLoop data n A.init data 0 = .ok (cs, some r) → B.docLoop data n B.init data 0 = .ok (ds, some r') →
    ∀ q, CutAt ds q → CutAt cs q

/-- A cut of `B` is a cut of `A`, unless one of the two has cut less than `W` bytes before. -/
def DocNestedAfter (A B : Chunk) (W : Nat) : Prop :=
  ∀ (data : Bytes) (n : Nat) cs ds r r', data.length < n →
    A.docLoop data n A.init data 0 = .ok (cs, some r) → B.docLoop data n B.init data 0 = .ok (ds, some r') →
    ∀ q, W ≤ q → CutAt ds q → (∀ q', q' < q → q < q' + W → ¬ CutAt cs q' ∧ ¬ CutAt ds q') → CutAt cs q

def StrictNestedAfter (A B : ChunkIncr) (W : Nat) : Prop :=
  ∀ (data : Bytes) (n : Nat) cs ds it it', data.length < n →
    (A.iterSlicesStrict A.init data).run n = .ok (cs, it, true) → (B.iterSlicesStrict B.init data).run n = .ok (ds, it', true) →
    ∀ q, W ≤ q → CutAt ds q → (∀ q', q' < q → q < q' + W → ¬ CutAt cs q' ∧ ¬ CutAt ds q') → CutAt cs q

/-- No cut of `B` is a cut of `A`. -/
def DocDisjoint (A B : Chunk) : Prop :=
  ∀ (data : Bytes) (n : Nat) cs ds r r', data.length < n →
    A.docLoop data n A.init data 0 = .ok (cs, some r) → B.docLoop data n B.init data 0 = .ok (ds, some r') →
    ∀ q, ¬ (CutAt ds q ∧ CutAt cs q)

def StrictDisjoint (A B : ChunkIncr) : Prop :=
  ∀ (data : Bytes) (n : Nat) cs ds it it', data.length < n →
    (A.iterSlicesStrict A.init data).run n = .ok (cs, it, true) → (B.iterSlicesStrict B.init data).run n = .ok (ds, it', true) →
    ∀ q, ¬ (CutAt ds q ∧ CutAt cs q)

/-- `B` has cut at most as often as `A` at every place: the `k`-th cut of `B` is not before the `k`-th cut of `A`. -/
def DocFewer (A B : Chunk) : Prop :=
  ∀ (data : Bytes) (n : Nat), data.length < n → ∃ cs ds r r',
    A.docLoop data n A.init data 0 = .ok (cs, some r) ∧ B.docLoop data n B.init data 0 = .ok (ds, some r') ∧
    ds.length ≤ cs.length ∧ ∀ k ≤ ds.length, (cs.take k).flatten <+: (ds.take k).flatten

/-! ### rules -/

/-- where the second rule cuts, the first cuts at the same place or before -/
def Rule.Sooner (rule rule' : Rule) : Prop := ∀ h d n, rule' h d n → ∃ m ≤ n, rule h d m

variable {A A' : Chunk} {C C' : ChunkIncr} {rule rule' : Rule}

theorem Rule.Sooner.edge {e e' : Bytes → Bytes → Prop} (h : ∀ hist p, p ≠ [] → e' hist p → e hist p) :
    Rule.Sooner (EdgeRule e) (EdgeRule e') := by
  rintro hist d n ⟨h1, h2, h3, -⟩
  obtain ⟨m, hm, hf⟩ := FirstCut.exists_of_edge (e := e hist) h1 h2 (h hist _ (by
    intro h0
    have := congrArg List.length h0
    rw [List.length_take, List.length_nil] at this
    omega) h3)
  exact ⟨m, hm, hf⟩

theorem Rule.Sooner.before {e e' : Bytes → Bytes → Prop} (h : ∀ hist p, p ≠ [] → e' hist p → e hist p) :
    Rule.Sooner (BeforeRule e) (BeforeRule e') := by
  intro hist d n hn
  obtain ⟨m, hm, hf⟩ := Rule.Sooner.edge h hist d (n + 1) hn
  have := hf.1
  exact ⟨m - 1, by omega, by rw [BeforeRule, Nat.sub_add_cancel this]; exact hf⟩

theorem Rule.Sooner.first (hs : Rule.Sooner rule rule') (hg : rule.Good) {data : Bytes} {cs ds : List Bytes} {r r' : Bytes}
    (h : Chunked rule [] data cs r) (h' : Chunked rule' [] data ds r') :
    ∀ d ds', ds = d :: ds' → ∃ c cs', cs = c :: cs' ∧ c <+: d := by
  intro d ds' hd
  subst hd
  generalize hx : d :: ds' = x at h'
  cases h' with
  | rem hn => cases hx
  | @cut _ _ n _ _ hr _ =>
    cases hx
    obtain ⟨m, hm, hr'⟩ := hs _ _ _ hr
    cases h with
    | rem hn => exact absurd hr' (hn m)
    | @cut _ _ k cs _ hr2 _ =>
      cases hg.det hr' hr2
      exact ⟨_, _, rfl, List.take_prefix_take_left hm⟩

theorem Rule.Sooner.doc (hs : Rule.Sooner rule rule') (hg : rule.Good) (h : DocLoopChunks A rule) (h' : DocLoopChunks A' rule') :
    DocCoarser A A' := by
  intro data n hn
  obtain ⟨cs, r, rest, h1, h2, -⟩ := h data n hn
  obtain ⟨ds, r', rest', h3, h4, -⟩ := h' data n hn
  exact ⟨cs, ds, rest, rest', h1, h3, hs.first hg h2 h4⟩

theorem Rule.Sooner.strict (hs : Rule.Sooner rule rule') (hg : rule.Good) (h : StrictChunks C rule) (h' : StrictChunks C' rule') :
    StrictCoarser C C' := by
  intro data n hn
  obtain ⟨it, cs, r, h1, h2, -⟩ := h data n hn
  obtain ⟨it', ds, r', h3, h4, -⟩ := h' data n hn
  exact ⟨cs, ds, it, it', h1, h3, hs.first hg h2 h4⟩

/-! ### cuts and the chunk they end -/

/-- Whether there is a cut at `q` is decided by the bytes since the last cut before `q`. -/
theorem Chunked.cutAt_last {e : Bytes → Prop} {hist data : Bytes} {cs : List Bytes} {r : Bytes}
    (h : Chunked (EdgeRule (Local e)) hist data cs r) {q : Nat} (h1 : 1 ≤ q) (h2 : q ≤ data.length) :
    ∃ c < q, (c = 0 ∨ CutAt cs c) ∧ (∀ q', c < q' → q' < q → ¬ CutAt cs q') ∧ (CutAt cs q ↔ e ((data.take q).drop c)) := by
  induction h generalizing q with
  | @rem hist data hn =>
    refine ⟨0, h1, Or.inl rfl, fun q' _ _ => not_cutAt_nil q', iff_of_false (not_cutAt_nil q) fun hp => ?_⟩
    obtain ⟨n, _, hf⟩ := FirstCut.exists_of_edge (e := e) h1 h2 hp
    exact hn n hf
  | @cut hist data n cs r hr _ ih =>
    obtain ⟨k1, k2, k3, k4⟩ := hr
    have hl : (data.take n).length = n := by rw [List.length_take]; omega
    have hiff : ∀ p, CutAt (data.take n :: cs) p ↔ p = n ∨ n ≤ p ∧ CutAt cs (p - n) := fun p => by rw [cutAt_cons, hl]
    rcases Nat.lt_or_ge n q with hq | hq
    · obtain ⟨c, g1, g2, g3, g4⟩ := ih (q := q - n) (by omega) (by rw [List.length_drop]; omega)
      refine ⟨n + c, by omega, Or.inr ((hiff _).2 ?_), ?_, ?_⟩
      · rcases g2 with rfl | g2
        · exact Or.inl rfl
        · exact Or.inr ⟨by omega, by rwa [Nat.add_sub_cancel_left]⟩
      · intro q' a b hc
        rcases (hiff _).1 hc with rfl | ⟨_, hc⟩
        · omega
        · exact g3 _ (by omega) (by omega) hc
      · rw [hiff]
        have : (data.take q).drop (n + c) = ((data.drop n).take (q - n)).drop c := by
          rw [← List.drop_drop, List.drop_take]
        rw [this, ← g4]
        exact ⟨fun h => h.elim (by omega) (·.2), fun h => Or.inr ⟨by omega, h⟩⟩
    · refine ⟨0, by omega, Or.inl rfl, ?_, ?_⟩
      · intro q' a b hc
        rcases (hiff _).1 hc with rfl | ⟨_, hc⟩ <;> omega
      · rw [hiff, List.drop_zero]
        rcases Nat.lt_or_eq_of_le hq with hq | rfl
        · exact iff_of_false (by omega) (k4 q h1 hq)
        · exact iff_of_true (Or.inl rfl) k3

theorem CutAt.le {cs : List Bytes} {q : Nat} (h : CutAt cs q) : q ≤ cs.flatten.length := by
  obtain ⟨a, b, rfl, -, rfl⟩ := h
  rw [List.flatten_append, List.length_append]
  omega

theorem nested_after {e e' : Bytes → Prop} {W : Nat} (hW : Props.WindowLocal W e) (hee : ∀ p, W ≤ p.length → e' p → e p)
    {data : Bytes} {cs ds : List Bytes} {r r' : Bytes} (h : Chunked (EdgeRule (Local e)) [] data cs r)
    (h' : Chunked (EdgeRule (Local e')) [] data ds r') {q : Nat} (hq : W ≤ q) (hq1 : 1 ≤ q) (hc : CutAt ds q)
    (hno : ∀ q', q' < q → q < q' + W → ¬ CutAt cs q' ∧ ¬ CutAt ds q') : CutAt cs q := by
  have hle : q ≤ data.length := by
    have := hc.le
    have h3 := congrArg List.length h'.flatten
    rw [List.length_append] at h3
    omega
  obtain ⟨c, a1, a2, -, a4⟩ := h.cutAt_last hq1 hle
  obtain ⟨c', b1, b2, -, b4⟩ := h'.cutAt_last hq1 hle
  have hc1 : c + W ≤ q := by
    rcases a2 with rfl | a2
    · omega
    · exact Nat.le_of_not_lt fun hlt => (hno c a1 hlt).1 a2
  have hc2 : c' + W ≤ q := by
    rcases b2 with rfl | b2
    · omega
    · exact Nat.le_of_not_lt fun hlt => (hno c' b1 hlt).2 b2
  have hlast : ∀ c, c + W ≤ q → lastN W ((data.take q).drop c) = lastN W (data.take q) := by
    intro c hc
    unfold lastN
    rw [List.length_drop, List.drop_drop]
    have : (data.take q).length = q := by rw [List.length_take]; omega
    rw [this]
    congr 1
    omega
  refine a4.2 ((hW _ _ ?_).1 (hee ((data.take q).drop c') ?_ (b4.1 hc)))
  · rw [hlast _ hc1, hlast _ hc2]
  · rw [List.length_drop, List.length_take]
    omega

theorem docNestedAfter {e e' : Bytes → Prop} {W : Nat} (hW1 : 1 ≤ W) (hW : Props.WindowLocal W e)
    (hee : ∀ p, W ≤ p.length → e' p → e p) (h : DocLoopChunks A (EdgeRule (Local e))) (h' : DocLoopChunks A' (EdgeRule (Local e'))) :
    DocNestedAfter A A' W := by
  intro data n cs ds r r' hn h1 h2 q hq
  obtain ⟨cs', r1, rest, h3, h4, -⟩ := h data n hn
  obtain ⟨ds', r2, rest', h5, h6, -⟩ := h' data n hn
  rw [h1] at h3
  rw [h2] at h5
  cases h3
  cases h5
  exact nested_after hW hee h4 h6 hq (by omega)

theorem strictNestedAfter {e e' : Bytes → Prop} {W : Nat} (hW1 : 1 ≤ W) (hW : Props.WindowLocal W e)
    (hee : ∀ p, W ≤ p.length → e' p → e p) (h : StrictChunks C (EdgeRule (Local e))) (h' : StrictChunks C' (EdgeRule (Local e'))) :
    StrictNestedAfter C C' W := by
  intro data n cs ds r r' hn h1 h2 q hq
  obtain ⟨it1, cs', r1, h3, h4, -⟩ := h data n hn
  obtain ⟨it2, ds', r2, h5, h6, -⟩ := h' data n hn
  rw [h1] at h3
  rw [h2] at h5
  cases h3
  cases h5
  exact nested_after hW hee h4 h6 hq (by omega)

/-! ### edges that do not get lost when the chunk is longer in front -/

theorem fewer {e e' : Bytes → Prop} (hs : ∀ x p, e p → e (x ++ p)) (hee : ∀ p, p ≠ [] → e' p → e p)
    {hist' g : Bytes} {ds : List Bytes} {r' : Bytes} (h' : Chunked (EdgeRule (Local e')) hist' g ds r') :
    ∀ (x hist : Bytes) (cs : List Bytes) (r : Bytes), Chunked (EdgeRule (Local e)) hist (x ++ g) cs r →
      ds.length ≤ cs.length ∧ ∀ k ≤ ds.length, (cs.take k).flatten.length ≤ x.length + (ds.take k).flatten.length := by
  induction h' with
  | rem _ =>
    intro x hist cs r _
    refine ⟨Nat.zero_le _, fun k hk => ?_⟩
    have : k = 0 := Nat.le_zero.1 hk
    subst this
    exact Nat.zero_le _
  | @cut hist' g n ds r' hr _ ih =>
    intro x hist cs r h
    obtain ⟨h1, h2, h3, -⟩ := hr
    have hl : (g.take n).length = n := by rw [List.length_take]; omega
    have h4 : e ((x ++ g).take (x.length + n)) := by
      rw [List.take_length_add_append]
      exact hs x _ (hee _ (by intro h0; rw [h0] at hl; simp at hl; omega) h3)
    obtain ⟨m, hm, hf⟩ := FirstCut.exists_of_edge (e := e) (by omega) (by rw [List.length_append]; omega) h4
    cases h with
    | rem hn => exact absurd hf (hn m)
    | @cut _ _ m' cs _ hr2 hrest =>
      cases FirstCut.det hf hr2
      have hd : (x ++ g).drop m = ((x ++ g.take n).drop m) ++ g.drop n := by
        conv_lhs => rw [← List.take_append_drop n g, ← List.append_assoc]
        rw [List.drop_append_of_le_length (by rw [List.length_append, hl]; exact hm)]
      rw [hd] at hrest
      obtain ⟨g1, g2⟩ := ih _ _ _ _ hrest
      refine ⟨Nat.succ_le_succ g1, ?_⟩
      intro k hk
      cases k with
      | zero => exact Nat.zero_le _
      | succ k =>
        have := g2 k (Nat.le_of_succ_le_succ hk)
        rw [List.take_succ_cons, List.take_succ_cons, List.flatten_cons, List.flatten_cons, List.length_append,
          List.length_append, hl]
        rw [List.length_drop, List.length_append, hl] at this
        have hm' : ((x ++ g).take m).length = m := by rw [List.length_take]; have := hf.2.1; omega
        rw [hm']
        omega

theorem docFewer {e e' : Bytes → Prop} (hs : ∀ x p, e p → e (x ++ p)) (hee : ∀ p, p ≠ [] → e' p → e p)
    (h : DocLoopChunks A (EdgeRule (Local e))) (h' : DocLoopChunks A' (EdgeRule (Local e'))) : DocFewer A A' := by
  intro data n hn
  obtain ⟨cs, r1, rest, h1, h2, -⟩ := h data n hn
  obtain ⟨ds, r2, rest', h3, h4, -⟩ := h' data n hn
  obtain ⟨g1, g2⟩ := fewer hs hee h4 [] [] cs r1 (by simpa using h2)
  refine ⟨cs, ds, rest, rest', h1, h3, g1, ?_⟩
  intro k hk
  have hp : ∀ {cs : List Bytes} {r : Bytes}, cs.flatten ++ r = data → (cs.take k).flatten <+: data := by
    intro cs r hf
    refine ⟨(cs.drop k).flatten ++ r, ?_⟩
    rw [← List.append_assoc, ← List.flatten_append, List.take_append_drop, hf]
  refine List.prefix_of_prefix_length_le (hp h2.flatten) (hp h4.flatten) ?_
  simpa using g2 k hk

end HashRoll.Spec

namespace HashRoll.Props
open Spec

/-! ## Gear32 -/

theorem mask_sub {w : Nat} {m m' x : BitVec w} (h : ∀ i, i < w → m.getLsbD i = true → m'.getLsbD i = true)
    (h0 : x &&& m' = 0) : x &&& m = 0 := by
  apply BitVec.eq_of_getLsbD_eq
  intro i hi
  have h1 := congrArg (fun y => BitVec.getLsbD y i) h0
  have := h i hi
  simp only [BitVec.getLsbD_and] at h1 ⊢
  cases hm : m.getLsbD i
  · simp
  · rw [this hm] at h1
    rw [← h1]

theorem gear_sub {prof : Profile} {n n' : BitVec 64} (h1 : 1 ≤ n.toNat) (h2 : n.toNat ≤ n'.toNat) (h3 : n'.toNat ≤ 31)
    {p p' : Gear.Gear32} (hp : Gear.Gear32.withAverageSizeLog2 prof n = .ok p)
    (hp' : Gear.Gear32.withAverageSizeLog2 prof n' = .ok p') (q : Bytes) :
    gearEdge (lookup p'.gear) p'.mask p'.xxx q → gearEdge (lookup p.gear) p.mask p.xxx q := by
  obtain ⟨_, e1, x1, g1, m1⟩ := C49_gear prof n h1 (by omega)
  obtain ⟨_, e2, x2, g2, m2⟩ := C49_gear prof n' (by omega) h3
  rw [hp] at e1
  rw [hp'] at e2
  cases e1
  cases e2
  unfold gearEdge
  rw [x1, x2, g1, g2]
  refine mask_sub fun i hi => ?_
  rw [m1 i hi, m2 i hi, decide_eq_true_eq, decide_eq_true_eq]
  omega

/-- C84. `Gear32`: a larger `log2` never makes the first chunk shorter, and only leaves cuts out, except where one of the two
has cut in the last 31 bytes. -/
theorem C84_gear {prof : Profile} {n n' : BitVec 64} (h1 : 1 ≤ n.toNat) (h2 : n.toNat ≤ n'.toNat) (h3 : n'.toNat ≤ 31)
    {p p' : Gear.Gear32} (hp : Gear.Gear32.withAverageSizeLog2 prof n = .ok p)
    (hp' : Gear.Gear32.withAverageSizeLog2 prof n' = .ok p') :
    DocCoarser (Gear.chunk p) (Gear.chunk p') ∧ DocNestedAfter (Gear.chunk p) (Gear.chunk p') 32 :=
  ⟨(Rule.Sooner.edge fun _ q _ => gear_sub h1 h2 h3 hp hp' q).doc (EdgeRule.good _) (C08_gear p) (C08_gear p'),
    docNestedAfter (by omega) (C40_edge _ _ _) (fun q _ => gear_sub h1 h2 h3 hp hp' q) (C08_gear p) (C08_gear p')⟩

-- 2 and 13 bits
example : DocCoarser (Gear.chunk Ex.gear2) (Gear.chunk Ex.gear) ∧ DocNestedAfter (Gear.chunk Ex.gear2) (Gear.chunk Ex.gear) 32 :=
  C84_gear (prof := .debug) (n := 2) (n' := 13) (by decide) (by decide) (by decide) rfl rfl

/-! ## Gzip -/

theorem gzip_sub {W : Nat} {m m' : Nat} (h : m ∣ m') (q : Bytes) : gzipEdge W m' q → gzipEdge W m q := by
  unfold gzipEdge
  intro hq
  exact Nat.mod_eq_zero_of_dvd (h.trans (Nat.dvd_of_mod_eq_zero hq))

/-- C84. Gzip: the modulus `m'` a multiple of `m`. -/
theorem C84_gzip (p p' : Gzip.GzipRsyncable) (hm' : p'.modulus ≠ 0) (hw : 0 < p.windowLen)
    (hww : p'.windowLen = p.windowLen) (hd : p.modulus.toNat ∣ p'.modulus.toNat) :
    DocCoarser (Gzip.chunk p) (Gzip.chunk p') ∧ DocNestedAfter (Gzip.chunk p) (Gzip.chunk p') p.windowLen ∧
    StrictCoarser (Gzip.incr p) (Gzip.incr p') ∧ StrictNestedAfter (Gzip.incr p) (Gzip.incr p') p.windowLen := by
  have hm : p.modulus ≠ 0 := by
    intro h0
    rw [h0] at hd
    exact hm' (BitVec.eq_of_toNat_eq (Nat.eq_zero_of_zero_dvd hd))
  have hs : ∀ q, gzipEdge p'.windowLen p'.modulus.toNat q → gzipEdge p.windowLen p.modulus.toNat q := by
    intro q
    rw [hww]
    exact gzip_sub hd q
  have c1 := C08_gzip p hm
  have c2 := C08_gzip p' hm'
  have c3 := C05_gzip p hm hw
  have c4 := C05_gzip p' hm' (by omega)
  exact ⟨(Rule.Sooner.edge fun _ q _ => hs q).doc (EdgeRule.good _) c1 c2,
    docNestedAfter hw (C43_edge _ _) (fun q _ => hs q) c1 c2,
    (Rule.Sooner.edge fun _ q _ => hs q).strict (EdgeRule.good _) c3 c4,
    strictNestedAfter hw (C43_edge _ _) (fun q _ => hs q) c3 c4⟩

-- modulus 5 and 10
example := C84_gzip Ex.gzip3 (Gzip.GzipRsyncable.withWindowAndModulus 3 10) (by decide) (by decide) rfl (by decide)

/-! ## Mii -/

theorem mii_sub {w w' : Nat} (h1 : 1 ≤ w) (h2 : w ≤ w') (q : Bytes) : miiEdge w' q → miiEdge w q := by
  rintro ⟨-, a, b⟩
  refine ⟨h1, by omega, ?_⟩
  have : lastN (w + 1) q = (lastN (w' + 1) q).drop (w' - w) := by
    unfold lastN
    rw [List.drop_drop]
    congr 1
    omega
  rw [this]
  exact List.Pairwise.sublist (List.drop_sublist _ _) b

theorem mii_longer (w : Nat) (x q : Bytes) : miiEdge w q → miiEdge w (x ++ q) := by
  rintro ⟨h, a, b⟩
  exact ⟨h, by rw [List.length_append]; omega, by rwa [lastN_append_right _ a]⟩

/-- C84. Mii: with a larger `w` the `k`-th cut is never before the `k`-th cut with the smaller one. -/
theorem C84_mii (p p' : Mii.Mii) (h1 : 1 ≤ p.w) (h2 : p.w ≤ p'.w) :
    DocFewer (Mii.chunk p) (Mii.chunk p') ∧ StrictCoarser (Mii.incr p) (Mii.incr p') := by
  refine ⟨docFewer (fun x q => mii_longer p.w x q) (fun q _ => mii_sub h1 h2 q) (C08_mii p) (C08_mii p'), ?_⟩
  refine (Rule.Sooner.edge ?_).strict (EdgeRule.good _) (C05_mii p) (C05_mii p')
  intro hist q _
  unfold miiIncrEdge
  split
  · exact mii_sub h1 h2 q
  · exact mii_sub h1 h2 _

example := C84_mii (Mii.Mii.withW 2) (Mii.Mii.withW 5) (by decide) (by decide)
-- `0 1 2 0 1 2`: cuts after 2 and 5 bytes (`w = 1`), after 3 and 6 bytes (`w = 2`)
example : (Mii.chunk (Mii.Mii.withW 1)).docLoop [0, 1, 2, 0, 1, 2] 7 (Mii.chunk (Mii.Mii.withW 1)).init [0, 1, 2, 0, 1, 2] 0 =
      .ok ([[0, 1], [2, 0, 1]], some []) ∧
    (Mii.chunk (Mii.Mii.withW 2)).docLoop [0, 1, 2, 0, 1, 2] 7 (Mii.chunk (Mii.Mii.withW 2)).init [0, 1, 2, 0, 1, 2] 0 =
      .ok ([[0, 1, 2], [0, 1, 2]], some []) := by decide +kernel

/-! ## Ram -/

theorem ram_sub {w w' : Nat} (h : w ≤ w') (q : Bytes) : ramEdge w' q → ramEdge w q := by
  rintro ⟨b, h1, h2, h3⟩
  refine ⟨b, h1, by omega, fun x hx => h3 x ?_⟩
  rw [show w + 1 = min (w + 1) (w' + 1) by omega, ← List.take_take] at hx
  exact List.mem_of_mem_take hx

/-- C84. Ram, both APIs: first chunk. -/
theorem C84_ram (p p' : Ram.Ram) (h : p.w ≤ p'.w) :
    DocCoarser (Ram.chunk p) (Ram.chunk p') ∧ StrictCoarser (Ram.incr p) (Ram.incr p') :=
  ⟨(Rule.Sooner.edge fun _ q _ => ram_sub h q).doc (EdgeRule.good _) (C08_ram p) (C08_ram p'),
    (Rule.Sooner.before fun _ q _ => ram_sub h q).strict (BeforeRule.good _) (C05_ram p) (C05_ram p')⟩

example := C84_ram (Ram.Ram.withW 2) (Ram.Ram.withW 5) (by decide)

/-! ## Zpaq -/

theorem zpaq_sub {n n' : Nat} (h1 : 10 ≤ n) (h2 : n ≤ n') (h3 : n' ≤ 32) (d : Nat) (q : Bytes) :
    zpaqEdge (.included (64 * 2 ^ (n' - 10))) (.excluded (8128 * 2 ^ n')) (BitVec.ofNat 32 (2 ^ (32 - n'))) d q →
    zpaqEdge (.included (64 * 2 ^ (n - 10))) (.excluded (8128 * 2 ^ n)) (BitVec.ofNat 32 (2 ^ (32 - n))) d q := by
  have e1 : 64 * 2 ^ (n - 10) ≤ 64 * 2 ^ (n' - 10) := Nat.mul_le_mul_left _ (Nat.pow_le_pow_right (by omega) (by omega))
  have e2 : 8128 * 2 ^ n ≤ 8128 * 2 ^ n' := Nat.mul_le_mul_left _ (Nat.pow_le_pow_right (by omega) (by omega))
  have e3 : (BitVec.ofNat 32 (2 ^ (32 - n'))).toNat ≤ (BitVec.ofNat 32 (2 ^ (32 - n))).toNat := by
    have : ∀ k, 10 ≤ k → (BitVec.ofNat 32 (2 ^ (32 - k))).toNat = 2 ^ (32 - k) := by
      intro k hk
      rw [BitVec.toNat_ofNat]
      exact Nat.mod_eq_of_lt (Nat.pow_lt_pow_right (by omega) (by omega))
    rw [this n h1, this n' (by omega)]
    exact Nat.pow_le_pow_right (by omega) (by omega)
  generalize 64 * 2 ^ (n - 10) = a at e1 ⊢
  generalize 64 * 2 ^ (n' - 10) = a' at e1 ⊢
  generalize 8128 * 2 ^ n = b at e2 ⊢
  generalize 8128 * 2 ^ n' = b' at e2 ⊢
  rintro (⟨k1, k2⟩ | k1)
  · refine Or.inl ⟨?_, ?_⟩
    · rw [BitVec.lt_def] at k1 ⊢
      omega
    · intro hb
      exact k2 (Nat.lt_of_lt_of_le (show q.length + d < a from hb) e1)
  · exact Or.inr (Nat.le_trans e2 (show b' ≤ q.length + d from k1))

/-- C84. Zpaq, both APIs: first chunk. -/
theorem C84_zpaq {prof : Profile} {n n' : BitVec 8} (h : n ≤ n') {p p' : Zpaq.Zpaq}
    (hp : Zpaq.Zpaq.withAverageSizePow2 prof n = .ok p) (hp' : Zpaq.Zpaq.withAverageSizePow2 prof n' = .ok p') :
    DocCoarser (Zpaq.chunk p) (Zpaq.chunk p') ∧ StrictCoarser (Zpaq.incr p) (Zpaq.incr p') := by
  rw [C52_average] at hp hp'
  split at hp
  · cases hp
  split at hp'
  · cases hp'
  rename_i k k'
  cases hp
  cases hp'
  rw [BitVec.le_def] at h
  exact ⟨(Rule.Sooner.edge fun _ q _ => zpaq_sub (by omega) h (by omega) 1 q).doc (EdgeRule.good _) (C08_zpaq _) (C08_zpaq _),
    (Rule.Sooner.edge fun _ q _ => zpaq_sub (by omega) h (by omega) 0 q).strict (EdgeRule.good _) (C05_zpaq _) (C05_zpaq _)⟩

example : ∃ p p', Zpaq.Zpaq.withAverageSizePow2 .debug 16 = .ok p ∧ Zpaq.Zpaq.withAverageSizePow2 .debug 20 = .ok p' ∧
    DocCoarser (Zpaq.chunk p) (Zpaq.chunk p') :=
  ⟨_, _, rfl, rfl, (C84_zpaq (prof := .debug) (n := 16) (n' := 20) (by decide) rfl rfl).1⟩

/-! ## BuzHash -/

theorem mask_sub_all {w : Nat} {m m' x : BitVec w} (h : m &&& m' = m) (h0 : x &&& m' = m') : x &&& m = m := by
  rw [← h, BitVec.and_comm m m', ← BitVec.and_assoc, h0]

/-- C84. BuzHash, a mask with more bits and a larger maximum: first chunk, and (for the windows for which the hash rolls)
everything where none of the two has cut in the last `k - 1` bytes. -/
theorem C84_buzhash (p p' : Buzhash.BuzHash) (hk : 0 < p.k) (hkk : p'.k = p.k) (hh : p'.h = p.h)
    (hm : p.mask &&& p'.mask = p.mask) (hx : p.maxChunkSize ≤ p'.maxChunkSize) :
    DocCoarser (Buzhash.chunk p) (Buzhash.chunk p') ∧ StrictCoarser (Buzhash.incr p) (Buzhash.incr p') ∧
    (p.k % 32 < 8 → DocNestedAfter (Buzhash.chunk p) (Buzhash.chunk p') p.k) := by
  have hs : ∀ q, buzEdge p'.k p'.h p'.mask q → buzEdge p.k p.h p.mask q := by
    intro q
    unfold buzEdge
    rw [hkk, hh]
    exact mask_sub_all hm
  have c1 := C08_buzhash p hk
  have c2 := C08_buzhash p' (by omega)
  refine ⟨(Rule.Sooner.edge fun _ q _ => hs q).doc (EdgeRule.good _) c1 c2, ?_, ?_⟩
  · refine (Rule.Sooner.edge ?_).strict (EdgeRule.good _) (C05_buzhash p hk) (C05_buzhash p' (by omega))
    rintro _ q - (h | h)
    · exact Or.inl (hs q h)
    · exact Or.inr (by omega)
  · intro hr
    refine docNestedAfter hk ?_ (fun q _ => hs q) c1 c2
    intro u v h
    unfold buzEdge
    rw [C45_rolling _ _ hr u v h]

-- masks 3 and 7, maxima 6 and 60
example := C84_buzhash Ex.buz { Ex.buz with mask := 7, maxChunkSize := 60 } (by decide) rfl rfl (by decide) (by decide)
example : Ex.buz.k % 32 < 8 := by decide

/-! ## FastCdc -/

/-- C84. FastCdcIncr, a larger `max_size`: first chunk. -/
theorem C84_fastcdc (p p' : FastCdc.FastCdc) (h1 : 1 ≤ p.minSize) (h2 : p.normalSize ≤ p.maxSize) (h3 : p.minSize < p.maxSize)
    (hg : p'.gear = p.gear) (hmin : p'.minSize = p.minSize) (hn : p'.normalSize = p.normalSize)
    (hmax : p.maxSize ≤ p'.maxSize) : StrictCoarser (FastCdc.incr p) (FastCdc.incr p') := by
  refine Rule.Sooner.strict ?_ (fastIncrRule.good _ _ _ _) (C05_fastcdc p h1 h2 h3)
    (C05_fastcdc p' (by omega) (by omega) (by omega))
  rw [hg, hmin, hn]
  rintro hist d n ⟨k1, k2, k3, k4, k5⟩
  rcases Nat.lt_or_ge p.maxSize n with hlt | hge
  · exact ⟨p.maxSize, by omega, by omega, le_rfl, by omega, Or.inl rfl, fun m a b => k5 m a (by omega)⟩
  · refine ⟨n, le_rfl, k1, hge, k3, ?_, k5⟩
    rcases k4 with k4 | k4
    · exact Or.inl (by omega)
    · exact Or.inr k4

example := C84_fastcdc Ex.fast { Ex.fast with maxSize := 9 } (by decide) (by decide) (by decide) rfl rfl rfl (by decide)

/-! ## Zstd -/

/-- C84. Zstd, fed byte by byte: a cut of the larger section size is a cut of the smaller one. -/
theorem C84_zstd {prof : Profile} {size size' : BitVec 64} (hs : size ≤ size') {p p' : Zstd.Zstd}
    (h : Zstd.Zstd.withTargetSectionSize prof size = .ok p) (h' : Zstd.Zstd.withTargetSectionSize prof size' = .ok p')
    (s : Bytes) : ∃ st l st' l', zstdFeed p s = .ok (st, l) ∧ zstdFeed p' s = .ok (st', l') ∧ l.length = s.length ∧
      l'.length = s.length ∧ ∀ i : Nat, l'[i]? = some true → l[i]? = some true := by
  obtain ⟨st, l, h1, h2, h3⟩ := zstdFeed_eq h s
  obtain ⟨st', l', h4, h5, h6⟩ := zstdFeed_eq h' s
  refine ⟨st, l, st', l', h1, h4, h2, h5, ?_⟩
  intro i hi
  have hlt : i < s.length := by
    rw [← h5]
    exact (List.getElem?_eq_some_iff.1 hi).1
  rw [h6 i hlt, Option.some.injEq, decide_eq_true_eq] at hi
  rw [h3 i hlt, Option.some.injEq, decide_eq_true_eq]
  refine ⟨hi.1, mask_sub_all ?_ hi.2⟩
  rw [C51_zstd] at h h'
  split at h
  · cases h
  split at h
  · cases h
  split at h'
  · cases h'
  split at h'
  · cases h'
  cases h
  cases h'
  have hle : Nat.log2 (size.toNat / 2 ^ 20) ≤ Nat.log2 (size'.toNat / 2 ^ 20) := by
    rw [BitVec.le_def] at hs
    have : size.toNat / 2 ^ 20 ≤ size'.toNat / 2 ^ 20 := Nat.div_le_div_right hs
    have h0 : size'.toNat / 2 ^ 20 ≠ 0 := by omega
    rw [Nat.le_log2 h0]
    exact (Nat.log2_self_le (by omega)).trans this
  apply BitVec.eq_of_getLsbD_eq
  intro i _
  simp only [BitVec.getLsbD_and, BitVec.getLsbD_ofNat, Nat.testBit_two_pow_sub_one]
  generalize Nat.log2 (size.toNat / 2 ^ 20) = a at hle ⊢
  generalize Nat.log2 (size'.toNat / 2 ^ 20) = a' at hle ⊢
  by_cases hi : i < 20 + a
  · have : i < 20 + a' := by omega
    simp [hi, this]
  · simp [hi]
example : ∃ p p', Zstd.Zstd.withTargetSectionSize .debug 0x100000 = .ok p ∧
    Zstd.Zstd.withTargetSectionSize .debug 0x400000 = .ok p' ∧ p.hitMask = 0xfffff ∧ p'.hitMask = 0x3fffff :=
  ⟨_, _, rfl, rfl, by decide +kernel, by decide +kernel⟩

/-! ## Pigz -/

/-- Whatever the bytes before: two different numbers of bits never match at the same place. -/
theorem pigz_disjoint {prof : Profile} {bits bits' : BitVec 8} {p p' : Pigz.PigzRsyncable}
    (h : Pigz.PigzRsyncable.withBits prof bits = .ok p) (h' : Pigz.PigzRsyncable.withBits prof bits' = .ok p')
    (h1 : 1 ≤ bits.toNat % 32) (h2 : bits.toNat % 32 < bits'.toNat % 32) (q : Bytes) (hq : q ≠ []) :
    ¬ (pigzEdge p'.mask p'.hit q ∧ pigzEdge p.mask p.hit q) := by
  obtain ⟨-, m1, t1⟩ := Pigz.withBits_mask h
  obtain ⟨-, m2, t2⟩ := Pigz.withBits_mask h'
  have hb : bits'.toNat % 32 < 32 := Nat.mod_lt _ (by omega)
  generalize bits.toNat % 32 = b at *
  generalize bits'.toNat % 32 = b' at *
  have hlen := List.length_pos_iff.2 hq
  have bit : ∀ (k i : Nat), i < 31 → ((BitVec.ofNat 32 (2 ^ k - 1)) >>> 1).getLsbD i = decide (i + 1 < k) := by
    intro k i hi
    simp only [BitVec.getLsbD_ushiftRight, BitVec.getLsbD_ofNat, Nat.testBit_two_pow_sub_one]
    rw [show 1 + i = i + 1 by omega]
    simp [show i + 1 < 32 by omega]
  rintro ⟨e', e⟩
  unfold pigzEdge pigzHash at e e'
  have b1 := congrArg (fun x => BitVec.getLsbD x (b - 1)) e
  have b2 := congrArg (fun x => BitVec.getLsbD x (b - 1)) e'
  simp only [BitVec.getLsbD_and, BitVec.getLsbD_xor, BitVec.getLsbD_shiftLeft] at b1 b2
  generalize (wxor (fun b j => word 32 b <<< j) q).getLsbD (b - 1) = X at b1 b2
  rw [t1, m1] at b1
  rw [t2, m2] at b2
  rw [bit _ _ (by omega), bit _ _ (by omega)] at b1
  rw [bit _ _ (by omega), bit _ _ (by omega)] at b2
  have g1 : ∀ k, b ≤ k → k < 32 → (BitVec.ofNat 32 (2 ^ k - 1)).getLsbD (b - 1) = true := by
    intro k hk hk'
    rw [BitVec.getLsbD_ofNat, Nat.testBit_two_pow_sub_one]
    simp
    omega
  rw [g1 b le_rfl (by omega)] at b1
  rw [g1 b' (by omega) hb] at b2
  have d1 : decide (b - 1 - q.length + 1 < b') = true := by rw [decide_eq_true_eq]; omega
  have d2 : decide (b - 1 + 1 < b') = true := by rw [decide_eq_true_eq]; omega
  have d3 : decide (b - 1 + 1 < b) = false := by rw [decide_eq_false_iff_not]; omega
  rw [d3] at b1
  rw [d1, d2] at b2
  by_cases hlt : b - 1 < q.length
  · rw [decide_eq_true hlt] at b1 b2
    simp at b1 b2
    rw [b1] at b2
    cases b2
  · have d4 : decide (b - 1 - q.length + 1 < b) = true := by rw [decide_eq_true_eq]; omega
    rw [d4] at b1
    have d5 : decide (b - 1 < 32) = true := by rw [decide_eq_true_eq]; omega
    rw [decide_eq_false hlt, d5] at b1 b2
    cases X <;> simp at b1 b2

theorem CutAt.pos {rule : Rule} (hg : rule.Good) (hp : rule.Pos) {hist data : Bytes} {cs : List Bytes} {r : Bytes}
    (h : Chunked rule hist data cs r) {q : Nat} (hq : CutAt cs q) : 1 ≤ q := by
  obtain ⟨a, b, rfl, ha, rfl⟩ := hq
  cases a with
  | nil => exact absurd rfl ha
  | cons c a =>
    have := List.length_pos_iff.2 (h.ne_nil hg hp c (by simp))
    rw [List.flatten_cons, List.length_append]
    omega

theorem pigz_cuts_disjoint {prof : Profile} {bits bits' : BitVec 8} {p p' : Pigz.PigzRsyncable}
    (h : Pigz.PigzRsyncable.withBits prof bits = .ok p) (h' : Pigz.PigzRsyncable.withBits prof bits' = .ok p')
    (h1 : 1 ≤ bits.toNat % 32) (h2 : bits.toNat % 32 < bits'.toNat % 32) {data : Bytes} {cs ds : List Bytes} {r r' : Bytes}
    (c : Chunked (EdgeRule (Local (pigzEdge p.mask p.hit))) [] data cs r)
    (c' : Chunked (EdgeRule (Local (pigzEdge p'.mask p'.hit))) [] data ds r') (q : Nat) : ¬ (CutAt ds q ∧ CutAt cs q) := by
  have key : ∀ {bits : BitVec 8} {p : Pigz.PigzRsyncable} {cs : List Bytes} {r : Bytes},
      Pigz.PigzRsyncable.withBits prof bits = .ok p → Chunked (EdgeRule (Local (pigzEdge p.mask p.hit))) [] data cs r →
      ∀ q, 1 ≤ q → q ≤ data.length → (CutAt cs q ↔ pigzEdge p.mask p.hit (data.take q)) := by
    intro bits p cs r h c q hq hq'
    obtain ⟨hm, hh⟩ := Pigz.withBits_maskOk h
    have := c.cutAt_iff (E := pigzEdge p.mask p.hit) (I := pigzEdge p.mask p.hit) (fun hist cur hi => by
      unfold Local pigzEdge
      rw [pigz_reset hm hh hist cur hi]) (fun _ h => h) (by
        unfold pigzEdge
        have : pigzHash p.hit [] = p.hit := by simp [pigzHash, wxor]
        rw [this, hh]) hq hq'
    simpa using this
  rintro ⟨a, b⟩
  have hq := CutAt.pos (EdgeRule.good _) (EdgeRule.pos _) c b
  have hq' : q ≤ data.length := by
    have := b.le
    have h3 := congrArg List.length c.flatten
    rw [List.length_append] at h3
    omega
  refine pigz_disjoint h h' h1 h2 (data.take q) ?_ ⟨(key h' c' q hq hq').1 a, (key h c q hq hq').1 b⟩
  intro h0
  have := congrArg List.length h0
  rw [List.length_take, List.length_nil] at this
  omega

/-- C84. Pigz, both APIs: with a different number of bits (none of them 0 modulo 32) not one cut is the same. -/
theorem C84_pigz {prof : Profile} {bits bits' : BitVec 8} {p p' : Pigz.PigzRsyncable}
    (h : Pigz.PigzRsyncable.withBits prof bits = .ok p) (h' : Pigz.PigzRsyncable.withBits prof bits' = .ok p')
    (h1 : 1 ≤ bits.toNat % 32) (h2 : bits.toNat % 32 < bits'.toNat % 32) :
    DocDisjoint (Pigz.chunk p) (Pigz.chunk p') ∧ StrictDisjoint (Pigz.incr p) (Pigz.incr p') := by
  constructor
  · intro data n cs ds r r' hn g1 g2
    obtain ⟨cs', r1, rest, h3, h4, -⟩ := C08_pigz h data n hn
    obtain ⟨ds', r2, rest', h5, h6, -⟩ := C08_pigz h' data n hn
    rw [g1] at h3
    rw [g2] at h5
    cases h3
    cases h5
    exact pigz_cuts_disjoint h h' h1 h2 h4 h6
  · intro data n cs ds r r' hn g1 g2
    obtain ⟨it1, cs', r1, h3, h4, -⟩ := C05_pigz h data n hn
    obtain ⟨it2, ds', r2, h5, h6, -⟩ := C05_pigz h' data n hn
    rw [g1] at h3
    rw [g2] at h5
    cases h3
    cases h5
    exact pigz_cuts_disjoint h h' h1 h2 h4 h6
-- 2 and 3 bits, and a stream that both cut
example : ∃ p, Pigz.PigzRsyncable.withBits .debug 3 = .ok p ∧
    (Pigz.chunk p).docLoop [3, 1, 1] 4 (Pigz.chunk p).init [3, 1, 1] 0 = .ok ([[3, 1]], some []) ∧
    (Pigz.chunk Ex.pigz2).docLoop [3, 1, 1] 4 (Pigz.chunk Ex.pigz2).init [3, 1, 1] 0 = .ok ([[3]], some []) :=
  ⟨_, rfl, by decide +kernel, by decide +kernel⟩

/-! ## what does not hold -/

theorem not_nested {A B : Chunk} (data : Bytes) {c d : Bytes} {r r' : Bytes}
    (h : A.docLoop data (data.length + 1) A.init data 0 = .ok ([c], some r))
    (h' : B.docLoop data (data.length + 1) B.init data 0 = .ok ([d], some r')) (hne : d.length ≠ c.length) :
    ¬ DocNested A B := by
  intro hn
  rcases cutAt_cons.1 (hn data _ _ _ _ _ (by omega) h h' d.length (cutAt_cons.2 (Or.inl rfl))) with h1 | ⟨-, h1⟩
  · exact hne h1
  · exact not_cutAt_nil _ h1

/-- C84, the limits. Gear32 (1 and 2 bits), Gzip (window 2, modulus 2 and 4), Mii (1 and 2), Ram (0 and 1): the coarser
chunker has cuts that the finer one does not have. -/
theorem C84_not_nested (prof : Profile) :
    (∃ p p', Gear.Gear32.withAverageSizeLog2 prof 1 = .ok p ∧ Gear.Gear32.withAverageSizeLog2 prof 2 = .ok p' ∧
      ¬ DocNested (Gear.chunk p) (Gear.chunk p')) ∧
    ¬ DocNested (Gzip.chunk (Gzip.GzipRsyncable.withWindowAndModulus 2 2))
      (Gzip.chunk (Gzip.GzipRsyncable.withWindowAndModulus 2 4)) ∧
    ¬ DocNested (Mii.chunk (Mii.Mii.withW 1)) (Mii.chunk (Mii.Mii.withW 2)) ∧
    ¬ DocNested (Ram.chunk (Ram.Ram.withW 0)) (Ram.chunk (Ram.Ram.withW 1)) := by
  refine ⟨⟨{ mask := 0x80000000, xxx := 0, gear := Tables.gear32 }, Ex.gear2, by cases prof <;> rfl, by cases prof <;> rfl, ?_⟩,
    ?_, ?_, ?_⟩
  · exact not_nested [86, 90] (c := [86]) (d := [86, 90]) (r := []) (r' := []) (by decide +kernel) (by decide +kernel) (by decide)
  · exact not_nested [3, 3, 1] (c := [3, 3]) (d := [3, 3, 1]) (r := [1]) (r' := []) (by decide +kernel) (by decide +kernel)
      (by decide)
  · exact not_nested [0, 1, 2] (c := [0, 1]) (d := [0, 1, 2]) (r := []) (r' := []) (by decide +kernel) (by decide +kernel)
      (by decide)
  · exact not_nested [0, 0, 0] (c := [0, 0]) (d := [0, 0, 0]) (r := []) (r' := []) (by decide +kernel) (by decide +kernel)
      (by decide)

end HashRoll.Props
