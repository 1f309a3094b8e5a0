import Mathlib.Topology.Algebra.InfiniteSum.Real
import Mathlib.Analysis.SpecificLimits.Basic
import Mathlib.Analysis.Normed.Ring.InfiniteSum
import Mathlib.Algebra.BigOperators.Intervals
import Verif.Props.Counting
import Verif.Props.Conformance
/-!
# Mean chunk size of a stream of independent, uniformly distributed bytes (for C80)

Everything is a count of byte strings: of the `256^n` strings of length `n`, `cutAt A n` are a first chunk.
-/

namespace HashRoll.Spec

/-- the first cut of `s` is at its end -/
def cutsAtEnd (A : Chunk) (s : Bytes) : Bool :=
  match A.fce A.init s with
  | .ok (_, some c, _) => c == s.length
  | _ => false

/-- how many strings of length `n` are a first chunk -/
def cutAt (A : Chunk) (n : Nat) : Nat := (strings n).countP (cutsAtEnd A)

/-- The lengths of chunks form a probability distribution with mean `μ`. -/
def MeanChunk (A : Chunk) (μ : ℝ) : Prop :=
  HasSum (fun n : ℕ => (cutAt A n : ℝ) / 256 ^ n) 1 ∧ HasSum (fun n : ℕ => n * ((cutAt A n : ℝ) / 256 ^ n)) μ

/-- the same for `push`, in the state `st` -/
def pushCutsAtEnd (C : ChunkIncr) (st : C.State) (s : Bytes) : Bool :=
  match C.push st s with
  | .ok (_, some i) => i == s.length
  | _ => false

def pushCutAt (C : ChunkIncr) (st : C.State) (n : Nat) : Nat := (strings n).countP (pushCutsAtEnd C st)

def MeanPush (C : ChunkIncr) (st : C.State) (μ : ℝ) : Prop :=
  HasSum (fun n : ℕ => (pushCutAt C st n : ℝ) / 256 ^ n) 1 ∧ HasSum (fun n : ℕ => n * ((pushCutAt C st n : ℝ) / 256 ^ n)) μ

/-! ## sums over all strings -/

/-- the strings of length `n` -/
def words (n : Nat) : Finset Bytes := (strings n).toFinset

/-- the bytes -/
def bytes : Finset UInt8 := allBytes.toFinset

theorem mem_words {n : Nat} {s : Bytes} : s ∈ words n ↔ s.length = n := by
  rw [words, List.mem_toFinset, mem_strings]

theorem mem_bytes (b : UInt8) : b ∈ bytes := List.mem_toFinset.2 (mem_allBytes b)

theorem card_words (n : Nat) : (words n).card = 256 ^ n := by
  rw [words, List.toFinset_card_of_nodup (nodup_strings n), length_strings]

theorem card_bytes : bytes.card = 256 := by
  rw [bytes, List.toFinset_card_of_nodup nodup_allBytes]
  simp [allBytes]

open Classical in
/-- how many strings of length `n` satisfy `P` -/
noncomputable def howMany (n : Nat) (P : Bytes → Prop) : Nat := ∑ s ∈ words n, if P s then 1 else 0

open Classical in
theorem howMany_eq_card (n : Nat) (P : Bytes → Prop) : howMany n P = ((words n).filter P).card := by
  rw [howMany, Finset.card_filter]

theorem countP_strings (n : Nat) (P : Bytes → Bool) : (strings n).countP P = howMany n fun s => P s = true := by
  classical
  rw [howMany_eq_card, List.countP_eq_length_filter, words]
  rw [← List.toFinset_card_of_nodup ((nodup_strings n).filter _)]
  congr 1
  ext s
  simp

theorem countP_bytes (P : UInt8 → Bool) : allBytes.countP P = ∑ b ∈ bytes, if P b = true then 1 else 0 := by
  classical
  rw [← Finset.card_filter, List.countP_eq_length_filter, bytes]
  rw [← List.toFinset_card_of_nodup (nodup_allBytes.filter _), List.toFinset_filter]

theorem howMany_congr {n : Nat} {P Q : Bytes → Prop} (h : ∀ s, s.length = n → (P s ↔ Q s)) : howMany n P = howMany n Q := by
  classical
  exact Finset.sum_congr rfl fun s hs => by simp [h s (mem_words.1 hs)]

theorem howMany_le {n : Nat} {P Q : Bytes → Prop} (h : ∀ s, s.length = n → P s → Q s) : howMany n P ≤ howMany n Q := by
  classical
  refine Finset.sum_le_sum fun s hs => ?_
  by_cases hp : P s
  · simp [hp, h s (mem_words.1 hs) hp]
  · simp [hp]

theorem howMany_true (n : Nat) : howMany n (fun _ => True) = 256 ^ n := by
  classical
  simp [howMany, card_words]

theorem howMany_le_all (n : Nat) (P : Bytes → Prop) : howMany n P ≤ 256 ^ n := by
  rw [← howMany_true n]
  exact howMany_le fun _ _ _ => trivial

theorem howMany_false {n : Nat} {P : Bytes → Prop} (h : ∀ s, s.length = n → ¬ P s) : howMany n P = 0 := by
  classical
  exact Finset.sum_eq_zero fun s hs => by simp [h s (mem_words.1 hs)]

theorem howMany_or {n : Nat} {P Q : Bytes → Prop} (h : ∀ s, s.length = n → P s → ¬ Q s) :
    howMany n (fun s => P s ∨ Q s) = howMany n P + howMany n Q := by
  classical
  rw [howMany, howMany, howMany, ← Finset.sum_add_distrib]
  refine Finset.sum_congr rfl fun s hs => ?_
  have := h s (mem_words.1 hs)
  by_cases hp : P s <;> by_cases hq : Q s <;> simp_all

theorem sum_words_add {M : Type} [AddCommMonoid M] (a b : Nat) (f : Bytes → M) :
    ∑ s ∈ words (a + b), f s = ∑ x ∈ words a, ∑ y ∈ words b, f (x ++ y) := by
  rw [← Finset.sum_product']
  refine Finset.sum_nbij' (fun s => (s.take a, s.drop a)) (fun p => p.1 ++ p.2) ?_ ?_ ?_ ?_ ?_
  · intro s hs
    have := mem_words.1 hs
    simp [mem_words, this]
  · rintro ⟨x, y⟩ hp
    simp only [Finset.mem_product, mem_words] at hp
    simp [mem_words, hp]
  · intro s _
    simp
  · rintro ⟨x, y⟩ hp
    simp only [Finset.mem_product, mem_words] at hp
    simp [hp]
  · intro s _
    simp

theorem sum_words_one {M : Type} [AddCommMonoid M] (f : Bytes → M) : ∑ s ∈ words 1, f s = ∑ b ∈ bytes, f [b] := by
  refine Finset.sum_nbij' (fun s => s.headD 0) (fun b => [b]) ?_ ?_ ?_ ?_ ?_
  · intro s _; exact mem_bytes _
  · intro b _; simp [mem_words]
  · intro s hs
    obtain ⟨b, rfl⟩ := List.length_eq_one_iff.1 (mem_words.1 hs)
    rfl
  · intro b _; rfl
  · intro s hs
    obtain ⟨b, rfl⟩ := List.length_eq_one_iff.1 (mem_words.1 hs)
    rfl

theorem sum_words_snoc {M : Type} [AddCommMonoid M] (n : Nat) (f : Bytes → M) :
    ∑ s ∈ words (n + 1), f s = ∑ s ∈ words n, ∑ b ∈ bytes, f (s ++ [b]) := by
  rw [sum_words_add]
  exact Finset.sum_congr rfl fun s _ => sum_words_one _

theorem sum_words_cons {M : Type} [AddCommMonoid M] (n : Nat) (f : Bytes → M) :
    ∑ s ∈ words (n + 1), f s = ∑ b ∈ bytes, ∑ s ∈ words n, f (b :: s) := by
  rw [Nat.add_comm, sum_words_add, sum_words_one]
  rfl

theorem howMany_mul (a b : Nat) (P Q : Bytes → Prop) :
    howMany (a + b) (fun s => P (s.take a) ∧ Q (s.drop a)) = howMany a P * howMany b Q := by
  classical
  rw [howMany, sum_words_add, howMany, howMany, Finset.sum_mul_sum]
  refine Finset.sum_congr rfl fun x hx => Finset.sum_congr rfl fun y _ => ?_
  have hx := mem_words.1 hx
  rw [List.take_left' hx, List.drop_left' hx]
  by_cases hp : P x <;> by_cases hq : Q y <;> simp [hp, hq]

/-! ## chunks, and strings without a cut -/

/-- no prefix of `s` satisfies `e` -/
def Uncut (e : Bytes → Prop) (s : Bytes) : Prop := ∀ m, 1 ≤ m → m ≤ s.length → ¬ e (s.take m)

theorem Uncut.nil (e : Bytes → Prop) : Uncut e [] := fun m h1 h2 => absurd h2 (by simp; omega)

theorem Uncut.of_append {e : Bytes → Prop} {s t : Bytes} (h : Uncut e (s ++ t)) : Uncut e s := by
  intro m h1 h2
  have := h m h1 (by rw [List.length_append]; omega)
  rwa [List.take_append_of_le_length h2] at this

theorem uncut_snoc {e : Bytes → Prop} {s : Bytes} {b : UInt8} : Uncut e (s ++ [b]) ↔ Uncut e s ∧ ¬ e (s ++ [b]) := by
  constructor
  · intro h
    refine ⟨h.of_append, ?_⟩
    have := h (s.length + 1) (by omega) (by simp)
    rwa [List.take_of_length_le (by simp)] at this
  · rintro ⟨h1, h2⟩ m hm hm'
    rw [List.length_append, List.length_singleton] at hm'
    by_cases hl : m ≤ s.length
    · rw [List.take_append_of_le_length hl]; exact h1 m hm hl
    · rw [List.take_of_length_le (by simp; omega)]; exact h2

theorem firstCut_snoc {e : Bytes → Prop} {s : Bytes} {b : UInt8} :
    FirstCut e (s ++ [b]) (s.length + 1) ↔ Uncut e s ∧ e (s ++ [b]) := by
  unfold FirstCut
  rw [List.take_of_length_le (by simp)]
  constructor
  · rintro ⟨-, -, h1, h2⟩
    refine ⟨fun m hm hm' => ?_, h1⟩
    have := h2 m hm (by omega)
    rwa [List.take_append_of_le_length hm'] at this
  · rintro ⟨h1, h2⟩
    refine ⟨by omega, by simp, h2, fun m hm hm' => ?_⟩
    rw [List.take_append_of_le_length (by omega)]
    exact h1 m hm (by omega)

/-- strings of length `n` without a cut, among all -/
noncomputable def uncutShare (e : Bytes → Prop) (n : Nat) : ℝ := (howMany n (Uncut e) : ℝ) / 256 ^ n

theorem howMany_uncut_succ (e : Bytes → Prop) (n : Nat) :
    256 * howMany n (Uncut e) = howMany (n + 1) (Uncut e) + howMany (n + 1) fun s => FirstCut e s (n + 1) := by
  classical
  have h1 : howMany (n + 1) (fun s => Uncut e s ∨ FirstCut e s (n + 1)) = 256 * howMany n (Uncut e) := by
    rw [howMany, sum_words_snoc, howMany, Finset.mul_sum]
    refine Finset.sum_congr rfl fun s hs => ?_
    have hs := mem_words.1 hs
    subst hs
    refine (Finset.sum_congr rfl (g := fun _ => if Uncut e s then 1 else 0) fun b _ => ?_).trans ?_
    · simp only [uncut_snoc, firstCut_snoc]
      by_cases h : Uncut e s <;> by_cases h' : e (s ++ [b]) <;> simp [h, h']
    · rw [Finset.sum_const, card_bytes, smul_eq_mul]
  rw [← h1, howMany_or]
  intro s hs hu hf
  exact hu (n + 1) (by omega) (by omega) hf.2.2.1

theorem uncutShare_zero (e : Bytes → Prop) : uncutShare e 0 = 1 := by
  classical
  have : howMany 0 (Uncut e) = 1 := by
    have : words 0 = {[]} := by ext s; simp [mem_words]
    rw [howMany, this, Finset.sum_singleton, if_pos (Uncut.nil e)]
  simp [uncutShare, this]

theorem uncutShare_nonneg (e : Bytes → Prop) (n : Nat) : 0 ≤ uncutShare e n := by
  unfold uncutShare; positivity

theorem firstCut_share (e : Bytes → Prop) (n : Nat) :
    ((howMany (n + 1) fun s => FirstCut e s (n + 1)) : ℝ) / 256 ^ (n + 1) = uncutShare e n - uncutShare e (n + 1) := by
  have h := howMany_uncut_succ e n
  have h' : (256 : ℝ) * howMany n (Uncut e) = howMany (n + 1) (Uncut e) + (howMany (n + 1) fun s => FirstCut e s (n + 1)) := by
    exact_mod_cast h
  have : ((howMany (n + 1) fun s => FirstCut e s (n + 1)) : ℝ) = 256 * howMany n (Uncut e) - howMany (n + 1) (Uncut e) := by
    linarith
  rw [this, uncutShare, uncutShare, sub_div, pow_succ]
  congr 1
  field_simp

theorem uncutShare_anti (e : Bytes → Prop) (n : Nat) : uncutShare e (n + 1) ≤ uncutShare e n := by
  have := firstCut_share e n
  have h2 : 0 ≤ ((howMany (n + 1) fun s => FirstCut e s (n + 1)) : ℝ) / 256 ^ (n + 1) := by positivity
  linarith

/-! ## the two ways to write a mean -/

section
variable {u : ℕ → ℝ}

theorem sum_parts (u : ℕ → ℝ) (N : ℕ) :
    ∑ k ∈ Finset.range N, ((k : ℝ) + 1) * (u k - u (k + 1)) + N * u N = ∑ k ∈ Finset.range N, u k := by
  induction N with
  | zero => simp
  | succ N ih =>
    rw [Finset.sum_range_succ, Finset.sum_range_succ, ← ih]
    push_cast
    ring

theorem sum_parts_le (h : ∀ n, u (n + 1) ≤ u n) (M : ℕ) {N : ℕ} (hN : M ≤ N) :
    ∑ k ∈ Finset.range M, u k ≤ ∑ k ∈ Finset.range N, ((k : ℝ) + 1) * (u k - u (k + 1)) + M * u N := by
  induction N, hN using Nat.le_induction with
  | base => exact (sum_parts u M).ge
  | succ N hN ih =>
    rw [Finset.sum_range_succ]
    have h1 : (M : ℝ) ≤ N := by exact_mod_cast hN
    have h2 := h N
    nlinarith

/-- A non-increasing sequence with sum `μ`: the differences have sum `u 0` and "mean" `μ`. -/
theorem hasSum_parts (h0 : ∀ n, 0 ≤ u n) (h : ∀ n, u (n + 1) ≤ u n) {μ : ℝ} (hs : HasSum u μ) :
    HasSum (fun n => u n - u (n + 1)) (u 0) ∧ HasSum (fun n : ℕ => ((n : ℝ) + 1) * (u n - u (n + 1))) μ := by
  have hl : Filter.Tendsto u Filter.atTop (nhds 0) := hs.summable.tendsto_atTop_zero
  constructor
  · rw [hasSum_iff_tendsto_nat_of_nonneg (fun n => sub_nonneg.2 (h n))]
    have : (fun n => ∑ i ∈ Finset.range n, (u i - u (i + 1))) = fun n => u 0 - u n := by
      funext n; exact Finset.sum_range_sub' u n
    rw [this]
    simpa using hl.const_sub (u 0)
  · have hn : ∀ n : ℕ, 0 ≤ ((n : ℝ) + 1) * (u n - u (n + 1)) := fun n =>
      mul_nonneg (by positivity) (sub_nonneg.2 (h n))
    have hle : ∀ N, ∑ k ∈ Finset.range N, ((k : ℝ) + 1) * (u k - u (k + 1)) ≤ μ := by
      intro N
      have h1 := sum_parts u N
      have h2 : ∑ k ∈ Finset.range N, u k ≤ μ := sum_le_hasSum _ (fun i _ => h0 i) hs
      have h3 : 0 ≤ N * u N := mul_nonneg (by positivity) (h0 N)
      linarith
    have hsum := summable_of_sum_range_le hn hle
    have h1 := hsum.hasSum
    have hge : μ ≤ ∑' n : ℕ, ((n : ℝ) + 1) * (u n - u (n + 1)) := by
      refine le_of_tendsto' hs.tendsto_sum_nat fun M => ?_
      have ht : Filter.Tendsto (fun N => ∑' n : ℕ, ((n : ℝ) + 1) * (u n - u (n + 1)) + M * u N) Filter.atTop
          (nhds (∑' n : ℕ, ((n : ℝ) + 1) * (u n - u (n + 1)) + M * 0)) := (hl.const_mul (M : ℝ)).const_add _
      rw [mul_zero, add_zero] at ht
      refine ge_of_tendsto ht ?_
      filter_upwards [Filter.eventually_ge_atTop M] with N hN
      have h2 := sum_parts_le h M hN
      have h3 := sum_le_hasSum (Finset.range N) (fun i _ => hn i) h1
      linarith
    have hle' : ∑' n : ℕ, ((n : ℝ) + 1) * (u n - u (n + 1)) ≤ μ := hsum.tsum_le_of_sum_range_le hle
    rw [← le_antisymm hle' hge]
    exact h1

end

theorem hasSum_shift {f g : ℕ → ℝ} {a : ℝ} (h0 : f 0 = 0) (h : ∀ n, f (n + 1) = g n) (hg : HasSum g a) : HasSum f a := by
  rw [← hasSum_nat_add_iff' 1]
  simpa [h0, h] using hg

/-- from the shares of strings without a cut to the distribution of lengths -/
theorem mean_of_uncut {e : Bytes → Prop} {c : Nat → Nat} {μ : ℝ} (h0 : c 0 = 0)
    (hc : ∀ n, c (n + 1) = howMany (n + 1) fun s => FirstCut e s (n + 1)) (hs : HasSum (uncutShare e) μ) :
    HasSum (fun n : ℕ => (c n : ℝ) / 256 ^ n) 1 ∧ HasSum (fun n : ℕ => n * ((c n : ℝ) / 256 ^ n)) μ := by
  obtain ⟨h1, h2⟩ := hasSum_parts (uncutShare_nonneg e) (uncutShare_anti e) hs
  rw [uncutShare_zero] at h1
  refine ⟨hasSum_shift (by simp [h0]) (fun n => ?_) h1, hasSum_shift (by simp [h0]) (fun n => ?_) h2⟩
  · rw [hc, firstCut_share]
  · rw [hc, firstCut_share]; push_cast; ring

/-- the strings counted are those with their first cut at the end -/
theorem cutAt_of_conforms {A : Chunk} {e : Bytes → Prop} (hA : FceConforms A Any (EdgeRule (Local e))) :
    cutAt A 0 = 0 ∧ ∀ n, cutAt A (n + 1) = howMany (n + 1) fun s => FirstCut e s (n + 1) := by
  have key : ∀ s, cutsAtEnd A s = true ↔ FirstCut e s s.length := by
    intro s
    obtain ⟨st', r, d, h1, -, h3⟩ := hA s A.init 0 0 0 [] .start s.length (by omega) (by omega) trivial
    have hsub : Spec.sub s 0 s.length = s := by simp [Spec.sub]
    rw [hsub] at h1 h3
    unfold cutsAtEnd
    rw [h1]
    rcases r with _ | c
    · simp only [List.take_zero] at h3
      exact ⟨fun h => (by cases h), fun h => (h3 _ h).elim⟩
    · obtain ⟨-, -, h3⟩ := h3
      rw [Nat.zero_add, Nat.sub_zero] at h3
      constructor
      · intro h
        have : c = s.length := by simpa using h
        rw [← this]; exact h3
      · intro h
        have := (EdgeRule.good (Local e)).det (hist := s.take 0) (data := s) h3 h
        simpa using this
  refine ⟨?_, fun n => ?_⟩
  · rw [cutAt, countP_strings]
    refine howMany_false fun s hs h => ?_
    rw [key, hs] at h
    exact absurd h.1 (by omega)
  · rw [cutAt, countP_strings]
    exact howMany_congr fun s hs => by rw [key, hs]

theorem meanChunk_of_uncut {A : Chunk} {e : Bytes → Prop} (hA : FceConforms A Any (EdgeRule (Local e))) {μ : ℝ}
    (hs : HasSum (uncutShare e) μ) : MeanChunk A μ :=
  mean_of_uncut (cutAt_of_conforms hA).1 (cutAt_of_conforms hA).2 hs

/-- `push` in the state `st` finds the first cut of the rule `e` -/
def PushFirst (C : ChunkIncr) (st : C.State) (e : Bytes → Prop) : Prop :=
  ∀ s, ∃ st' r, C.push st s = .ok (st', r) ∧
    match r with
    | none => ∀ n, ¬ FirstCut e s n
    | some i => FirstCut e s i

theorem pushCutAt_of_first {C : ChunkIncr} {st : C.State} {e : Bytes → Prop} (hC : PushFirst C st e) :
    pushCutAt C st 0 = 0 ∧ ∀ n, pushCutAt C st (n + 1) = howMany (n + 1) fun s => FirstCut e s (n + 1) := by
  have key : ∀ s, pushCutsAtEnd C st s = true ↔ FirstCut e s s.length := by
    intro s
    obtain ⟨st', r, h1, h3⟩ := hC s
    unfold pushCutsAtEnd
    rw [h1]
    rcases r with _ | c
    · exact ⟨fun h => (by cases h), fun h => (h3 _ h).elim⟩
    · constructor
      · intro h
        have : c = s.length := by simpa using h
        rw [← this]; exact h3
      · intro h
        have := (EdgeRule.good (Local e)).det (hist := []) (data := s) h3 h
        simpa using this
  refine ⟨?_, fun n => ?_⟩
  · rw [pushCutAt, countP_strings]
    refine howMany_false fun s hs h => ?_
    rw [key, hs] at h
    exact absurd h.1 (by omega)
  · rw [pushCutAt, countP_strings]
    exact howMany_congr fun s hs => by rw [key, hs]

theorem meanPush_of_uncut {C : ChunkIncr} {st : C.State} {e : Bytes → Prop} {μ : ℝ} (hC : PushFirst C st e)
    (hs : HasSum (uncutShare e) μ) : MeanPush C st μ :=
  mean_of_uncut (pushCutAt_of_first hC).1 (pushCutAt_of_first hC).2 hs

/-! ## geometric decay -/

/-- If every string without a cut can be continued by `L` bytes so that there is a cut, the shares decay. -/
theorem uncutShare_decay {e : Bytes → Prop} {L : Nat}
    (h : ∀ s, Uncut e s → ∃ t, t.length = L ∧ ¬ Uncut e (s ++ t)) (n : Nat) :
    uncutShare e (n + L) ≤ (1 - 1 / 256 ^ L) * uncutShare e n := by
  classical
  have h1 : howMany (n + L) (Uncut e) + howMany n (Uncut e) ≤ 256 ^ L * howMany n (Uncut e) := by
    rw [howMany, sum_words_add, howMany, Finset.mul_sum, ← Finset.sum_add_distrib]
    refine Finset.sum_le_sum fun s hs => ?_
    by_cases hu : Uncut e s
    · obtain ⟨t, ht, hn⟩ := h s hu
      rw [if_pos hu, mul_one, ← card_words, Finset.card_eq_sum_ones]
      have : (1 : ℕ) = ∑ y ∈ words L, if y = t then 1 else 0 := by
        rw [Finset.sum_ite_eq' (words L) t fun _ => 1, if_pos (mem_words.2 ht)]
      rw [this, ← Finset.sum_add_distrib, ← this]
      refine Finset.sum_le_sum fun y _ => ?_
      by_cases hy : y = t
      · subst hy; simp [hn]
      · rw [if_neg hy]; split <;> omega
    · have : ∀ y ∈ words L, (if Uncut e (s ++ y) then 1 else 0) = 0 := fun y _ =>
        if_neg fun h' => hu h'.of_append
      rw [Finset.sum_congr rfl this]
      simp [hu]
  have h2 : (howMany (n + L) (Uncut e) : ℝ) + howMany n (Uncut e) ≤ 256 ^ L * howMany n (Uncut e) := by exact_mod_cast h1
  rw [uncutShare, uncutShare, pow_add, div_le_iff₀ (by positivity)]
  have : (1 - 1 / 256 ^ L : ℝ) * (howMany n (Uncut e) / 256 ^ n) * (256 ^ n * 256 ^ L) =
      256 ^ L * howMany n (Uncut e) - howMany n (Uncut e) := by
    field_simp
  rw [this]
  linarith

theorem summable_decay {u : ℕ → ℝ} (h0 : ∀ n, 0 ≤ u n) (ha : ∀ n, u (n + 1) ≤ u n) {L : ℕ} (hL : 1 ≤ L) {q : ℝ} (hq0 : 0 ≤ q)
    (hq : q < 1) (h : ∀ n, u (n + L) ≤ q * u n) : Summable u := by
  have hanti : ∀ a b, u (a + b) ≤ u a := by
    intro a b
    induction b with
    | zero => exact le_rfl
    | succ b ih => exact (ha _).trans ih
  have hpow : ∀ k, u (k * L) ≤ q ^ k * u 0 := by
    intro k
    induction k with
    | zero => simp
    | succ k ih =>
      rw [Nat.succ_mul]
      refine (h _).trans ?_
      rw [pow_succ, mul_comm (q ^ k) q, mul_assoc]
      exact mul_le_mul_of_nonneg_left ih hq0
  -- blocks of length `L`
  refine summable_of_sum_range_le (c := L * (u 0 * (1 - q)⁻¹)) h0 fun n => ?_
  have h1 : ∑ i ∈ Finset.range n, u i ≤ ∑ i ∈ Finset.range (n * L), u i :=
    Finset.sum_le_sum_of_subset_of_nonneg (Finset.range_mono (Nat.le_mul_of_pos_right n hL)) fun i _ _ => h0 i
  have h2 : ∀ m, ∑ i ∈ Finset.range (m * L), u i ≤ ∑ k ∈ Finset.range m, L * (q ^ k * u 0) := by
    intro m
    induction m with
    | zero => simp
    | succ m ih =>
      rw [Nat.succ_mul, Finset.sum_range_add, Finset.sum_range_succ]
      refine add_le_add ih ?_
      have : ∑ x ∈ Finset.range L, u (m * L + x) ≤ ∑ x ∈ Finset.range L, q ^ m * u 0 :=
        Finset.sum_le_sum fun x _ => (hanti _ _).trans (hpow m)
      rwa [Finset.sum_const, Finset.card_range, nsmul_eq_mul] at this
  refine h1.trans ((h2 n).trans ?_)
  rw [← Finset.mul_sum, ← Finset.sum_mul, mul_comm _ (u 0)]
  refine mul_le_mul_of_nonneg_left (mul_le_mul_of_nonneg_left ?_ (h0 0)) (by positivity)
  rw [← tsum_geometric_of_lt_one hq0 hq]
  exact (summable_geometric_of_lt_one hq0 hq).sum_le_tsum _ fun i _ => pow_nonneg hq0 i

theorem uncutShare_summable {e : Bytes → Prop} {L : Nat} (hL : 1 ≤ L)
    (h : ∀ s, Uncut e s → ∃ t, t.length = L ∧ ¬ Uncut e (s ++ t)) : Summable (uncutShare e) := by
  refine summable_decay (uncutShare_nonneg e) (uncutShare_anti e) hL (q := 1 - 1 / 256 ^ L) ?_ ?_ (uncutShare_decay h)
  · rw [sub_nonneg, div_le_one (by positivity)]
    exact one_le_pow₀ (by norm_num)
  · have : (0 : ℝ) < 1 / 256 ^ L := by positivity
    linarith

end HashRoll.Spec
