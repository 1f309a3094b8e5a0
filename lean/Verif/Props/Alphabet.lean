import Verif.Props.Coarse
import Verif.Props.Constant
/-!
# C89: what of the bytes matters

Some algorithms look only at the order of bytes or at their remainders. Two streams that agree in that have chunks of the
same lengths.
-/

namespace HashRoll.Spec

/-- C89. The documented loop of `A` on `s` and that of `A'` on `s'` cut at the same places. -/
def DocAlike (A : Chunk) (s : Bytes) (A' : Chunk) (s' : Bytes) : Prop :=
  ∀ n, s.length < n → s'.length < n → ∃ cs r cs' r',
    A.docLoop s n A.init s 0 = .ok (cs, some r) ∧ A'.docLoop s' n A'.init s' 0 = .ok (cs', some r') ∧
    cs.map List.length = cs'.map List.length

/-- C89. The same for `iter_slices_strict`. -/
def StrictAlike (C : ChunkIncr) (s : Bytes) (C' : ChunkIncr) (s' : Bytes) : Prop :=
  ∀ n, s.length < n → s'.length < n → ∃ cs it cs' it',
    (C.iterSlicesStrict C.init s).run n = .ok (cs, it, true) ∧ (C'.iterSlicesStrict C'.init s').run n = .ok (cs', it', true) ∧
    cs.map List.length = cs'.map List.length

/-! ### conditions on two streams -/

/-- all comparisons of bytes have the same outcome -/
def SameOrder (s s' : Bytes) : Prop :=
  s.length = s'.length ∧ ∀ (i j : Nat) (a b a' b' : UInt8),
    s[i]? = some a → s[j]? = some b → s'[i]? = some a' → s'[j]? = some b' → (a ≤ b ↔ a' ≤ b')

/-- all comparisons of neighbours have the same outcome -/
def SameSteps (s s' : Bytes) : Prop :=
  s.length = s'.length ∧ ∀ (i : Nat) (a b a' b' : UInt8),
    s[i]? = some a → s[i + 1]? = some b → s'[i]? = some a' → s'[i + 1]? = some b' → (a < b ↔ a' < b')

/-- zeros are at the same places -/
def SameZeros (s s' : Bytes) : Prop := s.map (· == 0) = s'.map (· == 0)

/-- equal remainders -/
def SameMod (m : Nat) (s s' : Bytes) : Prop := s.map (·.toNat % m) = s'.map (·.toNat % m)

end HashRoll.Spec

namespace HashRoll.Props

open Spec

variable {A A' : Chunk} {C C' : ChunkIncr} {rule rule' : Rule}

/-- Two rules that agree on all corresponding pieces cut at the same places. -/
theorem Chunked.alike {s s' : Bytes} (hl : s.length = s'.length)
    (h : ∀ a n, rule (s.take a) (s.drop a) n ↔ rule' (s'.take a) (s'.drop a) n)
    {hist data : Bytes} {cs : List Bytes} {r : Bytes} (hc : Chunked rule hist data cs r) :
    ∀ {a : Nat} {cs' : List Bytes} {r' : Bytes}, hist = s.take a → data = s.drop a →
      Chunked rule' (s'.take a) (s'.drop a) cs' r' → rule'.Good →
      cs.map List.length = cs'.map List.length ∧ r.length = r'.length := by
  induction hc with
  | @rem hist data hn =>
    intro a cs' r' h1 h2 hc' hg
    subst h1 h2
    cases hc' with
    | rem hn' => exact ⟨rfl, by simp [hl]⟩
    | cut hr _ => exact absurd ((h _ _).2 hr) (hn _)
  | @cut hist data n cs r hr hrest ih =>
    intro a cs' r' h1 h2 hc' hg
    subst h1 h2
    have hr' := (h _ _).1 hr
    cases hc' with
    | rem hn' => exact absurd hr' (hn' _)
    | @cut _ _ n' cs' _ hr2 hrest' =>
      cases hg.det hr' hr2
      have ht : ∀ s : Bytes, s.take a ++ (s.drop a).take n = s.take (a + n) := fun s => List.take_add.symm
      rw [ht, List.drop_drop] at hrest'
      obtain ⟨k1, k2⟩ := ih (a := a + n) (ht s) (by rw [List.drop_drop]) hrest' hg
      refine ⟨?_, k2⟩
      rw [List.map_cons, List.map_cons, k1]
      congr 1
      simp [hl]

theorem docAlike {s s' : Bytes} (hl : s.length = s'.length) (h : DocLoopChunks A rule) (h' : DocLoopChunks A' rule')
    (hg : rule'.Good) (he : ∀ a n, rule (s.take a) (s.drop a) n ↔ rule' (s'.take a) (s'.drop a) n) :
    DocAlike A s A' s' := by
  intro n hn hn'
  obtain ⟨cs, r, rest, h1, h2, -⟩ := h s n hn
  obtain ⟨cs', r', rest', k1, k2, -⟩ := h' s' n hn'
  exact ⟨cs, rest, cs', rest', h1, k1, (Chunked.alike hl he h2 (a := 0) (by simp) (by simp) (by simpa using k2) hg).1⟩

theorem strictAlike {s s' : Bytes} (hl : s.length = s'.length) (h : StrictChunks C rule) (h' : StrictChunks C' rule')
    (hg : rule'.Good) (he : ∀ a n, rule (s.take a) (s.drop a) n ↔ rule' (s'.take a) (s'.drop a) n) :
    StrictAlike C s C' s' := by
  intro n hn hn'
  obtain ⟨it, cs, r, h1, h2, -⟩ := h s n hn
  obtain ⟨it', cs', r', k1, k2, -⟩ := h' s' n hn'
  exact ⟨cs, it, cs', it', h1, k1, (Chunked.alike hl he h2 (a := 0) (by simp) (by simp) (by simpa using k2) hg).1⟩

theorem edgeRule_alike {e e' : Bytes → Bytes → Prop} {s s' : Bytes} (hl : s.length = s'.length)
    (h : ∀ a m, a + m ≤ s.length → 1 ≤ m → (e (s.take a) ((s.drop a).take m) ↔ e' (s'.take a) ((s'.drop a).take m)))
    (a n : Nat) : EdgeRule e (s.take a) (s.drop a) n ↔ EdgeRule e' (s'.take a) (s'.drop a) n := by
  have key : ∀ {e e' : Bytes → Bytes → Prop} {s s' : Bytes} (_ : s.length = s'.length)
      (_ : ∀ a m, a + m ≤ s.length → 1 ≤ m → (e (s.take a) ((s.drop a).take m) ↔ e' (s'.take a) ((s'.drop a).take m))),
      EdgeRule e (s.take a) (s.drop a) n → EdgeRule e' (s'.take a) (s'.drop a) n := by
    rintro e e' s s' hl h ⟨h1, h2, h3, h4⟩
    rw [List.length_drop] at h2
    refine ⟨h1, by rw [List.length_drop]; omega, (h a n (by omega) h1).1 h3, ?_⟩
    intro m k1 k2 k3
    exact h4 m k1 k2 ((h a m (by omega) k1).2 k3)
  exact ⟨key hl h, key hl.symm fun a m h1 h2 => (h a m (by omega) h2).symm⟩

theorem beforeRule_alike {e e' : Bytes → Bytes → Prop} {s s' : Bytes} (hl : s.length = s'.length)
    (h : ∀ a m, a + m ≤ s.length → 1 ≤ m → (e (s.take a) ((s.drop a).take m) ↔ e' (s'.take a) ((s'.drop a).take m)))
    (a n : Nat) : BeforeRule e (s.take a) (s.drop a) n ↔ BeforeRule e' (s'.take a) (s'.drop a) n :=
  edgeRule_alike hl h a (n + 1)

theorem getElem?_piece {s : Bytes} {a m i : Nat} {x : UInt8} (h : ((s.drop a).take m)[i]? = some x) : s[a + i]? = some x := by
  rw [List.getElem?_take, List.getElem?_drop] at h
  split at h
  · exact h
  · cases h

/-! ## Ram -/

theorem _root_.HashRoll.Spec.SameOrder.piece {s s' : Bytes} (h : SameOrder s s') (a m : Nat) : SameOrder ((s.drop a).take m) ((s'.drop a).take m) := by
  refine ⟨by simp [h.1], ?_⟩
  intro i j x y x' y' h1 h2 h3 h4
  exact h.2 _ _ _ _ _ _ (getElem?_piece h1) (getElem?_piece h2) (getElem?_piece h3) (getElem?_piece h4)

theorem ramEdge_iff (w : Nat) (p : Bytes) : ramEdge w p ↔ w + 1 < p.length ∧ ∀ (i : Nat) (x b : UInt8), i ≤ w → p[i]? = some x →
    p[p.length - 1]? = some b → x ≤ b := by
  unfold ramEdge
  rw [← List.getLast?_eq_getElem?]
  constructor
  · rintro ⟨b, h1, h2, h3⟩
    refine ⟨h2, fun i x b' hi hx hb => ?_⟩
    rw [h1] at hb
    cases hb
    refine h3 x (List.mem_of_getElem? (i := i) ?_)
    rw [List.getElem?_take, if_pos (by omega), hx]
  · rintro ⟨h1, h2⟩
    have hne : p ≠ [] := by rintro rfl; simp at h1
    refine ⟨p.getLast hne, List.getLast?_eq_some_getLast hne, h1, fun x hx => ?_⟩
    obtain ⟨i, hi⟩ := List.getElem?_of_mem hx
    rw [List.getElem?_take] at hi
    split at hi
    · exact h2 i x _ (by omega) hi (List.getLast?_eq_some_getLast hne)
    · cases hi

theorem ram_alike (w : Nat) {p p' : Bytes} (h : SameOrder p p') : ramEdge w p ↔ ramEdge w p' := by
  have key : ∀ {p p' : Bytes}, SameOrder p p' → ramEdge w p → ramEdge w p' := by
    intro p p' h hr
    rw [ramEdge_iff] at hr ⊢
    obtain ⟨h1, h2⟩ := hr
    refine ⟨by rw [← h.1]; exact h1, fun i x b hi hx hb => ?_⟩
    obtain ⟨hi', -⟩ := List.getElem?_eq_some_iff.1 hx
    have l1 : i < p.length := by rw [h.1]; exact hi'
    have l2 : p.length - 1 < p.length := by omega
    rw [← h.1] at hb
    exact (h.2 i (p.length - 1) _ _ _ _ (List.getElem?_eq_getElem l1) (List.getElem?_eq_getElem l2) hx hb).1
      (h2 i _ _ hi (List.getElem?_eq_getElem l1) (List.getElem?_eq_getElem l2))
  exact ⟨key h, key ⟨h.1.symm, fun i j a b a' b' k1 k2 k3 k4 => (h.2 i j a' b' a b k3 k4 k1 k2).symm⟩⟩

/-- C89 for Ram: only the order of the bytes matters. -/
theorem C89_ram (p : Ram.Ram) (s s' : Bytes) (h : SameOrder s s') :
    DocAlike (Ram.chunk p) s (Ram.chunk p) s' ∧ StrictAlike (Ram.incr p) s (Ram.incr p) s' :=
  ⟨docAlike h.1 (C08_ram p) (C08_ram p) (EdgeRule.good _) (edgeRule_alike h.1 fun a m _ _ => ram_alike _ (h.piece a m)),
    strictAlike h.1 (C05_ram p) (C05_ram p) (BeforeRule.good _) (beforeRule_alike h.1 fun a m _ _ => ram_alike _ (h.piece a m))⟩

/-- an order-preserving change of the bytes that occur -/
theorem sameOrder_map {f : UInt8 → UInt8} {s : Bytes} (hf : ∀ a ∈ s, ∀ b ∈ s, (a ≤ b ↔ f a ≤ f b)) : SameOrder s (s.map f) := by
  refine ⟨by simp, ?_⟩
  intro i j a b a' b' h1 h2 h3 h4
  rw [List.getElem?_map, h1] at h3
  rw [List.getElem?_map, h2] at h4
  cases h3
  cases h4
  exact hf a (List.mem_of_getElem? h1) b (List.mem_of_getElem? h2)
example : SameOrder [10, 200, 30, 30] [1, 3, 2, 2] := by
  have := sameOrder_map (s := [10, 200, 30, 30]) (f := fun b => if b = 10 then 1 else if b = 30 then 2 else 3) (by decide)
  exact this

/-! ## Mii -/

theorem _root_.HashRoll.Spec.SameSteps.piece {s s' : Bytes} (h : SameSteps s s') (a m : Nat) : SameSteps ((s.drop a).take m) ((s'.drop a).take m) := by
  refine ⟨by simp [h.1], ?_⟩
  intro i x y x' y' h1 h2 h3 h4
  exact h.2 (a + i) _ _ _ _ (getElem?_piece h1) (by rw [Nat.add_assoc]; exact getElem?_piece h2) (getElem?_piece h3)
    (by rw [Nat.add_assoc]; exact getElem?_piece h4)

theorem increasing_iff (l : Bytes) : Increasing l ↔ ∀ (i : Nat) (a b : UInt8), l[i]? = some a → l[i + 1]? = some b → a < b := by
  unfold Increasing
  rw [← List.isChain_iff_pairwise, List.isChain_iff_getElem]
  constructor
  · intro h i a b h1 h2
    obtain ⟨k1, rfl⟩ := List.getElem?_eq_some_iff.1 h1
    obtain ⟨k2, rfl⟩ := List.getElem?_eq_some_iff.1 h2
    exact h i k2
  · intro h i hi
    exact h i _ _ (List.getElem?_eq_getElem (by omega)) (List.getElem?_eq_getElem hi)

theorem _root_.HashRoll.Spec.SameSteps.symm {s s' : Bytes} (h : SameSteps s s') : SameSteps s' s :=
  ⟨h.1.symm, fun i a b a' b' k1 k2 k3 k4 => (h.2 i a' b' a b k3 k4 k1 k2).symm⟩

theorem _root_.HashRoll.Spec.SameSteps.increasing {s s' : Bytes} (h : SameSteps s s') : Increasing s ↔ Increasing s' := by
  have key : ∀ {s s' : Bytes}, SameSteps s s' → Increasing s → Increasing s' := by
    intro s s' h hi
    rw [increasing_iff] at hi ⊢
    intro i a b h1 h2
    obtain ⟨k2, -⟩ := List.getElem?_eq_some_iff.1 h2
    have l2 : i + 1 < s.length := by rw [h.1]; exact k2
    have l1 : i < s.length := by omega
    exact (h.2 i _ _ _ _ (List.getElem?_eq_getElem l1) (List.getElem?_eq_getElem l2) h1 h2).1
      (hi i _ _ (List.getElem?_eq_getElem l1) (List.getElem?_eq_getElem l2))
  exact ⟨key h, key h.symm⟩

theorem mii_alike (w : Nat) {p p' : Bytes} (h : SameSteps p p') : miiEdge w p ↔ miiEdge w p' := by
  unfold miiEdge
  have : SameSteps (lastN (w + 1) p) (lastN (w + 1) p') := by
    have := h.piece (p.length - (w + 1)) (w + 1)
    rw [List.take_of_length_le (by simp; omega), List.take_of_length_le (by simp [h.1]; omega)] at this
    unfold lastN
    rw [← h.1]
    exact this
  rw [this.increasing, h.1]

theorem sameSteps_cons {p p' : Bytes} (h : SameSteps p p') (h0 : SameZeros p p') : SameSteps (0 :: p) (0 :: p') := by
  refine ⟨by simp [h.1], ?_⟩
  intro i a b a' b' h1 h2 h3 h4
  cases i with
  | zero =>
    cases h1
    cases h3
    have h2 : p[0]? = some b := h2
    have h4 : p'[0]? = some b' := h4
    have := congrArg (fun l => l[0]?) h0
    simp only [List.getElem?_map, h2, h4, Option.map_some, Option.some.injEq] at this
    have z : ∀ b : UInt8, 0 < b ↔ (b == 0) = false := by
      intro b
      rw [beq_eq_false_iff_ne, UInt8.lt_iff_toNat_lt, ne_eq, ← UInt8.toNat_inj]
      have : (0 : UInt8).toNat = 0 := rfl
      omega
    rw [z, z, this]
  | succ i => exact h.2 i a b a' b' h1 h2 h3 h4

/-- C89 for Mii: only comparisons of neighbours matter; for `MiiIncr` also which bytes are zero. -/
theorem C89_mii (p : Mii.Mii) (s s' : Bytes) (h : SameSteps s s') :
    DocAlike (Mii.chunk p) s (Mii.chunk p) s' ∧ (SameZeros s s' → StrictAlike (Mii.incr p) s (Mii.incr p) s') := by
  refine ⟨docAlike h.1 (C08_mii p) (C08_mii p) (EdgeRule.good _) (edgeRule_alike h.1 fun a m _ _ => mii_alike _ (h.piece a m)),
    fun h0 => strictAlike h.1 (C05_mii p) (C05_mii p) (EdgeRule.good _) (edgeRule_alike h.1 fun a m _ _ => ?_)⟩
  have z : SameZeros ((s.drop a).take m) ((s'.drop a).take m) := by
    unfold SameZeros at h0 ⊢
    rw [List.map_take, List.map_drop, h0, List.map_take, List.map_drop]
  have hn : s.take a = [] ↔ s'.take a = [] := by
    rw [← List.length_eq_zero_iff, ← List.length_eq_zero_iff, List.length_take, List.length_take, h.1]
  unfold miiIncrEdge
  by_cases hs : s.take a = []
  · rw [if_pos hs, if_pos (hn.1 hs)]
    exact mii_alike _ (h.piece a m)
  · rw [if_neg hs, if_neg (fun h => hs (hn.2 h))]
    exact mii_alike _ (sameSteps_cons (h.piece a m) z)
example : SameSteps [1, 2, 2, 1] [7, 9, 8, 0] := by
  refine ⟨rfl, ?_⟩
  rintro (_ | _ | _ | _ | i) a b a' b' h1 h2 h3 h4 <;> cases h1 <;> cases h2 <;> cases h3 <;> cases h4 <;> decide

/-- The zeros do matter for `MiiIncr`. -/
theorem C89_mii_zeros : ∃ s s' : Bytes, SameSteps s s' ∧
    ¬ StrictAlike (Mii.incr (Mii.Mii.withW 1)) s (Mii.incr (Mii.Mii.withW 1)) s' := by
  refine ⟨[1, 2, 1], [1, 2, 0], ⟨rfl, ?_⟩, ?_⟩
  · rintro (_ | _ | _ | i) a b a' b' h1 h2 h3 h4 <;> cases h1 <;> cases h2 <;> cases h3 <;> cases h4 <;> decide
  · intro h
    obtain ⟨cs, it, cs', it', h1, h2, h3⟩ := h 4 (by decide) (by decide)
    have k1 := congrArg (Except.map fun x => x.1.map List.length) h1
    have k2 := congrArg (Except.map fun x => x.1.map List.length) h2
    have e1 : (((Mii.incr (Mii.Mii.withW 1)).iterSlicesStrict (Mii.incr (Mii.Mii.withW 1)).init [1, 2, 1]).run 4).map
        (fun x => x.1.map List.length) = .ok [2, 1] := by decide +kernel
    have e2 : (((Mii.incr (Mii.Mii.withW 1)).iterSlicesStrict (Mii.incr (Mii.Mii.withW 1)).init [1, 2, 0]).run 4).map
        (fun x => x.1.map List.length) = .ok [2] := by decide +kernel
    rw [e1] at k1
    rw [e2] at k2
    injection k1 with k1
    injection k2 with k2
    have : [2, 1] = [2] := k1.trans (h3.trans k2.symm)
    cases this

/-! ## Gzip -/

theorem _root_.HashRoll.Spec.SameMod.length {m : Nat} {s s' : Bytes} (h : SameMod m s s') : s.length = s'.length := by
  have := congrArg List.length h
  simpa using this

theorem _root_.HashRoll.Spec.SameMod.take {m : Nat} {s s' : Bytes} (h : SameMod m s s') (n : Nat) : SameMod m (s.take n) (s'.take n) := by
  unfold SameMod at h ⊢
  rw [List.map_take, h, List.map_take]

theorem _root_.HashRoll.Spec.SameMod.drop {m : Nat} {s s' : Bytes} (h : SameMod m s s') (n : Nat) : SameMod m (s.drop n) (s'.drop n) := by
  unfold SameMod at h ⊢
  rw [List.map_drop, h, List.map_drop]

theorem sum_map_mod (m : Nat) (l : Bytes) : (l.map UInt8.toNat).sum % m = (l.map (·.toNat % m)).sum % m := by
  induction l with
  | nil => rfl
  | cons b l ih => rw [List.map_cons, List.map_cons, List.sum_cons, List.sum_cons, Nat.add_mod, ih, Nat.add_mod_mod]

theorem gzip_alike {w m : Nat} (hw : w ≤ 2 ^ 56) {p p' : Bytes} (h : SameMod m p p') : gzipEdge w m p ↔ gzipEdge w m p' := by
  have small : ∀ p : Bytes, ((lastN w p).map UInt8.toNat).sum % 2 ^ 64 = ((lastN w p).map UInt8.toNat).sum := by
    intro p
    apply Nat.mod_eq_of_lt
    have h1 := sum_bytes_le (lastN w p)
    rw [lastN_length] at h1
    have : (2 : Nat) ^ 64 = 256 * 2 ^ 56 := by decide
    omega
  have hl : SameMod m (lastN w p) (lastN w p') := by
    unfold lastN
    rw [h.length]
    exact h.drop _
  unfold gzipEdge
  rw [small, small, sum_map_mod, sum_map_mod m (lastN w p'), hl]

/-- C89 for Gzip: only the remainders modulo `modulus` matter (for windows of at most 2^56 bytes, where the sum does not wrap). -/
theorem C89_gzip (p : Gzip.GzipRsyncable) (hm : p.modulus ≠ 0) (hw : p.windowLen ≤ 2 ^ 56) (s s' : Bytes)
    (h : SameMod p.modulus.toNat s s') :
    DocAlike (Gzip.chunk p) s (Gzip.chunk p) s' ∧ (0 < p.windowLen → StrictAlike (Gzip.incr p) s (Gzip.incr p) s') :=
  ⟨docAlike h.length (C08_gzip p hm) (C08_gzip p hm) (EdgeRule.good _)
      (edgeRule_alike h.length fun a m _ _ => gzip_alike hw ((h.drop a).take m)),
    fun h0 => strictAlike h.length (C05_gzip p hm h0) (C05_gzip p hm h0) (EdgeRule.good _)
      (edgeRule_alike h.length fun a m _ _ => gzip_alike hw ((h.drop a).take m))⟩
example : SameMod 4 [1, 2, 3, 255] [5, 6, 7, 3] := by unfold SameMod; decide

/-! ## Pigz -/

theorem wxor_congr_map {w : Nat} {α : Type} {F : UInt8 → Nat → BitVec w} (g : UInt8 → α) (hF : ∀ b b' j, g b = g b' → F b j = F b' j)
    {p p' : Bytes} (h : p.map g = p'.map g) : wxor F p = wxor F p' := by
  unfold wxor
  congr 1
  have h : p.reverse.map g = p'.reverse.map g := by rw [List.map_reverse, h, List.map_reverse]
  have hl := congrArg List.length h
  rw [List.length_map, List.length_map] at hl
  apply List.ext_getElem
  · simpa using hl
  · intro i h1 h2
    rw [List.getElem_map, List.getElem_map, List.getElem_zipIdx, List.getElem_zipIdx]
    apply hF
    have := congrArg (fun l => l[i]?) h
    simp only [List.length_map, List.length_zipIdx] at h1 h2
    rw [List.getElem?_map, List.getElem?_map, List.getElem?_eq_getElem h1, List.getElem?_eq_getElem h2] at this
    exact Option.some.inj this

theorem pigz_alike {prof : Profile} {bits : BitVec 8} {q : Pigz.PigzRsyncable} (hq : Pigz.PigzRsyncable.withBits prof bits = .ok q)
    {p p' : Bytes} (h : SameMod (2 ^ (bits.toNat % 32)) p p') : pigzEdge q.mask q.hit p ↔ pigzEdge q.mask q.hit p' := by
  obtain ⟨_, hm, _⟩ := Pigz.withBits_mask hq
  have hl := h.length
  unfold SameMod at h
  generalize bits.toNat % 32 = B at hm h
  have hx : wxor (fun c j => (word 32 c <<< j) &&& q.mask) p = wxor (fun c j => (word 32 c <<< j) &&& q.mask) p' := by
    refine wxor_congr_map _ (fun b b' j hb => ?_) h
    rw [hm]
    apply BitVec.eq_of_getLsbD_eq
    intro i _
    have hb : b.toNat % 2 ^ B = b'.toNat % 2 ^ B := hb
    have := congrArg (fun n => n.testBit (i - j)) hb
    simp only [Nat.testBit_mod_two_pow] at this
    simp only [BitVec.getLsbD_and, BitVec.getLsbD_shiftLeft, BitVec.getLsbD_ofNat, Nat.testBit_two_pow_sub_one, word,
      BitVec.getLsbD_setWidth]
    by_cases hi : i < B
    · have hi' : i - j < B := by omega
      simp only [hi', decide_true, Bool.true_and] at this
      have e : b.toBitVec.getLsbD (i - j) = b'.toBitVec.getLsbD (i - j) := this
      rw [e]
    · simp [hi]
  have key : ∀ p : Bytes, pigzHash q.hit p &&& q.mask = ((q.hit <<< p.length) &&& q.mask) ^^^
      wxor (fun c j => (word 32 c <<< j) &&& q.mask) p := by
    intro p
    unfold pigzHash
    rw [xor_and]
    congr 1
    exact wxor_map (· &&& q.mask) (by simp) (fun x y => xor_and _ _ _) _ _
  unfold pigzEdge
  rw [key, key, hx, hl]

/-- C89 for Pigz: only the low `bits` bits of the bytes matter. -/
theorem C89_pigz {prof : Profile} {bits : BitVec 8} {p : Pigz.PigzRsyncable} (hp : Pigz.PigzRsyncable.withBits prof bits = .ok p)
    (s s' : Bytes) (h : SameMod (2 ^ (bits.toNat % 32)) s s') :
    DocAlike (Pigz.chunk p) s (Pigz.chunk p) s' ∧ StrictAlike (Pigz.incr p) s (Pigz.incr p) s' :=
  ⟨docAlike h.length (C08_pigz hp) (C08_pigz hp) (EdgeRule.good _)
      (edgeRule_alike h.length fun a m _ _ => pigz_alike hp ((h.drop a).take m)),
    strictAlike h.length (C05_pigz hp) (C05_pigz hp) (EdgeRule.good _)
      (edgeRule_alike h.length fun a m _ _ => pigz_alike hp ((h.drop a).take m))⟩
example : SameMod (2 ^ ((2 : BitVec 8).toNat % 32)) [1, 2, 3, 255] [5, 6, 7, 3] := by unfold SameMod; decide

/-! ## BuzHash, Gear32: relabelled tables -/

theorem buzHash_map {k : Nat} {H H' : UInt8 → BitVec 32} {f : UInt8 → UInt8} (h : ∀ b, H' (f b) = H b) (p : Bytes) :
    buzHash k H' (p.map f) = buzHash k H p := by
  unfold buzHash wxor
  rw [← List.map_reverse, List.zipIdx_map, List.map_map]
  congr 1
  refine List.map_congr_left ?_
  rintro ⟨b, j⟩ _
  simp [h]

/-- C89 for BuzHash: a change `f` of the bytes is undone by a table changed accordingly. -/
theorem C89_buzhash (p : Buzhash.BuzHash) (hk : 0 < p.k) (f : UInt8 → UInt8) (H' : UInt8 → BitVec 32) (hf : ∀ b, H' (f b) = p.h b)
    (s : Bytes) : DocAlike (Buzhash.chunk p) s (Buzhash.chunk { p with h := H' }) (s.map f) ∧
      StrictAlike (Buzhash.incr p) s (Buzhash.incr { p with h := H' }) (s.map f) := by
  have hl : s.length = (s.map f).length := by simp
  have he : ∀ a m, ((s.map f).drop a).take m = ((s.drop a).take m).map f := by
    intro a m; rw [List.map_take, List.map_drop]
  constructor
  · refine docAlike hl (C08_buzhash p hk) (C08_buzhash { p with h := H' } hk) (EdgeRule.good _) (edgeRule_alike hl fun a m _ _ => ?_)
    show buzEdge _ _ _ _ ↔ buzEdge _ _ _ _
    unfold buzEdge
    rw [he, buzHash_map hf]
  · refine strictAlike hl (C05_buzhash p hk) (C05_buzhash { p with h := H' } hk) (EdgeRule.good _) (edgeRule_alike hl fun a m _ _ => ?_)
    show buzIncrEdge _ _ _ _ _ ↔ buzIncrEdge _ _ _ _ _
    unfold buzIncrEdge buzEdge
    rw [he, buzHash_map hf, List.length_map]

/-- The salt of `new_nom` does nothing but xor every byte. -/
theorem C89_salt (salt : UInt8) (s : Bytes) : ∃ p q, Buzhash.BuzHash.newNom 0 = .ok p ∧ Buzhash.BuzHash.newNom salt = .ok q ∧
    DocAlike (Buzhash.chunk q) s (Buzhash.chunk p) (s.map (· ^^^ salt)) ∧
    StrictAlike (Buzhash.incr q) s (Buzhash.incr p) (s.map (· ^^^ salt)) :=
  ⟨{ k := 67, h := fun b => lookup Tables.goBuzhash (b ^^^ 0), mask := 0xfff, maxChunkSize := 16777216 },
    { k := 67, h := fun b => lookup Tables.goBuzhash (b ^^^ salt), mask := 0xfff, maxChunkSize := 16777216 }, rfl, rfl,
    C89_buzhash { k := 67, h := fun b => lookup Tables.goBuzhash (b ^^^ salt), mask := 0xfff, maxChunkSize := 16777216 }
      (by show 0 < 67; decide) (· ^^^ salt) _ (fun b => by simp) s⟩

theorem gearSum_map {w : Nat} {G G' : UInt8 → BitVec w} {f : UInt8 → UInt8} (h : ∀ b, G' (f b) = G b) (p : Bytes) :
    gearSum G' (p.map f) = gearSum G p := by
  unfold gearSum wsum
  rw [← List.map_reverse, List.zipIdx_map, List.map_map]
  congr 1
  refine List.map_congr_left ?_
  rintro ⟨b, j⟩ _
  simp [h]

/-- C89 for Gear32: a change `f` of the bytes is undone by a table changed accordingly. -/
theorem C89_gear (p : Gear.Gear32) (f : UInt8 → UInt8) (t : Vector (BitVec 32) 256) (hf : ∀ b, lookup t (f b) = lookup p.gear b)
    (s : Bytes) : DocAlike (Gear.chunk p) s (Gear.chunk { p with gear := t }) (s.map f) := by
  have hl : s.length = (s.map f).length := by simp
  refine docAlike hl (C08_gear p) (C08_gear { p with gear := t }) (EdgeRule.good _) (edgeRule_alike hl fun a m _ _ => ?_)
  show gearEdge _ _ _ _ ↔ gearEdge _ _ _ _
  unfold gearEdge
  rw [← List.map_drop, ← List.map_take, gearSum_map hf]
example : ∃ (t : Vector (BitVec 32) 256) (f : UInt8 → UInt8), f 0 ≠ 0 ∧ ∀ b, lookup t (f b) = lookup Tables.gear32 b :=
  ⟨Vector.ofFn fun i => lookup Tables.gear32 (UInt8.ofNat i.1 ^^^ 1), (· ^^^ 1), by decide, fun b => by
    simp [lookup, Nat.xor_assoc]⟩

end HashRoll.Props
