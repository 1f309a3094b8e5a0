import Verif.Props.Agree
/-!
# C40, C42-C45, C47, C48: what decisions depend on, resynchronisation

`SameEnd`-style theorems come in two forms: on the edge predicates of the rules, and on the code (any two
histories of calls; the next call is given the same new bytes).
-/

namespace HashRoll.Props

open Spec

/-! ## statements -/

/-- The edge predicate depends on the last `W` bytes of the chunk only. -/
def WindowLocal (W : Nat) (e : Bytes → Prop) : Prop := ∀ p q, lastN W p = lastN W q → (e p ↔ e q)

/-- Any two histories of `find_chunk_edge` calls, on any two streams, whose current chunks-so-far end with the same
`W` bytes: if the next call is given the same new bytes, it finds an edge in both or in neither, at the same distance. -/
def FceDecidesAlike (W : Nat) (A : Chunk) : Prop :=
  ∀ s st base need prev cs, FceRun A Any s st base need prev cs →
  ∀ s' st' base' need' prev' cs', FceRun A Any s' st' base' need' prev' cs' →
  lastN W (Spec.sub s prev need) = lastN W (Spec.sub s' prev' need') →
  ∀ e e', need ≤ e → e ≤ s.length → need' ≤ e' → e' ≤ s'.length → Spec.sub s need e = Spec.sub s' need' e' →
  ∃ st1 r d st1' r' d',
    A.fce st (Spec.sub s base e) = .ok (st1, r, d) ∧ A.fce st' (Spec.sub s' base' e') = .ok (st1', r', d') ∧
    r.map (fun c => base + c + need') = r'.map (fun c => base' + c + need)

/-- The same for pushes; `view hist cur` is the part of the past that matters. -/
def IncrDecidesAlike (W : Nat) (view : Bytes → Bytes → Bytes) (C : ChunkIncr) : Prop :=
  ∀ s st pos prev cs, IncrRun C s st pos prev cs →
  ∀ s' st' pos' prev' cs', IncrRun C s' st' pos' prev' cs' →
  lastN W (view (s.take prev) (Spec.sub s prev pos)) = lastN W (view (s'.take prev') (Spec.sub s' prev' pos')) →
  ∀ e e', pos ≤ e → e ≤ s.length → pos' ≤ e' → e' ≤ s'.length → Spec.sub s pos e = Spec.sub s' pos' e' →
  ∃ st1 st1' r, C.push st (Spec.sub s pos e) = .ok (st1, r) ∧ C.push st' (Spec.sub s' pos' e') = .ok (st1', r)

/-- the bytes of the current chunk -/
def chunkView (_hist cur : Bytes) : Bytes := cur
/-- the bytes of the stream -/
def streamView (hist cur : Bytes) : Bytes := hist ++ cur

/-! ## generic proofs -/

theorem lastN_append (W : Nat) (p t : Bytes) : lastN W (p ++ t) = lastN W (lastN W p ++ t) := by
  unfold lastN
  rcases Nat.le_total p.length W with h | h
  · rw [show p.length - W = 0 by omega, List.drop_zero]
  · have e : ∀ k, p ++ t = p.take k ++ (p.drop k ++ t) := fun k => by
      rw [← List.append_assoc, List.take_append_drop]
    conv => lhs; rw [e (p.length - W)]
    rw [List.drop_append, List.drop_eq_nil_of_le (by simp; omega), List.nil_append]
    congr 1
    simp
    omega

theorem lastN_append_congr {W : Nat} {p q : Bytes} (h : lastN W p = lastN W q) (t : Bytes) :
    lastN W (p ++ t) = lastN W (q ++ t) := by
  rw [lastN_append W p, lastN_append W q, h]

/-- Equal ends of `W` bytes: either both are that long, or they are equal. -/
theorem lastN_cases {W : Nat} {p q : Bytes} (h : lastN W p = lastN W q) :
    p = q ∨ W ≤ p.length ∧ W ≤ q.length := by
  have hl := congrArg List.length h
  rw [lastN_length, lastN_length] at hl
  rcases Nat.lt_or_ge p.length W with h1 | h1
  · left
    rw [lastN_of_le (by omega), lastN_of_le (by omega)] at h
    exact h
  · right
    omega

theorem lastN_of_ge {W : Nat} {e : Bytes → Prop} (h : ∀ p q, W ≤ p.length → W ≤ q.length → lastN W p = lastN W q → (e p ↔ e q)) :
    WindowLocal W e := by
  intro p q hpq
  rcases lastN_cases hpq with rfl | ⟨h1, h2⟩
  · rfl
  · exact h p q h1 h2 hpq

theorem firstCut_same {e e' : Bytes → Prop} {p q new : Bytes} (h : ∀ t, t ≠ [] → (e (p ++ t) ↔ e' (q ++ t)))
    (hp : NoEdge e p) (hq : NoEdge e' q) (n : Nat) (hf : FirstCut e (p ++ new) (p.length + n)) :
    FirstCut e' (q ++ new) (q.length + n) := by
  have hn : 1 ≤ n := by
    rcases Nat.eq_zero_or_pos n with rfl | h0
    · have h1 := hf.1
      have := hf.2.2.1
      rw [Nat.add_zero, List.take_left] at this
      exact absurd (by rwa [List.take_length]) (hp p.length (by simpa using h1) (Nat.le_refl _))
    · exact h0
  obtain ⟨h1, h2, h3, h4⟩ := hf
  have hnew : n ≤ new.length := by simpa using h2
  have ne : ∀ m, 1 ≤ m → m ≤ n → new.take m ≠ [] := by
    intro m m1 m2 h0
    have := congrArg List.length h0
    rw [List.length_take, List.length_nil] at this
    omega
  apply hq.firstCut_append
  refine ⟨hn, hnew, ?_, ?_⟩
  · show e' (q ++ new.take n)
    rw [← h _ (ne n hn (Nat.le_refl _))]
    rwa [List.take_append, List.take_of_length_le (by omega), Nat.add_sub_cancel_left] at h3
  · intro m k1 k2 k3
    apply h4 (p.length + m) (by omega) (by omega)
    rw [List.take_append, List.take_of_length_le (by omega), Nat.add_sub_cancel_left, h _ (ne m k1 (by omega))]
    exact k3

/-- What follows the chunk so far is decided by its last `W` bytes and the new bytes. -/
def PastLocal (W : Nat) (e : Bytes → Prop) : Prop :=
  ∀ p q, lastN W p = lastN W q → ∀ t, t ≠ [] → (e (p ++ t) ↔ e (q ++ t))

theorem WindowLocal.past {W : Nat} {e : Bytes → Prop} (h : WindowLocal W e) : PastLocal W e :=
  fun _ _ hpq t _ => h _ _ (lastN_append_congr hpq t)

theorem fceDecidesAlike_past {A : Chunk} {W : Nat} {e : Bytes → Prop} (S : FceSpec A (fun _ => True) (FirstCut e))
    (hW : PastLocal W e) : FceDecidesAlike W A := by
  intro s st base need prev cs hr s' st' base' need' prev' cs' hr' hend e1 e2 h1 h2 h1' h2' hnew
  have hc : FceConforms A Any (EdgeRule (Local e)) := S.conforms
  have pend : ∀ {s st base need prev cs}, FceRun A Any s st base need prev cs → NoEdge e (Spec.sub s prev need) := by
    intro s st base need prev cs hr
    rcases S.run_pending hr with h | h
    · rw [h, sub_self]; exact NoEdge.nil _
    · exact NoEdge.of_not h
  obtain ⟨b1, b2, b3, _⟩ := S.run hr
  obtain ⟨b1', b2', b3', _⟩ := S.run hr'
  obtain ⟨st1, r, d, hf, _, hm⟩ := hc _ _ _ _ _ _ hr e1 h1 h2 trivial
  obtain ⟨st1', r', d', hf', _, hm'⟩ := hc _ _ _ _ _ _ hr' e2 h1' h2' trivial
  refine ⟨st1, r, d, st1', r', d', hf, hf', ?_⟩
  have hl : (Spec.sub s prev need).length = need - prev := by rw [sub_length]; omega
  have hl' : (Spec.sub s' prev' need').length = need' - prev' := by rw [sub_length]; omega
  have hsame : ∀ t, t ≠ [] → (e (Spec.sub s prev need ++ t) ↔ e (Spec.sub s' prev' need' ++ t)) := hW _ _ hend
  rw [← sub_append s (by omega : prev ≤ need) h1] at hm
  rw [← sub_append s' (by omega : prev' ≤ need') h1', ← hnew] at hm'
  have key : ∀ n, FirstCut e (Spec.sub s prev need ++ Spec.sub s need e1) (need - prev + n) ↔
      FirstCut e (Spec.sub s' prev' need' ++ Spec.sub s need e1) (need' - prev' + n) := by
    intro n
    rw [← hl, ← hl']
    exact ⟨firstCut_same hsame (pend hr) (pend hr') n,
      firstCut_same (fun t ht => (hsame t ht).symm) (pend hr') (pend hr) n⟩
  -- a cut never lies in what was presented before
  have late : ∀ {p new : Bytes} {m : Nat}, NoEdge e p → FirstCut e (p ++ new) m → p.length < m := by
    intro p new m hno hf
    rcases Nat.lt_or_ge p.length m with h | h
    · exact h
    · have := hf.2.2.1
      rw [List.take_append_of_le_length h] at this
      exact absurd this (hno m hf.1 h)
  cases r with
  | none =>
    cases r' with
    | none => rfl
    | some c' =>
      obtain ⟨k1, k2, k3⟩ := hm'
      have k3 : FirstCut e _ (base' + c' - prev') := k3
      have := late (pend hr') k3
      rw [hl'] at this
      refine absurd ((key (base' + c' - need')).2 ?_) (hm _)
      rwa [show need' - prev' + (base' + c' - need') = base' + c' - prev' by omega]
  | some c =>
    obtain ⟨k1, k2, k3⟩ := hm
    have k3 : FirstCut e _ (base + c - prev) := k3
    have hlt := late (pend hr) k3
    rw [hl] at hlt
    have k4 := (key (base + c - need)).1 (by rwa [show need - prev + (base + c - need) = base + c - prev by omega])
    cases r' with
    | none => exact absurd k4 (hm' _)
    | some c' =>
      obtain ⟨k1', k2', k3'⟩ := hm'
      have := FirstCut.det k4 k3'
      have hlt' := late (pend hr') k3'
      rw [hl'] at hlt'
      simp only [Option.map_some, Option.some.injEq]
      omega

theorem fceDecidesAlike {A : Chunk} {W : Nat} {e : Bytes → Prop} (S : FceSpec A (fun _ => True) (FirstCut e))
    (hW : WindowLocal W e) : FceDecidesAlike W A := fceDecidesAlike_past S hW.past

theorem incrDecidesAlike {C : ChunkIncr} {rule : Rule} {W : Nat} {view : Bytes → Bytes → Bytes}
    (hg : rule.Good) (hc : IncrConforms C rule)
    (h : ∀ hist p hist' q new n, lastN W (view hist p) = lastN W (view hist' q) →
      (p = [] ∨ ∀ n, ¬ rule hist p n) → (q = [] ∨ ∀ n, ¬ rule hist' q n) →
      rule hist (p ++ new) (p.length + n) → rule hist' (q ++ new) (q.length + n)) : IncrDecidesAlike W view C := by
  intro s st pos prev cs hr s' st' pos' prev' cs' hr' hend e1 e2 h1 h2 h1' h2' hnew
  have pend : ∀ {s st pos prev cs}, IncrRun C s st pos prev cs →
      (Spec.sub s prev pos = [] ∨ ∀ n, ¬ rule (s.take prev) (Spec.sub s prev pos) n) := by
    intro s st pos prev cs hr
    exact (hc.run_pending hr).imp (fun h => by rw [h, sub_self]) id
  obtain ⟨b1, b2, _⟩ := hc.chunks hg hr
  obtain ⟨b1', b2', _⟩ := hc.chunks hg hr'
  obtain ⟨st1, r, hf, hm⟩ := hc _ _ _ _ _ hr e1 h1 h2
  obtain ⟨st1', r', hf', hm'⟩ := hc _ _ _ _ _ hr' e2 h1' h2'
  have hl : (Spec.sub s prev pos).length = pos - prev := by rw [sub_length]; omega
  have hl' : (Spec.sub s' prev' pos').length = pos' - prev' := by rw [sub_length]; omega
  rw [← sub_append s b1 h1] at hm
  rw [← sub_append s' b1' h1', ← hnew] at hm'
  have key : ∀ n, rule (s.take prev) (Spec.sub s prev pos ++ Spec.sub s pos e1) (pos - prev + n) ↔
      rule (s'.take prev') (Spec.sub s' prev' pos' ++ Spec.sub s pos e1) (pos' - prev' + n) := by
    intro n
    rw [← hl, ← hl']
    exact ⟨h _ _ _ _ _ n hend (pend hr) (pend hr'), h _ _ _ _ _ n hend.symm (pend hr') (pend hr)⟩
  cases r with
  | none =>
    cases r' with
    | none => exact ⟨st1, st1', none, hf, hf'⟩
    | some c' =>
      obtain ⟨k1, k2⟩ := hm'
      refine absurd ((key c').2 ?_) (hm _)
      rwa [show pos' - prev' + c' = pos' + c' - prev' by omega]
  | some c =>
    obtain ⟨k1, k2⟩ := hm
    have k4 := (key c).1 (by rwa [show pos - prev + c = pos + c - prev by omega])
    cases r' with
    | none => exact absurd k4 (hm' _)
    | some c' =>
      obtain ⟨k1', k2'⟩ := hm'
      have := hg.det k4 k2'
      have hcc : c' = c := by omega
      subst hcc
      exact ⟨st1, st1', _, hf, hf'⟩

theorem noEdge_of {e : Bytes → Bytes → Prop} {h p : Bytes} (hp : p = [] ∨ ∀ n, ¬ EdgeRule e h p n) : NoEdge (e h) p := by
  rcases hp with rfl | hp
  · exact NoEdge.nil _
  · exact NoEdge.of_not hp

theorem incrAlike_edge_past {C : ChunkIncr} {W : Nat} {view : Bytes → Bytes → Bytes} {e : Bytes → Bytes → Prop}
    (hc : IncrConforms C (EdgeRule e))
    (hW : ∀ hist p hist' q, lastN W (view hist p) = lastN W (view hist' q) → ∀ t, t ≠ [] →
      (e hist (p ++ t) ↔ e hist' (q ++ t))) : IncrDecidesAlike W view C := by
  refine incrDecidesAlike (EdgeRule.good _) hc ?_
  intro hist p hist' q new n hend hp hq hr
  exact firstCut_same (hW _ _ _ _ hend) (noEdge_of hp) (noEdge_of hq) n hr

theorem incrAlike_edge {C : ChunkIncr} {W : Nat} {view : Bytes → Bytes → Bytes} {e : Bytes → Bytes → Prop}
    (hc : IncrConforms C (EdgeRule e)) (hv : ∀ hist p t, view hist (p ++ t) = view hist p ++ t)
    (hW : ∀ hist p hist' q, lastN W (view hist p) = lastN W (view hist' q) → (e hist p ↔ e hist' q)) :
    IncrDecidesAlike W view C := by
  refine incrAlike_edge_past hc fun hist p hist' q hend t _ => hW _ _ _ _ ?_
  rw [hv, hv]
  exact lastN_append_congr hend t

theorem incrAlike_local_past {C : ChunkIncr} {W : Nat} {e : Bytes → Prop} (hc : IncrConforms C (EdgeRule (Local e)))
    (hW : PastLocal W e) : IncrDecidesAlike W chunkView C :=
  incrAlike_edge_past hc fun _ p _ q h => hW p q h

theorem incrAlike_local {C : ChunkIncr} {W : Nat} {e : Bytes → Prop} (hc : IncrConforms C (EdgeRule (Local e)))
    (hW : WindowLocal W e) : IncrDecidesAlike W chunkView C := incrAlike_local_past hc hW.past

theorem incrAlike_before_past {C : ChunkIncr} {W : Nat} {e : Bytes → Prop} (hc : IncrConforms C (BeforeRule (Local e)))
    (hW : PastLocal W e) : IncrDecidesAlike W chunkView C := by
  refine incrDecidesAlike (BeforeRule.good _) hc ?_
  intro hist p hist' q new n hend hp hq hr
  have no : ∀ {h p : Bytes}, (p = [] ∨ ∀ n, ¬ BeforeRule (Local e) h p n) → NoEdge e p := by
    intro h p hp
    rcases hp with rfl | hp
    · exact NoEdge.nil _
    · apply NoEdge.of_not
      intro n hn
      cases n with
      | zero => exact absurd hn.1 (by omega)
      | succ n => exact hp n hn
  exact firstCut_same (hW _ _ hend) (no hp) (no hq) (n + 1) hr

theorem incrAlike_before {C : ChunkIncr} {W : Nat} {e : Bytes → Prop} (hc : IncrConforms C (BeforeRule (Local e)))
    (hW : WindowLocal W e) : IncrDecidesAlike W chunkView C := incrAlike_before_past hc hW.past

/-! ## C40 Gear32 -/

theorem C40_edge (G : UInt8 → BitVec 32) (mask xxx : BitVec 32) : WindowLocal 32 (gearEdge G mask xxx) := by
  intro p q h
  unfold gearEdge
  rw [gearSum_lastN G p, gearSum_lastN G q, h]
example : lastN 32 (1 :: List.replicate 32 7) = lastN 32 (2 :: List.replicate 32 7) := by decide

/-- The fingerprint itself is determined by the last 32 bytes. -/
theorem C40_fingerprint (G : UInt8 → BitVec 32) (x y t : Bytes) (h : 32 ≤ t.length) :
    gearSum G (x ++ t) = gearSum G (y ++ t) := by
  rw [gearSum_lastN G (x ++ t), gearSum_lastN G (y ++ t), lastN_append_right _ h, lastN_append_right _ h]
example : 32 ≤ (List.replicate 32 (7 : UInt8)).length := by decide

theorem C40_fce (p : Gear.Gear32) : FceDecidesAlike 32 (Gear.chunk p) :=
  fceDecidesAlike (Gear.fceLoop p).fceSpec (C40_edge _ _ _)
example : FceDecidesAlike 32 (Gear.chunk Ex.gear2) := C40_fce _

theorem C40_incr (p : Gear.Gear32) : IncrDecidesAlike 32 chunkView (Gear.incr p) :=
  incrAlike_before (Gear.incr_conforms p) (C40_edge _ _ _)
example : IncrDecidesAlike 32 chunkView (Gear.incr Ex.gear2) := C40_incr _

/-! ## C42 Pigz -/

theorem shl_and_low (x : BitVec 32) {b j : Nat} (h : b ≤ j) : (x <<< j) &&& BitVec.ofNat 32 (2 ^ b - 1) = 0#32 := by
  apply BitVec.eq_of_getLsbD_eq
  intro i hi
  simp only [BitVec.getLsbD_and, BitVec.getLsbD_shiftLeft, BitVec.getLsbD_ofNat, Nat.testBit_two_pow_sub_one]
  by_cases hij : i < j
  · simp [hij]
  · have : ¬ i < b := by omega
    simp [this]

theorem xor_and (a b c : BitVec 32) : (a ^^^ b) &&& c = (a &&& c) ^^^ (b &&& c) := by
  apply BitVec.eq_of_getLsbD_eq
  intro i hi
  simp only [BitVec.getLsbD_and, BitVec.getLsbD_xor]
  cases a.getLsbD i <;> cases b.getLsbD i <;> cases c.getLsbD i <;> rfl

theorem C42_edge {prof : Profile} {bits : BitVec 8} {p : Pigz.PigzRsyncable}
    (h : Pigz.PigzRsyncable.withBits prof bits = .ok p) : WindowLocal (bits.toNat % 32) (pigzEdge p.mask p.hit) := by
  obtain ⟨_, hm, _⟩ := Pigz.withBits_mask h
  generalize bits.toNat % 32 = b at hm ⊢
  apply lastN_of_ge
  intro u v hu hv huv
  unfold pigzEdge
  have key : ∀ w : Bytes, b ≤ w.length →
      pigzHash p.hit w &&& p.mask = wxor (fun c j => (word 32 c <<< j) &&& p.mask) (lastN b w) := by
    intro w hw
    unfold pigzHash
    rw [xor_and, hm, shl_and_low _ hw, BitVec.zero_xor, ← wxor_lastN]
    · exact wxor_map (· &&& BitVec.ofNat 32 (2 ^ b - 1)) (by simp) (fun x y => xor_and _ _ _) _ _
    · intro c j hj
      exact shl_and_low _ hj
  rw [key u hu, key v hv, huv]
example : Pigz.PigzRsyncable.default .debug = .ok { bits := 12, mask := 0xfff, hit := 0x7ff } := C50_default _

theorem C42_fce {prof : Profile} {bits : BitVec 8} {p : Pigz.PigzRsyncable}
    (h : Pigz.PigzRsyncable.withBits prof bits = .ok p) : FceDecidesAlike (bits.toNat % 32) (Pigz.chunk p) :=
  fceDecidesAlike (Pigz.fceLoop p (Pigz.withBits_maskOk h).1 (Pigz.withBits_maskOk h).2).fceSpec (C42_edge h)
example : FceDecidesAlike 2 (Pigz.chunk Ex.pigz2) := C42_fce Ex.pigz2_ok

theorem C42_incr {prof : Profile} {bits : BitVec 8} {p : Pigz.PigzRsyncable}
    (h : Pigz.PigzRsyncable.withBits prof bits = .ok p) : IncrDecidesAlike (bits.toNat % 32) chunkView (Pigz.incr p) :=
  incrAlike_local (Pigz.incr_conforms h) (C42_edge h)
example : IncrDecidesAlike 2 chunkView (Pigz.incr Ex.pigz2) := C42_incr Ex.pigz2_ok

/-! ## C43 Gzip -/

theorem C43_edge (window modulus : Nat) : WindowLocal window (gzipEdge window modulus) := by
  intro p q h
  unfold gzipEdge
  rw [h]
example : lastN 3 ([1, 2, 3, 4] : Bytes) = lastN 3 [5, 2, 3, 4] := by decide

theorem C43_fce (p : Gzip.GzipRsyncable) (hm : p.modulus ≠ 0) : FceDecidesAlike p.windowLen (Gzip.chunk p) :=
  fceDecidesAlike (Gzip.fceWindow p hm).fceSpec (C43_edge _ _)
example : Ex.gzip3.modulus ≠ 0 := by decide

theorem C43_incr (p : Gzip.GzipRsyncable) (hw : 0 < p.windowLen) (hm : p.modulus ≠ 0) :
    IncrDecidesAlike p.windowLen chunkView (Gzip.incr p) :=
  incrAlike_local (Gzip.incr_conforms p hm hw) (C43_edge _ _)
example : 0 < Ex.gzip3.windowLen ∧ Ex.gzip3.modulus ≠ 0 := by decide

theorem sum_bytes_le (l : Bytes) : (l.map UInt8.toNat).sum ≤ 255 * l.length := by
  induction l with
  | nil => simp
  | cons b l ih =>
    have := b.toNat_lt
    simp only [List.map_cons, List.sum_cons, List.length_cons]
    omega

/-- For windows that fit into memory the sum never wraps: the rule is about the exact sum of the window. -/
theorem C43_exact (window modulus : Nat) (hw : window ≤ 2 ^ 56) (p : Bytes) :
    gzipEdge window modulus p ↔ modulus ∣ ((lastN window p).map UInt8.toNat).sum := by
  unfold gzipEdge
  have h1 := sum_bytes_le (lastN window p)
  rw [lastN_length] at h1
  have : Nat.min window p.length = min window p.length := rfl
  rw [Nat.mod_eq_of_lt (by omega : ((lastN window p).map UInt8.toNat).sum < 2 ^ 64)]
  exact ⟨Nat.dvd_of_mod_eq_zero, Nat.mod_eq_zero_of_dvd⟩
example : (8192 : Nat) ≤ 2 ^ 56 := by decide

/-! ## C44 RollSumIncr -/

theorem roll_spec {n : Nat} (s : Bytes) {st : Bup.RollSumIncr} {c : Bytes} (h : Bup.RingInv (2 ^ n) st c) :
    ∃ st', st.roll s = .ok st' ∧ Bup.RingInv (2 ^ n) st' (c ++ s) := by
  induction s generalizing st c with
  | nil => exact ⟨st, rfl, by simpa using h⟩
  | cons v s ih =>
    obtain ⟨st1, h1, h2⟩ := Bup.rollByte_spec h v
    obtain ⟨st2, h3, h4⟩ := ih h2
    refine ⟨st2, ?_, by simpa using h4⟩
    rw [Bup.RollSumIncr.roll, h1]
    exact h3

/-- Rolling any bytes into a new `RollSumIncr` never panics, and `s1`, `s2` have their closed forms over the last
`W` bytes (`bupS1`, `bupS2`), reduced mod 2^32. -/
theorem C44_closed (n : Nat) (s : Bytes) :
    ∃ st, (Bup.RollSumIncr.from (Bup.RollSum.withWindow (2 ^ n))).roll s = .ok st ∧
      st.state.s1 = BitVec.ofNat 32 (bupS1 (2 ^ n) s) ∧ st.state.s2 = BitVec.ofNat 32 (bupS2 (2 ^ n) s) ∧
      st.digest = (BitVec.ofNat 32 (bupS1 (2 ^ n) s) <<< 16) ||| (BitVec.ofNat 32 (bupS2 (2 ^ n) s) &&& 0xffff) ∧
      (st.atSplit = true ↔ bupEdge (2 ^ n) s) := by
  obtain ⟨st, h1, h2⟩ := roll_spec s (Bup.ring_init n)
  have hg : Bup.Good (2 ^ n) st.state s := by simpa using h2.2.2.2
  refine ⟨st, h1, hg.1, hg.2, ?_, Bup.atSplit_iff hg⟩
  rw [Bup.RollSumIncr.digest, Bup.RollSumState.digest, hg.1, hg.2]
example : ((Bup.RollSumIncr.from (Bup.RollSum.withWindow (2 ^ 3))).roll sampleBup).map (·.state.s1) =
    .ok (BitVec.ofNat 32 (bupS1 8 sampleBup)) := by decide +kernel

/-- The digest depends on the last `W` bytes only, whatever was rolled in before. -/
theorem C44_rolling (n : Nat) (x y w : Bytes) (h : 2 ^ n ≤ w.length) :
    ∃ st st', (Bup.RollSumIncr.from (Bup.RollSum.withWindow (2 ^ n))).roll (x ++ w) = .ok st ∧
      (Bup.RollSumIncr.from (Bup.RollSum.withWindow (2 ^ n))).roll (y ++ w) = .ok st' ∧
      st.digest = st'.digest ∧ st.state = st'.state := by
  obtain ⟨st, h1, h2, h3, _⟩ := C44_closed n (x ++ w)
  obtain ⟨st', h1', h2', h3', _⟩ := C44_closed n (y ++ w)
  have e1 : bupS1 (2 ^ n) (x ++ w) = bupS1 (2 ^ n) (y ++ w) := by
    unfold bupS1; rw [lastN_append_right _ h, lastN_append_right _ h]
  have e2 : bupS2 (2 ^ n) (x ++ w) = bupS2 (2 ^ n) (y ++ w) := by
    unfold bupS2; rw [lastN_append_right _ h, lastN_append_right _ h]
  have hs : st.state = st'.state := by
    have a : st.state.s1 = st'.state.s1 := by rw [h2, h2', e1]
    have b : st.state.s2 = st'.state.s2 := by rw [h3, h3', e2]
    cases hst : st.state
    cases hst' : st'.state
    rw [hst, hst'] at a b
    simp only at a b
    rw [a, b]
  exact ⟨st, st', h1, h1', by rw [Bup.RollSumIncr.digest, Bup.RollSumIncr.digest, hs], hs⟩
example : 2 ^ 3 ≤ (sampleBup : Bytes).length := by decide

/-- The same for the decisions of `push`. -/
theorem C44_push (n : Nat) : IncrDecidesAlike (2 ^ n) streamView (Bup.incr (Bup.RollSum.withWindow (2 ^ n))) := by
  refine incrAlike_edge (Bup.incr_conforms n) (fun h p t => by simp [streamView]) ?_
  intro hist p hist' q h
  unfold bupIncrEdge bupEdge bupS2
  rw [show lastN (2 ^ n) (hist ++ p) = lastN (2 ^ n) (hist' ++ q) from h]
example : IncrDecidesAlike 8 streamView (Bup.incr (Bup.RollSum.withWindow 8)) := C44_push 3

/-- `find_chunk_edge` of RollSum: the last `W` bytes of the chunk, any window. -/
theorem C44_fce (p : Bup.RollSum) : FceDecidesAlike p.windowLen (Bup.chunk p) := by
  refine fceDecidesAlike (Bup.fceWindow p).fceSpec ?_
  intro u v h
  unfold bupEdge bupS2
  rw [h]
example : FceDecidesAlike 64 (Bup.chunk Bup.RollSum.default) := C44_fce _

/-! ## C45 BuzHash -/

/-- `k mod 32 < 8`: the hash depends on the last `k` bytes only. -/
theorem C45_rolling (k : Nat) (H : UInt8 → BitVec 32) (hk : k % 32 < 8) (p q : Bytes) (h : lastN k p = lastN k q) :
    buzHash k H p = buzHash k H q := by
  rw [Buzhash.buzHash_window H hk p, Buzhash.buzHash_window H hk q, buzWindow, buzWindow, h]
example : 67 % 32 < 8 ∧ lastN 67 (1 :: List.replicate 67 7) = lastN 67 (2 :: List.replicate 67 7) := by decide

theorem C45_fce (p : Buzhash.BuzHash) (hk : 0 < p.k) (hr : p.k % 32 < 8) : FceDecidesAlike p.k (Buzhash.chunk p) := by
  refine fceDecidesAlike (Buzhash.fceWindow p hk).fceSpec ?_
  intro u v h
  show buzEdge p.k p.h p.mask u ↔ buzEdge p.k p.h p.mask v
  unfold buzEdge
  rw [C45_rolling _ _ hr u v h]
example : 0 < nom.k ∧ nom.k % 32 < 8 := by decide

theorem rotateLeft_add (x : BitVec 32) (a b : Nat) : (x.rotateLeft a).rotateLeft b = x.rotateLeft (a + b) := by
  induction b with
  | zero => exact rotateLeft_zero_right _
  | succ b ih => rw [← rotateLeft_succ, ih, rotateLeft_succ]; rfl

theorem rotateLeft_mod32 (x : BitVec 32) (a : Nat) : x.rotateLeft a = x.rotateLeft (a % 32) :=
  (BitVec.rotateLeft_mod_eq_rotateLeft (r := a)).symm

/-- Rotations that differ by 8, 16 or 24 agree only on words with period 16. -/
theorem rotateLeft_period {x : BitVec 32} {a b : Nat} (h : x.rotateLeft a = x.rotateLeft b)
    (h1 : (a + (32 - b % 32)) % 8 = 0) (h2 : (a + (32 - b % 32)) % 32 ≠ 0) : x.rotateLeft 16 = x := by
  have hb : x.rotateLeft (b + (32 - b % 32)) = x := by
    rw [rotateLeft_mod32, show (b + (32 - b % 32)) % 32 = 0 by omega, rotateLeft_zero_right]
  have key : x.rotateLeft (a + (32 - b % 32)) = x := by
    rw [← rotateLeft_add, h, rotateLeft_add, hb]
  rw [rotateLeft_mod32] at key
  have h3 : (a + (32 - b % 32)) % 32 = 8 ∨ (a + (32 - b % 32)) % 32 = 16 ∨ (a + (32 - b % 32)) % 32 = 24 := by omega
  rcases h3 with h3 | h3 | h3
  · rw [h3] at key
    have := rotateLeft_add x 8 8
    rw [key, key] at this
    exact this.symm
  · rw [h3] at key; exact key
  · rw [h3] at key
    have := rotateLeft_add x 24 24
    rw [key, key, rotateLeft_mod32 x (24 + 24)] at this
    exact this.symm

/-- `k mod 32 ≥ 8`: bytes older than `k` keep influencing the hash. Two chunks that differ only in their first byte,
which left the window long ago, get different hashes (unless the two table entries differ by a word of period 16). -/
theorem C45_not_rolling (k : Nat) (H : UInt8 → BitVec 32) (hk : 8 ≤ k % 32) (b b' : UInt8)
    (hb : (H b ^^^ H b').rotateLeft 16 ≠ H b ^^^ H b') (t : Bytes) (ht : k ≤ t.length) :
    buzHash k H (b :: t) ≠ buzHash k H (b' :: t) := by
  intro h
  unfold buzHash at h
  rw [wxor_cons, wxor_cons] at h
  have hlt : ¬ t.length < k := by omega
  simp only [hlt, if_false] at h
  generalize wxor (fun b j => (H b).rotateLeft j ^^^ if j < k then 0 else (H b).rotateLeft (j - k + k % 8)) t = r at h
  have h2 : (H b).rotateLeft t.length ^^^ (H b).rotateLeft (t.length - k + k % 8) =
      (H b').rotateLeft t.length ^^^ (H b').rotateLeft (t.length - k + k % 8) := by
    have c : ∀ x y z : BitVec 32, x ^^^ z = y ^^^ z → x = y := fun x y z h => by
      have := congrArg (· ^^^ z) h
      simpa [BitVec.xor_assoc] using this
    have c' : ∀ x y z : BitVec 32, z ^^^ x = z ^^^ y → x = y := fun x y z h => by
      rw [BitVec.xor_comm z, BitVec.xor_comm z] at h
      exact c _ _ _ h
    first
      | exact c _ _ _ h
      | exact c' _ _ _ h
  apply hb
  refine rotateLeft_period (a := t.length) (b := t.length - k + k % 8) ?_ (by omega) (by omega)
  rw [rotateLeft_xor, rotateLeft_xor]
  have e : ∀ a b c d : BitVec 32, a ^^^ b = c ^^^ d → a ^^^ c = b ^^^ d := by
    intro a b c d h
    have h' : a = c ^^^ d ^^^ b := by
      rw [← h, BitVec.xor_assoc, BitVec.xor_self, BitVec.xor_zero]
    rw [h', BitVec.xor_comm c d, BitVec.xor_assoc d c b, BitVec.xor_comm c b, ← BitVec.xor_assoc d b c,
      BitVec.xor_assoc (d ^^^ b) c c, BitVec.xor_self, BitVec.xor_zero, BitVec.xor_comm]
  exact e _ _ _ _ h2

/-- With the shipped table any two different bytes will do. -/
theorem C45_table (k : Nat) (hk : 8 ≤ k % 32) (b b' : UInt8) (hne : b ≠ b') (t : Bytes) (ht : k ≤ t.length) :
    buzHash k (Buzhash.tableHash Tables.goBuzhash) (b :: t) ≠ buzHash k (Buzhash.tableHash Tables.goBuzhash) (b' :: t) := by
  refine C45_not_rolling k _ hk b b' ?_ t ht
  intro h
  apply hne
  have hinj : ((Tables.goBuzhash.map fun x => x ^^^ x.rotateLeft 16).toList).Nodup := by decide +kernel
  apply lookup_inj hinj
  have hl : ∀ c : UInt8, lookup (Tables.goBuzhash.map fun x => x ^^^ x.rotateLeft 16) c =
      lookup Tables.goBuzhash c ^^^ (lookup Tables.goBuzhash c).rotateLeft 16 := by
    intro c
    unfold lookup
    rw [Vector.getElem_map]
  rw [hl, hl]
  rw [rotateLeft_xor] at h
  have e : ∀ a b c d : BitVec 32, a ^^^ b = c ^^^ d → c ^^^ a = d ^^^ b := by
    intro a b c d h
    have h' : a = c ^^^ d ^^^ b := by
      rw [← h, BitVec.xor_assoc, BitVec.xor_self, BitVec.xor_zero]
    rw [h', ← BitVec.xor_assoc, ← BitVec.xor_assoc, BitVec.xor_self, BitVec.zero_xor]
  exact e _ _ _ _ h
example : 8 ≤ 48 % 32 ∧ 48 ≤ (List.replicate 48 (7 : UInt8)).length := by decide

/-! ## C47 Zpaq -/

/-- hash state after some bytes -/
def feedAll (st : Zpaq.ZpaqHash) (bs : Bytes) : Zpaq.ZpaqHash := bs.foldl Zpaq.ZpaqHash.feed st

/-- how many of the bytes `bs`, fed to `st`, are not the predicted ones -/
def mispredictions (st : Zpaq.ZpaqHash) : Bytes → Nat
  | []      => 0
  | b :: bs => (if b = lookup st.predictedByte st.lastByte then 0 else 1) + mispredictions (st.feed b) bs

theorem feed_diff (bs : Bytes) (st st' : Zpaq.ZpaqHash) (h1 : st.predictedByte = st'.predictedByte)
    (h2 : st.lastByte = st'.lastByte) (m : Nat) (k : BitVec 32) (h : st.hash = st'.hash + k * 2 ^ m) :
    (feedAll st bs).predictedByte = (feedAll st' bs).predictedByte ∧ (feedAll st bs).lastByte = (feedAll st' bs).lastByte ∧
    ∃ k', (feedAll st bs).hash = (feedAll st' bs).hash + k' * 2 ^ (m + mispredictions st bs) := by
  induction bs generalizing st st' m k with
  | nil => exact ⟨h1, h2, k, h⟩
  | cons b bs ih =>
    have g1 : (st.feed b).predictedByte = (st'.feed b).predictedByte := by simp only [Zpaq.ZpaqHash.feed, h1, h2]
    have g2 : (st.feed b).lastByte = (st'.feed b).lastByte := rfl
    by_cases hb : b = lookup st.predictedByte st.lastByte
    · have hb' : b = lookup st'.predictedByte st'.lastByte := by rw [← h1, ← h2]; exact hb
      have := ih (st.feed b) (st'.feed b) g1 g2 m (k * 314159265) (by
        simp only [Zpaq.ZpaqHash.feed]
        rw [if_pos hb, if_pos hb', h]
        ring)
      simpa only [feedAll, List.foldl_cons, mispredictions, if_pos hb, Nat.zero_add] using this
    · have hb' : ¬ b = lookup st'.predictedByte st'.lastByte := by rw [← h1, ← h2]; exact hb
      have := ih (st.feed b) (st'.feed b) g1 g2 (m + 1) (k * 135914091) (by
        simp only [Zpaq.ZpaqHash.feed]
        rw [if_neg hb, if_neg hb', h]
        have e : (271828182 : BitVec 32) = 135914091 * 2 := rfl
        rw [e, pow_succ]
        ring)
      simpa only [feedAll, List.foldl_cons, mispredictions, if_neg hb, Nat.add_assoc] using this

/-- Two hash states with the same prediction table and last byte but any hashes: after the same bytes, of which at least
32 were mispredicted, the states are equal. -/
theorem C47_forgets (st st' : Zpaq.ZpaqHash) (h1 : st.predictedByte = st'.predictedByte)
    (h2 : st.lastByte = st'.lastByte) (bs : Bytes) (h : 32 ≤ mispredictions st bs) : feedAll st bs = feedAll st' bs := by
  obtain ⟨g1, g2, k, g3⟩ := feed_diff bs st st' h1 h2 0 (st.hash - st'.hash) (by
    rw [pow_zero, mul_one]
    exact (add_sub_cancel _ _).symm)
  have z : (2 : BitVec 32) ^ (0 + mispredictions st bs) = 0 := by
    rw [Nat.zero_add, ← Nat.add_sub_cancel' h, pow_add, show (2 : BitVec 32) ^ 32 = 0 from by decide, zero_mul]
  rw [z, mul_zero, add_zero] at g3
  cases ha : feedAll st bs
  cases hb : feedAll st' bs
  rw [ha, hb] at g1 g2 g3
  simp only at g1 g2 g3
  rw [g1, g2, g3]
example : 32 ≤ mispredictions Zpaq.ZpaqHash.default (List.replicate 17 [1, 2] ++ List.replicate 17 [3, 4] ++
    (List.range 40).map fun i => [UInt8.ofNat (i * i + 5)]).flatten := by decide +kernel

/-- A bound: with all bytes predicted the difference never disappears. -/
theorem C47_needs (st st' : Zpaq.ZpaqHash) (h1 : st.predictedByte = st'.predictedByte)
    (h2 : st.lastByte = st'.lastByte) (hne : st.hash ≠ st'.hash) (b : UInt8)
    (hb : b = lookup st.predictedByte st.lastByte) : (st.feed b).hash ≠ (st'.feed b).hash := by
  have hb' : b = lookup st'.predictedByte st'.lastByte := by rw [← h1, ← h2]; exact hb
  intro h
  simp only [Zpaq.ZpaqHash.feed] at h
  rw [if_pos hb, if_pos hb'] at h
  apply hne
  have inv : (314159265 : BitVec 32) * 2431923041 = 1 := by decide
  have := congrArg (· * 2431923041) h
  simp only [mul_assoc, inv, mul_one] at this
  simpa using this
example : (0 : UInt8) = lookup Zpaq.ZpaqHash.default.predictedByte Zpaq.ZpaqHash.default.lastByte := by decide

end HashRoll.Props
