import Verif.Proofs.Lists
/-!
# From per-algorithm invariants to conformance
-/

namespace HashRoll.Spec

/-- What has to be proved about a `find_chunk_edge` that starts each chunk afresh. `Inv st c k`: `st` is the
search state after the bytes `c` of the current chunk have been examined, the last `k` of which the caller
still has to present. `g` restricts the lengths of the visible part of the chunk. -/
structure FceSpec (A : Chunk) (g : Nat → Prop) (rule : Bytes → Nat → Prop) where
  Inv  : A.State → Bytes → Nat → Prop
  init : Inv A.init [] 0
  step : ∀ st c k, Inv st c k → k ≤ c.length → ∀ new, g (c.length + new.length) →
    ∃ st' r d, A.fce st (c.drop (c.length - k) ++ new) = .ok (st', r, d) ∧
      match r with
      | none   => d ≤ k + new.length ∧ Inv st' (c ++ new) (k + new.length - d) ∧ ∀ n, ¬ rule (c ++ new) n
      | some i => d = i ∧ i ≤ k + new.length ∧ Inv st' [] 0 ∧ rule (c ++ new) (c.length - k + i)

/-- The run invariant behind `FceSpec`. -/
theorem FceSpec.run {A : Chunk} {g : Nat → Prop} {rule : Bytes → Nat → Prop} (S : FceSpec A g rule)
    {s : Bytes} {st : A.State} {base need prev : Nat} {cs : List Bytes}
    (h : FceRun A (fun prev _ e => g (e - prev)) s st base need prev cs) :
    prev ≤ base ∧ base ≤ need ∧ need ≤ s.length ∧ S.Inv st (sub s prev need) (need - base) := by
  have aux : ∀ {st base need prev e}, prev ≤ base → base ≤ need → need ≤ s.length →
      S.Inv st (sub s prev need) (need - base) → need ≤ e → e ≤ s.length → g (e - prev) →
      ∃ st' r d, A.fce st (sub s base e) = .ok (st', r, d) ∧
      match r with
      | none   => d ≤ need - base + (e - need) ∧
          S.Inv st' (sub s prev e) (need - base + (e - need) - d) ∧ ∀ n, ¬ rule (sub s prev e) n
      | some i => d = i ∧ i ≤ need - base + (e - need) ∧ S.Inv st' [] 0 ∧
          rule (sub s prev e) (base - prev + i) := by
    intro st base need prev e h1 h2 h3 hi h4 h5 hg
    have hlen : (sub s prev need).length = need - prev := by rw [sub_length]; omega
    have hlen2 : (sub s need e).length = e - need := by rw [sub_length]; omega
    have := S.step st (sub s prev need) (need - base) hi (by omega) (sub s need e)
      (by rw [hlen, hlen2, show need - prev + (e - need) = e - prev by omega]; exact hg)
    rw [hlen, hlen2, sub_append s (by omega) h4] at this
    have e1 : need - prev - (need - base) = base - prev := by omega
    rw [e1, sub_drop] at this
    have e2 : prev + (base - prev) = base := by omega
    rw [e2, sub_append s h2 h4] at this
    exact this
  induction h with
  | start => exact ⟨Nat.le_refl _, Nat.le_refl _, Nat.zero_le _, by simpa [sub_self] using S.init⟩
  | cut hr h1 h2 hg hf ih =>
    obtain ⟨i1, i2, i3, i4⟩ := ih
    obtain ⟨st', r, d, hf', hm⟩ := aux i1 i2 i3 i4 h1 h2 hg
    rw [hf] at hf'
    cases hf'
    obtain ⟨hd, hle, hinv, hrule⟩ := hm
    subst hd
    refine ⟨by omega, by omega, by omega, ?_⟩
    simpa [sub_self] using hinv
  | @more st base need prev cs e st' d hr h1 h2 hg hf ih =>
    obtain ⟨i1, i2, i3, i4⟩ := ih
    obtain ⟨st', r, d, hf', hm⟩ := aux i1 i2 i3 i4 h1 h2 hg
    rw [hf] at hf'
    cases hf'
    obtain ⟨hd, hinv, hno⟩ := hm
    refine ⟨by omega, by omega, h2, ?_⟩
    have : e - (base + d) = need - base + (e - need) - d := by omega
    rw [this]; exact hinv

theorem FceSpec.conforms {A : Chunk} {g : Nat → Prop} {rule : Bytes → Nat → Prop} (S : FceSpec A g rule) :
    FceConforms A (fun prev _ e => g (e - prev)) (fun _ => rule) := by
  intro s st base need prev cs hr e h4 h5 hg
  obtain ⟨h1, h2, h3, hi⟩ := S.run hr
  have hlen : (sub s prev need).length = need - prev := by rw [sub_length]; omega
  have hlen2 : (sub s need e).length = e - need := by rw [sub_length]; omega
  have := S.step st (sub s prev need) (need - base) hi (by omega) (sub s need e)
    (by rw [hlen, hlen2, show need - prev + (e - need) = e - prev by omega]; exact hg)
  rw [hlen, hlen2, sub_append s (by omega) h4] at this
  have e1 : need - prev - (need - base) = base - prev := by omega
  rw [e1, sub_drop] at this
  have e2 : prev + (base - prev) = base := by omega
  rw [e2, sub_append s h2 h4] at this
  obtain ⟨st', r, d, hf, hm⟩ := this
  refine ⟨st', r, d, hf, ?_⟩
  cases r with
  | none =>
    obtain ⟨hd, _, hno⟩ := hm
    exact ⟨by omega, hno⟩
  | some c =>
    obtain ⟨hd, hle, _, hrule⟩ := hm
    refine ⟨by omega, by omega, by omega, ?_⟩
    have : base + c - prev = base - prev + c := by omega
    rw [this]; exact hrule

/-- Between two calls: either the chunk starts here, or what was presented of it has no cut. -/
theorem FceSpec.run_pending {A : Chunk} {g : Nat → Prop} {rule : Bytes → Nat → Prop} (S : FceSpec A g rule)
    {s : Bytes} {st : A.State} {base need prev : Nat} {cs : List Bytes}
    (hr : FceRun A (fun prev _ e => g (e - prev)) s st base need prev cs) :
    need = prev ∨ ∀ n, ¬ rule (sub s prev need) n := by
  cases hr with
  | start => exact .inl rfl
  | @cut st base need prev cs e st' c d hr h4 h5 hg hf =>
    obtain ⟨h1, h2, h3, hi⟩ := S.run hr
    have hlen : (sub s prev need).length = need - prev := by rw [sub_length]; omega
    have hlen2 : (sub s need e).length = e - need := by rw [sub_length]; omega
    have := S.step st (sub s prev need) (need - base) hi (by omega) (sub s need e)
      (by rw [hlen, hlen2, show need - prev + (e - need) = e - prev by omega]; exact hg)
    rw [hlen, hlen2, sub_append s (by omega) h4] at this
    have e1 : need - prev - (need - base) = base - prev := by omega
    rw [e1, sub_drop] at this
    have e2 : prev + (base - prev) = base := by omega
    rw [e2, sub_append s h2 h4] at this
    obtain ⟨st2, r, d2, hf2, hm⟩ := this
    rw [hf] at hf2
    cases hf2
    obtain ⟨hd, _⟩ := hm
    left
    omega
  | more hr h1 h2 hG hf =>
    obtain ⟨st2, r2, d2, hf2, _, hm⟩ := S.conforms _ _ _ _ _ _ hr _ h1 h2 hG
    rw [hf] at hf2
    cases hf2
    exact .inr hm

/-- What has to be proved about a `push`. `Inv st h c`: `st` is the state after `h` has been cut off and the
bytes `c` of the current chunk have been pushed. -/
structure IncrSpec (C : ChunkIncr) (rule : Rule) where
  Inv  : C.State → Bytes → Bytes → Prop
  init : Inv C.init [] []
  step : ∀ st h c, Inv st h c → ∀ new,
    ∃ st' r, C.push st new = .ok (st', r) ∧
      match r with
      | none   => Inv st' h (c ++ new) ∧ ∀ n, ¬ rule h (c ++ new) n
      | some i => i ≤ new.length ∧ Inv st' (h ++ (c ++ new.take i)) [] ∧ rule h (c ++ new) (c.length + i)

theorem IncrSpec.run {C : ChunkIncr} {rule : Rule} (S : IncrSpec C rule)
    {s : Bytes} {st : C.State} {pos prev : Nat} {cs : List Bytes}
    (h : IncrRun C s st pos prev cs) :
    prev ≤ pos ∧ pos ≤ s.length ∧ S.Inv st (s.take prev) (sub s prev pos) := by
  induction h with
  | start => exact ⟨Nat.le_refl _, Nat.zero_le _, by simpa [sub_self] using S.init⟩
  | @cut st pos prev cs e st' i hr h1 h2 hf ih =>
    obtain ⟨i1, i2, i3⟩ := ih
    obtain ⟨st', r, hf', hm⟩ := S.step _ _ _ i3 (sub s pos e)
    rw [hf] at hf'
    cases hf'
    obtain ⟨hle, hinv, _⟩ := hm
    rw [sub_length] at hle
    refine ⟨Nat.le_refl _, by omega, ?_⟩
    rw [sub_take_of_le s (b := pos + i) (by omega) i rfl, sub_append s i1 (by omega),
      take_append_sub s (by omega)] at hinv
    rwa [sub_self]
  | @more st pos prev cs e st' hr h1 h2 hf ih =>
    obtain ⟨i1, i2, i3⟩ := ih
    obtain ⟨st', r, hf', hm⟩ := S.step _ _ _ i3 (sub s pos e)
    rw [hf] at hf'
    cases hf'
    refine ⟨by omega, h2, ?_⟩
    rw [sub_append s i1 h1] at hm
    exact hm.1

theorem IncrSpec.conforms {C : ChunkIncr} {rule : Rule} (S : IncrSpec C rule) : IncrConforms C rule := by
  intro s st pos prev cs hr e h1 h2
  obtain ⟨i1, i2, i3⟩ := S.run hr
  obtain ⟨st', r, hf, hm⟩ := S.step _ _ _ i3 (sub s pos e)
  refine ⟨st', r, hf, ?_⟩
  rw [sub_append s i1 h1] at hm
  cases r with
  | none => exact hm.2
  | some i =>
    obtain ⟨hle, _, hrule⟩ := hm
    rw [sub_length] at hle
    refine ⟨by omega, ?_⟩
    rw [sub_length] at hrule
    have : pos + i - prev = min pos s.length - prev + i := by omega
    rw [this]; exact hrule

/-- The same for one-byte pushes. -/
structure ByteSpec (C : ChunkIncr) (rule : Rule) where
  Inv  : C.State → Bytes → Bytes → Prop
  init : Inv C.init [] []
  step : ∀ st h c, Inv st h c → ∀ v,
    ∃ st' r, C.push st [v] = .ok (st', r) ∧
      match r with
      | none   => Inv st' h (c ++ [v]) ∧ ∀ n, ¬ rule h (c ++ [v]) n
      | some _ => Inv st' (h ++ (c ++ [v])) [] ∧ rule h (c ++ [v]) (c.length + 1)

theorem ByteSpec.run {C : ChunkIncr} {rule : Rule} (S : ByteSpec C rule)
    {s : Bytes} {st : C.State} {pos prev : Nat} {cs : List Bytes}
    (h : ByteRun C s st pos prev cs) :
    prev ≤ pos ∧ pos ≤ s.length ∧ S.Inv st (s.take prev) (sub s prev pos) := by
  induction h with
  | start => exact ⟨Nat.le_refl _, Nat.zero_le _, by simpa [sub_self] using S.init⟩
  | @cut st pos prev cs st' i hr h1 hf ih =>
    obtain ⟨i1, i2, i3⟩ := ih
    obtain ⟨st', r, hf', hm⟩ := S.step _ _ _ i3 s[pos]
    rw [← sub_one s h1] at hf' hm
    rw [hf] at hf'
    cases hf'
    obtain ⟨hinv, _⟩ := hm
    refine ⟨Nat.le_refl _, by omega, ?_⟩
    rw [sub_append s i1 (by omega), take_append_sub s (by omega)] at hinv
    rwa [sub_self]
  | @more st pos prev cs st' hr h1 hf ih =>
    obtain ⟨i1, i2, i3⟩ := ih
    obtain ⟨st', r, hf', hm⟩ := S.step _ _ _ i3 s[pos]
    rw [← sub_one s h1] at hf' hm
    rw [hf] at hf'
    cases hf'
    refine ⟨by omega, by omega, ?_⟩
    rw [sub_append s i1 (by omega)] at hm
    exact hm.1

theorem ByteSpec.conforms {C : ChunkIncr} {rule : Rule} (S : ByteSpec C rule) :
    BytewiseConforms C rule := by
  intro s st pos prev cs hr h1
  obtain ⟨i1, i2, i3⟩ := S.run hr
  obtain ⟨st', r, hf, hm⟩ := S.step _ _ _ i3 s[pos]
  rw [← sub_one s h1] at hf hm
  rw [sub_append s i1 (by omega)] at hm
  refine ⟨st', r, hf, ?_⟩
  cases r with
  | none => exact hm.2
  | some i =>
    have := hm.2
    rw [sub_length] at this
    have e1 : pos + 1 - prev = min pos s.length - prev + 1 := by omega
    show rule _ _ (pos + 1 - prev)
    rw [e1]; exact this

/-- `push` built as a loop over the bytes that returns the index after the edge byte. -/
structure LoopSpec (C : ChunkIncr) (e : Bytes → Bytes → Prop) where
  body : Nat → UInt8 → C.State → R (Flow C.State (Option Nat))
  push_ret : ∀ st data st' r, forEnum body 0 data st = .ok (.ret st' r) → C.push st data = .ok (st', r)
  push_next : ∀ st data st', forEnum body 0 data st = .ok (.next st') → C.push st data = .ok (st', none)
  Inv  : C.State → Bytes → Bytes → Prop
  init : Inv C.init [] []
  step : ∀ i v st h c, Inv st h c →
    (∃ st', body i v st = .ok (.next st') ∧ Inv st' h (c ++ [v]) ∧ ¬ e h (c ++ [v])) ∨
    (∃ st', body i v st = .ok (.ret st' (some (i + 1))) ∧ Inv st' (h ++ (c ++ [v])) [] ∧ e h (c ++ [v]))

theorem LoopSpec.push_spec {C : ChunkIncr} {e : Bytes → Bytes → Prop} (L : LoopSpec C e)
    (st : C.State) (h c : Bytes) (hi : L.Inv st h c) (hno : NoEdge (e h) c) (new : Bytes) :
    (∃ st', C.push st new = .ok (st', none) ∧ L.Inv st' h (c ++ new) ∧ NoEdge (e h) (c ++ new)) ∨
    (∃ st' i, C.push st new = .ok (st', some (i + 1)) ∧ i < new.length ∧
      L.Inv st' (h ++ (c ++ new.take (i + 1))) [] ∧ FirstCut (e h) (c ++ new) (c.length + (i + 1))) := by
  rcases forEnum_edge (body := L.body) (e := e h) (Inv := fun s c => L.Inv s h c)
      (Q := fun i v c s' r => r = some (i + 1) ∧ L.Inv s' (h ++ (c ++ [v])) [])
      (by
        intro i v s c hi
        rcases L.step i v s h c hi with ⟨s', h1, h2, h3⟩ | ⟨s', h1, h2, h3⟩
        · exact .inl ⟨s', h1, h2, h3⟩
        · exact .inr ⟨s', _, h1, h3, rfl, h2⟩)
      new 0 st c hi with ⟨s', hf, hi', hno'⟩ | ⟨i, s', r, v, hf, hv, hcut, hr, hi'⟩
  · left
    exact ⟨s', L.push_next _ _ _ hf, hi', hno.append hno'⟩
  · right
    subst hr
    have hlt : i < new.length := by
      rw [List.getElem?_eq_some_iff] at hv; exact hv.1
    refine ⟨s', i, by rw [L.push_ret _ _ _ _ hf]; simp, hlt, ?_, hno.firstCut_append hcut⟩
    rw [List.take_add_one, hv]
    simpa using hi'

def LoopSpec.incrSpec {C : ChunkIncr} {e : Bytes → Bytes → Prop} (L : LoopSpec C e) :
    IncrSpec C (EdgeRule e) where
  Inv st h c := L.Inv st h c ∧ NoEdge (e h) c
  init := ⟨L.init, NoEdge.nil _⟩
  step := by
    intro st h c ⟨hi, hno⟩ new
    rcases L.push_spec st h c hi hno new with ⟨st', hp, hi', hno'⟩ | ⟨st', i, hp, hlt, hi', hcut⟩
    · exact ⟨st', none, hp, ⟨hi', hno'⟩, hno'.not_firstCut⟩
    · exact ⟨st', some (i + 1), hp, by omega, ⟨hi', NoEdge.nil _⟩, hcut⟩

def LoopSpec.byteSpec {C : ChunkIncr} {e : Bytes → Bytes → Prop} (L : LoopSpec C e) :
    ByteSpec C (EdgeRule e) where
  Inv st h c := L.Inv st h c ∧ NoEdge (e h) c
  init := ⟨L.init, NoEdge.nil _⟩
  step := by
    intro st h c ⟨hi, hno⟩ v
    rcases L.push_spec st h c hi hno [v] with ⟨st', hp, hi', hno'⟩ | ⟨st', i, hp, hlt, hi', hcut⟩
    · exact ⟨st', none, hp, ⟨hi', hno'⟩, hno'.not_firstCut⟩
    · have : i = 0 := by simpa using hlt
      subst this
      exact ⟨st', some 1, hp, ⟨by simpa using hi', NoEdge.nil _⟩, hcut⟩

theorem LoopSpec.conforms {C : ChunkIncr} {e : Bytes → Bytes → Prop} (L : LoopSpec C e) :
    IncrConforms C (EdgeRule e) := L.incrSpec.conforms

theorem LoopSpec.bytewise {C : ChunkIncr} {e : Bytes → Bytes → Prop} (L : LoopSpec C e) :
    BytewiseConforms C (EdgeRule e) := L.byteSpec.conforms

/-- `push` that returns the index *of* the edge byte and starts afresh. -/
structure BeforeSpec (C : ChunkIncr) (e : Bytes → Prop) where
  Inv  : C.State → Bytes → Prop
  init : Inv C.init []
  push_spec : ∀ st c, Inv st c → NoEdge e c → ∀ new,
    (∃ st', C.push st new = .ok (st', none) ∧ Inv st' (c ++ new) ∧ NoEdge e (c ++ new)) ∨
    (∃ st' i, C.push st new = .ok (st', some i) ∧ i < new.length ∧
      Inv st' [] ∧ FirstCut e (c ++ new) (c.length + (i + 1)))

def BeforeSpec.incrSpec {C : ChunkIncr} {e : Bytes → Prop} (L : BeforeSpec C e) :
    IncrSpec C (BeforeRule (Local e)) where
  Inv st _ c := L.Inv st c ∧ NoEdge e c
  init := ⟨L.init, NoEdge.nil _⟩
  step := by
    intro st h c ⟨hi, hno⟩ new
    rcases L.push_spec st c hi hno new with ⟨st', hp, hi', hno'⟩ | ⟨st', i, hp, hlt, hi', hcut⟩
    · exact ⟨st', none, hp, ⟨hi', hno'⟩, fun n => hno'.not_firstCut (n + 1)⟩
    · exact ⟨st', some i, hp, by omega, ⟨hi', NoEdge.nil _⟩, hcut⟩

def BeforeSpec.byteSpec {C : ChunkIncr} {e : Bytes → Prop} (L : BeforeSpec C e) :
    ByteSpec C (EdgeRule (Local e)) where
  Inv st _ c := L.Inv st c ∧ NoEdge e c
  init := ⟨L.init, NoEdge.nil _⟩
  step := by
    intro st h c ⟨hi, hno⟩ v
    rcases L.push_spec st c hi hno [v] with ⟨st', hp, hi', hno'⟩ | ⟨st', i, hp, hlt, hi', hcut⟩
    · exact ⟨st', none, hp, ⟨hi', hno'⟩, hno'.not_firstCut⟩
    · have : i = 0 := by simpa using hlt
      subst this
      exact ⟨st', some 0, hp, ⟨hi', NoEdge.nil _⟩, hcut⟩

/-- `find_chunk_edge` built as a loop over the bytes of `data`, resetting and returning
`(Some(i + 1), i + 1)` at an edge, `(None, data.len())` otherwise. -/
structure FceLoopSpec (A : Chunk) (e : Bytes → Prop) where
  body : Nat → UInt8 → A.State → R (Flow A.State (Option Nat × Nat))
  fce_ret : ∀ st data st' r, forEnum body 0 data st = .ok (.ret st' r) → A.fce st data = .ok (st', r)
  fce_next : ∀ st data st', forEnum body 0 data st = .ok (.next st') →
    A.fce st data = .ok (st', none, data.length)
  Inv  : A.State → Bytes → Prop
  init : Inv A.init []
  step : ∀ i v st c, Inv st c →
    (∃ st', body i v st = .ok (.next st') ∧ Inv st' (c ++ [v]) ∧ ¬ e (c ++ [v])) ∨
    (∃ st', body i v st = .ok (.ret st' (some (i + 1), i + 1)) ∧ Inv st' [] ∧ e (c ++ [v]))

def FceLoopSpec.fceSpec {A : Chunk} {e : Bytes → Prop} (L : FceLoopSpec A e) :
    FceSpec A (fun _ => True) (FirstCut e) where
  Inv st c k := L.Inv st c ∧ NoEdge e c ∧ k = 0
  init := ⟨L.init, NoEdge.nil _, rfl⟩
  step := by
    rintro st c k ⟨hi, hno, rfl⟩ - new -
    simp only [Nat.sub_zero, List.drop_length, List.nil_append, Nat.zero_add]
    rcases forEnum_edge (body := L.body) (e := e) (Inv := L.Inv)
      (Q := fun i v c s' r => r = (some (i + 1), i + 1) ∧ L.Inv s' [])
      (by
        intro i v s c hi
        rcases L.step i v s c hi with ⟨s', h1, h2, h3⟩ | ⟨s', h1, h2, h3⟩
        · exact .inl ⟨s', h1, h2, h3⟩
        · exact .inr ⟨s', _, h1, h3, rfl, h2⟩)
      new 0 st c hi with ⟨s', hf, hi', hno'⟩ | ⟨i, s', r, v, hf, hv, hcut, hr, hi'⟩
    · refine ⟨s', none, new.length, L.fce_next _ _ _ hf, Nat.le_refl _, ⟨hi', hno.append hno', by omega⟩,
        (hno.append hno').not_firstCut⟩
    · subst hr
      have hlt : i < new.length := by
        rw [List.getElem?_eq_some_iff] at hv; exact hv.1
      exact ⟨s', some (i + 1), i + 1, by rw [L.fce_ret _ _ _ _ hf]; simp, rfl, by omega,
        ⟨hi', NoEdge.nil _, trivial⟩, hno.firstCut_append hcut⟩

theorem FceLoopSpec.conforms {A : Chunk} {e : Bytes → Prop} (L : FceLoopSpec A e) :
    FceConforms A Any (EdgeRule (Local e)) := L.fceSpec.conforms

end HashRoll.Spec
