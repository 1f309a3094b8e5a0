import Verif.Props.Slices
import Verif.Props.Zstd
/-!
# C79: `find_chunk_edge` does not depend on how the buffer is filled

The counterpart of C73 for the other interface. A caller reads some bytes, calls `find_chunk_edge`, drops what it may
discard, reads more, calls again. Whatever the portions are, the cut found, the state left behind, the bytes discarded in
total and a panic are those of one call with all the bytes. In particular calling again with nothing new changes nothing.
Only Zstd differs: after a cut it discards according to the length of the buffer.
-/

namespace HashRoll.Props

open Spec

/-- a result counted from `d` bytes earlier -/
def shiftFce {σ : Type} (d : Nat) (x : R (σ × Option Nat × Nat)) : R (σ × Option Nat × Nat) :=
  x.map fun x => (x.1, x.2.1.map (d + ·), d + x.2.2)

/-- One call with `a ++ b` is a call with `a` and, if that finds no cut, another with what is left of `a` and `b`. `ok st buf`
says that `st` and `buf` fit together; it stays true when the buffer grows and after a call without a cut. -/
structure FceSplit (A : Chunk) (ok : A.State → Bytes → Prop) : Prop where
  grows : ∀ st a b, ok st a → ok st (a ++ b)
  panic : ∀ st a b e, ok st a → A.fce st a = .error e → A.fce st (a ++ b) = .error e
  cut   : ∀ st a b st' c d, ok st a → A.fce st a = .ok (st', some c, d) → A.fce st (a ++ b) = .ok (st', some c, d)
  more  : ∀ st a b st' d, ok st a → A.fce st a = .ok (st', none, d) →
    d ≤ a.length ∧ ok st' (a.drop d) ∧ A.fce st (a ++ b) = shiftFce d (A.fce st' (a.drop d ++ b))

/-- The bytes come in the portions `as`; a call after each. The cut and the discarded bytes are counted from the beginning
of `buf`. -/
def fceAll (A : Chunk) : A.State → (buf : Bytes) → (as : List Bytes) → R (A.State × Option Nat × Nat)
  | st, _,   []      => .ok (st, none, 0)
  | st, buf, a :: as =>
    match A.fce st (buf ++ a) with
    | .error e => .error e
    | .ok (st', some c, d) => .ok (st', some c, d)
    | .ok (st', none, d) => shiftFce d (fceAll A st' ((buf ++ a).drop d) as)

/-- C79. The portions do not matter, from the initial state on and from every state a call without a cut can leave. -/
def BufferFree (A : Chunk) (ok : A.State → Bytes → Prop) : Prop :=
  ok A.init [] ∧ A.fce A.init [] = .ok (A.init, none, 0) ∧
  (∀ st a st' d, ok st a → A.fce st a = .ok (st', none, d) → A.fce st' (a.drop d) = .ok (st', none, 0)) ∧
  ∀ st buf as, ok st buf → A.fce st buf = .ok (st, none, 0) → fceAll A st buf as = A.fce st (buf ++ as.flatten)

theorem FceSplit.quiet {A : Chunk} {ok : A.State → Bytes → Prop} (h : FceSplit A ok) {st : A.State} {a : Bytes}
    {st' : A.State} {d : Nat} (ho : ok st a) (hf : A.fce st a = .ok (st', none, d)) :
    A.fce st' (a.drop d) = .ok (st', none, 0) := by
  have := (h.more st a [] st' d ho hf).2.2
  rw [List.append_nil, List.append_nil, hf] at this
  rcases hx : A.fce st' (a.drop d) with e | ⟨s, r, d'⟩
  · rw [hx] at this; cases this
  · rw [hx] at this
    simp only [shiftFce, Except.map, Except.ok.injEq, Prod.mk.injEq] at this
    obtain ⟨h1, h2, h3⟩ := this
    cases r with
    | some _ => cases h2
    | none => rw [h1, show d' = 0 by omega]

theorem FceSplit.bufferFree {A : Chunk} {ok : A.State → Bytes → Prop} (h : FceSplit A ok) (h0 : ok A.init [])
    (h1 : A.fce A.init [] = .ok (A.init, none, 0)) : BufferFree A ok := by
  refine ⟨h0, h1, fun st a st' d ho hf => h.quiet ho hf, ?_⟩
  intro st buf as
  induction as generalizing st buf with
  | nil => intro _ hq; rw [List.flatten_nil, List.append_nil, hq]; rfl
  | cons a as ih =>
    intro ho hq
    rw [fceAll, List.flatten_cons, ← List.append_assoc]
    have ho' := h.grows st buf a ho
    rcases hf : A.fce st (buf ++ a) with e | ⟨st', r, d⟩
    · exact (h.panic st _ _ e ho' hf).symm
    · cases r with
      | some c => exact (h.cut st _ _ st' c d ho' hf).symm
      | none =>
        obtain ⟨g1, g2, g3⟩ := h.more st (buf ++ a) as.flatten st' d ho' hf
        rw [g3, ← ih st' _ g2 (h.quiet ho' hf)]

/-! ## loops over all bytes -/

/-- indices counted from `n` bytes earlier -/
def shiftLoop {σ : Type} (n : Nat) : R (Flow σ (Option Nat × Nat)) → R (Flow σ (Option Nat × Nat))
  | .error e => .error e
  | .ok (.ret s r) => .ok (.ret s (r.1.map (n + ·), n + r.2))
  | .ok (.next s)  => .ok (.next s)

/-- what `find_chunk_edge` makes of its loop when it keeps nothing -/
def finishFce {σ : Type} (n : Nat) : R (Flow σ (Option Nat × Nat)) → R (σ × Option Nat × Nat)
  | .error e => .error e
  | .ok (.ret s r) => .ok (s, r)
  | .ok (.next s)  => .ok (s, none, n)

theorem forEnum_shiftLoop {σ : Type} {body : Nat → UInt8 → σ → R (Flow σ (Option Nat × Nat))}
    (hb : ∀ n i v s, body (n + i) v s = shiftLoop n (body i v s)) (n : Nat) (data : Bytes) (i : Nat) (s : σ) :
    forEnum body (n + i) data s = shiftLoop n (forEnum body i data s) := by
  induction data generalizing i s with
  | nil => rfl
  | cons v vs ih =>
    rw [forEnum, forEnum, hb n i v s]
    rcases body i v s with e | (s' | ⟨s', r⟩)
    · rfl
    · exact ih (i + 1) s'
    · rfl

theorem forEnum_ret {σ ρ : Type} {body : Nat → UInt8 → σ → R (Flow σ ρ)} {P : ρ → Prop}
    (hr : ∀ i v s s' r, body i v s = .ok (.ret s' r) → P r) {data : Bytes} {i : Nat} {s s' : σ} {r : ρ}
    (h : forEnum body i data s = .ok (.ret s' r)) : P r := by
  induction data generalizing i s with
  | nil => cases h
  | cons v vs ih =>
    rw [forEnum] at h
    rcases hv : body i v s with e | (s1 | ⟨s1, r1⟩)
    · rw [hv] at h; cases h
    · rw [hv] at h; exact ih h
    · rw [hv] at h; cases h; exact hr _ _ _ _ _ hv

theorem fceSplit_loop {A : Chunk} (body : Nat → UInt8 → A.State → R (Flow A.State (Option Nat × Nat)))
    (hp : ∀ st data, A.fce st data = finishFce data.length (forEnum body 0 data st))
    (hb : ∀ n i v s, body (n + i) v s = shiftLoop n (body i v s))
    (hr : ∀ i v s s' r, body i v s = .ok (.ret s' r) → r.1 ≠ none) :
    FceSplit A (fun _ _ => True) ∧ BufferFree A (fun _ _ => True) := by
  have hs : FceSplit A (fun _ _ => True) := by
    refine ⟨fun _ _ _ _ => trivial, ?_, ?_, ?_⟩
    · intro st a b e _ h
      rw [hp] at h ⊢
      rcases forEnum_append body a b 0 st with ⟨e', h1, h2⟩ | ⟨s', r, h1, h2⟩ | ⟨s', h1, h2⟩
      · rw [h1] at h; rw [h2]; exact h
      · rw [h1] at h; cases h
      · rw [h1] at h; cases h
    · intro st a b st' c d _ h
      rw [hp] at h ⊢
      rcases forEnum_append body a b 0 st with ⟨e', h1, h2⟩ | ⟨s', r, h1, h2⟩ | ⟨s', h1, h2⟩
      · rw [h1] at h; cases h
      · rw [h1] at h; rw [h2]; exact h
      · rw [h1] at h; cases h
    · intro st a b st' d _ h
      rw [hp] at h
      rcases forEnum_append body a b 0 st with ⟨e', h1, h2⟩ | ⟨s', r, h1, h2⟩ | ⟨s', h1, h2⟩
      · rw [h1] at h; cases h
      · rw [h1] at h
        have := forEnum_ret (P := fun r => r.1 ≠ none) hr h1
        cases h
        exact absurd rfl this
      · rw [h1] at h
        cases h
        refine ⟨Nat.le_refl _, trivial, ?_⟩
        rw [hp, hp, List.drop_length, List.nil_append, h2, Nat.zero_add]
        have := forEnum_shiftLoop hb a.length b 0 st'
        rw [Nat.add_zero] at this
        rw [this]
        rcases forEnum body 0 b st' with e | (s1 | ⟨s1, r1, d1⟩)
        · rfl
        · simp [shiftLoop, finishFce, shiftFce, Except.map]
        · rfl
  exact ⟨hs, hs.bufferFree trivial (hp _ _)⟩

/-- C79. Gear32. -/
theorem C79_gear (p : Gear.Gear32) :
    FceSplit (Gear.chunk p) (fun _ _ => True) ∧ BufferFree (Gear.chunk p) (fun _ _ => True) := by
  refine fceSplit_loop (A := Gear.chunk p) (Gear.fceBody p) ?_ ?_ ?_
  · intro st data
    show Gear.Gear32.findChunkEdge p st data = _
    rw [Gear.fce_eq]
    rcases forEnum (Gear.fceBody p) 0 data st with e | (s' | ⟨s', r⟩) <;> rfl
  · intro n i v s
    simp only [Gear.fceBody]
    split <;> rfl
  · intro i v s s' r h
    simp only [Gear.fceBody] at h
    split at h <;> cases h
    simp

example : (fceAll (Gear.chunk Ex.gear2) (Gear.chunk Ex.gear2).init [] [sample.take 1, [], (sample.drop 1).take 2, sample.drop 3]).map (·.2) =
    .ok (some 2, 2) := by decide +kernel

/-- C79. Pigz. -/
theorem C79_pigz (p : Pigz.PigzRsyncable) :
    FceSplit (Pigz.chunk p) (fun _ _ => True) ∧ BufferFree (Pigz.chunk p) (fun _ _ => True) := by
  refine fceSplit_loop (A := Pigz.chunk p) (Pigz.fceBody p) ?_ ?_ ?_
  · intro st data
    show Pigz.PigzRsyncable.findChunkEdge p st data = _
    rw [Pigz.fce_eq]
    rcases forEnum (Pigz.fceBody p) 0 data st with e | (s' | ⟨s', r⟩) <;> rfl
  · intro n i v s
    simp only [Pigz.fceBody]
    split <;> rfl
  · intro i v s s' r h
    simp only [Pigz.fceBody] at h
    split at h <;> cases h
    simp

example : (fceAll (Pigz.chunk Ex.pigz2) (Pigz.chunk Ex.pigz2).init [] [sample.take 1, [], (sample.drop 1).take 2, sample.drop 3]).map (·.2) =
    .ok (some 1, 1) := by decide +kernel

/-- C79. Zpaq. -/
theorem C79_zpaq (p : Zpaq.Zpaq) :
    FceSplit (Zpaq.chunk p) (fun _ _ => True) ∧ BufferFree (Zpaq.chunk p) (fun _ _ => True) := by
  refine fceSplit_loop (A := Zpaq.chunk p) (Zpaq.fceBody p) ?_ ?_ ?_
  · intro st data
    show Zpaq.Zpaq.findChunkEdge p st data = _
    rw [Zpaq.fce_eq]
    rcases forEnum (Zpaq.fceBody p) 0 data st with e | (s' | ⟨s', r⟩) <;> rfl
  · intro n i v s
    simp only [Zpaq.fceBody]
    split <;> rfl
  · intro i v s s' r h
    simp only [Zpaq.fceBody] at h
    split at h <;> cases h
    simp

example : (fceAll (Zpaq.chunk Ex.zpaq) (Zpaq.chunk Ex.zpaq).init [] [sample.take 1, [], (sample.drop 1).take 2, sample.drop 3]).map (·.2) =
    .ok (some 1, 1) := by decide +kernel

/-! ## `find_chunk_edge` by way of `push` -/

/-- what `find_chunk_edge` makes of the result of `push` -/
def finishPush {σ τ : Type} (g g' : τ → σ) (k : Nat → Nat) (n : Nat) : R (τ × Option Nat) → R (σ × Option Nat × Nat)
  | .error e => .error e
  | .ok (s, some i) => .ok (g s, some (k i), k i)
  | .ok (s, none) => .ok (g' s, none, n)

/-- `fce` calls a `push` that satisfies the law of C73 -/
theorem fceSplit_push {A : Chunk} {C : ChunkIncr} {okC : C.State → Prop} (hC : SplitLaw C okC) (hK : Kept C okC)
    (f : A.State → C.State) (g g' : C.State → A.State) (k : Nat → Nat) 
    (hk : ∀ n i, k (n + i) = n + k i)
    (hfce : ∀ st data, A.fce st data = finishPush g g' k data.length (C.push (f st) data))
    (hg : ∀ st data s, C.push (f st) data = .ok (s, none) → f (g' s) = s)
    (h0 : okC (f A.init)) (h00 : C.push (f A.init) [] = .ok (f A.init, none)) (hg0 : g' (f A.init) = A.init) :
    FceSplit A (fun st _ => okC (f st)) ∧ BufferFree A (fun st _ => okC (f st)) := by
  have hs : FceSplit A (fun st _ => okC (f st)) := by
    refine ⟨fun _ _ _ h => h, ?_, ?_, ?_⟩
    · intro st a b e ho h
      rw [hfce] at h ⊢
      rcases hpa : C.push (f st) a with e' | ⟨s, _ | i⟩
      · rw [hpa] at h; cases h
        rw [hC.panic _ _ b _ ho hpa]; rfl
      · rw [hpa] at h; cases h
      · rw [hpa] at h; cases h
    · intro st a b st' c d ho h
      rw [hfce] at h ⊢
      rcases hpa : C.push (f st) a with e' | ⟨s, _ | i⟩
      · rw [hpa] at h; cases h
      · rw [hpa] at h; cases h
      · rw [hpa] at h; cases h
        rw [hC.cut _ _ b _ _ ho hpa]; rfl
    · intro st a b st' d ho h
      rw [hfce] at h
      rcases hpa : C.push (f st) a with e' | ⟨s, _ | i⟩
      · rw [hpa] at h; cases h
      · rw [hpa] at h; cases h
        have hfg := hg st a s hpa
        refine ⟨Nat.le_refl _, ?_, ?_⟩
        · rw [hfg]; exact hK _ _ _ _ ho hpa
        · rw [hfce, hfce, List.drop_length, List.nil_append, hC.more _ _ b _ ho hpa, hfg]
          rcases C.push s b with e | ⟨s1, _ | i⟩
          · rfl
          · simp [shiftFce, finishPush, Except.map]
          · simp [shiftFce, finishPush, Except.map, hk]
      · rw [hpa] at h; cases h
  refine ⟨hs, hs.bufferFree h0 ?_⟩
  rw [hfce, h00]
  simp [finishPush, hg0]

/-- C79. Ram. -/
theorem C79_ram (p : Ram.Ram) : FceSplit (Ram.chunk p) (fun _ _ => True) ∧ BufferFree (Ram.chunk p) (fun _ _ => True) := by
  refine fceSplit_push (A := Ram.chunk p) (C := Ram.incr p) (C73_ram p).1 (fun _ _ _ _ _ _ => trivial)
    (fun st => ⟨p, st⟩) (fun s => s.state) (fun s => s.state) (fun i => i + 1) (fun n i => by omega) ?_ ?_ trivial rfl rfl
  · intro st data
    show Ram.Ram.findChunkEdge p st data = _
    unfold Ram.Ram.findChunkEdge
    show _ = finishPush _ _ _ _ (Ram.RamIncr.push ⟨p, st⟩ data)
    unfold Ram.RamIncr.push
    rcases Ram.RamState.push st p data with e | ⟨s, _ | i⟩ <;> rfl
  · intro st data s h
    change Ram.RamIncr.push ⟨p, st⟩ data = _ at h
    unfold Ram.RamIncr.push at h
    rcases hx : Ram.RamState.push st p data with e | ⟨s, _ | i⟩ <;> rw [hx] at h <;> cases h
    rfl

example : (fceAll (Ram.chunk (Ram.Ram.withW 2)) (Ram.chunk (Ram.Ram.withW 2)).init [] [sample.take 1, [], (sample.drop 1).take 2, sample.drop 3]).map (·.2) =
    .ok (some 5, 5) := by decide +kernel

/-- C79. Mii. -/
theorem C79_mii (p : Mii.Mii) : FceSplit (Mii.chunk p) (fun _ _ => True) ∧ BufferFree (Mii.chunk p) (fun _ _ => True) := by
  refine fceSplit_push (A := Mii.chunk p) (C := Mii.incr p) (C73_mii p).1 (fun _ _ _ _ _ _ => trivial)
    (fun st => st.incr) (fun s => ⟨s.reset⟩) (fun s => ⟨s⟩) (fun i => i) (fun n i => rfl) ?_ ?_ trivial rfl rfl
  · intro st data
    show Mii.Mii.findChunkEdge p st data = _
    unfold Mii.Mii.findChunkEdge Mii.MiiSearchState.push
    show _ = finishPush _ _ _ _ (Mii.MiiIncr.push st.incr data)
    rcases Mii.MiiIncr.push st.incr data with e | ⟨s, _ | i⟩ <;> rfl
  · intro st data s h
    rfl

example : (fceAll (Mii.chunk (Mii.Mii.withW 2)) (Mii.chunk (Mii.Mii.withW 2)).init [] [sample.take 1, [], (sample.drop 1).take 2, sample.drop 3]).map (·.2) =
    .ok (some 6, 6) := by decide +kernel

/-- C79. FastCdc, for every state a constructor or a call can leave (see `C73_fastcdc_kept`). -/
theorem C79_fastcdc (p : FastCdc.FastCdc) (h : p.normalSize ≤ p.maxSize) :
    FceSplit (FastCdc.chunk p) (fun st _ => FcOk ⟨p, st⟩) ∧ BufferFree (FastCdc.chunk p) (fun st _ => FcOk ⟨p, st⟩) := by
  refine fceSplit_push (A := FastCdc.chunk p) (C := FastCdc.incr p) (C73_fastcdc p).1 (C73_fastcdc_kept p).2
    (fun st => ⟨p, st⟩) (fun s => s.state) (fun s => s.state) (fun i => i + 1) (fun n i => by omega) ?_ ?_
    ((C73_fastcdc_kept p).1 h) ((C73_fastcdc p).2.1 _ ((C73_fastcdc_kept p).1 h)) rfl
  · intro st data
    show FastCdc.FastCdc.findChunkEdge p st data = _
    unfold FastCdc.FastCdc.findChunkEdge
    show _ = finishPush _ _ _ _ (FastCdc.FastCdcIncr.push ⟨p, st⟩ data)
    unfold FastCdc.FastCdcIncr.push
    rcases FastCdc.FastCdcState.push st p data with ⟨s, _ | i⟩ <;> rfl
  · intro st data s h
    change FastCdc.FastCdcIncr.push ⟨p, st⟩ data = _ at h
    unfold FastCdc.FastCdcIncr.push at h
    rcases hx : FastCdc.FastCdcState.push st p data with ⟨s, _ | i⟩ <;> simp only [hx] at h <;> cases h
    rfl

example : (fceAll (FastCdc.chunk Ex.fast) (FastCdc.chunk Ex.fast).init [] [sample.take 1, [], (sample.drop 1).take 2, sample.drop 3]).map (·.2) =
    .ok (some 5, 5) := by decide +kernel

/-! ## loops that start at an offset and look back -/

theorem forRange_add {σ ρ : Type} (body : Nat → σ → R (Flow σ ρ)) (m n i : Nat) (s : σ) :
    (∃ e, forRange body m i s = .error e ∧ forRange body (m + n) i s = .error e) ∨
    (∃ s' r, forRange body m i s = .ok (.ret s' r) ∧ forRange body (m + n) i s = .ok (.ret s' r)) ∨
    (∃ s', forRange body m i s = .ok (.next s') ∧ forRange body (m + n) i s = forRange body n (i + m) s') := by
  induction m generalizing i s with
  | zero => exact .inr (.inr ⟨s, rfl, by rw [Nat.zero_add, Nat.add_zero]⟩)
  | succ m ih =>
    rw [Nat.succ_add, forRange, forRange]
    rcases body i s with e | (s' | ⟨s', r⟩)
    · exact .inl ⟨e, rfl, rfl⟩
    · rw [show i + (m + 1) = i + 1 + m by omega]
      exact ih (i + 1) s'
    · exact .inr (.inl ⟨s', r, rfl, rfl⟩)

theorem forRange_congr {σ ρ : Type} {body body' : Nat → σ → R (Flow σ ρ)} (m i : Nat) (s : σ)
    (h : ∀ j s, i ≤ j → j < i + m → body j s = body' j s) : forRange body m i s = forRange body' m i s := by
  induction m generalizing i s with
  | zero => rfl
  | succ m ih =>
    rw [forRange, forRange, h i s (Nat.le_refl _) (by omega)]
    rcases body' i s with e | (s' | ⟨s', r⟩)
    · rfl
    · exact ih (i + 1) s' (fun j s h1 h2 => h j s (by omega) (by omega))
    · rfl

theorem forRange_ret {σ ρ : Type} {body : Nat → σ → R (Flow σ ρ)} {P : ρ → Prop}
    (hr : ∀ i s s' r, body i s = .ok (.ret s' r) → P r) {m i : Nat} {s s' : σ} {r : ρ}
    (h : forRange body m i s = .ok (.ret s' r)) : P r := by
  induction m generalizing i s with
  | zero => cases h
  | succ m ih =>
    rw [forRange] at h
    rcases hv : body i s with e | (s1 | ⟨s1, r1⟩)
    · rw [hv] at h; cases h
    · rw [hv] at h; exact ih h
    · rw [hv] at h; cases h; exact hr _ _ _ _ hv

/-- the same loop, `d` bytes later and with another offset remembered in the state -/
def moved {σ : Type} (set : σ → Nat → σ) (o d : Nat) (x y : R (Flow σ (Option Nat × Nat))) : Prop :=
  (∃ e, x = .error e ∧ y = .error e) ∨ (∃ s r, x = .ok (.ret s (r.1.map (d + ·), d + r.2)) ∧ y = .ok (.ret s r)) ∨
    ∃ s, x = .ok (.next s) ∧ y = .ok (.next (set s o))

theorem forRange_moved {σ : Type} {set : σ → Nat → σ} {o d : Nat} {body body' : Nat → σ → R (Flow σ (Option Nat × Nat))}
    (m i : Nat) (h : ∀ j s, i ≤ j → j < i + m → moved set o d (body (d + j) s) (body' j (set s o))) (s : σ) :
    moved set o d (forRange body m (d + i) s) (forRange body' m i (set s o)) := by
  induction m generalizing i s with
  | zero => exact .inr (.inr ⟨s, rfl, rfl⟩)
  | succ m ih =>
    rw [forRange, forRange]
    rcases h i s (Nat.le_refl _) (by omega) with ⟨e, h1, h2⟩ | ⟨s', r, h1, h2⟩ | ⟨s', h1, h2⟩
    · rw [h1, h2]; exact .inl ⟨e, rfl, rfl⟩
    · rw [h1, h2]; exact .inr (.inl ⟨s', r, rfl, rfl⟩)
    · rw [h1, h2]
      exact ih (i + 1) (fun j s g1 g2 => h j s (by omega) (by omega)) s'

/-- what `find_chunk_edge` makes of its loop when it keeps `W` bytes of `n` -/
def finishWindow {σ : Type} (set : σ → Nat → σ) (W n : Nat) : R (Flow σ (Option Nat × Nat)) → R (σ × Option Nat × Nat)
  | .error e => .error e
  | .ok (.ret s r) => .ok (s, r)
  | .ok (.next s) => .ok (set s (n - (n - W)), none, n - W)

theorem fceSplit_window {A : Chunk} (W : Nat) (off : A.State → Nat) (set : A.State → Nat → A.State)
    (hget : ∀ s o, off (set s o) = o) (hset : ∀ s o o', set (set s o) o' = set s o') (hself : set A.init 0 = A.init)
    (h0 : off A.init = 0)
    (body : Bytes → Nat → A.State → R (Flow A.State (Option Nat × Nat)))
    (hp : ∀ st data, A.fce st data =
      finishWindow set W data.length (forRange (body data) (data.length - off st) (off st) st))
    (hb : ∀ a b i s, i < a.length → body (a ++ b) i s = body a i s)
    (hm : ∀ data d i s o, i + d < data.length → (W ≤ i ∨ d = 0) →
      moved set o d (body data (d + i) s) (body (data.drop d) i (set s o)))
    (hr : ∀ data i s s' r, body data i s = .ok (.ret s' r) → r.1 ≠ none) :
    FceSplit A (fun st data => off st ≤ data.length) ∧ BufferFree A (fun st data => off st ≤ data.length) := by
  have split : ∀ st a b, off st ≤ a.length →
      (∃ e, forRange (body a) (a.length - off st) (off st) st = .error e ∧
        forRange (body (a ++ b)) ((a ++ b).length - off st) (off st) st = .error e) ∨
      (∃ s' r, forRange (body a) (a.length - off st) (off st) st = .ok (.ret s' r) ∧
        forRange (body (a ++ b)) ((a ++ b).length - off st) (off st) st = .ok (.ret s' r)) ∨
      (∃ s', forRange (body a) (a.length - off st) (off st) st = .ok (.next s') ∧
        forRange (body (a ++ b)) ((a ++ b).length - off st) (off st) st =
          forRange (body (a ++ b)) b.length a.length s') := by
    intro st a b ho
    have h := forRange_add (body (a ++ b)) (a.length - off st) b.length (off st) st
    rw [forRange_congr (body' := body a) (a.length - off st) (off st) st (fun j s h1 h2 => hb a b j s (by omega)),
      show a.length - off st + b.length = (a ++ b).length - off st by rw [List.length_append]; omega,
      show off st + (a.length - off st) = a.length by omega] at h
    exact h
  have hs : FceSplit A (fun st data => off st ≤ data.length) := by
    refine ⟨fun st a b h => by rw [List.length_append]; omega, ?_, ?_, ?_⟩
    · intro st a b e ho h
      rw [hp] at h ⊢
      rcases split st a b ho with ⟨e', h1, h2⟩ | ⟨s', r, h1, h2⟩ | ⟨s', h1, h2⟩
      · rw [h1] at h; cases h; rw [h2]; rfl
      · rw [h1] at h; cases h
      · rw [h1] at h; cases h
    · intro st a b st' c d ho h
      rw [hp] at h ⊢
      rcases split st a b ho with ⟨e', h1, h2⟩ | ⟨s', r, h1, h2⟩ | ⟨s', h1, h2⟩
      · rw [h1] at h; cases h
      · rw [h1] at h; cases h; rw [h2]; rfl
      · rw [h1] at h; cases h
    · intro st a b st' d ho h
      rw [hp] at h
      rcases split st a b ho with ⟨e', h1, h2⟩ | ⟨s', r, h1, h2⟩ | ⟨s', h1, h2⟩
      · rw [h1] at h; cases h
      · rw [h1] at h
        have := forRange_ret (P := fun r => r.1 ≠ none) (hr a) h1
        cases h
        exact absurd rfl this
      · rw [h1] at h
        cases h
        refine ⟨by omega, by rw [hget, List.length_drop], ?_⟩
        rw [hp st, h2, hp, hget]
        have hx : a.drop (a.length - W) ++ b = (a ++ b).drop (a.length - W) :=
          (List.drop_append_of_le_length (by omega)).symm
        rw [hx]
        have hl : ((a ++ b).drop (a.length - W)).length = a.length + b.length - (a.length - W) := by
          rw [List.length_drop, List.length_append]
        rw [hl, show a.length + b.length - (a.length - W) - (a.length - (a.length - W)) = b.length by omega]
        have hmv := forRange_moved (set := set) (o := a.length - (a.length - W)) (d := a.length - W) (body := body (a ++ b))
          (body' := body ((a ++ b).drop (a.length - W))) b.length (a.length - (a.length - W))
          (fun j s g1 g2 => hm (a ++ b) _ j s _ (by rw [List.length_append]; omega) (by omega)) s'
        rw [show a.length - W + (a.length - (a.length - W)) = a.length by omega] at hmv
        rcases hmv with ⟨e, g1, g2⟩ | ⟨s1, r, g1, g2⟩ | ⟨s1, g1, g2⟩
        · rw [g1, g2]; rfl
        · rw [g1, g2]; rfl
        · rw [g1, g2]
          simp only [shiftFce, finishWindow, Except.map, hset, List.length_append, Option.map_none]
          rw [show a.length + b.length - (a.length - W) - (a.length + b.length - (a.length - W) - W) =
            a.length + b.length - (a.length + b.length - W) by omega,
            show a.length - W + (a.length + b.length - (a.length - W) - W) = a.length + b.length - W by omega]
  refine ⟨hs, hs.bufferFree (by rw [h0]; exact Nat.zero_le _) ?_⟩
  rw [hp, h0]
  simp only [List.length_nil, Nat.zero_sub, Nat.sub_self, forRange, finishWindow]
  rw [hself]

theorem index_append {a : Bytes} (b : Bytes) {i : Nat} (h : i < a.length) : index (a ++ b) i = index a i := by
  unfold index
  rw [List.getElem?_append_left h]

theorem index_drop (data : Bytes) (d i : Nat) : index (data.drop d) i = index data (d + i) := by
  unfold index
  rw [List.getElem?_drop]

/-- C79. RollSum, any window. -/
theorem C79_rollsum (p : Bup.RollSum) :
    FceSplit (Bup.chunk p) (fun st data => st.offset ≤ data.length) ∧
    BufferFree (Bup.chunk p) (fun st data => st.offset ≤ data.length) := by
  refine fceSplit_window (A := Bup.chunk p) p.windowLen (fun st => st.offset) (fun st o => { st with offset := o })
    (fun _ _ => rfl) (fun _ _ _ => rfl) rfl rfl (Bup.fceBody p) ?_ ?_ ?_ ?_
  · intro st data
    show Bup.RollSum.findChunkEdge p st data = _
    rw [Bup.fce_eq]
    show _ = finishWindow _ _ _ (forRange (Bup.fceBody p data) (data.length - st.offset) st.offset st)
    rcases forRange (Bup.fceBody p data) (data.length - st.offset) st.offset st with e | (s' | ⟨s', r⟩) <;> rfl
  · intro a b i s hi
    unfold Bup.fceBody
    rw [index_append b hi]
    by_cases h : i ≥ p.windowLen
    · rw [if_pos h, if_pos h, index_append b (by omega)]
    · rw [if_neg h, if_neg h]
  · intro data d i s o hi hW
    have e1 : (if d + i ≥ p.windowLen then index data (d + i - p.windowLen) else .ok 0) =
        (if i ≥ p.windowLen then index (data.drop d) (i - p.windowLen) else .ok 0) := by
      rcases hW with h | h
      · rw [if_pos (by omega), if_pos h, index_drop, show d + (i - p.windowLen) = d + i - p.windowLen by omega]
      · subst h; rw [Nat.zero_add, List.drop_zero]
    unfold Bup.fceBody
    rw [e1, index_drop data d i]
    cases index data (d + i) with
    | error e => exact .inl ⟨e, rfl, rfl⟩
    | ok v =>
      cases (if i ≥ p.windowLen then index (data.drop d) (i - p.windowLen) else .ok 0) with
      | error e => exact .inl ⟨e, rfl, rfl⟩
      | ok v' =>
        by_cases hh : (s.state.add p.windowLen v' v).atSplit = true
        · refine .inr (.inl ⟨_, (some (i + 1), i + 1), if_pos hh, if_pos hh⟩)
        · refine .inr (.inr ⟨_, if_neg hh, if_neg hh⟩)
  · intro data i s s' r h
    unfold Bup.fceBody at h
    cases h1 : index data i with
    | error e => rw [h1] at h; cases h
    | ok v =>
      rw [h1] at h
      cases h2 : (if i ≥ p.windowLen then index data (i - p.windowLen) else .ok 0) with
      | error e => rw [h2] at h; cases h
      | ok v' =>
        rw [h2] at h
        by_cases hh : (s.state.add p.windowLen v' v).atSplit = true
        · have h' := (if_pos hh).symm.trans h
          cases h'
          simp
        · have h' := (if_neg hh).symm.trans h
          cases h'

example : (fceAll (Bup.chunk (Bup.RollSum.withWindow 8)) (Bup.chunk (Bup.RollSum.withWindow 8)).init [] [sampleBup.take 1, [], (sampleBup.drop 1).take 2, sampleBup.drop 3]).map (·.2) =
    .ok (some 8, 8) := by decide +kernel

/-- C79. Gzip, any window and modulus (with `modulus = 0` every call that looks at a byte panics, in one piece or not). -/
theorem C79_gzip (p : Gzip.GzipRsyncable) :
    FceSplit (Gzip.chunk p) (fun st data => st.offset ≤ data.length) ∧
    BufferFree (Gzip.chunk p) (fun st data => st.offset ≤ data.length) := by
  have addEq : ∀ (st : Gzip.GzipRsyncableState) (x y : Bytes) (i j : Nat) (v : UInt8),
      (i ≥ p.windowLen ↔ j ≥ p.windowLen) → (i ≥ p.windowLen → index x (i - p.windowLen) = index y (j - p.windowLen)) →
      st.add x p i v = st.add y p j v := by
    intro st x y i j v h1 h2
    unfold Gzip.GzipRsyncableState.add
    by_cases h : i ≥ p.windowLen
    · rw [if_pos h, if_pos (h1.1 h), h2 h]
    · rw [if_neg h, if_neg (fun g => h (h1.2 g))]
  refine fceSplit_window (A := Gzip.chunk p) p.windowLen (fun st => st.offset) (fun st o => { st with offset := o })
    (fun _ _ => rfl) (fun _ _ _ => rfl) rfl rfl (Gzip.fceBody p) ?_ ?_ ?_ ?_
  · intro st data
    show Gzip.GzipRsyncable.findChunkEdge p st data = _
    rw [Gzip.fce_eq]
    show _ = finishWindow _ _ _ (forRange (Gzip.fceBody p data) (data.length - st.offset) st.offset st)
    rcases forRange (Gzip.fceBody p data) (data.length - st.offset) st.offset st with e | (s' | ⟨s', r⟩) <;> rfl
  · intro a b i s hi
    unfold Gzip.fceBody
    rw [index_append b hi]
    cases index a i with
    | error e => rfl
    | ok v =>
      simp only []
      rw [addEq s.state (a ++ b) a i i v Iff.rfl (fun h => index_append b (by omega))]
  · intro data d i s o hi hW
    unfold Gzip.fceBody
    rw [index_drop data d i]
    cases index data (d + i) with
    | error e => exact .inl ⟨e, rfl, rfl⟩
    | ok v =>
      simp only []
      rw [addEq s.state data (data.drop d) (d + i) i v
        (by rcases hW with h | h <;> omega)
        (fun h => by rw [index_drop]; congr 1; rcases hW with h | h <;> omega)]
      cases s.state.add (data.drop d) p i v with
      | error e => exact .inl ⟨e, rfl, rfl⟩
      | ok x =>
        obtain ⟨st, hit⟩ := x
        cases hit with
        | true => exact .inr (.inl ⟨_, (some (i + 1), i + 1), rfl, rfl⟩)
        | false => exact .inr (.inr ⟨_, rfl, rfl⟩)
  · intro data i s s' r h
    unfold Gzip.fceBody at h
    cases h1 : index data i with
    | error e => rw [h1] at h; cases h
    | ok v =>
      rw [h1] at h
      simp only [] at h
      cases h2 : s.state.add data p i v with
      | error e => rw [h2] at h; cases h
      | ok x =>
        rw [h2] at h
        obtain ⟨st, hit⟩ := x
        cases hit with
        | true => cases h; simp
        | false => cases h

example : (fceAll (Gzip.chunk Ex.gzip3) (Gzip.chunk Ex.gzip3).init [] [sample.take 1, [], (sample.drop 1).take 2, sample.drop 3]).map (·.2) =
    .ok (some 5, 5) := by decide +kernel

/-- C79. BuzHash, any `k`. -/
theorem C79_buzhash (p : Buzhash.BuzHash) :
    FceSplit (Buzhash.chunk p) (fun st data => st.offset ≤ data.length) ∧
    BufferFree (Buzhash.chunk p) (fun st data => st.offset ≤ data.length) := by
  have addEq : ∀ (st : Buzhash.BuzHashState) (x y : Bytes) (i j : Nat), index x i = index y j →
      (i ≥ p.k ↔ j ≥ p.k) → (i ≥ p.k → index x (i - p.k) = index y (j - p.k)) →
      st.addBuf x p i = st.addBuf y p j := by
    intro st x y i j h0 h1 h2
    unfold Buzhash.BuzHashState.addBuf
    by_cases h : i ≥ p.k
    · rw [if_pos h, if_pos (h1.1 h), h2 h, h0]
    · rw [if_neg h, if_neg (fun g => h (h1.2 g)), h0]
  refine fceSplit_window (A := Buzhash.chunk p) p.k (fun st => st.offset) (fun st o => { st with offset := o })
    (fun _ _ => rfl) (fun _ _ _ => rfl) rfl rfl (Buzhash.fceBody p) ?_ ?_ ?_ ?_
  · intro st data
    show Buzhash.BuzHash.findChunkEdge p st data = _
    rw [Buzhash.fce_eq]
    show _ = finishWindow _ _ _ (forRange (Buzhash.fceBody p data) (data.length - st.offset) st.offset st)
    rcases forRange (Buzhash.fceBody p data) (data.length - st.offset) st.offset st with e | (s' | ⟨s', r⟩) <;> rfl
  · intro a b i s hi
    unfold Buzhash.fceBody
    rw [addEq s.state (a ++ b) a i i (index_append b hi) Iff.rfl (fun h => index_append b (by omega))]
  · intro data d i s o hi hW
    unfold Buzhash.fceBody
    rw [addEq s.state data (data.drop d) (d + i) i (index_drop data d i).symm
      (by rcases hW with h | h <;> omega)
      (fun h => by rw [index_drop]; congr 1; rcases hW with h | h <;> omega)]
    cases s.state.addBuf (data.drop d) p i with
    | error e => exact .inl ⟨e, rfl, rfl⟩
    | ok st =>
      by_cases hh : st.h &&& p.mask = p.mask
      · exact .inr (.inl ⟨_, (some (i + 1), i + 1), if_pos hh, if_pos hh⟩)
      · exact .inr (.inr ⟨_, if_neg hh, if_neg hh⟩)
  · intro data i s s' r h
    unfold Buzhash.fceBody at h
    cases h2 : s.state.addBuf data p i with
    | error e => rw [h2] at h; cases h
    | ok st =>
      rw [h2] at h
      by_cases hh : st.h &&& p.mask = p.mask
      · have h' := (if_pos hh).symm.trans h
        cases h'
        simp
      · have h' := (if_neg hh).symm.trans h
        cases h'

example : (fceAll (Buzhash.chunk Ex.buz) (Buzhash.chunk Ex.buz).init [] [sample.take 1, [], (sample.drop 1).take 2, sample.drop 3]).map (·.2) =
    .ok (some 8, 8) := by decide +kernel

/-- Zstd (default parameters): the bytes to discard after a cut depend on how much was in the buffer. -/
theorem C79_zstd_refuted (ok : (Zstd.chunk Ex.zstd).State → Bytes → Prop) (h0 : ok (Zstd.chunk Ex.zstd).init []) :
    ¬ FceSplit (Zstd.chunk Ex.zstd) ok := by
  intro h
  have ho : ok (Zstd.chunk Ex.zstd).init (zdata.take 33) := h.grows _ [] (zdata.take 33) h0
  have h1 : ((Zstd.chunk Ex.zstd).fce (Zstd.chunk Ex.zstd).init (zdata.take 33)).toOption.map (fun x => x.2) =
      some (some 33, 1) := by decide +kernel
  have h2 : ((Zstd.chunk Ex.zstd).fce (Zstd.chunk Ex.zstd).init (zdata.take 33 ++ zdata.drop 33)).toOption.map (fun x => x.2) =
      some (some 33, 33) := by decide +kernel
  rcases hf : (Zstd.chunk Ex.zstd).fce (Zstd.chunk Ex.zstd).init (zdata.take 33) with e | ⟨st, r, d⟩
  · rw [hf] at h1; cases h1
  · rw [hf] at h1
    cases h1
    rw [h.cut _ _ (zdata.drop 33) _ _ _ ho hf] at h2
    cases h2

end HashRoll.Props
