import Verif.Props.Conformance
import Verif.Props.Zstd
/-!
# C73: `push` does not see slice boundaries, from any state

The conformance theorems (C21 to C30) speak about chunkers as the constructors create them, fed according to the
contract. Here: two calls of `push` in a row are one call on the concatenation, whatever state the chunker is in and
whatever the parameters are (also those for which `push` panics).
-/

namespace HashRoll.Spec

/-- C73. `push` on `a` and then, if there was no cut, on `b` is `push` on `a ++ b`: same panic, same result (as an
index into `a ++ b`), same state afterwards. -/
structure SplitLaw (C : ChunkIncr) (ok : C.State → Prop) : Prop where
  panic : ∀ st a b e, ok st → C.push st a = .error e → C.push st (a ++ b) = .error e
  cut   : ∀ st a b st' k, ok st → C.push st a = .ok (st', some k) → C.push st (a ++ b) = .ok (st', some k)
  more  : ∀ st a b st', ok st → C.push st a = .ok (st', none) →
    C.push st (a ++ b) = (C.push st' b).map fun x => (x.1, x.2.map (a.length + ·))

/-- the slices one after the other, up to the first cut; the result as an index into their concatenation -/
def pushAll (C : ChunkIncr) : C.State → List Bytes → R (C.State × Option Nat)
  | st, [] => .ok (st, none)
  | st, a :: as =>
    match C.push st a with
    | .error e => .error e
    | .ok (st', some k) => .ok (st', some k)
    | .ok (st', none) => (pushAll C st' as).map fun x => (x.1, x.2.map (a.length + ·))

/-- C73. Any slicing of any data. -/
def SliceFree (C : ChunkIncr) (ok : C.State → Prop) : Prop :=
  (∀ st, ok st → C.push st [] = .ok (st, none)) ∧
  ∀ st as, ok st → pushAll C st as = C.push st as.flatten

/-- `ok` is kept by `push` -/
def Kept (C : ChunkIncr) (ok : C.State → Prop) : Prop := ∀ st data st' r, ok st → C.push st data = .ok (st', r) → ok st'

theorem SplitLaw.sliceFree {C : ChunkIncr} {ok : C.State → Prop} (h : SplitLaw C ok) (hk : Kept C ok)
    (h0 : ∀ st, ok st → C.push st [] = .ok (st, none)) : SliceFree C ok := by
  refine ⟨h0, fun st as => ?_⟩
  induction as generalizing st with
  | nil => intro ho; rw [List.flatten_nil, h0 st ho]; rfl
  | cons a as ih =>
    intro ho
    rw [pushAll, List.flatten_cons]
    cases hp : C.push st a with
    | error e => exact (h.panic st a _ e ho hp).symm
    | ok x =>
      obtain ⟨st', r⟩ := x
      cases r with
      | some k => exact (h.cut st a _ st' k ho hp).symm
      | none => rw [h.more st a _ st' ho hp, ← ih st' (hk _ _ _ _ ho hp)]

/-! ### loops -/

variable {σ : Type}

/-- what `push` makes of its loop -/
def finish : R (Flow σ (Option Nat)) → R (σ × Option Nat)
  | .error e => .error e
  | .ok (.ret s r) => .ok (s, r)
  | .ok (.next s)  => .ok (s, none)

/-- indices counted from `n` bytes earlier -/
def shiftFlow (n : Nat) : R (Flow σ (Option Nat)) → R (Flow σ (Option Nat))
  | .error e => .error e
  | .ok (.ret s r) => .ok (.ret s (r.map (n + ·)))
  | .ok (.next s)  => .ok (.next s)

theorem forEnum_append {ρ : Type} (body : Nat → UInt8 → σ → R (Flow σ ρ)) (a b : Bytes) (i : Nat) (s : σ) :
    (∃ e, forEnum body i a s = .error e ∧ forEnum body i (a ++ b) s = .error e) ∨
    (∃ s' r, forEnum body i a s = .ok (.ret s' r) ∧ forEnum body i (a ++ b) s = .ok (.ret s' r)) ∨
    (∃ s', forEnum body i a s = .ok (.next s') ∧ forEnum body i (a ++ b) s = forEnum body (i + a.length) b s') := by
  induction a generalizing i s with
  | nil => exact .inr (.inr ⟨s, rfl, rfl⟩)
  | cons v vs ih =>
    rw [List.cons_append, forEnum, forEnum]
    rcases body i v s with e | (s' | ⟨s', r⟩)
    · exact .inl ⟨e, rfl, rfl⟩
    · rw [show i + (v :: vs).length = i + 1 + vs.length by simp; omega]
      exact ih (i + 1) s'
    · exact .inr (.inl ⟨s', r, rfl, rfl⟩)

theorem forEnum_shift {body body' : Nat → UInt8 → σ → R (Flow σ (Option Nat))} {P : σ → Prop} {n : Nat}
    (hb : ∀ i v s, P s → body (n + i) v s = shiftFlow n (body' i v s))
    (hP : ∀ i v s s', P s → body' i v s = .ok (.next s') → P s') (data : Bytes) (i : Nat) (s : σ) (hs : P s) :
    forEnum body (n + i) data s = shiftFlow n (forEnum body' i data s) := by
  induction data generalizing i s with
  | nil => rfl
  | cons v vs ih =>
    rw [forEnum, forEnum, hb i v s hs]
    rcases hv : body' i v s with e | (s' | ⟨s', r⟩)
    · rfl
    · exact ih (i + 1) s' (hP _ _ _ _ hs hv)
    · rfl

theorem splitLaw_loop {C : ChunkIncr} (body : Nat → UInt8 → C.State → R (Flow C.State (Option Nat)))
    (hp : ∀ st data, C.push st data = finish (forEnum body 0 data st))
    (hb : ∀ n i v s, body (n + i) v s = shiftFlow n (body i v s))
    (hr : ∀ i v s s' r, body i v s = .ok (.ret s' r) → r ≠ none) :
    SplitLaw C (fun _ => True) ∧ SliceFree C (fun _ => True) := by
  have hret : ∀ data i s s', forEnum body i data s ≠ .ok (.ret s' none) := by
    intro data
    induction data with
    | nil => intro i s s' h; cases h
    | cons v vs ih =>
      intro i s s' h
      rw [forEnum] at h
      rcases hv : body i v s with e | (s1 | ⟨s1, r⟩)
      · rw [hv] at h; cases h
      · rw [hv] at h; exact ih _ _ _ h
      · rw [hv] at h; cases h; exact hr _ _ _ _ _ hv rfl
  have hlaw : SplitLaw C (fun _ => True) := by
    refine ⟨?_, ?_, ?_⟩
    · intro st a b e _ h
      rw [hp] at h ⊢
      rcases forEnum_append body a b 0 st with ⟨e', h1, h2⟩ | ⟨s', r, h1, h2⟩ | ⟨s', h1, h2⟩
      · rw [h1] at h; rw [h2]; exact h
      · rw [h1] at h; cases h
      · rw [h1] at h; cases h
    · intro st a b st' k _ h
      rw [hp] at h ⊢
      rcases forEnum_append body a b 0 st with ⟨e', h1, h2⟩ | ⟨s', r, h1, h2⟩ | ⟨s', h1, h2⟩
      · rw [h1] at h; cases h
      · rw [h1] at h; rw [h2]; exact h
      · rw [h1] at h; cases h
    · intro st a b st' _ h
      rw [hp] at h ⊢
      rw [hp]
      rcases forEnum_append body a b 0 st with ⟨e', h1, h2⟩ | ⟨s', r, h1, h2⟩ | ⟨s', h1, h2⟩
      · rw [h1] at h; cases h
      · rw [h1] at h; cases h; exact absurd h1 (hret _ _ _ _)
      · rw [h1] at h
        cases h
        rw [h2, Nat.zero_add, ← Nat.add_zero a.length,
          forEnum_shift (P := fun _ => True) (fun i v s _ => hb a.length i v s) (fun _ _ _ _ _ _ => trivial) b 0 _ trivial]
        rcases forEnum body 0 b st' with e | (s' | ⟨s', r⟩) <;> rfl
  exact ⟨hlaw, hlaw.sliceFree (fun _ _ _ _ _ _ => trivial) fun st _ => by rw [hp]; rfl⟩

end HashRoll.Spec

namespace HashRoll.Props
open HashRoll.Spec

theorem C73_gear (p : Gear.Gear32) : SplitLaw (Gear.incr p) (fun _ => True) ∧ SliceFree (Gear.incr p) (fun _ => True) := by
  refine splitLaw_loop (C := Gear.incr p) Gear.pushBody ?_ ?_ ?_
  · intro st data
    show Gear.GearIncr32.push st data = _
    rw [Gear.push_eq]
    rcases forEnum Gear.pushBody 0 data st with e | (s' | ⟨s', r⟩) <;> rfl
  · intro n i v s
    simp only [Gear.pushBody]
    split <;> rfl
  · intro i v s s' r h
    simp only [Gear.pushBody] at h
    split at h <;> cases h
    simp

example : (pushAll (Gear.incr Ex.gear2) (Gear.incr Ex.gear2).init [sample.take 1, [], (sample.drop 1).take 2, sample.drop 3]).map (·.2) =
    .ok (some 1) := by decide +kernel

theorem C73_pigz (p : Pigz.PigzRsyncable) :
    SplitLaw (Pigz.incr p) (fun _ => True) ∧ SliceFree (Pigz.incr p) (fun _ => True) := by
  refine splitLaw_loop (C := Pigz.incr p) Pigz.pushBody ?_ ?_ ?_
  · intro st data
    show Pigz.PigzRsyncableIncr.push st data = _
    rw [Pigz.push_eq]
    rcases forEnum Pigz.pushBody 0 data st with e | (s' | ⟨s', r⟩) <;> rfl
  · intro n i v s
    simp only [Pigz.pushBody]
    split <;> rfl
  · intro i v s s' r h
    simp only [Pigz.pushBody] at h
    split at h <;> cases h
    simp

example : (pushAll (Pigz.incr Ex.pigz2) (Pigz.incr Ex.pigz2).init [sample.take 1, [], (sample.drop 1).take 2, sample.drop 3]).map (·.2) =
    .ok (some 1) := by decide +kernel

theorem C73_mii (p : Mii.Mii) : SplitLaw (Mii.incr p) (fun _ => True) ∧ SliceFree (Mii.incr p) (fun _ => True) := by
  refine splitLaw_loop (C := Mii.incr p) Mii.body ?_ ?_ ?_
  · intro st data
    show Mii.MiiIncr.push st data = _
    rw [Mii.push_eq]
    rcases forEnum Mii.body 0 data st with e | (s' | ⟨s', r⟩) <;> rfl
  · intro n i v s
    simp only [Mii.body]
    repeat' split
    all_goals rfl
  · intro i v s s' r h
    simp only [Mii.body] at h
    repeat' split at h
    all_goals cases h
    simp

example : (pushAll (Mii.incr (Mii.Mii.withW 2)) (Mii.incr (Mii.Mii.withW 2)).init [sample.take 1, [], (sample.drop 1).take 2, sample.drop 3]).map (·.2) =
    .ok (some 6) := by decide +kernel

theorem C73_zpaq (p : Zpaq.Zpaq) : SplitLaw (Zpaq.incr p) (fun _ => True) ∧ SliceFree (Zpaq.incr p) (fun _ => True) := by
  refine splitLaw_loop (C := Zpaq.incr p) Zpaq.pushBody ?_ ?_ ?_
  · intro st data
    show Zpaq.ZpaqIncr.push st data = _
    rw [Zpaq.push_eq]
    rcases forEnum Zpaq.pushBody 0 data st with e | (s' | ⟨s', r⟩) <;> rfl
  · intro n i v s
    simp only [Zpaq.pushBody]
    split <;> rfl
  · intro i v s s' r h
    simp only [Zpaq.pushBody] at h
    split at h <;> cases h
    simp

example : (pushAll (Zpaq.incr Ex.zpaq) (Zpaq.incr Ex.zpaq).init [sample.take 1, [], (sample.drop 1).take 2, sample.drop 3]).map (·.2) =
    .ok (some 2) := by decide +kernel

/-- also with modulus or window 0, where `push` panics -/
theorem C73_gzip (p : Gzip.GzipRsyncable) :
    SplitLaw (Gzip.incr p) (fun _ => True) ∧ SliceFree (Gzip.incr p) (fun _ => True) := by
  refine splitLaw_loop (C := Gzip.incr p) Gzip.pushBody ?_ ?_ ?_
  · intro st data
    show Gzip.GzipRsyncableIncr.push st data = _
    rw [Gzip.push_eq]
    rcases forEnum Gzip.pushBody 0 data st with e | (s' | ⟨s', r⟩) <;> rfl
  · intro n i v s
    simp only [Gzip.pushBody]
    split
    · rfl
    · split <;> rfl
  · intro i v s s' r h
    simp only [Gzip.pushBody] at h
    split at h
    · cases h
    · split at h <;> cases h
      simp

example : (pushAll (Gzip.incr Ex.gzip3) (Gzip.incr Ex.gzip3).init [sample.take 1, [], (sample.drop 1).take 2, sample.drop 3]).map (·.2) =
    .ok (some 5) := by decide +kernel

/-- any window, also those that are not powers of two -/
theorem C73_rollsum (p : Bup.RollSum) :
    SplitLaw (Bup.incr p) (fun _ => True) ∧ SliceFree (Bup.incr p) (fun _ => True) := by
  refine splitLaw_loop (C := Bup.incr p) Bup.pushBody ?_ ?_ ?_
  · intro st data
    show Bup.RollSumIncr.push st data = _
    rw [Bup.push_eq]
    rcases forEnum Bup.pushBody 0 data st with e | (s' | ⟨s', r⟩) <;> rfl
  · intro n i v s
    simp only [Bup.pushBody]
    split
    · rfl
    · split <;> rfl
  · intro i v s s' r h
    simp only [Bup.pushBody] at h
    split at h
    · cases h
    · split at h <;> cases h
      simp

example : (pushAll (Bup.incr (Bup.RollSum.withWindow 8)) (Bup.incr (Bup.RollSum.withWindow 8)).init [sampleBup.take 1, [], (sampleBup.drop 1).take 2, sampleBup.drop 3]).map (·.2) =
    .ok (some 8) := by decide +kernel

theorem C73_buzhash (p : Buzhash.BuzHash) :
    SplitLaw (Buzhash.incr p) (fun _ => True) ∧ SliceFree (Buzhash.incr p) (fun _ => True) := by
  refine splitLaw_loop (C := Buzhash.incr p) Buzhash.pushBody ?_ ?_ ?_
  · intro st data
    show Buzhash.BuzHashIncr.push st data = _
    rw [Buzhash.push_eq]
    rcases forEnum Buzhash.pushBody 0 data st with e | (s' | ⟨s', r⟩) <;> rfl
  · intro n i v s
    simp only [Buzhash.pushBody]
    split
    · rfl
    · repeat' split
      all_goals rfl
  · intro i v s s' r h
    simp only [Buzhash.pushBody] at h
    split at h
    · cases h
    · repeat' split at h
      all_goals cases h
      all_goals simp

example : (pushAll (Buzhash.incr Ex.buz) (Buzhash.incr Ex.buz).init [sample.take 1, [], (sample.drop 1).take 2, sample.drop 3]).map (·.2) =
    .ok (some 7) := by decide +kernel

/-! ### Ram -/

theorem ram_loop (w i n x y : Nat) (data : Bytes) (j : Nat) (m : UInt8) :
    (∃ m', forEnum (Ram.body w i) (n + j) data ⟨x, m⟩ = .ok (.next ⟨x, m'⟩) ∧
      forEnum (Ram.body w (i + n)) j data ⟨y, m⟩ = .ok (.next ⟨y, m'⟩)) ∨
    (∃ k, forEnum (Ram.body w i) (n + j) data ⟨x, m⟩ = .ok (.ret ⟨0, 0⟩ (some (n + k))) ∧
      forEnum (Ram.body w (i + n)) j data ⟨y, m⟩ = .ok (.ret ⟨0, 0⟩ (some k))) := by
  induction data generalizing j m with
  | nil => exact .inl ⟨m, rfl, rfl⟩
  | cons v vs ih =>
    by_cases h1 : v ≥ m
    · by_cases h2 : j + (i + n) > w
      · right
        refine ⟨j, ?_, ?_⟩
        · rw [forEnum, show Ram.body w i (n + j) v ⟨x, m⟩ = .ok (.ret ⟨0, 0⟩ (some (n + j))) by
            simp only [Ram.body, if_pos h1, if_pos (show n + j + i > w by omega)]]
        · rw [forEnum, show Ram.body w (i + n) j v ⟨y, m⟩ = .ok (.ret ⟨0, 0⟩ (some j)) by
            simp only [Ram.body, if_pos h1, if_pos h2]]
      · rw [forEnum, show Ram.body w i (n + j) v ⟨x, m⟩ = .ok (.next ⟨x, v⟩) by
            simp only [Ram.body, if_pos h1, if_neg (show ¬ n + j + i > w by omega)],
          forEnum, show Ram.body w (i + n) j v ⟨y, m⟩ = .ok (.next ⟨y, v⟩) by
            simp only [Ram.body, if_pos h1, if_neg h2]]
        exact ih (j + 1) v
    · rw [forEnum, show Ram.body w i (n + j) v ⟨x, m⟩ = .ok (.next ⟨x, m⟩) by
          simp only [Ram.body, if_neg h1],
        forEnum, show Ram.body w (i + n) j v ⟨y, m⟩ = .ok (.next ⟨y, m⟩) by
          simp only [Ram.body, if_neg h1]]
      exact ih (j + 1) m

theorem C73_ram (p : Ram.Ram) : SplitLaw (Ram.incr p) (fun _ => True) ∧ SliceFree (Ram.incr p) (fun _ => True) := by
  have hlaw : SplitLaw (Ram.incr p) (fun _ => True) := by
    have key : ∀ (q : Ram.Ram) (x : Nat) (m : UInt8) (a b : Bytes),
        (∃ k, Ram.RamIncr.push ⟨q, ⟨x, m⟩⟩ a = .ok (⟨q, ⟨0, 0⟩⟩, some k) ∧
          Ram.RamIncr.push ⟨q, ⟨x, m⟩⟩ (a ++ b) = .ok (⟨q, ⟨0, 0⟩⟩, some k)) ∨
        (∃ st', Ram.RamIncr.push ⟨q, ⟨x, m⟩⟩ a = .ok (st', none) ∧ Ram.RamIncr.push ⟨q, ⟨x, m⟩⟩ (a ++ b) =
          (Ram.RamIncr.push st' b).map fun x => (x.1, x.2.map (a.length + ·))) := by
      intro q x m a b
      simp only [Ram.RamIncr.push, Ram.push_eq]
      rcases ram_loop q.w x 0 x x a 0 m with ⟨m', h1, -⟩ | ⟨k, h1, -⟩ <;> simp only [Nat.zero_add] at h1
      · right
        rw [h1]
        refine ⟨⟨q, ⟨x + a.length, m'⟩⟩, rfl, ?_⟩
        rcases forEnum_append (Ram.body q.w x) a b 0 ⟨x, m⟩ with ⟨e', g1, g2⟩ | ⟨s', r, g1, g2⟩ | ⟨s', g1, g2⟩
        · rw [h1] at g1; cases g1
        · rw [h1] at g1; cases g1
        · rw [h1] at g1; cases g1
          rw [g2, Nat.zero_add, ← Nat.add_zero a.length]
          rcases ram_loop q.w x a.length x (x + a.length) b 0 m' with ⟨m2, f1, f2⟩ | ⟨k, f1, f2⟩
          · rw [f1]; simp only [Nat.add_zero]; rw [f2]
            simp [Except.map, Nat.add_assoc]
          · rw [f1]; simp only [Nat.add_zero]; rw [f2]
            simp [Except.map]
      · left
        refine ⟨k, by rw [h1], ?_⟩
        rcases forEnum_append (Ram.body q.w x) a b 0 ⟨x, m⟩ with ⟨e', g1, g2⟩ | ⟨s', r, g1, g2⟩ | ⟨s', g1, g2⟩
        · rw [h1] at g1; cases g1
        · rw [h1] at g1; cases g1; rw [g2]
        · rw [h1] at g1; cases g1
    refine ⟨?_, ?_, ?_⟩
    · rintro ⟨q, ⟨x, m⟩⟩ a b e - h
      change Ram.RamIncr.push _ _ = _ at h
      show Ram.RamIncr.push _ _ = _
      rcases key q x m a b with ⟨k, h1, h2⟩ | ⟨st', h1, h2⟩ <;> · rw [h1] at h; cases h
    · rintro ⟨q, ⟨x, m⟩⟩ a b st' k - h
      change Ram.RamIncr.push _ _ = _ at h
      show Ram.RamIncr.push _ _ = _
      rcases key q x m a b with ⟨k, h1, h2⟩ | ⟨st', h1, h2⟩
      · rw [h1] at h; rw [h2]; exact h
      · rw [h1] at h; cases h
    · rintro ⟨q, ⟨x, m⟩⟩ a b st' - h
      change Ram.RamIncr.push _ _ = _ at h
      show Ram.RamIncr.push _ _ = _
      rcases key q x m a b with ⟨k, h1, h2⟩ | ⟨st', h1, h2⟩
      · rw [h1] at h; cases h
      · rw [h1] at h; cases h; exact h2
  refine ⟨hlaw, hlaw.sliceFree (fun _ _ _ _ _ _ => trivial) fun st _ => ?_⟩
  obtain ⟨q, ⟨x, m⟩⟩ := st
  rfl

example : (pushAll (Ram.incr (Ram.Ram.withW 2)) (Ram.incr (Ram.Ram.withW 2)).init [sample.take 1, [], (sample.drop 1).take 2, sample.drop 3]).map (·.2) =
    .ok (some 4) := by decide +kernel

/-! ### FastCdc -/

/-- both loops of `push` at once -/
def fcScan (p : FastCdc.FastCdc) : Bytes → Nat → Nat → BitVec 64 → FastCdc.Loop
  | [],      gi, i, fp => if gi ≥ p.maxSize then .ret i else .done gi i fp
  | v :: vs, gi, i, fp =>
    if gi < p.normalSize then
      let fp := (fp <<< 1) + lookup p.gear v
      if fp &&& FastCdc.maskS = 0 then .ret i else fcScan p vs (gi + 1) (i + 1) fp
    else if gi ≥ p.maxSize then .ret i
    else
      let fp := (fp <<< 1) + lookup p.gear v
      if fp &&& FastCdc.maskL = 0 then .ret i else fcScan p vs (gi + 1) (i + 1) fp

theorem fcScan_late (p : FastCdc.FastCdc) (data : Bytes) (gi i : Nat) (fp : BitVec 64) (h : p.normalSize ≤ gi) :
    fcScan p data gi i fp = FastCdc.loop2 p data gi i fp := by
  induction data generalizing gi i fp with
  | nil => rfl
  | cons v vs ih =>
    rw [fcScan, FastCdc.loop2, if_neg (by omega)]
    split
    · rfl
    · simp only []
      split
      · rfl
      · exact ih _ _ _ (by omega)

theorem fcScan_loops (p : FastCdc.FastCdc) (hp : p.normalSize ≤ p.maxSize) (data : Bytes) (gi i : Nat) (fp : BitVec 64) :
    fcScan p data gi i fp = match FastCdc.loop1 p data gi i fp with
      | .ret k => .ret k
      | .done gi' i' fp' => FastCdc.loop2 p (data.drop (i' - i)) gi' i' fp' := by
  have hge : ∀ data gi i fp gi' i' fp', FastCdc.loop1 p data gi i fp = .done gi' i' fp' → i ≤ i' := by
    intro data
    induction data with
    | nil => intro gi i fp gi' i' fp' h; cases h; exact Nat.le_refl _
    | cons v vs ih =>
      intro gi i fp gi' i' fp' h
      rw [FastCdc.loop1] at h
      split at h
      · cases h; exact Nat.le_refl _
      · simp only [] at h
        split at h
        · cases h
        · have := ih _ _ _ _ _ _ h; omega
  induction data generalizing gi i fp with
  | nil => simp only [FastCdc.loop1, List.drop_nil]; rfl
  | cons v vs ih =>
    by_cases hn : gi ≥ p.normalSize
    · rw [fcScan_late p _ _ _ _ hn, FastCdc.loop1, if_pos hn]
      simp only [Nat.sub_self, List.drop_zero]
    · rw [fcScan, FastCdc.loop1, if_neg hn, if_pos (by omega)]
      simp only []
      split
      · rfl
      · rw [ih]
        cases hl : FastCdc.loop1 p vs (gi + 1) (i + 1) ((fp <<< 1) + lookup p.gear v) with
        | ret k => rfl
        | done gi' i' fp' =>
          have := hge _ _ _ _ _ _ _ hl
          simp only [show i' - i = (i' - (i + 1)) + 1 by omega, List.drop_succ_cons]

theorem fcScan_append (p : FastCdc.FastCdc) (hp : p.normalSize ≤ p.maxSize) (a b : Bytes) (gi i : Nat) (fp : BitVec 64) :
    (∃ k, fcScan p a gi i fp = .ret k ∧ fcScan p (a ++ b) gi i fp = .ret k) ∨
    (∃ fp', fcScan p a gi i fp = .done (gi + a.length) (i + a.length) fp' ∧
      fcScan p (a ++ b) gi i fp = fcScan p b (gi + a.length) (i + a.length) fp') := by
  induction a generalizing gi i fp with
  | nil =>
    by_cases h : gi ≥ p.maxSize
    · left
      refine ⟨i, by rw [fcScan, if_pos h], ?_⟩
      cases b with
      | nil => rw [List.append_nil, fcScan, if_pos h]
      | cons v vs => rw [List.nil_append, fcScan, if_neg (by omega), if_pos h]
    · right
      exact ⟨fp, by rw [fcScan, if_neg h]; rfl, rfl⟩
  | cons v vs ih =>
    rw [List.cons_append, fcScan, fcScan]
    split
    · simp only []
      split
      · exact .inl ⟨i, rfl, rfl⟩
      · rw [List.length_cons, show gi + (vs.length + 1) = gi + 1 + vs.length by omega,
          show i + (vs.length + 1) = i + 1 + vs.length by omega]
        exact ih _ _ _
    · split
      · exact .inl ⟨i, rfl, rfl⟩
      · simp only []
        split
        · exact .inl ⟨i, rfl, rfl⟩
        · rw [List.length_cons, show gi + (vs.length + 1) = gi + 1 + vs.length by omega,
            show i + (vs.length + 1) = i + 1 + vs.length by omega]
          exact ih _ _ _

theorem fcScan_shift (p : FastCdc.FastCdc) (n : Nat) (b : Bytes) (gi i : Nat) (fp : BitVec 64) :
    (∃ k, fcScan p b gi i fp = .ret k ∧ fcScan p b gi (n + i) fp = .ret (n + k)) ∨
    (∃ gi' i' fp', fcScan p b gi i fp = .done gi' i' fp' ∧ fcScan p b gi (n + i) fp = .done gi' (n + i') fp') := by
  induction b generalizing gi i fp with
  | nil =>
    rw [fcScan, fcScan]
    split
    · exact .inl ⟨i, rfl, rfl⟩
    · exact .inr ⟨_, _, _, rfl, rfl⟩
  | cons v vs ih =>
    rw [fcScan, fcScan]
    split
    · simp only []
      split
      · exact .inl ⟨i, rfl, rfl⟩
      · rw [Nat.add_assoc]; exact ih _ _ _
    · split
      · exact .inl ⟨i, rfl, rfl⟩
      · simp only []
        split
        · exact .inl ⟨i, rfl, rfl⟩
        · rw [Nat.add_assoc]; exact ih _ _ _

theorem fc_push (p : FastCdc.FastCdc) (hp : p.normalSize ≤ p.maxSize) (st : FastCdc.FastCdcState) (data : Bytes) :
    st.push p data = if st.l + data.length ≤ p.minSize then ({ st with l := st.l + data.length }, none)
      else match fcScan p (data.drop (p.minSize - st.l)) (st.l + (p.minSize - st.l)) (p.minSize - st.l) st.fp with
        | .ret i => (FastCdc.FastCdcState.default, some i)
        | .done _ _ fp => ({ l := st.l + data.length, fp := fp }, none) := by
  rw [FastCdc.FastCdcState.push]
  simp only [Nat.add_comm data.length st.l,
    show (if st.l ≤ p.minSize then p.minSize - st.l else 0) = p.minSize - st.l by split <;> omega]
  split
  · rfl
  · rw [fcScan_loops p hp]
    have hi : ∀ data gi i fp gi' i' fp', FastCdc.loop1 p data gi i fp = .done gi' i' fp' → i ≤ i' := by
      intro data
      induction data with
      | nil => intro gi i fp gi' i' fp' h; cases h; exact Nat.le_refl _
      | cons v vs ih =>
        intro gi i fp gi' i' fp' h
        rw [FastCdc.loop1] at h
        split at h
        · cases h; exact Nat.le_refl _
        · simp only [] at h
          split at h
          · cases h
          · have := ih _ _ _ _ _ _ h; omega
    cases hl : FastCdc.loop1 p (data.drop (p.minSize - st.l)) (st.l + (p.minSize - st.l)) (p.minSize - st.l) st.fp with
    | ret k => rfl
    | done gi' i' fp' =>
      have := hi _ _ _ _ _ _ _ hl
      simp only [List.drop_drop, show p.minSize - st.l + (i' - (p.minSize - st.l)) = i' by omega]
      cases FastCdc.loop2 p (data.drop i') gi' i' fp' <;> rfl

/-- the split law of `FastCdcState::push` -/
theorem fc_split (p : FastCdc.FastCdc) (hp : p.normalSize ≤ p.maxSize) (st : FastCdc.FastCdcState) (a b : Bytes) :
    (∃ k, st.push p a = (FastCdc.FastCdcState.default, some k) ∧
      st.push p (a ++ b) = (FastCdc.FastCdcState.default, some k)) ∨
    (∃ st', st.push p a = (st', none) ∧
      st.push p (a ++ b) = ((st'.push p b).1, (st'.push p b).2.map (a.length + ·))) := by
  rw [fc_push p hp st a, fc_push p hp st (a ++ b)]
  by_cases h1 : st.l + a.length ≤ p.minSize
  · right
    refine ⟨_, if_pos h1, ?_⟩
    rw [fc_push p hp _ b]
    simp only [List.length_append]
    by_cases h2 : st.l + a.length + b.length ≤ p.minSize
    · rw [if_pos (by omega), if_pos h2, Nat.add_assoc]; rfl
    · rw [if_neg (by omega), if_neg h2]
      have e1 : p.minSize - st.l = a.length + (p.minSize - (st.l + a.length)) := by omega
      rw [show (a ++ b).drop (p.minSize - st.l) = b.drop (p.minSize - (st.l + a.length)) by
          rw [e1, List.drop_append, List.drop_of_length_le (by omega)]; simp,
        show st.l + (p.minSize - st.l) = st.l + a.length + (p.minSize - (st.l + a.length)) by omega, e1]
      rcases fcScan_shift p a.length (b.drop (p.minSize - (st.l + a.length)))
        (st.l + a.length + (p.minSize - (st.l + a.length))) (p.minSize - (st.l + a.length)) st.fp with
        ⟨k, g1, g2⟩ | ⟨gi', i', fp', g1, g2⟩
      · rw [g1, g2]; rfl
      · rw [g1, g2]; simp [Nat.add_assoc]
  · rw [if_neg h1, if_neg (by simp; omega)]
    rw [show (a ++ b).drop (p.minSize - st.l) = a.drop (p.minSize - st.l) ++ b by
      rw [List.drop_append_of_le_length (by omega)]]
    rcases fcScan_append p hp (a.drop (p.minSize - st.l)) b (st.l + (p.minSize - st.l)) (p.minSize - st.l) st.fp with
      ⟨k, g1, g2⟩ | ⟨fp', g1, g2⟩
    · left
      rw [g1, g2]
      exact ⟨k, rfl, rfl⟩
    · right
      rw [g1, g2]
      refine ⟨_, rfl, ?_⟩
      rw [fc_push p hp _ b, if_neg (by simp only []; omega)]
      simp only [List.length_drop, show p.minSize - (st.l + a.length) = 0 by omega, List.drop_zero, Nat.add_zero,
        show st.l + (p.minSize - st.l) + (a.length - (p.minSize - st.l)) = st.l + a.length by omega,
        show p.minSize - st.l + (a.length - (p.minSize - st.l)) = a.length by omega]
      rw [← Nat.add_zero a.length]
      rcases fcScan_shift p a.length b (st.l + a.length) 0 fp' with ⟨k, f1, f2⟩ | ⟨gi', i', fp'', f1, f2⟩
      · simp only [Nat.add_zero] at f2 ⊢
        rw [f1, f2]; rfl
      · simp only [Nat.add_zero] at f2 ⊢
        rw [f1, f2]; simp [Nat.add_assoc]

/-- the second `normal_size` is not above `max_size` (else see `C36_max_lt_normal`), and fewer than `max_size`
bytes were seen (or not more than `min_size`): always so between calls (`C73_fastcdc_kept`) -/
def FcOk (st : FastCdc.FastCdcIncr) : Prop :=
  st.params.normalSize ≤ st.params.maxSize ∧ (st.state.l ≤ st.params.minSize ∨ st.state.l < st.params.maxSize)

theorem fcScan_done (p : FastCdc.FastCdc) (data : Bytes) (gi i : Nat) (fp : BitVec 64) {gi' i' fp'}
    (h : fcScan p data gi i fp = .done gi' i' fp') : gi' = gi + data.length ∧ gi' < p.maxSize := by
  induction data generalizing gi i fp with
  | nil =>
    rw [fcScan] at h
    split at h
    · cases h
    · cases h; exact ⟨rfl, by omega⟩
  | cons v vs ih =>
    rw [fcScan] at h
    simp only [] at h
    rw [List.length_cons]
    repeat' split at h
    all_goals first
      | (cases h; done)
      | (have := ih _ _ _ h; omega)

example : FcOk { params := Ex.fast, state := { l := 3, fp := 77 } } := ⟨by decide, .inr (by decide)⟩

/-- every constructed `FastCdcIncr` with `normal_size ≤ max_size` has the property, and `push` keeps it -/
theorem C73_fastcdc_kept (p : FastCdc.FastCdc) :
    (p.normalSize ≤ p.maxSize → FcOk (FastCdc.incr p).init) ∧ Kept (FastCdc.incr p) FcOk := by
  refine ⟨fun h => ⟨h, .inl (Nat.zero_le _)⟩, ?_⟩
  rintro ⟨q, st⟩ data st' r ⟨h1, h2⟩ h
  simp only [FastCdc.FastCdcIncr.push] at h
  cases h
  refine ⟨h1, ?_⟩
  simp only at h1 ⊢
  rw [fc_push q h1]
  split
  · rename_i h3; exact .inl h3
  · cases hs : fcScan q (data.drop (q.minSize - st.l)) (st.l + (q.minSize - st.l)) (q.minSize - st.l) st.fp with
    | ret i => exact .inl (Nat.zero_le _)
    | done gi' i' fp' =>
      right
      have := fcScan_done q _ _ _ _ hs
      simp only [List.length_drop] at this ⊢
      omega

theorem C73_fastcdc (p : FastCdc.FastCdc) : SplitLaw (FastCdc.incr p) FcOk ∧ SliceFree (FastCdc.incr p) FcOk := by
  have hlaw : SplitLaw (FastCdc.incr p) FcOk := by
    refine ⟨?_, ?_, ?_⟩
    · rintro ⟨q, st⟩ a b e - h; cases h
    · rintro ⟨q, st⟩ a b st' k ⟨hq, -⟩ h
      simp only [FastCdc.FastCdcIncr.push] at h ⊢
      rcases fc_split q hq st a b with ⟨k, h1, h2⟩ | ⟨st1, h1, h2⟩
      · rw [h1] at h; rw [h2]; exact h
      · rw [h1] at h; cases h
    · rintro ⟨q, st⟩ a b st' ⟨hq, -⟩ h
      simp only [FastCdc.FastCdcIncr.push] at h ⊢
      rcases fc_split q hq st a b with ⟨k, h1, h2⟩ | ⟨st1, h1, h2⟩
      · rw [h1] at h; cases h
      · rw [h1] at h; cases h
        rw [h2]; rfl
  refine ⟨hlaw, hlaw.sliceFree (C73_fastcdc_kept p).2 ?_⟩
  rintro ⟨q, st⟩ ⟨hq, hl⟩
  simp only [FastCdc.FastCdcIncr.push] at hq hl ⊢
  rw [fc_push q hq]
  split
  · rfl
  · rename_i h
    simp only [List.length_nil, Nat.add_zero] at h
    rw [show q.minSize - st.l = 0 by omega, List.drop_nil, fcScan, if_neg (by omega)]
    rfl

example : (pushAll (FastCdc.incr Ex.fast) (FastCdc.incr Ex.fast).init [sample.take 1, [], (sample.drop 1).take 2, sample.drop 3]).map (·.2) =
    .ok (some 4) := by decide +kernel

/-- Without `normal_size ≤ max_size` slices are seen: `max_size` 1, `normal_size` 4, two bytes at once or one by one. -/
theorem C73_fastcdc_needs_order : ∃ p : FastCdc.FastCdc, ∃ a b : Bytes,
    ((pushAll (FastCdc.incr p) (FastCdc.incr p).init [a, b]).map (·.2)).toOption ≠
      (((FastCdc.incr p).push (FastCdc.incr p).init (a ++ b)).map (·.2)).toOption :=
  ⟨FastCdc.FastCdc.new Tables.gear64 0 4 1, [1], [1], by decide +kernel⟩

/-! ### Zstd -/

/-- the window has been filled, or there is room: always so between calls (`C73_zstd_kept`) -/
def ZstdOk (st : Zstd.ZstdIncr) : Prop := st.windowFull = true ∨ st.windowOffs < st.window.length

example : ZstdOk { params := Ex.zstd, state := { hash := 5 }, window := List.replicate 32 1, windowOffs := 31, windowFull := false } :=
  .inr (by decide)

/-- the chunker after the byte that fills the window -/
def zstdFilled (st : Zstd.ZstdIncr) (x : Bytes) : Zstd.ZstdIncr :=
  { st with windowFull := true, windowOffs := 0, window := st.window.take st.windowOffs ++ x
            state := st.state.append (st.window.take st.windowOffs ++ x) }

/-- the chunker with a few more bytes in its window -/
def zstdFilling (st : Zstd.ZstdIncr) (x : Bytes) : Zstd.ZstdIncr :=
  { st with window := st.window.take st.windowOffs ++ x ++ st.window.drop (st.windowOffs + x.length)
            windowOffs := st.windowOffs + x.length }

/-- a result of `push`, counted from `n` bytes earlier -/
def shiftRes {σ : Type} (n : Nat) (x : R (σ × Option Nat)) : R (σ × Option Nat) := x.map fun x => (x.1, x.2.map (n + ·))

theorem shiftRes_add {σ : Type} (m n : Nat) (x : R (σ × Option Nat)) : shiftRes m (shiftRes n x) = shiftRes (m + n) x := by
  rcases x with e | ⟨s, _ | r⟩ <;> simp [shiftRes, Except.map, Nat.add_assoc]

theorem shiftRes_zero {σ : Type} (x : R (σ × Option Nat)) : shiftRes 0 x = x := by
  rcases x with e | ⟨s, _ | r⟩ <;> simp [shiftRes, Except.map]

theorem zstd_push_full (st : Zstd.ZstdIncr) (h : st.windowFull = true) (data : Bytes) :
    st.push data = finish (forEnum (Zstd.pushBody 0) 0 data st) := by
  simp only [Zstd.ZstdIncr.push, h, Bool.not_true, Bool.false_eq_true, if_false, Zstd.pushFull_eq, slice, Nat.zero_le,
    Nat.le_refl, and_self, if_true, List.take_length, List.drop_zero]
  rcases forEnum (Zstd.pushBody 0) 0 data st with e | (s' | ⟨s', r⟩) <;> rfl

theorem zstd_body (s : Zstd.ZstdIncr) (v : UInt8) :
    (∃ e, ∀ u i, Zstd.pushBody u i v s = .error e) ∨
    (∃ s', s'.windowFull = s.windowFull ∧ ∀ u i, Zstd.pushBody u i v s = .ok (.next s')) ∨
    (∃ s', s'.windowFull = s.windowFull ∧ ∀ u i, Zstd.pushBody u i v s = .ok (.ret s' (some (i + u)))) := by
  cases hd : index s.window s.windowOffs with
  | error e => exact .inl ⟨e, fun u i => by rw [Zstd.pushBody, hd]⟩
  | ok d =>
    cases hs : (s.state.rotate d v s.params.primePower).atSplit s.params with
    | true =>
      right; right
      refine ⟨⟨s.params, s.state.rotate d v s.params.primePower, s.window.set s.windowOffs v,
        (s.windowOffs + 1) % s.window.length, s.windowFull⟩, rfl, fun u i => ?_⟩
      rw [Zstd.pushBody, hd]
      simp only [hs, if_true]
    | false =>
      right; left
      refine ⟨⟨s.params, s.state.rotate d v s.params.primePower, s.window.set s.windowOffs v,
        (s.windowOffs + 1) % s.window.length, s.windowFull⟩, rfl, fun u i => ?_⟩
      rw [Zstd.pushBody, hd]
      simp only [hs, Bool.false_eq_true, if_false]

theorem zstd_loop_shift (u : Nat) (data : Bytes) (i n : Nat) (s : Zstd.ZstdIncr) :
    forEnum (Zstd.pushBody u) (n + i) data s = shiftFlow (n + u) (forEnum (Zstd.pushBody 0) i data s) := by
  induction data generalizing i s with
  | nil => rfl
  | cons v vs ih =>
    rw [forEnum, forEnum]
    rcases zstd_body s v with ⟨e, h⟩ | ⟨s', -, h⟩ | ⟨s', -, h⟩
    · rw [h, h]; rfl
    · rw [h, h]; exact ih (i + 1) s'
    · rw [h, h]
      simp only [shiftFlow, Option.map_some, Nat.add_zero, Nat.add_right_comm]

/-- what the loop can end with -/
theorem zstd_loop (data : Bytes) (i : Nat) (s : Zstd.ZstdIncr) :
    (∃ e, forEnum (Zstd.pushBody 0) i data s = .error e) ∨
    (∃ s', s'.windowFull = s.windowFull ∧ forEnum (Zstd.pushBody 0) i data s = .ok (.next s')) ∨
    (∃ s' k, s'.windowFull = s.windowFull ∧ forEnum (Zstd.pushBody 0) i data s = .ok (.ret s' (some k))) := by
  induction data generalizing i s with
  | nil => exact .inr (.inl ⟨s, rfl, rfl⟩)
  | cons v vs ih =>
    rw [forEnum]
    rcases zstd_body s v with ⟨e, h⟩ | ⟨s', hs, h⟩ | ⟨s', hs, h⟩
    · rw [h]; exact .inl ⟨e, rfl⟩
    · rw [h, ← hs]; exact ih (i + 1) s'
    · rw [h]; exact .inr (.inr ⟨s', _, hs, rfl⟩)

theorem zstd_push_filling (st : Zstd.ZstdIncr) (h : st.windowFull = false) (data : Bytes)
    (hd : data.length < st.window.length - st.windowOffs) : st.push data = .ok (zstdFilling st data, none) := by
  simp only [Zstd.ZstdIncr.push, h, Bool.not_false, if_true, slice, Nat.zero_le, List.drop_zero,
    show min (st.window.length - st.windowOffs) data.length = data.length by omega, Nat.le_refl, and_self,
    List.take_length, Zstd.copyInto, if_pos (show st.windowOffs + data.length ≤ st.window.length by omega)]
  rw [if_pos]
  · simp only [zstdFilling, h]
  · simp; omega

theorem zstd_push_fills (st : Zstd.ZstdIncr) (h : st.windowFull = false) (ho : st.windowOffs < st.window.length)
    (data : Bytes) (hd : st.window.length - st.windowOffs ≤ data.length) :
    st.push data = shiftRes (st.window.length - st.windowOffs)
      ((zstdFilled st (data.take (st.window.length - st.windowOffs))).push
        (data.drop (st.window.length - st.windowOffs))) := by
  rw [zstd_push_full (zstdFilled _ _) rfl]
  simp only [Zstd.ZstdIncr.push, h, Bool.not_false, if_true, slice, Nat.zero_le, List.drop_zero,
    show min (st.window.length - st.windowOffs) data.length = st.window.length - st.windowOffs by omega, hd, and_self,
    Zstd.copyInto, List.length_take,
    if_pos (show st.windowOffs + (st.window.length - st.windowOffs) ≤ st.window.length by omega)]
  rw [if_neg (by simp; omega), Zstd.pushFull_eq]
  simp only [slice, hd, Nat.le_refl, and_self, if_true, List.take_length]
  have e := zstd_loop_shift (st.window.length - st.windowOffs) (data.drop (st.window.length - st.windowOffs)) 0 0
    (zstdFilled st (data.take (st.window.length - st.windowOffs)))
  rw [Nat.zero_add, Nat.zero_add] at e
  simp only [zstdFilled] at e ⊢
  rw [show st.window.drop (st.windowOffs + (st.window.length - st.windowOffs)) = [] from
    List.drop_of_length_le (by omega), List.append_nil, e]
  rcases forEnum (Zstd.pushBody 0) 0 (data.drop (st.window.length - st.windowOffs)) _ with e | (s' | ⟨s', r⟩) <;> rfl

theorem zstd_split_full (st : Zstd.ZstdIncr) (h : st.windowFull = true) (a b : Bytes) :
    (∃ e, st.push a = .error e ∧ st.push (a ++ b) = .error e) ∨
    (∃ st' k, st.push a = .ok (st', some k) ∧ st.push (a ++ b) = .ok (st', some k)) ∨
    (∃ st', st.push a = .ok (st', none) ∧ st'.windowFull = true ∧ st.push (a ++ b) = shiftRes a.length (st'.push b)) := by
  rw [zstd_push_full st h, zstd_push_full st h]
  rcases forEnum_append (Zstd.pushBody 0) a b 0 st with ⟨e', h1, h2⟩ | ⟨s', r, h1, h2⟩ | ⟨s', h1, h2⟩ <;>
    rcases zstd_loop a 0 st with ⟨e, g⟩ | ⟨t, hs, g⟩ | ⟨t, k, hs, g⟩ <;> rw [g] at h1 <;> cases h1
  · exact .inl ⟨e', by rw [g]; rfl, by rw [h2]; rfl⟩
  · exact .inr (.inl ⟨s', k, by rw [g]; rfl, by rw [h2]; rfl⟩)
  · refine .inr (.inr ⟨s', by rw [g]; rfl, hs.trans h, ?_⟩)
    have e := zstd_loop_shift 0 b 0 a.length s'
    rw [Nat.add_zero] at e
    rw [h2, Nat.zero_add, e, zstd_push_full s' (hs.trans h)]
    rcases forEnum (Zstd.pushBody 0) 0 b s' with e | (s'' | ⟨s'', r⟩) <;> rfl

theorem zstd_split (st : Zstd.ZstdIncr) (h : ZstdOk st) (a b : Bytes) :
    (∃ e, st.push a = .error e ∧ st.push (a ++ b) = .error e) ∨
    (∃ st' k, st.push a = .ok (st', some k) ∧ st.push (a ++ b) = .ok (st', some k)) ∨
    (∃ st', st.push a = .ok (st', none) ∧ ZstdOk st' ∧ st.push (a ++ b) = shiftRes a.length (st'.push b)) := by
  cases hf : st.windowFull with
  | true =>
    rcases zstd_split_full st hf a b with h | h | ⟨s', h1, h2, h3⟩
    · exact .inl h
    · exact .inr (.inl h)
    · exact .inr (.inr ⟨s', h1, .inl h2, h3⟩)
  | false =>
    have ho : st.windowOffs < st.window.length := by
      rcases h with h | h
      · rw [hf] at h; cases h
      · exact h
    by_cases ha : a.length < st.window.length - st.windowOffs
    · refine .inr (.inr ⟨_, zstd_push_filling st hf a ha, .inr ?_, ?_⟩)
      · simp only [zstdFilling, List.length_append, List.length_take, List.length_drop]; omega
      have hwl : (zstdFilling st a).window.length = st.window.length := by
        simp only [zstdFilling, List.length_append, List.length_take, List.length_drop]; omega
      have hr : (zstdFilling st a).window.length - (zstdFilling st a).windowOffs =
          st.window.length - st.windowOffs - a.length := by
        rw [hwl]; simp only [zstdFilling]; omega
      have htk : (zstdFilling st a).window.take (zstdFilling st a).windowOffs = st.window.take st.windowOffs ++ a := by
        simp only [zstdFilling]
        rw [List.take_left' (by simp; omega)]
      by_cases hb : a.length + b.length < st.window.length - st.windowOffs
      · rw [zstd_push_filling st hf (a ++ b) (by simp; omega),
          zstd_push_filling (zstdFilling st a) hf b (by rw [hr]; omega)]
        simp only [shiftRes, Except.map, Option.map_none]
        congr 2
        have hdr : (zstdFilling st a).window.drop ((zstdFilling st a).windowOffs + b.length) =
            st.window.drop (st.windowOffs + (a.length + b.length)) := by
          simp only [zstdFilling]
          rw [show st.windowOffs + a.length = (st.window.take st.windowOffs ++ a).length by simp; omega,
            List.drop_append, List.drop_of_length_le (Nat.le_add_right _ _), List.nil_append, Nat.add_sub_cancel_left,
            List.drop_drop]
          congr 1
          simp; omega
        rw [zstdFilling, zstdFilling, htk, hdr]
        simp only [zstdFilling, List.length_append, List.append_assoc, Nat.add_assoc]
      · rw [zstd_push_fills st hf ho (a ++ b) (by simp; omega),
          zstd_push_fills (zstdFilling st a) hf (by rw [hwl]; simp only [zstdFilling]; omega) b (by rw [hr]; omega),
          hr, shiftRes_add, show a.length + (st.window.length - st.windowOffs - a.length) =
            st.window.length - st.windowOffs by omega]
        congr 2
        · rw [zstdFilled, zstdFilled, htk, List.take_append, List.take_of_length_le (l := a) (by omega), List.append_assoc]
          rfl
        · rw [List.drop_append, List.drop_of_length_le (by omega), List.nil_append]
    · rw [zstd_push_fills st hf ho a (by omega), zstd_push_fills st hf ho (a ++ b) (by simp; omega),
        List.take_append_of_le_length (by omega), List.drop_append_of_le_length (by omega)]
      rcases zstd_split_full (zstdFilled st (a.take (st.window.length - st.windowOffs))) rfl
        (a.drop (st.window.length - st.windowOffs)) b with ⟨e, h1, h2⟩ | ⟨s', k, h1, h2⟩ | ⟨s', h1, h2, h3⟩
      · exact .inl ⟨e, by rw [h1]; rfl, by rw [h2]; rfl⟩
      · exact .inr (.inl ⟨s', _, by rw [h1]; rfl, by rw [h2]; rfl⟩)
      · refine .inr (.inr ⟨s', by rw [h1]; rfl, .inl h2, ?_⟩)
        rw [h3, shiftRes_add, List.length_drop]
        congr 1
        omega

/-- every constructed `ZstdIncr` has the property, and `push` keeps it -/
theorem C73_zstd_kept (p : Zstd.Zstd) : ZstdOk (Zstd.incr p).init ∧ Kept (Zstd.incr p) ZstdOk := by
  refine ⟨.inr (by show 0 < 32; decide), ?_⟩
  intro st data st' r h hp
  change st.push data = _ at hp
  have hfull : ∀ (st : Zstd.ZstdIncr) data st' r, st.windowFull = true → st.push data = .ok (st', r) →
      st'.windowFull = true := by
    intro st data st' r h hp
    rw [zstd_push_full st h] at hp
    rcases zstd_loop data 0 st with ⟨e, g⟩ | ⟨t, hs, g⟩ | ⟨t, k, hs, g⟩ <;> rw [g] at hp <;> cases hp
    · exact hs.trans h
    · exact hs.trans h
  cases hf : st.windowFull with
  | true => exact .inl (hfull _ _ _ _ hf hp)
  | false =>
    have ho : st.windowOffs < st.window.length := by
      rcases h with h | h
      · rw [hf] at h; cases h
      · exact h
    by_cases ha : data.length < st.window.length - st.windowOffs
    · rw [zstd_push_filling st hf data ha] at hp
      cases hp
      right
      simp only [zstdFilling, List.length_append, List.length_take, List.length_drop]; omega
    · rw [zstd_push_fills st hf ho data (by omega)] at hp
      cases hg : (zstdFilled st (data.take (st.window.length - st.windowOffs))).push
          (data.drop (st.window.length - st.windowOffs)) with
      | error e => rw [hg] at hp; cases hp
      | ok x =>
        rw [hg] at hp; cases hp
        exact .inl (hfull _ _ _ _ rfl hg)

theorem C73_zstd (p : Zstd.Zstd) : SplitLaw (Zstd.incr p) ZstdOk ∧ SliceFree (Zstd.incr p) ZstdOk := by
  have hlaw : SplitLaw (Zstd.incr p) ZstdOk := by
    refine ⟨?_, ?_, ?_⟩
    · intro st a b e h hp
      change st.push a = _ at hp
      show st.push (a ++ b) = _
      rcases zstd_split st h a b with ⟨e, h1, h2⟩ | ⟨s', k, h1, h2⟩ | ⟨s', h1, h2, h3⟩
      · rw [h1] at hp; rw [h2]; exact hp
      · rw [h1] at hp; cases hp
      · rw [h1] at hp; cases hp
    · intro st a b st' k h hp
      change st.push a = _ at hp
      show st.push (a ++ b) = _
      rcases zstd_split st h a b with ⟨e, h1, h2⟩ | ⟨s', k, h1, h2⟩ | ⟨s', h1, h2, h3⟩
      · rw [h1] at hp; cases hp
      · rw [h1] at hp; rw [h2]; exact hp
      · rw [h1] at hp; cases hp
    · intro st a b st' h hp
      change st.push a = _ at hp
      show st.push (a ++ b) = _
      rcases zstd_split st h a b with ⟨e, h1, h2⟩ | ⟨s', k, h1, h2⟩ | ⟨s', h1, h2, h3⟩
      · rw [h1] at hp; cases hp
      · rw [h1] at hp; cases hp
      · rw [h1] at hp; cases hp; exact h3
  refine ⟨hlaw, hlaw.sliceFree (C73_zstd_kept p).2 ?_⟩
  intro st h
  show st.push [] = _
  cases hf : st.windowFull with
  | true => rw [zstd_push_full st hf]; rfl
  | false =>
    have ho : st.windowOffs < st.window.length := by
      rcases h with h | h
      · rw [hf] at h; cases h
      · exact h
    rw [zstd_push_filling st hf [] (by simp only [List.length_nil]; omega)]
    simp [zstdFilling]

example : (pushAll (Zstd.incr Ex.zstd) (Zstd.incr Ex.zstd).init [zdata.take 20, [], (zdata.drop 20).take 2, zdata.drop 22]).map (·.2) =
    .ok (some 32) := by decide +kernel

end HashRoll.Props
