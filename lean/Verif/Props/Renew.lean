import Verif.Props.Instances
import Verif.Props.Slices
import Verif.Props.Buffers
import Verif.Props.Zstd
/-!
# C81: after a cut the chunker is as new

What C80 says about the first chunk holds for every chunk of an algorithm with this property.
-/

namespace HashRoll.Spec

/-- the states `find_chunk_edge` can produce, whatever buffers it is given -/
inductive FceReachable (A : Chunk) : A.State → Prop
  | init : FceReachable A A.init
  | fce {st data st' r d} : FceReachable A st → A.fce st data = .ok (st', r, d) → FceReachable A st'

/-- A cut leaves the state of a new search, and the bytes up to the cut are discarded. -/
def Renews (A : Chunk) : Prop :=
  ∀ st data st' c d, FceReachable A st → A.fce st data = .ok (st', some c, d) → st' = A.init ∧ d = c

/-- A cut leaves the state of a new chunker. -/
def RenewsPush (C : ChunkIncr) : Prop :=
  ∀ st data st' c, Reachable C st → C.push st data = .ok (st', some c) → st' = C.init

end HashRoll.Spec

namespace HashRoll.Props

open Spec

theorem forEnum_inv {σ ρ : Type} {body : Nat → UInt8 → σ → R (Flow σ ρ)} {I : σ → Prop} {Q : σ → ρ → Prop}
    (hn : ∀ i v s s', I s → body i v s = .ok (.next s') → I s') (hr : ∀ i v s s' r, I s → body i v s = .ok (.ret s' r) → Q s' r)
    {data : Bytes} {i : Nat} {s : σ} (hs : I s) :
    (∀ s' r, forEnum body i data s = .ok (.ret s' r) → Q s' r) ∧ ∀ s', forEnum body i data s = .ok (.next s') → I s' := by
  induction data generalizing i s with
  | nil => exact ⟨fun s' r h => (by cases h), fun s' h => (by cases h; exact hs)⟩
  | cons v vs ih =>
    rw [forEnum]
    rcases hv : body i v s with e | (s1 | ⟨s1, r1⟩)
    · exact ⟨fun s' r h => (by cases h), fun s' h => (by cases h)⟩
    · exact ih (hn _ _ _ _ hs hv)
    · exact ⟨fun s' r h => (by cases h; exact hr _ _ _ _ _ hs hv), fun s' h => (by cases h)⟩

theorem forRange_inv {σ ρ : Type} {body : Nat → σ → R (Flow σ ρ)} {Q : σ → ρ → Prop}
    (hr : ∀ i s s' r, body i s = .ok (.ret s' r) → Q s' r) {m i : Nat} {s : σ} (s' : σ) (r : ρ)
    (h : forRange body m i s = .ok (.ret s' r)) : Q s' r := by
  induction m generalizing i s with
  | zero => cases h
  | succ m ih =>
    rw [forRange] at h
    rcases hv : body i s with e | (s1 | ⟨s1, r1⟩)
    · rw [hv] at h; cases h
    · rw [hv] at h; exact ih h
    · rw [hv] at h; cases h; exact hr _ _ _ _ hv

/-- what a cut must leave behind -/
def NewAfter {σ : Type} (init st' : σ) (r : Option Nat × Nat) : Prop := st' = init ∧ r.1 = some r.2

theorem renews_of_any {A : Chunk} (h : ∀ st data st' c d, A.fce st data = .ok (st', some c, d) → st' = A.init ∧ d = c) :
    Renews A := fun st data st' c d _ hf => h st data st' c d hf

/-- for a loop over the bytes -/
theorem renews_enum {A : Chunk} {body : Nat → UInt8 → A.State → R (Flow A.State (Option Nat × Nat))}
    (hp : ∀ st data, A.fce st data = finishFce data.length (forEnum body 0 data st))
    (hr : ∀ i v s s' r, body i v s = .ok (.ret s' r) → NewAfter A.init s' r) : Renews A := by
  refine renews_of_any fun st data st' c d hf => ?_
  rw [hp] at hf
  rcases h : forEnum body 0 data st with e | (s1 | ⟨s1, r1⟩)
  · rw [h] at hf; cases hf
  · rw [h] at hf; cases hf
  · rw [h] at hf; cases hf
    obtain ⟨h1, h2⟩ := (forEnum_inv (I := fun _ => True) (Q := NewAfter A.init) (fun _ _ _ _ _ _ => trivial)
      (fun i v s s' r _ h => hr i v s s' r h) (s := st) (data := data) (i := 0) trivial).1 _ _ h
    exact ⟨h1, (Option.some.inj h2).symm⟩

/-- for a loop over the positions from `offset` -/
theorem renews_range {A : Chunk} {body : Bytes → Nat → A.State → R (Flow A.State (Option Nat × Nat))}
    {get : A.State → Nat} {fin : A.State → Nat → A.State} {W : Nat}
    (hp : ∀ st data, A.fce st data = finishWindow fin W data.length (forRange (body data) (data.length - get st) (get st) st))
    (hr : ∀ data i s s' r, body data i s = .ok (.ret s' r) → NewAfter A.init s' r) : Renews A := by
  refine renews_of_any fun st data st' c d hf => ?_
  rw [hp] at hf
  rcases h : forRange (body data) (data.length - get st) (get st) st with e | (s1 | ⟨s1, r1⟩)
  · rw [h] at hf; cases hf
  · rw [h] at hf; cases hf
  · rw [h] at hf; cases hf
    obtain ⟨h1, h2⟩ := forRange_inv (Q := NewAfter A.init) (hr data) _ _ h
    exact ⟨h1, (Option.some.inj h2).symm⟩

/-- for `push`, with an invariant -/
theorem renewsPush_enum {C : ChunkIncr} {body : Nat → UInt8 → C.State → R (Flow C.State (Option Nat))} (I : C.State → Prop)
    (hi : I C.init)
    (hp : ∀ st data, C.push st data = finish (forEnum body 0 data st))
    (hn : ∀ i v s s', I s → body i v s = .ok (.next s') → I s')
    (hr : ∀ i v s s' r, I s → body i v s = .ok (.ret s' r) → s' = C.init) : RenewsPush C := by
  have key : ∀ st data, I st → ∀ st' r, C.push st data = .ok (st', r) → I st' ∧ (r ≠ none → st' = C.init) := by
    intro st data hs st' r hf
    rw [hp] at hf
    have := forEnum_inv (I := I) (Q := fun s' _ => s' = C.init) hn hr (s := st) (data := data) (i := 0) hs
    rcases h : forEnum body 0 data st with e | (s1 | ⟨s1, r1⟩)
    · rw [h] at hf; cases hf
    · rw [h] at hf; cases hf
      exact ⟨this.2 _ h, fun h => absurd rfl h⟩
    · rw [h] at hf; cases hf
      have := this.1 _ _ h
      exact ⟨this ▸ hi, fun _ => this⟩
  intro st data st' c hr hf
  have hI : I st := by
    clear hf
    induction hr with
    | init => exact hi
    | push _ hp ih => exact (key _ _ ih _ _ hp).1
  exact (key _ _ hI _ _ hf).2 (by simp)

/-! ## the loops -/

theorem gear_finish (p : Gear.Gear32) (st : (Gear.chunk p).State) (data : Bytes) :
    (Gear.chunk p).fce st data = finishFce data.length (forEnum (Gear.fceBody p) 0 data st) := by
  refine (Gear.fce_eq p st data).trans ?_
  rcases forEnum (Gear.fceBody p) 0 data st with e | (s' | ⟨s', r⟩) <;> rfl

theorem pigz_finish (p : Pigz.PigzRsyncable) (st : (Pigz.chunk p).State) (data : Bytes) :
    (Pigz.chunk p).fce st data = finishFce data.length (forEnum (Pigz.fceBody p) 0 data st) := by
  refine (Pigz.fce_eq p st data).trans ?_
  rcases forEnum (Pigz.fceBody p) 0 data st with e | (s' | ⟨s', r⟩) <;> rfl

theorem zpaq_finish (p : Zpaq.Zpaq) (st : (Zpaq.chunk p).State) (data : Bytes) :
    (Zpaq.chunk p).fce st data = finishFce data.length (forEnum (Zpaq.fceBody p) 0 data st) := by
  refine (Zpaq.fce_eq p st data).trans ?_
  rcases forEnum (Zpaq.fceBody p) 0 data st with e | (s' | ⟨s', r⟩) <;> rfl

theorem gzip_finish (p : Gzip.GzipRsyncable) (st : Gzip.GzipRsyncableSearchState) (data : Bytes) :
    (Gzip.chunk p).fce st data = finishWindow (fun s n => { s with offset := n }) p.windowLen data.length
      (forRange (Gzip.fceBody p data) (data.length - (fun s : Gzip.GzipRsyncableSearchState => s.offset) st) ((fun s : Gzip.GzipRsyncableSearchState => s.offset) st) st) := by
  refine (Gzip.fce_eq p st data).trans ?_
  dsimp only
  rcases forRange (Gzip.fceBody p data) (data.length - st.offset) st.offset st with e | (s' | ⟨s', r⟩) <;> rfl

theorem bup_finish (p : Bup.RollSum) (st : Bup.RollSumSearchState) (data : Bytes) :
    (Bup.chunk p).fce st data = finishWindow (fun s n => { s with offset := n }) p.windowLen data.length
      (forRange (Bup.fceBody p data) (data.length - (fun s : Bup.RollSumSearchState => s.offset) st) ((fun s : Bup.RollSumSearchState => s.offset) st) st) := by
  refine (Bup.fce_eq p st data).trans ?_
  dsimp only
  rcases forRange (Bup.fceBody p data) (data.length - st.offset) st.offset st with e | (s' | ⟨s', r⟩) <;> rfl

theorem buzhash_finish (p : Buzhash.BuzHash) (st : Buzhash.BuzHashSearchState) (data : Bytes) :
    (Buzhash.chunk p).fce st data = finishWindow (fun s n => { s with offset := n }) p.k data.length
      (forRange (Buzhash.fceBody p data) (data.length - (fun s : Buzhash.BuzHashSearchState => s.offset) st) ((fun s : Buzhash.BuzHashSearchState => s.offset) st) st) := by
  refine (Buzhash.fce_eq p st data).trans ?_
  dsimp only
  rcases forRange (Buzhash.fceBody p data) (data.length - st.offset) st.offset st with e | (s' | ⟨s', r⟩) <;> rfl

theorem gear_push_finish (p : Gear.Gear32) (st : (Gear.incr p).State) (data : Bytes) :
    (Gear.incr p).push st data = finish (forEnum Gear.pushBody 0 data st) := by
  refine (Gear.push_eq st data).trans ?_
  rcases forEnum Gear.pushBody 0 data st with e | (s' | ⟨s', r⟩) <;> rfl

theorem pigz_push_finish (p : Pigz.PigzRsyncable) (st : (Pigz.incr p).State) (data : Bytes) :
    (Pigz.incr p).push st data = finish (forEnum Pigz.pushBody 0 data st) := by
  refine (Pigz.push_eq st data).trans ?_
  rcases forEnum Pigz.pushBody 0 data st with e | (s' | ⟨s', r⟩) <;> rfl

theorem zpaq_push_finish (p : Zpaq.Zpaq) (st : (Zpaq.incr p).State) (data : Bytes) :
    (Zpaq.incr p).push st data = finish (forEnum Zpaq.pushBody 0 data st) := by
  refine (Zpaq.push_eq st data).trans ?_
  rcases forEnum Zpaq.pushBody 0 data st with e | (s' | ⟨s', r⟩) <;> rfl

theorem gzip_push_finish (p : Gzip.GzipRsyncable) (st : (Gzip.incr p).State) (data : Bytes) :
    (Gzip.incr p).push st data = finish (forEnum Gzip.pushBody 0 data st) := by
  refine (Gzip.push_eq st data).trans ?_
  rcases forEnum Gzip.pushBody 0 data st with e | (s' | ⟨s', r⟩) <;> rfl

/-! ## the algorithms -/

theorem C81_gear (p : Gear.Gear32) : Renews (Gear.chunk p) := by
  refine renews_enum (gear_finish p) fun i v s s' r h => ?_
  unfold Gear.fceBody at h
  dsimp only at h
  split at h <;> cases h
  exact ⟨rfl, rfl⟩

theorem C81_gear_push (p : Gear.Gear32) : RenewsPush (Gear.incr p) := by
  refine renewsPush_enum (fun s => s.params = p) rfl (gear_push_finish p) ?_ ?_
  · intro i v s s' hs h
    unfold Gear.pushBody at h
    dsimp only at h
    split at h <;> cases h
    exact hs
  · intro i v s s' r hs h
    unfold Gear.pushBody at h
    dsimp only at h
    split at h <;> cases h
    exact congrArg Gear.GearIncr32.from hs

theorem C81_pigz (p : Pigz.PigzRsyncable) : Renews (Pigz.chunk p) ∧ RenewsPush (Pigz.incr p) := by
  constructor
  · refine renews_enum (pigz_finish p) fun i v s s' r h => ?_
    unfold Pigz.fceBody at h
    dsimp only at h
    split at h <;> cases h
    exact ⟨rfl, rfl⟩
  · refine renewsPush_enum (fun s => s.params = p) rfl (pigz_push_finish p) ?_ ?_
    · intro i v s s' hs h
      unfold Pigz.pushBody at h
      dsimp only at h
      split at h <;> cases h
      exact hs
    · intro i v s s' r hs h
      unfold Pigz.pushBody at h
      dsimp only at h
      split at h <;> cases h
      exact congrArg Pigz.PigzRsyncableIncr.from hs

theorem C81_zpaq (p : Zpaq.Zpaq) : Renews (Zpaq.chunk p) ∧ RenewsPush (Zpaq.incr p) := by
  constructor
  · refine renews_enum (zpaq_finish p) fun i v s s' r h => ?_
    unfold Zpaq.fceBody at h
    dsimp only at h
    split at h <;> cases h
    exact ⟨rfl, rfl⟩
  · refine renewsPush_enum (fun s => s.params = p) rfl (zpaq_push_finish p) ?_ ?_
    · intro i v s s' hs h
      unfold Zpaq.pushBody at h
      dsimp only at h
      split at h <;> cases h
      exact hs
    · intro i v s s' r hs h
      unfold Zpaq.pushBody at h
      dsimp only at h
      split at h <;> cases h
      exact congrArg Zpaq.ZpaqIncr.from hs

theorem C81_gzip (p : Gzip.GzipRsyncable) : Renews (Gzip.chunk p) ∧ RenewsPush (Gzip.incr p) := by
  constructor
  · refine renews_range (gzip_finish p) fun data i s s' r h => ?_
    unfold Gzip.fceBody at h
    split at h
    · cases h
    · split at h
      · cases h
      · dsimp only at h
        split at h <;> cases h
        exact ⟨rfl, rfl⟩
  · have hb : ∀ i v (s : Gzip.GzipRsyncableIncr) x, Gzip.pushBody i v s = .ok x →
        (∃ s' : Gzip.GzipRsyncableIncr, x = .next s' ∧ s'.params = s.params) ∨
          ∃ s' : Gzip.GzipRsyncableIncr, x = .ret s'.reset (some (i + 1)) ∧ s'.params = s.params := by
      intro i v s x h
      unfold Gzip.pushBody at h
      dsimp only at h
      split at h
      · cases h
      · rename_i s1 h1
        have hs1 : s1.params = s.params := by
          split at h1
          · split at h1 <;> cases h1
            rfl
          · cases h1; rfl
        split at h <;> cases h
        · exact .inr ⟨_, rfl, hs1⟩
        · exact .inl ⟨_, rfl, hs1⟩
    refine renewsPush_enum (fun s => s.params = p) rfl (gzip_push_finish p) ?_ ?_
    · intro i v s s' hs h
      rcases hb i v s _ h with ⟨s1, h1, h2⟩ | ⟨s1, h1, h2⟩ <;> cases h1
      exact h2.trans hs
    · intro i v s s' r hs h
      rcases hb i v s _ h with ⟨s1, h1, h2⟩ | ⟨s1, h1, h2⟩ <;> cases h1
      have : s1.params = p := h2.trans hs
      exact congrArg Gzip.GzipRsyncableIncr.from this

theorem C81_bup (p : Bup.RollSum) : Renews (Bup.chunk p) := by
  refine renews_range (bup_finish p) fun data i s s' r h => ?_
  unfold Bup.fceBody at h
  split at h
  · cases h
  · split at h
    · cases h
    · dsimp only at h
      split at h <;> cases h
      exact ⟨rfl, rfl⟩

theorem C81_buzhash (p : Buzhash.BuzHash) : Renews (Buzhash.chunk p) := by
  refine renews_range (buzhash_finish p) fun data i s s' r h => ?_
  unfold Buzhash.fceBody at h
  split at h
  · cases h
  · dsimp only at h
    split at h <;> cases h
    exact ⟨rfl, rfl⟩

theorem ram_state {p : Ram.Ram} {st st' : Ram.RamState} {data : Bytes} {i : Nat} (h : st.push p data = .ok (st', some i)) :
    st' = Ram.RamState.default := by
  rw [Ram.push_eq] at h
  rcases h1 : forEnum (Ram.body p.w st.i) 0 data st with e | (s1 | ⟨s1, r1⟩)
  · rw [h1] at h; cases h
  · rw [h1] at h; cases h
  · rw [h1] at h; cases h
    refine (forEnum_inv (I := fun _ => True) (Q := fun s' _ => s' = Ram.RamState.default) (fun _ _ _ _ _ _ => trivial)
      (fun i v s s' r _ h => ?_) (s := st) (data := data) (i := 0) trivial).1 _ _ h1
    unfold Ram.body at h
    split at h
    · dsimp only at h
      split at h <;> cases h
      rfl
    · cases h

theorem C81_ram (p : Ram.Ram) : Renews (Ram.chunk p) ∧ RenewsPush (Ram.incr p) := by
  constructor
  · refine renews_of_any fun st data st' c d hf => ?_
    change p.findChunkEdge st data = _ at hf
    unfold Ram.Ram.findChunkEdge at hf
    split at hf <;> cases hf
    rename_i h
    exact ⟨ram_state h, rfl⟩
  · intro st data st' c hr hf
    have hI : st.params = p := by
      clear hf
      induction hr with
      | init => rfl
      | push _ hp ih =>
        change Ram.RamIncr.push _ _ = _ at hp
        unfold Ram.RamIncr.push at hp
        split at hp <;> cases hp
        exact ih
    change st.push data = _ at hf
    unfold Ram.RamIncr.push at hf
    split at hf <;> cases hf
    rename_i h
    have := ram_state h
    rw [this]
    exact congrArg Ram.RamIncr.from hI

theorem C81_fastcdc (p : FastCdc.FastCdc) : Renews (FastCdc.chunk p) ∧ RenewsPush (FastCdc.incr p) := by
  have key : ∀ (q : FastCdc.FastCdc) (st st' : FastCdc.FastCdcState) data i, st.push q data = (st', some i) → st' = FastCdc.FastCdcState.default := by
    intro q st st' data i h
    unfold FastCdc.FastCdcState.push at h
    dsimp only at h
    split at h
    · cases h
    · split at h
      · cases h; rfl
      · split at h <;> cases h
        rfl
  constructor
  · refine renews_of_any fun st data st' c d hf => ?_
    change p.findChunkEdge st data = _ at hf
    unfold FastCdc.FastCdc.findChunkEdge at hf
    split at hf <;> cases hf
    rename_i h
    exact ⟨key _ _ _ _ _ h, rfl⟩
  · intro st data st' c hr hf
    have hI : st.params = p := by
      clear hf
      induction hr with
      | init => rfl
      | push _ hp ih =>
        change FastCdc.FastCdcIncr.push _ _ = _ at hp
        unfold FastCdc.FastCdcIncr.push at hp
        cases hp
        exact ih
    change st.push data = _ at hf
    unfold FastCdc.FastCdcIncr.push at hf
    rcases h1 : st.state.push st.params data with ⟨s1, r1⟩
    rw [h1] at hf
    cases hf
    rw [key _ _ _ _ _ h1]
    exact congrArg FastCdc.FastCdcIncr.from hI

/-- what `MiiIncr::push` leaves after a cut -/
theorem mii_state {st st' : Mii.MiiIncr} {data : Bytes} {r : Option Nat} (h : st.push data = .ok (st', r)) :
    st'.w = st.w ∧ (r ≠ none → st' = { w := st.w, prev := 0, increment := 0 }) := by
  rw [Mii.push_eq] at h
  have := forEnum_inv (body := Mii.body) (I := fun s => s.w = st.w)
    (Q := fun s' _ => s' = { w := st.w, prev := 0, increment := 0 }) (fun i v s s' hs h => ?_) (fun i v s s' r hs h => ?_)
    (s := st) (data := data) (i := 0) rfl
  · rcases h1 : forEnum Mii.body 0 data st with e | (s1 | ⟨s1, r1⟩)
    · rw [h1] at h; cases h
    · rw [h1] at h; cases h
      exact ⟨this.2 _ h1, fun h => absurd rfl h⟩
    · rw [h1] at h; cases h
      have := this.1 _ _ h1
      exact ⟨by rw [this], fun _ => this⟩
  · unfold Mii.body at h
    split at h
    · dsimp only at h
      split at h <;> cases h
      exact hs
    · cases h; exact hs
  · unfold Mii.body at h
    split at h
    · dsimp only at h
      split at h <;> cases h
      rw [← hs]
    · cases h

theorem C81_mii (p : Mii.Mii) : Renews (Mii.chunk p) := by
  have hstep : ∀ {st data st' r d}, (Mii.chunk p).fce st data = .ok (st', r, d) →
      st'.incr.w = st.incr.w ∧ ∀ c, r = some c → st' = ⟨Mii.MiiIncr.from ⟨st.incr.w⟩⟩ ∧ d = c := by
    intro st data st' r d h
    change p.findChunkEdge st data = _ at h
    unfold Mii.Mii.findChunkEdge Mii.MiiSearchState.push at h
    rcases h1 : st.incr.push data with e | ⟨s1, r1⟩
    · rw [h1] at h; cases h
    · have := mii_state h1
      rw [h1] at h
      rcases r1 with _ | v
      · cases h
        exact ⟨this.1, fun c h => (by cases h)⟩
      · cases h
        have h2 := this.2 (by simp)
        refine ⟨?_, fun c hc => ⟨?_, Option.some.inj hc⟩⟩
        · rw [h2]; rfl
        · rw [h2]; rfl
  intro st data st' c d hr hf
  have hI : st.incr.w = p.w := by
    clear hf
    induction hr with
    | init => rfl
    | fce _ hp ih => exact (hstep hp).1.trans ih
  obtain ⟨h1, h2⟩ := (hstep hf).2 c rfl
  refine ⟨?_, h2⟩
  rw [h1, hI]; rfl

/-- C81. `MiiIncr` is not as new after a cut: `prev` is 0, not 0xff. -/
theorem C81_mii_push (p : Mii.Mii) {st data st' c} (hr : Reachable (Mii.incr p) st) (hf : (Mii.incr p).push st data = .ok (st', some c)) :
    st' = { w := p.w, prev := 0, increment := 0 } ∧ st' ≠ (Mii.incr p).init := by
  have hI : st.w = p.w := by
    clear hf
    induction hr with
    | init => rfl
    | push _ hp ih => exact (mii_state hp).1.trans ih
  have h := (mii_state hf).2 (by simp)
  rw [hI] at h
  refine ⟨h, fun h' => ?_⟩
  rw [h] at h'
  exact absurd (show (0 : UInt8) = 0xff from congrArg Mii.MiiIncr.prev h') (by decide)
example : ∃ st', (Mii.incr (Mii.Mii.withW 1)).push (Mii.incr (Mii.Mii.withW 1)).init [7, 9] = .ok (st', some 2) :=
  ⟨⟨1, 0, 0⟩, by decide +kernel⟩

/-! there are such cuts -/

example : ((Gear.chunk Ex.gear2).fce (Gear.chunk Ex.gear2).init sample).map (·.2) = .ok (some 2, 2) := by decide +kernel
example : ((Pigz.chunk Ex.pigz2).fce (Pigz.chunk Ex.pigz2).init sample).map (·.2) = .ok (some 1, 1) := by decide +kernel
example : ((Zpaq.chunk Ex.zpaq).fce (Zpaq.chunk Ex.zpaq).init sample).map (·.2) = .ok (some 1, 1) := by decide +kernel
example : ((Ram.chunk (Ram.Ram.withW 2)).fce (Ram.chunk (Ram.Ram.withW 2)).init sample).map (·.2) = .ok (some 5, 5) := by decide +kernel
example : ((Mii.chunk (Mii.Mii.withW 2)).fce (Mii.chunk (Mii.Mii.withW 2)).init sample).map (·.2) = .ok (some 6, 6) := by decide +kernel
example : ((FastCdc.chunk Ex.fast).fce (FastCdc.chunk Ex.fast).init sample).map (·.2) = .ok (some 5, 5) := by decide +kernel
example : ((Bup.chunk (Bup.RollSum.withWindow 8)).fce (Bup.chunk (Bup.RollSum.withWindow 8)).init sampleBup).map (·.2) = .ok (some 8, 8) := by decide +kernel
example : ((Gzip.chunk Ex.gzip3).fce (Gzip.chunk Ex.gzip3).init sample).map (·.2) = .ok (some 5, 5) := by decide +kernel
example : ((Buzhash.chunk Ex.buz).fce (Buzhash.chunk Ex.buz).init sample).map (·.2) = .ok (some 8, 8) := by decide +kernel
example : ((Gear.incr Ex.gear2).push (Gear.incr Ex.gear2).init sample).map (·.2) = .ok (some 1) := by decide +kernel
example : ((Pigz.incr Ex.pigz2).push (Pigz.incr Ex.pigz2).init sample).map (·.2) = .ok (some 1) := by decide +kernel
example : ((Zpaq.incr Ex.zpaq).push (Zpaq.incr Ex.zpaq).init sample).map (·.2) = .ok (some 2) := by decide +kernel
example : ((Gzip.incr Ex.gzip3).push (Gzip.incr Ex.gzip3).init sample).map (·.2) = .ok (some 5) := by decide +kernel
example : ((Ram.incr (Ram.Ram.withW 2)).push (Ram.incr (Ram.Ram.withW 2)).init sample).map (·.2) = .ok (some 4) := by decide +kernel
example : ((FastCdc.incr Ex.fast).push (FastCdc.incr Ex.fast).init sample).map (·.2) = .ok (some 4) := by decide +kernel

/-! ## the others -/

/-- what is left of the hypotheses for a witness -/
theorem not_renewsPush {C : ChunkIncr} (data : Bytes) (P : C.State → Bool) (hi : P C.init = false)
    (h : (match C.push C.init data with
      | .ok (st', some _) => P st'
      | _ => false) = true) : ¬ RenewsPush C := by
  intro hn
  rcases hp : C.push C.init data with e | ⟨st', r⟩
  · rw [hp] at h; cases h
  · rcases r with _ | c
    · rw [hp] at h; cases h
    · rw [hp] at h
      have h' : P st' = true := h
      rw [hn _ _ _ _ .init hp, hi] at h'
      cases h'

/-- C81. `RollSumIncr` keeps its sums and its window. -/
theorem C81_not_bup : ¬ RenewsPush (Bup.incr (Bup.RollSum.withWindow 8)) :=
  not_renewsPush sampleBup (fun st => st != Bup.RollSumIncr.from (Bup.RollSum.withWindow 8)) (by decide +kernel) (by decide +kernel)

/-- C81. `BuzHashIncr` keeps the bytes of its ring buffer (they are not read again before they are overwritten: the chunks do not
depend on them, C29). -/
theorem C81_not_buzhash : ¬ RenewsPush (Buzhash.incr Ex.buz) :=
  not_renewsPush sample (fun st => st.buf != List.replicate Ex.buz.k 0) (by decide +kernel) (by decide +kernel)

/-- C81. `ZstdIncr` keeps its hash and its window. -/
theorem C81_not_zstd_push : ¬ RenewsPush (Zstd.incr Ex.zstd) :=
  not_renewsPush zdata (fun st => st != Zstd.ZstdIncr.from Ex.zstd) (by decide +kernel) (by decide +kernel)

/-- C81. `find_chunk_edge` of Zstd keeps its hash and discards another number of bytes. -/
theorem C81_not_zstd : ¬ Renews (Zstd.chunk Ex.zstd) := by
  intro h
  have h1 : (match (Zstd.chunk Ex.zstd).fce (Zstd.chunk Ex.zstd).init (zdata.take 40) with
      | .ok (_, some c, d) => c != d
      | _ => false) = true := by decide +kernel
  rcases hp : (Zstd.chunk Ex.zstd).fce (Zstd.chunk Ex.zstd).init (zdata.take 40) with e | ⟨st', r, d⟩
  · rw [hp] at h1; cases h1
  · rcases r with _ | c
    · rw [hp] at h1; cases h1
    · rw [hp] at h1
      have := (h _ _ _ _ _ .init hp).2
      subst this
      simp at h1

end HashRoll.Props
