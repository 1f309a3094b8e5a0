import Verif.Props.Iterators
/-!
# C03 (Gear32 and `iter_slices`), C06 (behaviour after `None`)
-/

namespace HashRoll.Props

open Spec

/-! ## C03 -/

/-- A byte whose table entry alone matches, at the start of the data: `iter_slices` yields empty slices for
ever, the iterator does not move. -/
theorem C03_hangs (p : Gear.Gear32) (b : UInt8) (rest : Bytes) (h : lookup p.gear b &&& p.mask = p.xxx) (n : Nat) :
    ((Gear.incr p).iterSlices (Gear.incr p).init (b :: rest)).run n =
      .ok (List.replicate n [], ⟨b :: rest, (Gear.incr p).init⟩, false) := by
  have hpush : (Gear.incr p).push (Gear.incr p).init (b :: rest) = .ok ((Gear.incr p).init, some 0) := by
    simp [Gear.GearIncr32.push, Gear.GearIncr32.from, forEnum, Gear.GearState32.push, Gear.GearState32.default,
      Gear.GearState32.reset, h]
  induction n with
  | zero => rfl
  | succ n ih =>
    exact run_step n (iter_next_some (C := Gear.incr p) ⟨b :: rest, (Gear.incr p).init⟩ (by simp) hpush
      (Nat.zero_le _)) ih

example : lookup Ex.gear.gear 17 &&& Ex.gear.mask = Ex.gear.xxx := by decide +kernel

/-- The claim C03 is false of the code: `Gear32::default().to_chunk_incr().iter_slices(&[17])` never ends. -/
theorem C03_refuted : Gear.Gear32.default .debug = .ok Ex.gear ∧
    ∀ n vs it, ((Gear.incr Ex.gear).iterSlices (Gear.incr Ex.gear).init [17]).run n ≠ .ok (vs, it, true) := by
  refine ⟨rfl, fun n vs it h => ?_⟩
  rw [C03_hangs Ex.gear 17 [] (by decide +kernel) n] at h
  simp at h

/-- Exactly when it ends: when the data can be split into finitely many chunks, each ending before the
byte that matches. -/
theorem C03_ends_iff (p : Gear.Gear32) (data : Bytes) :
    (∃ n vs it, ((Gear.incr p).iterSlices (Gear.incr p).init data).run n = .ok (vs, it, true)) ↔
      ∃ cs r, Chunked (BeforeRule (Local (gearEdge (lookup p.gear) p.mask p.xxx))) [] data cs r :=
  (Gear.incr_conforms p).ends_iff (BeforeRule.good _) (by rintro _ n ⟨_, h, _⟩; simp at h) data
example := C03_ends_iff Ex.gear2 sample

theorem gear_single (p : Gear.Gear32) (b : UInt8) :
    gearEdge (lookup p.gear) p.mask p.xxx [b] ↔ lookup p.gear b &&& p.mask = p.xxx := by
  simp [gearEdge, gearSum, wsum]

theorem gear_before_pos (p : Gear.Gear32) (h : ∀ b, lookup p.gear b &&& p.mask ≠ p.xxx) :
    (BeforeRule (Local (gearEdge (lookup p.gear) p.mask p.xxx))).Pos := by
  rintro _ data n ⟨_, hn, he, _⟩
  rcases Nat.eq_zero_or_pos n with rfl | hp
  · exfalso
    cases data with
    | nil => simp at hn
    | cons b data =>
      have he' : gearEdge (lookup p.gear) p.mask p.xxx [b] := by simpa [Local] using he
      exact h b ((gear_single p b).1 he')
  · exact hp

/-- What does hold of C03: if no table entry matches by itself, `iter_slices` ends, with non-empty slices, the
chunks being those of the rule "end before the matching byte". Missing: parameters for which a single table
entry matches (for the default ones it does). -/
theorem C03_partial (p : Gear.Gear32) (h : ∀ b, lookup p.gear b &&& p.mask ≠ p.xxx) :
    IterEnds (Gear.incr p) ∧
    IterChunks (Gear.incr p) (BeforeRule (Local (gearEdge (lookup p.gear) p.mask p.xxx))) := by
  have hc := (Gear.incr_conforms p).iterChunks (BeforeRule.good _) (gear_before_pos p h)
  exact ⟨hc.ends (BeforeRule.good _) (gear_before_pos p h), hc⟩

/-- average size 2^25: no table entry matches by itself -/
def gear25 : Gear.Gear32 := { mask := 0xffffff80, xxx := 0, gear := Tables.gear32 }
example : Gear.Gear32.withAverageSizeLog2 .debug 25 = .ok gear25 := rfl

theorem byte_all {P : UInt8 → Prop} (h : ∀ n : Fin 256, P (UInt8.ofNat n.1)) (b : UInt8) : P b := by
  have := h ⟨b.toNat, b.toNat_lt⟩
  simpa using this

example : IterEnds (Gear.incr gear25) :=
  (C03_partial gear25 (byte_all (by decide +kernel))).1

/-! ## C06 -/

/-- `IterSlices` is fused: once `next` has returned `None` it returns `None` for ever, unchanged, for any
chunker whatever. -/
theorem C06_fused (C : ChunkIncr) (it it' : IterSlices C) (h : it.next = .ok (it', none)) :
    it' = it ∧ ∀ k, nextN k it' = .ok (List.replicate k none, it') := by
  have hnil : it.rem = [] := by
    unfold IterSlices.next at h
    split at h
    · rename_i he; simpa using he
    · split at h
      · simp at h
      · simp at h
      · split at h <;> simp at h
  have heq : it' = it := by
    rw [iter_next_nil it hnil] at h; cases h; rfl
  refine ⟨heq, ?_⟩
  subst heq
  intro k
  induction k with
  | zero => rfl
  | succ k ih => simp [nextN, iter_next_nil it' hnil, ih, List.replicate_succ]

example : ((Pigz.incr Ex.pigz2).iterSlices (Pigz.incr Ex.pigz2).init []).next =
    .ok (⟨[], (Pigz.incr Ex.pigz2).init⟩, none) := rfl

/-- `IterSlicesStrict` is not: with `Mii { w: 1 }` and the data `[5, 3]`, `next` returns `None` and then, called
again, the slice `[5]`. -/
theorem C06_strict_not_fused :
    let C := Mii.incr (Mii.Mii.withW 1)
    ∃ it₁ it₂, (C.iterSlicesStrict C.init [5, 3]).next = .ok (it₁, none) ∧ it₁.next = .ok (it₂, some [5]) :=
  ⟨_, _, rfl, rfl⟩

end HashRoll.Props
