import Verif.Proofs.Conform
import Verif.Proofs.Sums
import Verif.Model.Gear
/-!
# Gear32 conforms to its rule
-/

namespace HashRoll.Gear

open Spec

/-- the edge predicate of an instance -/
abbrev edge (p : Gear32) : Bytes → Prop := gearEdge (lookup p.gear) p.mask p.xxx

/-- body of the loop of `find_chunk_edge` -/
def fceBody (p : Gear32) (i : Nat) (v : UInt8) (state : GearState32) :
    R (Flow GearState32 (Option Nat × Nat)) :=
  let (state, hit) := state.push p v
  if hit then .ok (.ret p.toSearchState (some (i + 1), i + 1)) else .ok (.next state)

theorem fce_eq (p : Gear32) (st : GearState32) (data : Bytes) : p.findChunkEdge st data =
    match forEnum (fceBody p) 0 data st with
    | .error e => .error e
    | .ok (.ret st r) => .ok (st, r)
    | .ok (.next st)  => .ok (st, none, data.length) := rfl

def fceLoop (p : Gear32) : FceLoopSpec (chunk p) (edge p) where
  body := fceBody p
  fce_ret := fun st data st' r h => (fce_eq p st data).trans (by rw [h])
  fce_next := fun st data st' h => (fce_eq p st data).trans (by rw [h])
  Inv := fun st c => st.fp = gearSum (lookup p.gear) c
  init := rfl
  step := by
    intro i v st c hi
    have hfp : (st.fp <<< 1) + lookup p.gear v = gearSum (lookup p.gear) (c ++ [v]) := by
      rw [gearSum_snoc, hi]
    by_cases h : edge p (c ++ [v])
    · right
      refine ⟨GearState32.default, ?_, rfl, h⟩
      have : gearSum (lookup p.gear) (c ++ [v]) &&& p.mask = p.xxx := h
      simp [fceBody, GearState32.push, hfp, this, Gear32.toSearchState]
    · left
      have : ¬ gearSum (lookup p.gear) (c ++ [v]) &&& p.mask = p.xxx := h
      refine ⟨⟨gearSum (lookup p.gear) (c ++ [v])⟩, ?_, rfl, h⟩
      simp [fceBody, GearState32.push, hfp, this]

theorem fce_conforms (p : Gear32) : FceConforms (chunk p) Any (EdgeRule (Local (edge p))) :=
  (fceLoop p).conforms

/-- body of the loop of `push` -/
def pushBody (i : Nat) (v : UInt8) (self : GearIncr32) : R (Flow GearIncr32 (Option Nat)) :=
  let (state, hit) := self.state.push self.params v
  let self := { self with state := state }
  if hit then .ok (.ret { self with state := self.state.reset } (some i)) else .ok (.next self)

theorem push_eq (st : GearIncr32) (data : Bytes) : GearIncr32.push st data =
    match forEnum pushBody 0 data st with
    | .error e => .error e
    | .ok (.ret self r) => .ok (self, r)
    | .ok (.next self)  => .ok (self, none) := rfl

def before (p : Gear32) : BeforeSpec (incr p) (edge p) where
  Inv := fun st c => st.params = p ∧ st.state.fp = gearSum (lookup p.gear) c
  init := ⟨rfl, rfl⟩
  push_spec := by
    rintro st c ⟨hp, hi⟩ hno new
    rcases forEnum_edge (ρ := Option Nat) (e := edge p)
      (Inv := fun (st : GearIncr32) c => st.params = p ∧ st.state.fp = gearSum (lookup p.gear) c)
      (Q := fun i v c s' r => r = some i ∧ s'.params = p ∧ s'.state.fp = 0)
      (body := pushBody)
      (by
        rintro i v s c ⟨hp, hi⟩
        have hfp : (s.state.fp <<< 1) + lookup p.gear v = gearSum (lookup p.gear) (c ++ [v]) := by
          rw [gearSum_snoc, hi]
        by_cases h : edge p (c ++ [v])
        · right
          have h' : gearSum (lookup p.gear) (c ++ [v]) &&& p.mask = p.xxx := h
          refine ⟨{ s with state := ⟨0⟩ }, some i, ?_, h, rfl, hp, rfl⟩
          simp [pushBody, GearState32.push, GearState32.reset, hfp, hp, h']
        · left
          have h' : ¬ gearSum (lookup p.gear) (c ++ [v]) &&& p.mask = p.xxx := h
          refine ⟨{ s with state := ⟨gearSum (lookup p.gear) (c ++ [v])⟩ }, ?_, ⟨hp, rfl⟩, h⟩
          simp [pushBody, GearState32.push, hfp, hp, h'])
      new 0 st c ⟨hp, hi⟩ with ⟨s', hf, hi', hno'⟩ | ⟨i, s', r, v, hf, hv, hcut, hr, hp', hi'⟩
    · left
      refine ⟨s', ?_, hi', hno.append hno'⟩
      show GearIncr32.push st new = _
      rw [push_eq, hf]
    · right
      subst hr
      have hlt : i < new.length := by
        rw [List.getElem?_eq_some_iff] at hv; exact hv.1
      refine ⟨s', i, ?_, hlt, ⟨hp', hi'⟩, hno.firstCut_append hcut⟩
      show GearIncr32.push st new = _
      rw [push_eq, hf]; simp

theorem incr_conforms (p : Gear32) : IncrConforms (incr p) (BeforeRule (Local (edge p))) :=
  (before p).incrSpec.conforms

theorem bytewise_conforms (p : Gear32) : BytewiseConforms (incr p) (EdgeRule (Local (edge p))) :=
  (before p).byteSpec.conforms

end HashRoll.Gear
