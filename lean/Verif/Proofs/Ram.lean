import Verif.Proofs.Conform
import Verif.Proofs.Sums
import Verif.Model.Ram
/-!
# Ram conforms to its rule
-/

namespace HashRoll.Ram

open Spec

/-- `m` is the maximum of `l` (`0` for no bytes) -/
def IsMax (m : UInt8) (l : Bytes) : Prop := (∀ x ∈ l, x ≤ m) ∧ (m = 0 ∨ m ∈ l)

theorem IsMax.le_iff {m : UInt8} {l : Bytes} (h : IsMax m l) (b : UInt8) : m ≤ b ↔ ∀ x ∈ l, x ≤ b := by
  constructor
  · intro hm x hx; exact UInt8.le_trans (h.1 x hx) hm
  · intro hx
    rcases h.2 with h0 | h0
    · subst h0; exact UInt8.le_iff_toNat_le.mpr (Nat.zero_le _)
    · exact hx m h0

/-- `self.i` stays the length at the start of the push, `maxVal` follows the first `w + 1` bytes. -/
def Inv (w : Nat) (st : RamState) (c : Bytes) : Prop := IsMax st.maxVal (c.take (w + 1))

/-- body of the loop of `push` -/
def body (w i : Nat) (l_i : Nat) (b : UInt8) (self : RamState) : R (Flow RamState (Option Nat)) :=
  if b ≥ self.maxVal then
    let ri := l_i + i
    if ri > w then .ok (.ret { i := 0, maxVal := 0 } (some l_i))
    else .ok (.next { self with maxVal := b })
  else .ok (.next self)

theorem push_eq (p : Ram) (st : RamState) (data : Bytes) : st.push p data =
    match forEnum (body p.w st.i) 0 data st with
    | .error e => .error e
    | .ok (.ret self r) => .ok (self, r)
    | .ok (.next self)  => .ok ({ self with i := self.i + data.length }, none) := rfl

theorem edge_snoc (w : Nat) (c : Bytes) (b : UInt8) :
    ramEdge w (c ++ [b]) ↔ w < c.length ∧ ∀ x ∈ c.take (w + 1), x ≤ b := by
  unfold ramEdge
  simp only [List.getLast?_append, List.getLast?_singleton, Option.some_or, Option.some.injEq,
    List.length_append, List.length_singleton]
  constructor
  · rintro ⟨b', rfl, h1, h2⟩
    refine ⟨by omega, ?_⟩
    rwa [List.take_append_of_le_length (by omega)] at h2
  · rintro ⟨h1, h2⟩
    refine ⟨b, rfl, by omega, ?_⟩
    rwa [List.take_append_of_le_length (by omega)]

/-- What one `RamState::push` does. -/
theorem push_spec (p : Ram) (st : RamState) (c : Bytes) (hi : st.i = c.length) (hm : Inv p.w st c)
    (hno : NoEdge (ramEdge p.w) c) (new : Bytes) :
    (∃ st', st.push p new = .ok (st', none) ∧ (st'.i = (c ++ new).length ∧ Inv p.w st' (c ++ new)) ∧
      NoEdge (ramEdge p.w) (c ++ new)) ∨
    (∃ i, st.push p new = .ok (RamState.default, some i) ∧ i < new.length ∧
      FirstCut (ramEdge p.w) (c ++ new) (c.length + (i + 1))) := by
  rcases forEnum_edge_idx (ρ := Option Nat) (e := ramEdge p.w)
    (Inv := fun k (s : RamState) c' => c'.length = k + c.length ∧ s.i = c.length ∧ Inv p.w s c')
    (Q := fun i v c s' r => r = some i ∧ s' = RamState.default)
    (body := body p.w st.i)
    (by
      rintro k b s c' ⟨hl, hsi, hmx⟩
      have hle := hmx.le_iff b
      have hstep : k + 1 + c.length = (c' ++ [b]).length := by simp; omega
      have hri : k + st.i = c'.length := by omega
      by_cases hb : s.maxVal ≤ b
      · by_cases hw : p.w < c'.length
        · right
          refine ⟨RamState.default, some k, ?_, (edge_snoc _ _ _).2 ⟨hw, hle.1 hb⟩, rfl, rfl⟩
          simp [body, hb, hri, hw, RamState.default]
        · left
          refine ⟨{ s with maxVal := b }, ?_, ⟨hstep.symm, hsi, ?_⟩, ?_⟩
          · simp [body, hb, hri, hw]
          · show IsMax b _
            rw [List.take_of_length_le (by simp; omega)]
            rw [List.take_of_length_le (by omega)] at hle
            refine ⟨?_, .inr (by simp)⟩
            intro x hx
            rcases List.mem_append.1 hx with h | h
            · exact hle.1 hb x h
            · rw [List.mem_singleton.1 h]; exact UInt8.le_refl _
          · rw [edge_snoc]; rintro ⟨h, _⟩; exact hw h
      · left
        refine ⟨s, ?_, ⟨hstep.symm, hsi, ?_⟩, ?_⟩
        · simp [body, hb]
        · show IsMax _ _
          by_cases hw : p.w < c'.length
          · rw [List.take_append_of_le_length (by omega)]; exact hmx
          · rw [List.take_of_length_le (by simp; omega)]
            have hmx' : IsMax s.maxVal (c'.take (p.w + 1)) := hmx
            rw [List.take_of_length_le (by omega)] at hmx'
            refine ⟨?_, hmx'.2.imp id (fun h => List.mem_append_left _ h)⟩
            intro x hx
            rcases List.mem_append.1 hx with h | h
            · exact hmx'.1 x h
            · rw [List.mem_singleton.1 h]
              exact UInt8.le_of_lt (UInt8.not_le.1 hb)
        · rw [edge_snoc]; rintro ⟨_, h⟩; exact hb (hle.2 h))
    new 0 st c ⟨by omega, hi, hm⟩ with ⟨s', hf, ⟨_, hi', hm'⟩, hno'⟩ | ⟨i, s', r, v, hf, hv, hcut, hr, hs⟩
  · left
    refine ⟨{ s' with i := s'.i + new.length }, ?_, ⟨?_, hm'⟩, hno.append hno'⟩
    · rw [push_eq, hf]
    · simp [hi']
  · right
    subst hr hs
    have hlt : i < new.length := by
      rw [List.getElem?_eq_some_iff] at hv; exact hv.1
    refine ⟨i, ?_, hlt, hno.firstCut_append hcut⟩
    rw [push_eq, hf]; simp

theorem inv_default (w : Nat) : Inv w RamState.default [] := ⟨by simp, .inl rfl⟩

def fceSpec (p : Ram) : FceSpec (chunk p) (fun _ => True) (FirstCut (ramEdge p.w)) where
  Inv st c k := (st.i = c.length ∧ Inv p.w st c) ∧ NoEdge (ramEdge p.w) c ∧ k = 0
  init := ⟨⟨rfl, inv_default _⟩, NoEdge.nil _, rfl⟩
  step := by
    rintro st c k ⟨⟨hi, hm⟩, hno, rfl⟩ - new -
    simp only [Nat.sub_zero, List.drop_length, List.nil_append, Nat.zero_add]
    rcases push_spec p st c hi hm hno new with ⟨st', hp, hinv, hno'⟩ | ⟨i, hp, hlt, hcut⟩
    · refine ⟨st', none, new.length, ?_, Nat.le_refl _, ⟨hinv, hno', by omega⟩, hno'.not_firstCut⟩
      simp [Ram.findChunkEdge, hp]
    · refine ⟨RamState.default, some (i + 1), i + 1, ?_, rfl, by omega,
        ⟨⟨rfl, inv_default _⟩, NoEdge.nil _, trivial⟩, hcut⟩
      simp [Ram.findChunkEdge, hp]

theorem fce_conforms (p : Ram) : FceConforms (chunk p) Any (EdgeRule (Local (ramEdge p.w))) :=
  (fceSpec p).conforms

def before (p : Ram) : BeforeSpec (incr p) (ramEdge p.w) where
  Inv st c := st.params = p ∧ st.state.i = c.length ∧ Inv p.w st.state c
  init := ⟨rfl, rfl, inv_default _⟩
  push_spec := by
    rintro st c ⟨hp, hi, hm⟩ hno new
    rcases push_spec p st.state c hi hm hno new with ⟨st', hf, hinv, hno'⟩ | ⟨i, hf, hlt, hcut⟩
    · left
      refine ⟨{ st with state := st' }, ?_, ⟨hp, hinv⟩, hno'⟩
      simp [RamIncr.push, hp, hf]
    · right
      refine ⟨{ st with state := RamState.default }, i, ?_, hlt, ⟨hp, rfl, inv_default _⟩, hcut⟩
      simp [RamIncr.push, hp, hf]

theorem incr_conforms (p : Ram) : IncrConforms (incr p) (BeforeRule (Local (ramEdge p.w))) :=
  (before p).incrSpec.conforms

theorem bytewise_conforms (p : Ram) : BytewiseConforms (incr p) (EdgeRule (Local (ramEdge p.w))) :=
  (before p).byteSpec.conforms

end HashRoll.Ram
