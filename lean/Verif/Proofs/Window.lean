import Verif.Proofs.Conform
/-!
# `find_chunk_edge` with a window that the caller keeps (gzip, bup, buzhash)
-/

namespace HashRoll.Spec

/-- `find_chunk_edge` built as `for i in state.offset..data.len()`, looking back at `data[i - w]`, and
discarding all but the last `w` bytes when there is no edge. -/
structure FceWindowSpec (A : Chunk) (w : Nat) (e : Bytes → Prop) where
  offset : A.State → Nat
  setOffset : A.State → Nat → A.State
  offset_set : ∀ st o, offset (setOffset st o) = o
  body : Bytes → Nat → A.State → R (Flow A.State (Option Nat × Nat))
  fce_ret : ∀ st data st' r,
    forRange (body data) (data.length - offset st) (offset st) st = .ok (.ret st' r) →
    A.fce st data = .ok (st', r)
  fce_next : ∀ st data st',
    forRange (body data) (data.length - offset st) (offset st) st = .ok (.next st') →
    A.fce st data = .ok (setOffset st' (data.length - (data.length - w)), none, data.length - w)
  Inv  : A.State → Bytes → Prop
  inv_set : ∀ st o c, Inv st c → Inv (setOffset st o) c
  init : Inv A.init [] ∧ offset A.init = 0
  step : ∀ buf i v st c, Inv st c → buf[i]? = some v → (i < w ↔ c.length < w) →
    (w ≤ i → ∃ d, buf[i - w]? = some d ∧ (c ++ [v])[c.length - w]? = some d) →
    (∃ st', body buf i st = .ok (.next st') ∧ Inv st' (c ++ [v]) ∧ ¬ e (c ++ [v])) ∨
    (∃ st', body buf i st = .ok (.ret st' (some (i + 1), i + 1)) ∧ Inv st' [] ∧ offset st' = 0 ∧
      e (c ++ [v]))

def FceWindowSpec.fceSpec {A : Chunk} {w : Nat} {e : Bytes → Prop} (L : FceWindowSpec A w e) :
    FceSpec A (fun _ => True) (FirstCut e) where
  Inv st c k := L.Inv st c ∧ NoEdge e c ∧ L.offset st = k ∧ k = min c.length w
  init := ⟨L.init.1, NoEdge.nil _, L.init.2, by simp⟩
  step := by
    rintro st c k ⟨hi, hno, hoff, hk⟩ hkc new -
    have hblen : (c.drop (c.length - k) ++ new).length = k + new.length := by
      simp; omega
    have hb : c.drop (c.length - k) ++ new = (c ++ new).drop (c.length - k) := by
      rw [List.drop_append_of_le_length (by omega)]
    rcases forRange_edge (body := L.body (c.drop (c.length - k) ++ new)) (k := k) (e := e) (Inv := L.Inv)
      (Q := fun j _ s' r => r = (some (k + j + 1), k + j + 1) ∧ L.Inv s' [] ∧ L.offset s' = 0) c new
      (by
        intro j v s hv hi
        have hj : j < new.length := by
          rw [List.getElem?_eq_some_iff] at hv; exact hv.1
        have hlen : (c ++ new.take j).length = c.length + j := by
          simp; omega
        have happ : c ++ new.take j ++ [v] = (c ++ new).take (c.length + (j + 1)) := by
          rw [take_append_length_add, List.take_add_one, hv]; simp
        rcases L.step (c.drop (c.length - k) ++ new) (k + j) v s (c ++ new.take j) hi
          (by
            rw [hb, List.getElem?_drop, show c.length - k + (k + j) = c.length + j by omega,
              List.getElem?_append_right (by omega), Nat.add_sub_cancel_left]
            exact hv)
          (by rw [hlen]; omega)
          (by
            intro hw
            have hlt : c.length + j - w < (c ++ new).length := by simp; omega
            refine ⟨(c ++ new)[c.length + j - w], ?_, ?_⟩
            · rw [hb, List.getElem?_drop, show c.length - k + (k + j - w) = c.length + j - w by omega]
              simp
            · rw [happ, hlen, List.getElem?_take_of_lt (by omega)]
              simp) with ⟨s', h1, h2, h3⟩ | ⟨s', h1, h2, h3, h4⟩
        · exact .inl ⟨s', h1, h2, h3⟩
        · exact .inr ⟨s', _, h1, h4, rfl, h2, h3⟩)
      st hi with ⟨s', hf, hi', hno'⟩ | ⟨i, s', r, hlt, hf, hcut, hr, hi', ho'⟩
    · refine ⟨L.setOffset s' (k + new.length - (k + new.length - w)), none, k + new.length - w, ?_, by omega,
        ⟨L.inv_set _ _ _ hi', hno.append hno', ?_, ?_⟩, (hno.append hno').not_firstCut⟩
      · rw [L.fce_next _ _ s' (by rw [hblen, hoff, Nat.add_sub_cancel_left, hf]), hblen]
      · rw [L.offset_set]
      · simp; omega
    · subst hr
      refine ⟨s', some (k + i + 1), k + i + 1, ?_, rfl, by omega, ⟨hi', NoEdge.nil _, ho', by simp⟩, ?_⟩
      · rw [L.fce_ret _ _ s' _ (by rw [hblen, hoff, Nat.add_sub_cancel_left, hf])]
      · have : c.length - k + (k + i + 1) = c.length + (i + 1) := by omega
        rw [this]; exact hno.firstCut_append hcut

theorem FceWindowSpec.conforms {A : Chunk} {w : Nat} {e : Bytes → Prop} (L : FceWindowSpec A w e) :
    FceConforms A Any (EdgeRule (Local e)) := L.fceSpec.conforms

end HashRoll.Spec
