import Verif.Proofs.Sums
/-!
# Ring buffers
-/

namespace HashRoll

theorem index_of {α : Type} {l : List α} {i : Nat} {v : α} (h : l[i]? = some v) : index l i = .ok v := by
  simp [index, h]

end HashRoll

namespace HashRoll.Spec

/-- contents of a ring buffer, oldest first, when the next write goes to index `o` -/
def rot (win : Bytes) (o : Nat) : Bytes := win.drop o ++ win.take o

theorem rot_length {win : Bytes} {o : Nat} (h : o ≤ win.length) : (rot win o).length = win.length := by
  simp [rot]; omega

/-- One write: the oldest element is read and replaced by the newest. -/
theorem rot_step {win : Bytes} {o : Nat} (v : UInt8) (h : o < win.length) :
    ∃ d t, win[o]? = some d ∧ rot win o = d :: t ∧
      rot (win.set o v) ((o + 1) % win.length) = t ++ [v] ∧ t.length + 1 = win.length := by
  refine ⟨win[o], win.drop (o + 1) ++ win.take o, by simp, ?_, ?_, by simp; omega⟩
  · unfold rot
    rw [List.drop_eq_getElem_cons h]; rfl
  · unfold rot
    have htake : (win.set o v).take (o + 1) = win.take o ++ [v] := by
      rw [List.take_add_one, List.take_set_of_le (Nat.le_refl _)]
      simp [h]
    by_cases he : o + 1 = win.length
    · rw [he, Nat.mod_self, ← he, List.drop_zero, List.take_zero, List.append_nil]
      have : (win.set o v).take (o + 1) = win.set o v := List.take_of_length_le (by simp; omega)
      rw [← this, htake, List.drop_of_length_le (by omega)]
      rfl
    · rw [Nat.mod_eq_of_lt (by omega), htake, List.drop_set_of_lt (by omega), List.append_assoc]

end HashRoll.Spec
