import Verif.Props.Instances
/-!
# C87: the hand-written `==`

`FastCdc` and `ZpaqHash` contain arrays of 256 elements, for which `PartialEq` could not be derived when they were written.
Their `eq` lists the fields by hand; a field left out would make chunkers that cut differently compare equal.
-/

namespace HashRoll.Props

theorem sliceEq_iff {α : Type} [BEq α] [LawfulBEq α] (a b : List α) : sliceEq a b = true ↔ a = b := by
  unfold sliceEq
  rw [Bool.and_eq_true, beq_iff_eq]
  induction a generalizing b with
  | nil =>
    cases b with
    | nil => simp
    | cons y b => simp
  | cons x a ih =>
    cases b with
    | nil => simp
    | cons y b =>
      rw [List.zip_cons_cons, List.all_cons, Bool.and_eq_true, List.length_cons, List.length_cons, Nat.add_right_cancel_iff,
        beq_iff_eq, List.cons.injEq, ← ih b]
      exact ⟨fun ⟨h1, h2, h3⟩ => ⟨h2, h1, h3⟩, fun ⟨h1, h2, h3⟩ => ⟨h2, h1, h3⟩⟩

/-- C87. `FastCdc::eq` holds of equal chunkers only. -/
theorem C87_fastcdc (p q : FastCdc.FastCdc) : p.eq q = true ↔ p = q := by
  unfold FastCdc.FastCdc.eq
  rw [Bool.and_eq_true, Bool.and_eq_true, Bool.and_eq_true, beq_iff_eq, beq_iff_eq, beq_iff_eq, sliceEq_iff, Vector.toList_inj]
  cases p
  cases q
  simp only [FastCdc.FastCdc.mk.injEq]
  exact ⟨fun ⟨⟨⟨a, b⟩, c⟩, d⟩ => ⟨d, a, b, c⟩, fun ⟨d, a, b, c⟩ => ⟨⟨⟨a, b⟩, c⟩, d⟩⟩
example : Ex.fast.eq FastCdc.FastCdc.default = false ∧ Ex.fast.eq Ex.fast = true := by decide +kernel

/-- C87. `ZpaqHash::eq` holds of equal states only. -/
theorem C87_zpaq (p q : Zpaq.ZpaqHash) : p.eq q = true ↔ p = q := by
  unfold Zpaq.ZpaqHash.eq
  rw [Bool.and_eq_true, Bool.and_eq_true, beq_iff_eq, beq_iff_eq, sliceEq_iff, Vector.toList_inj]
  cases p
  cases q
  simp only [Zpaq.ZpaqHash.mk.injEq]
  exact ⟨fun ⟨⟨a, b⟩, c⟩ => ⟨a, b, c⟩, fun ⟨a, b, c⟩ => ⟨⟨a, b⟩, c⟩⟩
-- after one byte the state is another one
example : (Zpaq.ZpaqHash.default.feed 7).eq Zpaq.ZpaqHash.default = false := by decide +kernel

end HashRoll.Props
