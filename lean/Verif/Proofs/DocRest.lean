import Verif.Proofs.Iter
import Verif.Proofs.Window
import Verif.Spec.Edges
/-!
# What the documented loop prints as the remainder

`find_chunk_edge` without an edge keeps the last `W` bytes (`W` = window length, 0 for the chunkers without a
window) and the documented loop (`src/lib.rs:308-333`) prints what was kept.
-/

namespace HashRoll.Spec

theorem FceSpec.docRest {A : Chunk} {e : Bytes → Prop} {W : Nat} (S : FceSpec A (fun _ => True) (FirstCut e))
    (hW : ∀ st c k, S.Inv st c k → k = min c.length W) (s : Bytes) :
    ∀ (n prev : Nat) (st : A.State), S.Inv st [] 0 → prev ≤ s.length → s.length - prev < n → ∃ cs r,
      Chunked (EdgeRule (Local e)) (s.take prev) (s.drop prev) cs r ∧
      A.docLoop s n st (s.drop prev) prev = .ok (cs, some (lastN W r)) := by
  intro n
  induction n with
  | zero => intro prev _ _ _ h; omega
  | succ n ih =>
    intro prev st hi hp hn
    obtain ⟨st', r, d, hf, hm⟩ := S.step st [] 0 hi (Nat.le_refl _) (s.drop prev) trivial
    simp only [List.drop_nil, List.nil_append, Nat.zero_add, List.length_nil, Nat.sub_zero] at hf hm
    cases r with
    | none =>
      obtain ⟨h1, h2, h3⟩ := hm
      refine ⟨[], s.drop prev, .rem h3, ?_⟩
      have hk := hW _ _ _ h2
      rw [doc_none hf h1, lastN]
      congr 4
      omega
    | some c =>
      obtain ⟨rfl, h2, h3, h4⟩ := hm
      have hpos : 1 ≤ d := h4.1
      have hle : prev + d ≤ s.length := by simp at h2; omega
      obtain ⟨cs, r, k1, k2⟩ := ih (prev + d) st' h3 hle (by omega)
      refine ⟨_, r, chunked_cons (EdgeRule.good _) (s := s) (prev := prev) (p := prev + d) (e := s.length)
        (rule := EdgeRule (Local e)) (by omega) hle (Nat.le_refl _)
        (by rw [sub_full, show prev + d - prev = d by omega]; exact h4) k1, ?_⟩
      exact doc_some hf h2 (by simp; omega) (by omega) hle (by rw [List.drop_drop]; exact k2)

theorem FceLoopSpec.docRest {A : Chunk} {e : Bytes → Prop} (L : FceLoopSpec A e) (s : Bytes) (n : Nat)
    (hn : s.length < n) : ∃ cs r, Chunked (EdgeRule (Local e)) [] s cs r ∧
      A.docLoop s n A.init s 0 = .ok (cs, some []) := by
  obtain ⟨cs, r, h1, h2⟩ := FceSpec.docRest (W := 0) L.fceSpec (fun st c k h => by rw [h.2.2]; simp) s n 0 A.init
    L.fceSpec.init (Nat.zero_le _) (by omega)
  refine ⟨cs, r, h1, ?_⟩
  rw [List.drop_zero, lastN, Nat.sub_zero, List.drop_length] at h2
  exact h2

theorem FceWindowSpec.docRest {A : Chunk} {w : Nat} {e : Bytes → Prop} (L : FceWindowSpec A w e) (s : Bytes)
    (n : Nat) (hn : s.length < n) : ∃ cs r, Chunked (EdgeRule (Local e)) [] s cs r ∧
      A.docLoop s n A.init s 0 = .ok (cs, some (lastN w r)) := by
  obtain ⟨cs, r, h1, h2⟩ := FceSpec.docRest (W := w) L.fceSpec (fun st c k h => h.2.2.2) s n 0 A.init
    L.fceSpec.init (Nat.zero_le _) (by omega)
  exact ⟨cs, r, h1, h2⟩

end HashRoll.Spec
