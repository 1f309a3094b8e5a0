import Verif.Spec.Rule
/-!
# Lemmas about slices, `FirstCut`, and the loop combinators
-/

namespace HashRoll.Spec

theorem sub_length (s : Bytes) (a b : Nat) : (sub s a b).length = min b s.length - a := by
  simp [sub]

theorem sub_self (s : Bytes) (a : Nat) : sub s a a = [] := by
  simp only [sub, List.drop_eq_nil_iff, List.length_take]; omega

theorem sub_zero (s : Bytes) (b : Nat) : sub s 0 b = s.take b := by simp [sub]

theorem sub_full (s : Bytes) (a : Nat) : sub s a s.length = s.drop a := by simp [sub]

theorem drop_eq_sub (s : Bytes) {a e : Nat} (h : s.length ≤ e) : sub s a e = s.drop a := by
  simp [sub, List.take_of_length_le h]

theorem sub_append (s : Bytes) {a b c : Nat} (h1 : a ≤ b) (h2 : b ≤ c) :
    sub s a b ++ sub s b c = sub s a c := by
  simp only [sub]
  apply List.ext_getElem?
  intro i
  simp only [List.getElem?_append, List.getElem?_drop, List.getElem?_take, List.length_drop,
    List.length_take]
  split
  · split <;> split <;> first | rfl | omega
  · rename_i h
    by_cases hs : b ≤ s.length
    · have : b + (i - (min b s.length - a)) = a + i := by omega
      rw [this]
    · have h3 : s[b + (i - (min b s.length - a))]? = none := by
        rw [List.getElem?_eq_none_iff]; omega
      have h4 : s[a + i]? = none := by rw [List.getElem?_eq_none_iff]; omega
      simp [h3, h4]

theorem take_append_sub (s : Bytes) {a b : Nat} (h : a ≤ b) : s.take a ++ sub s a b = s.take b := by
  rw [← sub_zero, ← sub_zero]; exact sub_append s (by omega) h

theorem sub_take (s : Bytes) (a b n : Nat) : (sub s a b).take n = sub s a (min b (a + n)) := by
  simp only [sub, List.take_drop, List.take_take]
  congr 2; omega

theorem sub_drop (s : Bytes) (a b n : Nat) : (sub s a b).drop n = sub s (a + n) b := by
  simp [sub, List.drop_drop]

theorem sub_take_of_le (s : Bytes) {a b e : Nat} (h : b ≤ e) (n : Nat) (hn : a + n = b) :
    (sub s a e).take n = sub s a b := by
  rw [sub_take]; congr 1; omega

theorem sub_one (s : Bytes) {p : Nat} (h : p < s.length) : sub s p (p + 1) = [s[p]] := by
  apply List.ext_getElem
  · simp [sub_length]; omega
  · intro i h1 h2
    have : i = 0 := by simpa using h2
    subst this
    simp [sub]

/-! ## FirstCut -/

/-- no prefix of `d` (of positive length) is an edge -/
def NoEdge (e : Bytes → Prop) (d : Bytes) : Prop := ∀ m, 1 ≤ m → m ≤ d.length → ¬ e (d.take m)

theorem NoEdge.nil (e : Bytes → Prop) : NoEdge e [] := by
  intro m h1 h2; simp at h2; omega

theorem NoEdge.not_firstCut {e : Bytes → Prop} {d : Bytes} (h : NoEdge e d) (n : Nat) :
    ¬ FirstCut e d n := by
  rintro ⟨h1, h2, h3, _⟩; exact h n h1 h2 h3

theorem take_append_length_add (c new : Bytes) (n : Nat) :
    (c ++ new).take (c.length + n) = c ++ new.take n := by
  rw [List.take_append, List.take_of_length_le (by omega), Nat.add_sub_cancel_left]

theorem NoEdge.append {e : Bytes → Prop} {c new : Bytes} (h : NoEdge e c)
    (h' : NoEdge (fun x => e (c ++ x)) new) : NoEdge e (c ++ new) := by
  intro m h1 h2 he
  by_cases hm : m ≤ c.length
  · rw [List.take_append_of_le_length hm] at he; exact h m h1 hm he
  · obtain ⟨k, rfl⟩ : ∃ k, m = c.length + k := ⟨m - c.length, by omega⟩
    rw [take_append_length_add] at he
    simp only [List.length_append] at h2
    exact h' k (by omega) (by omega) he

theorem NoEdge.snoc {e : Bytes → Prop} {c : Bytes} {v : UInt8} (h : NoEdge e c)
    (h' : ¬ e (c ++ [v])) : NoEdge e (c ++ [v]) := by
  apply h.append
  intro m h1 h2
  have : m = 1 := by simp at h2; omega
  subst this; simpa using h'

theorem NoEdge.firstCut_append {e : Bytes → Prop} {c new : Bytes} {n : Nat} (h : NoEdge e c)
    (h' : FirstCut (fun x => e (c ++ x)) new n) : FirstCut e (c ++ new) (c.length + n) := by
  obtain ⟨h1, h2, h3, h4⟩ := h'
  refine ⟨by omega, by simp; omega, ?_, ?_⟩
  · rw [take_append_length_add]; exact h3
  · intro m hm1 hm2 he
    by_cases hm : m ≤ c.length
    · rw [List.take_append_of_le_length hm] at he; exact h m hm1 hm he
    · obtain ⟨k, rfl⟩ : ∃ k, m = c.length + k := ⟨m - c.length, by omega⟩
      rw [take_append_length_add] at he
      exact h4 k (by omega) (by omega) he

theorem FirstCut.mono {e : Bytes → Prop} {d : Bytes} {n : Nat} (more : Bytes) (h : FirstCut e d n) :
    FirstCut e (d ++ more) n := by
  obtain ⟨h1, h2, h3, h4⟩ := h
  refine ⟨h1, by simp; omega, ?_, ?_⟩
  · rwa [List.take_append_of_le_length h2]
  · intro m hm1 hm2
    rw [List.take_append_of_le_length (by omega)]; exact h4 m hm1 hm2

theorem FirstCut.det {e : Bytes → Prop} {d : Bytes} {n m : Nat} (h : FirstCut e d n)
    (h' : FirstCut e d m) : n = m := by
  obtain ⟨h1, h2, h3, h4⟩ := h
  obtain ⟨h1', h2', h3', h4'⟩ := h'
  rcases Nat.lt_trichotomy n m with h | h | h
  · exact absurd h3 (h4' n h1 h)
  · exact h
  · exact absurd h3' (h4 m h1' h)

theorem FirstCut.congr {e e' : Bytes → Prop} {d : Bytes} {n : Nat}
    (h : ∀ x, x ≠ [] → (e x ↔ e' x)) : FirstCut e d n ↔ FirstCut e' d n := by
  have ne : ∀ m, 1 ≤ m → m ≤ d.length → d.take m ≠ [] := by
    intro m h1 h2 h3
    have := congrArg List.length h3
    rw [List.length_take, List.length_nil] at this; omega
  constructor <;> rintro ⟨h1, h2, h3, h4⟩ <;> refine ⟨h1, h2, ?_, ?_⟩
  · exact (h _ (ne n h1 h2)).1 h3
  · intro m hm1 hm2 he; exact h4 m hm1 hm2 ((h _ (ne m hm1 (by omega))).2 he)
  · exact (h _ (ne n h1 h2)).2 h3
  · intro m hm1 hm2 he; exact h4 m hm1 hm2 ((h _ (ne m hm1 (by omega))).1 he)

/-- Given an edge somewhere, there is a first one. -/
theorem FirstCut.exists_of_edge {e : Bytes → Prop} {d : Bytes} {m : Nat} (h1 : 1 ≤ m)
    (h2 : m ≤ d.length) (h3 : e (d.take m)) : ∃ n, n ≤ m ∧ FirstCut e d n := by
  classical
  induction m using Nat.strongRecOn with
  | _ m ih =>
    by_cases hex : ∃ k, 1 ≤ k ∧ k < m ∧ e (d.take k)
    · obtain ⟨k, hk1, hk2, hk3⟩ := hex
      obtain ⟨n, hn, hf⟩ := ih k hk2 hk1 (by omega) hk3
      exact ⟨n, by omega, hf⟩
    · refine ⟨m, Nat.le_refl _, h1, h2, h3, ?_⟩
      intro k hk1 hk2 hk3; exact hex ⟨k, hk1, hk2, hk3⟩

theorem noEdge_or_firstCut (e : Bytes → Prop) (d : Bytes) : NoEdge e d ∨ ∃ n, FirstCut e d n := by
  classical
  by_cases h : NoEdge e d
  · exact .inl h
  · right
    simp only [NoEdge, Classical.not_forall, Classical.not_not] at h
    obtain ⟨m, h1, h2, h3⟩ := h
    obtain ⟨n, _, hf⟩ := FirstCut.exists_of_edge h1 h2 h3
    exact ⟨n, hf⟩

theorem NoEdge.of_not {e : Bytes → Prop} {d : Bytes} (h : ∀ n, ¬ FirstCut e d n) : NoEdge e d := by
  rcases noEdge_or_firstCut e d with h' | ⟨n, h'⟩
  · exact h'
  · exact absurd h' (h n)

end HashRoll.Spec

namespace HashRoll

open Spec

/-- The loop `for (i, v) in data.iter().enumerate()` looks for the first edge: if the body keeps an
invariant `Inv i s c` (`c` the bytes fed so far, `i` the loop index) and returns exactly at an edge, so does
the loop. -/
theorem forEnum_edge_idx {σ ρ : Type} {body : Nat → UInt8 → σ → R (Flow σ ρ)}
    {e : Bytes → Prop} {Inv : Nat → σ → Bytes → Prop} {Q : Nat → UInt8 → Bytes → σ → ρ → Prop}
    (step : ∀ i v s c, Inv i s c →
      (∃ s', body i v s = .ok (.next s') ∧ Inv (i + 1) s' (c ++ [v]) ∧ ¬ e (c ++ [v])) ∨
      (∃ s' r, body i v s = .ok (.ret s' r) ∧ e (c ++ [v]) ∧ Q i v c s' r)) :
    ∀ data i0 s c, Inv i0 s c →
      (∃ s', forEnum body i0 data s = .ok (.next s') ∧ Inv (i0 + data.length) s' (c ++ data) ∧
        NoEdge (fun x => e (c ++ x)) data) ∨
      (∃ i s' r v, forEnum body i0 data s = .ok (.ret s' r) ∧ data[i]? = some v ∧
        FirstCut (fun x => e (c ++ x)) data (i + 1) ∧ Q (i0 + i) v (c ++ data.take i) s' r) := by
  intro data
  induction data with
  | nil =>
    intro i0 s c h
    left
    exact ⟨s, rfl, by simpa using h, NoEdge.nil _⟩
  | cons v vs ih =>
    intro i0 s c h
    rcases step i0 v s c h with ⟨s1, hb, hi, hne⟩ | ⟨s1, r, hb, he, hq⟩
    · have hcons : ∀ m, 1 ≤ m → c ++ (v :: vs).take (m) = (c ++ [v]) ++ vs.take (m - 1) := by
        intro m hm
        obtain ⟨k, rfl⟩ : ∃ k, m = k + 1 := ⟨m - 1, by omega⟩
        simp
      rcases ih (i0 + 1) s1 (c ++ [v]) hi with ⟨s', hf, hi', hno⟩ | ⟨i, s', r, w, hf, hw, hcut, hq⟩
      · left
        refine ⟨s', by simp [forEnum, hb, hf], ?_, ?_⟩
        · have : i0 + (v :: vs).length = i0 + 1 + vs.length := by simp; omega
          rw [this]; simpa using hi'
        intro m h1 h2
        show ¬ e (c ++ (v :: vs).take m)
        rw [hcons m h1]
        by_cases hm : m = 1
        · subst hm; simpa using hne
        · exact hno (m - 1) (by omega) (by simp at h2; omega)
      · right
        obtain ⟨h1, h2, h3, h4⟩ := hcut
        refine ⟨i + 1, s', r, w, by simp [forEnum, hb, hf], by simpa using hw, ?_, ?_⟩
        · refine ⟨by omega, by simp; omega, ?_, ?_⟩
          · show e (c ++ (v :: vs).take (i + 1 + 1))
            rw [hcons _ (by omega)]; exact h3
          · intro m hm1 hm2
            show ¬ e (c ++ (v :: vs).take m)
            rw [hcons m hm1]
            by_cases hm : m = 1
            · subst hm; simpa using hne
            · exact h4 (m - 1) (by omega) (by omega)
        · have h5 : i0 + 1 + i = i0 + (i + 1) := by omega
          rw [h5] at hq
          simpa using hq
    · right
      refine ⟨0, s1, r, v, by simp [forEnum, hb], by simp, ?_, by simpa using hq⟩
      refine ⟨by omega, by simp, by simpa using he, by intro m h1 h2; omega⟩

/-- `forEnum_edge_idx` for an invariant that does not mention the loop index. -/
theorem forEnum_edge {σ ρ : Type} {body : Nat → UInt8 → σ → R (Flow σ ρ)}
    {e : Bytes → Prop} {Inv : σ → Bytes → Prop} {Q : Nat → UInt8 → Bytes → σ → ρ → Prop}
    (step : ∀ i v s c, Inv s c →
      (∃ s', body i v s = .ok (.next s') ∧ Inv s' (c ++ [v]) ∧ ¬ e (c ++ [v])) ∨
      (∃ s' r, body i v s = .ok (.ret s' r) ∧ e (c ++ [v]) ∧ Q i v c s' r)) :
    ∀ data i0 s c, Inv s c →
      (∃ s', forEnum body i0 data s = .ok (.next s') ∧ Inv s' (c ++ data) ∧
        NoEdge (fun x => e (c ++ x)) data) ∨
      (∃ i s' r v, forEnum body i0 data s = .ok (.ret s' r) ∧ data[i]? = some v ∧
        FirstCut (fun x => e (c ++ x)) data (i + 1) ∧ Q (i0 + i) v (c ++ data.take i) s' r) :=
  forEnum_edge_idx (Inv := fun _ => Inv) step

/-- Same for `for i in off..buf.len()`, where `buf` is the last `k = off` bytes of what was examined
followed by new data. -/
theorem forRange_edge {σ ρ : Type} {body : Nat → σ → R (Flow σ ρ)}
    {e : Bytes → Prop} {Inv : σ → Bytes → Prop} {Q : Nat → Bytes → σ → ρ → Prop} {k : Nat}
    (c new : Bytes) 
    (step : ∀ j v s, new[j]? = some v → Inv s (c ++ new.take j) →
      (∃ s', body (k + j) s = .ok (.next s') ∧ Inv s' (c ++ new.take j ++ [v]) ∧
        ¬ e (c ++ new.take j ++ [v])) ∨
      (∃ s' r, body (k + j) s = .ok (.ret s' r) ∧ e (c ++ new.take j ++ [v]) ∧
        Q j (c ++ new.take j) s' r)) :
    ∀ s, Inv s c →
      (∃ s', forRange body new.length k s = .ok (.next s') ∧ Inv s' (c ++ new) ∧
        NoEdge (fun x => e (c ++ x)) new) ∨
      (∃ i s' r, i < new.length ∧ forRange body new.length k s = .ok (.ret s' r) ∧
        FirstCut (fun x => e (c ++ x)) new (i + 1) ∧ Q i (c ++ new.take i) s' r) := by
  have key : ∀ count j s, count + j = new.length → Inv s (c ++ new.take j) →
      NoEdge (fun x => e (c ++ x)) (new.take j) →
      (∃ s', forRange body count (k + j) s = .ok (.next s') ∧ Inv s' (c ++ new) ∧
        NoEdge (fun x => e (c ++ x)) new) ∨
      (∃ i s' r, i < new.length ∧ forRange body count (k + j) s = .ok (.ret s' r) ∧
        FirstCut (fun x => e (c ++ x)) new (i + 1) ∧ Q i (c ++ new.take i) s' r) := by
    intro count
    induction count with
    | zero =>
      intro j s hj hi hno
      left
      have : new.take j = new := List.take_of_length_le (by omega)
      rw [this] at hi hno
      exact ⟨s, rfl, hi, hno⟩
    | succ count ih =>
      intro j s hj hi hno
      have hlt : j < new.length := by omega
      have hv : new[j]? = some new[j] := by simp [hlt]
      have htk : new.take (j + 1) = new.take j ++ [new[j]] := by
        rw [List.take_add_one, hv]; rfl
      rcases step j new[j] s hv hi with ⟨s1, hb, hi1, hne⟩ | ⟨s1, r, hb, he, hq⟩
      · have hi2 : Inv s1 (c ++ new.take (j + 1)) := by
          rw [htk, ← List.append_assoc]; exact hi1
        have hno2 : NoEdge (fun x => e (c ++ x)) (new.take (j + 1)) := by
          rw [htk]; apply hno.snoc; rw [← List.append_assoc]; exact hne
        have := ih (j + 1) s1 (by omega) hi2 hno2
        simp only [forRange, hb]
        exact this
      · right
        refine ⟨j, s1, r, hlt, by simp [forRange, hb], ?_, hq⟩
        refine ⟨by omega, by omega, ?_, ?_⟩
        · show e (c ++ new.take (j + 1))
          rw [htk, ← List.append_assoc]; exact he
        · intro m h1 h2
          have := hno m h1 (by simp; omega)
          rwa [List.take_take, Nat.min_eq_left (by omega)] at this
  intro s hi
  have := key new.length 0 s (by omega) (by simpa using hi) (by simpa using NoEdge.nil _)
  simpa using this

end HashRoll
