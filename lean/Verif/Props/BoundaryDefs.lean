import Verif.Props.Recover
import Verif.Props.Local
import Verif.Props.Loops
import Verif.Proofs.IterGeneric
/-!
# C83: strings that force a cut

COMPARE.md describes content-defined chunking as cutting where the data says so. A *boundary string* is the extreme case: a
byte string `m` that forces a cut at its end wherever it stands in a stream, however the stream was cut before.
-/

namespace HashRoll.Spec

/-- C83. Wherever `m` stands in a stream, the documented loop cuts just after it, and after that prints the chunks it prints
for the rest `t` of the stream alone. -/
def DocBoundary (A : Chunk) (m : Bytes) : Prop :=
  ∀ (s t : Bytes) (n : Nat), s.length + m.length + t.length < n → ∃ cs ds r r',
    A.docLoop (s ++ m ++ t) n A.init (s ++ m ++ t) 0 = .ok (cs ++ ds, some r) ∧ cs.flatten = s ++ m ∧
    A.docLoop t n A.init t 0 = .ok (ds, some r')

/-- The same for `iter_slices_strict`. `k` is what has to follow `m`: the chunkers that cut before the byte that matches need
to see this byte. -/
def StrictBoundary (C : ChunkIncr) (m k : Bytes) : Prop :=
  ∀ (s t : Bytes) (n : Nat), s.length + m.length + k.length + t.length < n → ∃ cs ds it it',
    (C.iterSlicesStrict C.init (s ++ m ++ (k ++ t))).run n = .ok (cs ++ ds, it, true) ∧ cs.flatten = s ++ m ∧
    (C.iterSlicesStrict C.init (k ++ t)).run n = .ok (ds, it', true) ∧ it.takeRem.2 = it'.takeRem.2

/-- For the two chunkers that keep something across a cut: the chunks after `m` do not depend on what came before `m`. -/
def StrictForgets (C : ChunkIncr) (m : Bytes) : Prop :=
  ∀ t : Bytes, ∃ ds rest, ∀ (s : Bytes) (n : Nat), s.length + m.length + t.length < n → ∃ cs it,
    (C.iterSlicesStrict C.init (s ++ m ++ t)).run n = .ok (cs ++ ds, it, true) ∧ cs.flatten = s ++ m ∧
    it.takeRem.2 = rest

/-- At the level of rules: whatever was cut off before, `s ++ m` is cut into whole chunks. -/
def RuleBoundary (rule : Rule) (m k : Bytes) : Prop :=
  ∀ h s, ∃ cs, cs.flatten = s ++ m ∧ ∀ t ds r, Chunked rule (h ++ (s ++ m)) (k ++ t) ds r →
    Chunked rule h (s ++ m ++ (k ++ t)) (cs ++ ds) r

variable {rule : Rule} {A : Chunk} {C : ChunkIncr} {m k : Bytes}

/-! ### from the rule to the API -/

theorem RuleBoundary.doc (hb : RuleBoundary rule m []) (hd : DocLoopChunks A rule) (hg : rule.Good) (hf : rule.Fresh) :
    DocBoundary A m := by
  intro s t n hn
  obtain ⟨ds, r', rest', h1, h2, -⟩ := hd t n (by omega)
  obtain ⟨cs, h3, h4⟩ := hb [] s
  obtain ⟨all, r, rest, h5, h6, -⟩ := hd (s ++ m ++ t) n (by simp only [List.length_append]; omega)
  have h7 := h4 t ds r' (h2.fresh hf)
  obtain ⟨rfl, -⟩ := h6.det hg h7
  exact ⟨cs, ds, rest, rest', h5, h3, h1⟩

theorem RuleBoundary.strict (hb : RuleBoundary rule m k) (hd : StrictChunks C rule) (hg : rule.Good) (hf : rule.Fresh) :
    StrictBoundary C m k := by
  intro s t n hn
  obtain ⟨it', ds, r', h1, h2, -, h2', -⟩ := hd (k ++ t) n (by simp only [List.length_append]; omega)
  obtain ⟨cs, h3, h4⟩ := hb [] s
  obtain ⟨it, all, r, h5, h6, -, h6', -⟩ := hd (s ++ m ++ (k ++ t)) n (by simp only [List.length_append]; omega)
  have h7 := h4 t ds r' (h2.fresh hf)
  obtain ⟨rfl, rfl⟩ := h6.det hg h7
  exact ⟨cs, ds, it, it', h5, h3, h1, h6'.trans h2'.symm⟩

/-- If the rule treats two histories alike whatever is appended to both, so do the chunks. -/
theorem Chunked.of_alike {R : Bytes → Bytes → Prop} (hR : ∀ h h' x, R h h' → R (h ++ x) (h' ++ x))
    (hr : ∀ h h' d n, R h h' → (rule h d n ↔ rule h' d n)) {h h' data : Bytes} {cs : List Bytes} {r : Bytes}
    (hc : Chunked rule h data cs r) (hh : R h h') : Chunked rule h' data cs r := by
  induction hc generalizing h' with
  | rem hn => exact .rem fun n hn' => hn n ((hr _ _ _ _ hh).2 hn')
  | cut hn _ ih => exact .cut ((hr _ _ _ _ hh).1 hn) (ih (hR _ _ _ hh))

theorem RuleBoundary.forgets (hb : RuleBoundary rule m []) (hd : StrictChunks C rule) (hg : rule.Good) (hp : rule.Pos)
    {R : Bytes → Bytes → Prop} (hR : ∀ h h' x, R h h' → R (h ++ x) (h' ++ x))
    (hr : ∀ h h' d n, R h h' → (rule h d n ↔ rule h' d n)) (hm : ∀ s, R m (s ++ m)) : StrictForgets C m := by
  intro t
  obtain ⟨ds, r', h2⟩ := Chunked.exists hg hp m t
  refine ⟨ds, r', ?_⟩
  intro s n hn
  obtain ⟨cs, h3, h4⟩ := hb [] s
  obtain ⟨it, all, r, h5, h6, -, h6', -⟩ := hd (s ++ m ++ t) n (by simp only [List.length_append]; omega)
  have h7 := h4 t ds r' (h2.of_alike hR hr (hm s))
  obtain ⟨rfl, rfl⟩ := h6.det hg h7
  exact ⟨cs, it, h5, h3, h6'⟩

/-! ### finding the rule's cuts -/

/-- `P h q`: with `h` cut off and `q` still to come before the boundary, we get there. -/
theorem boundary_of (hg : rule.Good) {P : Bytes → Bytes → Prop}
    (hP : ∀ h q, q ≠ [] → P h q → ∃ n, 1 ≤ n ∧ n ≤ q.length ∧ rule h (q ++ k) n ∧
      (n < q.length → P (h ++ q.take n) (q.drop n))) :
    ∀ (N : Nat) (h q : Bytes), q.length ≤ N → (q ≠ [] → P h q) → ∃ cs, cs.flatten = q ∧
      ∀ t ds r, Chunked rule (h ++ q) (k ++ t) ds r → Chunked rule h (q ++ (k ++ t)) (cs ++ ds) r := by
  intro N
  induction N with
  | zero =>
    intro h q hq _
    have : q = [] := List.length_eq_zero_iff.1 (by omega)
    subst this
    exact ⟨[], rfl, fun t ds r hc => by simpa using hc⟩
  | succ N ih =>
    intro h q hq hPq
    rcases eq_or_ne q [] with rfl | hne
    · exact ⟨[], rfl, fun t ds r hc => by simpa using hc⟩
    · obtain ⟨n, h1, h2, h3, h4⟩ := hP h q hne (hPq hne)
      obtain ⟨cs, h5, h6⟩ := ih (h ++ q.take n) (q.drop n) (by rw [List.length_drop]; omega) (by
        intro hd
        exact h4 (by have := List.length_pos_iff.2 hd; rw [List.length_drop] at this; omega))
      refine ⟨q.take n :: cs, by rw [List.flatten_cons, h5, List.take_append_drop], ?_⟩
      intro t ds r hc
      have e1 : (q ++ (k ++ t)).take n = q.take n := List.take_append_of_le_length h2
      have e2 : (q ++ (k ++ t)).drop n = q.drop n ++ (k ++ t) := List.drop_append_of_le_length h2
      have h7 := hg.mono t h3
      rw [List.append_assoc] at h7
      have h8 := h6 t ds r (by rw [List.append_assoc, List.take_append_drop]; exact hc)
      have := Chunked.cut h7 (cs := cs ++ ds) (r := r) (by rw [e1, e2]; exact h8)
      rw [e1] at this
      exact this

/-- For rules that cut after the byte that matches: `P` holds at the start, where `P` holds there is an edge at the end, and
`P` is kept by every cut before the end. -/
theorem boundary_edge {e : Bytes → Bytes → Prop} {P : Bytes → Bytes → Prop}
    (h0 : ∀ h s, P h (s ++ m)) (h1 : ∀ h q, q ≠ [] → P h q → e h q)
    (h2 : ∀ h q n, P h q → n < q.length → FirstCut (e h) q n → P (h ++ q.take n) (q.drop n)) :
    RuleBoundary (EdgeRule e) m [] := by
  intro h s
  refine boundary_of (EdgeRule.good e) (P := P) (k := []) ?_ _ h (s ++ m) le_rfl fun _ => h0 h s
  intro h q hne hq
  obtain ⟨n, hn, hf⟩ := FirstCut.exists_of_edge (e := e h) (d := q) (m := q.length) (List.length_pos_iff.2 hne) le_rfl
    (by rw [List.take_length]; exact h1 h q hne hq)
  rw [List.append_nil]
  exact ⟨n, hf.1, hf.2.1, hf, fun hlt => h2 h q n hq hlt hf⟩

/-- First kind: the end of `m` is an edge wherever the chunk starts. -/
theorem boundary_always {e : Bytes → Bytes → Prop}
    (he : ∀ x h q, q ≠ [] → h ++ q = x ++ m → e h q) : RuleBoundary (EdgeRule e) m [] :=
  boundary_edge (P := fun h q => ∃ x, h ++ q = x ++ m) (fun h s => ⟨h ++ s, by simp⟩)
    (fun h q hne hx => hx.elim fun x hx => he x h q hne hx)
    (fun h q n hx _ _ => hx.elim fun x hx => ⟨x, by rw [List.append_assoc, List.take_append_drop]; exact hx⟩)

/-- Second kind: an edge at the end of `m`, none inside `m`. -/
theorem boundary_quiet {e : Bytes → Bytes → Prop} (h1 : ∀ h c, e h (c ++ m))
    (h2 : ∀ h c i, 1 ≤ i → i < m.length → ¬ e h (c ++ m.take i)) : RuleBoundary (EdgeRule e) m [] := by
  refine boundary_edge (P := fun _ q => m <:+ q) (fun h s => List.suffix_append _ _) ?_ ?_
  · rintro h q hne ⟨c, rfl⟩
    exact h1 h c
  · rintro h q n ⟨c, rfl⟩ hn ⟨k1, k2, k3, -⟩
    rcases Nat.lt_or_ge c.length n with hlt | hge
    · rw [List.length_append] at hn
      rw [List.take_append, List.take_of_length_le (by omega)] at k3
      exact absurd k3 (h2 h c (n - c.length) (by omega) (by omega))
    · rw [List.drop_append_of_le_length hge]
      exact List.suffix_append _ _

/-- Third kind, two strings: `u` ends with an edge if the chunk starts before it; `v` ends with one if the chunk starts before
or inside `u` or just after it, and in the last two cases there is no other one in `v`. -/
theorem boundary_pair {e : Bytes → Bytes → Prop} {u v : Bytes} (hu : u ≠ []) (h1 : ∀ h c, e h (c ++ u))
    (h1' : ∀ h c, e h (c ++ (u ++ v))) (h2 : ∀ h a, 1 ≤ a → a ≤ u.length → e h (u.drop a ++ v))
    (h3 : ∀ h a i, 1 ≤ a → a ≤ u.length → 1 ≤ i → i < v.length → ¬ e h (u.drop a ++ v.take i)) :
    RuleBoundary (EdgeRule e) (u ++ v) [] := by
  refine boundary_edge (P := fun _ q => (∃ c, q = c ++ (u ++ v)) ∨ ∃ a, 1 ≤ a ∧ a ≤ u.length ∧ q = u.drop a ++ v)
    (fun h s => .inl ⟨s, rfl⟩) ?_ ?_
  · rintro h q hne (⟨c, rfl⟩ | ⟨a, ha, ha', rfl⟩)
    · exact h1' h c
    · exact h2 h a ha ha'
  · rintro h q n (⟨c, rfl⟩ | ⟨a, ha, ha', rfl⟩) hn ⟨k1, k2, k3, k4⟩
    · rcases Nat.lt_or_ge c.length n with hlt | hge
      · right
        have hul := List.length_pos_iff.2 hu
        rcases Nat.lt_or_ge (c.length + u.length) n with hlt' | hge'
        · refine absurd ?_ (k4 (c.length + u.length) (by omega) hlt')
          rw [← List.append_assoc, List.take_append_of_le_length (by simp), List.take_of_length_le (by simp)]
          exact h1 h c
        · refine ⟨n - c.length, by omega, by omega, ?_⟩
          rw [List.drop_append, List.drop_eq_nil_of_le (by omega), List.nil_append,
            List.drop_append_of_le_length (by omega)]
      · left
        exact ⟨c.drop n, List.drop_append_of_le_length hge⟩
    · right
      rw [List.length_append, List.length_drop] at hn
      rcases Nat.lt_or_ge (u.length - a) n with hlt | hge
      · rw [List.take_append, List.take_of_length_le (by rw [List.length_drop]; omega), List.length_drop] at k3
        exact absurd k3 (h3 h a (n - (u.length - a)) ha ha' (by omega) (by omega))
      · exact ⟨a + n, by omega, by omega, by
          rw [List.drop_append_of_le_length (by rw [List.length_drop]; omega), List.drop_drop]⟩

/-- The third kind with `u = v` for an edge predicate that looks at the last `W` bytes (and, in chunks longer than `2 W`, may
hold for other reasons too). The windows inside `v ++ v` that are not `v` must not match. -/
theorem boundary_window {W : Nat} {w e : Bytes → Prop} (hw : Props.WindowLocal W w) (h1 : ∀ p, w p → e p)
    (h2 : ∀ p, p.length ≤ 2 * W → e p → w p) {v : Bytes} (hW : 1 ≤ W) (hv : v.length = W) (h3 : w v)
    (h4 : ∀ a i, 1 ≤ a → a ≤ W → 1 ≤ i → i < W → i ≤ a → ¬ w (v.drop a ++ v.take i)) :
    RuleBoundary (EdgeRule (Local e)) (v ++ v) [] := by
  have key : ∀ c, w (c ++ v) := by
    intro c
    refine (hw _ v ?_).2 h3
    rw [lastN_append_right _ (by omega), lastN_of_le (by omega)]
  refine boundary_pair (by intro h; subst h; simp at hv; omega) (fun _ c => h1 _ (key c)) (fun _ c => h1 _ ?_)
    (fun _ a _ _ => h1 _ (key _)) ?_
  · rw [← List.append_assoc]; exact key _
  · intro _ a i ha ha' hi hi' he
    have he := h2 _ (by simp; omega) he
    rcases Nat.lt_or_ge a i with hlt | hge
    · refine h4 i i hi (by omega) hi (by omega) le_rfl ((hw _ _ ?_).1 he)
      have e1 : v.drop a ++ v.take i = (v.drop a).take (i - a) ++ (v.drop i ++ v.take i) := by
        rw [← List.append_assoc]
        congr 1
        conv => lhs; rw [← List.take_append_drop (i - a) (v.drop a)]
        rw [List.drop_drop, Nat.add_sub_cancel' (by omega)]
      have hl : (v.drop i ++ v.take i).length = W := by simp; omega
      rw [e1, lastN_append_right _ (by omega)]
    · exact h4 a i ha (by omega) hi (by omega) hge he

/-- The third kind for chunkers that cut before the byte that matches: `E` holds up to and including that byte, the cut is
one byte earlier (or earlier still, in chunks longer than `M`). -/
theorem boundary_before (hg : rule.Good) {E : Bytes → Prop} {M : Nat} {u v : Bytes} {z : UInt8}
    (hr : ∀ h d j, FirstCut E d j → ∃ n, 1 ≤ n ∧ n + 1 ≤ j ∧ rule h d n ∧ (j ≤ M → n + 1 = j))
    (hM : u.length + v.length + 1 ≤ M) (hu : u ≠ []) (h1 : ∀ c, E (c ++ u))
    (h2 : ∀ a, 1 ≤ a → a ≤ u.length → E (u.drop a ++ (v ++ [z])))
    (h3 : ∀ a i, 1 ≤ a → a ≤ u.length → 1 ≤ i → i ≤ v.length → ¬ E (u.drop a ++ v.take i)) :
    RuleBoundary rule (u ++ v) [z] := by
  intro h s
  refine boundary_of hg
    (P := fun _ q => (∃ c, q = c ++ (u ++ v)) ∨ ∃ a, 1 ≤ a ∧ a ≤ u.length ∧ q = u.drop a ++ v) ?_ _ h (s ++ (u ++ v))
    le_rfl fun _ => .inl ⟨s, rfl⟩
  have hul := List.length_pos_iff.2 hu
  rintro h q hne (⟨c, rfl⟩ | ⟨a, ha, ha', rfl⟩)
  · have e1 : (c ++ (u ++ v) ++ [z]).take (c.length + u.length) = c ++ u := by
      rw [← List.append_assoc, List.append_assoc (c ++ u), List.take_append_of_le_length (by simp),
        List.take_of_length_le (by simp)]
    obtain ⟨j, hj, hf⟩ := FirstCut.exists_of_edge (e := E) (d := c ++ (u ++ v) ++ [z]) (m := c.length + u.length) (by omega)
      (by simp) (by rw [e1]; exact h1 c)
    obtain ⟨n, n1, n2, n3, -⟩ := hr h _ j hf
    refine ⟨n, n1, by simp; omega, n3, fun _ => ?_⟩
    rcases Nat.lt_or_ge c.length n with hlt | hge
    · right
      refine ⟨n - c.length, by omega, by omega, ?_⟩
      rw [List.drop_append, List.drop_eq_nil_of_le (by omega), List.nil_append,
        List.drop_append_of_le_length (by omega)]
    · left
      exact ⟨c.drop n, List.drop_append_of_le_length hge⟩
  · have hl : (u.drop a ++ v ++ [z]).length = u.length - a + v.length + 1 := by simp; omega
    obtain ⟨j, hj, hf⟩ := FirstCut.exists_of_edge (e := E) (d := u.drop a ++ v ++ [z]) (m := u.length - a + v.length + 1)
      (by omega) hl.ge (by rw [List.take_of_length_le hl.le, List.append_assoc]; exact h2 a ha ha')
    obtain ⟨n, n1, n2, n3, n4⟩ := hr h _ j hf
    have n4 := n4 (by omega)
    refine ⟨n, n1, by simp; omega, n3, fun hlt => ?_⟩
    rw [List.length_append, List.length_drop] at hlt
    rcases Nat.lt_or_ge (u.length - a) j with hj' | hj'
    · have k3 := hf.2.2.1
      rw [List.append_assoc, List.take_append, List.take_of_length_le (by rw [List.length_drop]; omega), List.length_drop,
        List.take_append_of_le_length (by omega)] at k3
      exact absurd k3 (h3 a _ ha ha' (by omega) (by omega))
    · right
      exact ⟨a + n, by omega, by omega, by
        rw [List.drop_append_of_le_length (by rw [List.length_drop]; omega), List.drop_drop]⟩

/-! ### scanning a string -/

/-- Read `bs` starting from `st`; `true` if `bad` never holds after a byte. -/
def quietBy {σ : Type} (step : σ → UInt8 → σ) (bad : σ → Bool) : σ → Bytes → Bool
  | _,  []      => true
  | st, b :: bs => !bad (step st b) && quietBy step bad (step st b) bs

theorem quietBy_spec {σ : Type} {step : σ → UInt8 → σ} {bad : σ → Bool} {f : Bytes → σ} {K : Nat}
    (hf : ∀ p v, p.length < K → f (p ++ [v]) = step (f p) v) (y : Bytes) :
    ∀ x, x.length + y.length ≤ K → quietBy step bad (f x) y = true →
    ∀ i, 1 ≤ i → i ≤ y.length → bad (f (x ++ y.take i)) = false := by
  induction y with
  | nil => intro x _ _ i hi hi'; simp at hi'; omega
  | cons b y ih =>
    intro x hx hq i hi hi'
    rw [List.length_cons] at hx hi'
    rw [quietBy, Bool.and_eq_true, Bool.not_eq_true', ← hf x b (by omega)] at hq
    obtain ⟨q1, q2⟩ := hq
    rcases Nat.lt_or_ge 1 i with hlt | hge
    · have := ih (x ++ [b]) (by simp; omega) q2 (i - 1) (by omega) (by omega)
      obtain ⟨i, rfl⟩ : ∃ i', i = i' + 1 := ⟨i - 1, by omega⟩
      simpa using this
    · obtain rfl : i = 1 := by omega
      simpa using q1

end HashRoll.Spec
