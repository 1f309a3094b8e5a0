import Verif.Props.Resync
import Verif.Props.Constant
/-!
# C76: recovery after an edit

Two streams with a common end `t`, for example a file and its copy with some bytes inserted, removed or changed in front of
`t`. Deduplication needs the cuts inside `t` to be the same in both, at least from some point on. COMPARE.md names this as
the point of content-defined chunking. Whether an algorithm guarantees it is decided by what it forgets at a cut.
-/

namespace HashRoll.Spec

/-- One of the chunks ends `p` bytes after the start of the first chunk. -/
def CutAt (cs : List Bytes) (p : Nat) : Prop := ∃ a b, cs = a ++ b ∧ a ≠ [] ∧ a.flatten.length = p

/-- C76. Whatever comes before the common end `t`: the cuts at least `W` bytes into `t` are at the same places. -/
def DocRecovers (A : Chunk) (W : Nat) : Prop :=
  ∀ (x y t : Bytes) (n : Nat) cs ds rx ry, x.length + y.length + t.length < n →
    A.docLoop (x ++ t) n A.init (x ++ t) 0 = .ok (cs, some rx) →
    A.docLoop (y ++ t) n A.init (y ++ t) 0 = .ok (ds, some ry) →
    ∀ q, 1 ≤ q → W ≤ q → q ≤ t.length → (CutAt cs (x.length + q) ↔ CutAt ds (y.length + q))

/-- The same for `iter_slices_strict`. -/
def StrictRecovers (C : ChunkIncr) (W : Nat) : Prop :=
  ∀ (x y t : Bytes) (n : Nat) cs ds itx ity, x.length + y.length + t.length < n →
    (C.iterSlicesStrict C.init (x ++ t)).run n = .ok (cs, itx, true) →
    (C.iterSlicesStrict C.init (y ++ t)).run n = .ok (ds, ity, true) →
    ∀ q, 1 ≤ q → W ≤ q → q ≤ t.length → (CutAt cs (x.length + q) ↔ CutAt ds (y.length + q))

/-- C76, the opposite. A byte `b` inserted in front can shift all later cuts: for every `k` there is a stream `t` that is
cut at least `k` times before and after the insertion, and no cut is in both at the same place. -/
def DocLost (A : Chunk) : Prop :=
  ∃ b : UInt8, ∀ k, ∃ (t : Bytes) (n : Nat) (cs ds : List Bytes) (rx ry : Bytes), t.length + 1 < n ∧
    A.docLoop t n A.init t 0 = .ok (cs, some rx) ∧
    A.docLoop (b :: t) n A.init (b :: t) 0 = .ok (ds, some ry) ∧ k ≤ cs.length ∧ k ≤ ds.length ∧
    ∀ q, ¬ (CutAt cs q ∧ CutAt ds (q + 1))

def StrictLost (C : ChunkIncr) : Prop :=
  ∃ b : UInt8, ∀ k, ∃ (t : Bytes) (n : Nat) (cs ds : List Bytes) (itx ity : IterSlicesStrict C), t.length + 1 < n ∧
    (C.iterSlicesStrict C.init t).run n = .ok (cs, itx, true) ∧
    (C.iterSlicesStrict C.init (b :: t)).run n = .ok (ds, ity, true) ∧ k ≤ cs.length ∧ k ≤ ds.length ∧
    ∀ q, ¬ (CutAt cs q ∧ CutAt ds (q + 1))

/-! ### where the cuts are -/

theorem not_cutAt_nil (p : Nat) : ¬ CutAt [] p := by
  rintro ⟨a, b, h, h', -⟩
  cases a with
  | nil => exact h' rfl
  | cons _ _ => cases h

theorem cutAt_cons {c : Bytes} {cs : List Bytes} {p : Nat} :
    CutAt (c :: cs) p ↔ p = c.length ∨ c.length ≤ p ∧ CutAt cs (p - c.length) := by
  constructor
  · rintro ⟨a, b, h, h', h''⟩
    cases a with
    | nil => exact absurd rfl h'
    | cons a0 a =>
      rw [List.cons_append] at h
      cases h
      rw [List.flatten_cons, List.length_append] at h''
      cases a with
      | nil => left; simpa using h''.symm
      | cons a1 a => exact Or.inr ⟨by omega, _, _, rfl, by simp, by omega⟩
  · rintro (rfl | ⟨h, a, b, rfl, -, h''⟩)
    · exact ⟨[c], cs, rfl, by simp, by simp⟩
    · exact ⟨c :: a, b, rfl, by simp, by rw [List.flatten_cons, List.length_append]; omega⟩

/-- If the edge predicate, seen from any cut, is a predicate `E` of the whole stream, the cuts are the places where `E` holds. -/
theorem Chunked.cutAt_iff {e : Bytes → Bytes → Prop} {E I : Bytes → Prop}
    (hE : ∀ hist cur, I hist → (e hist cur ↔ E (hist ++ cur))) (hI : ∀ s, E s → I s)
    {hist data : Bytes} {cs : List Bytes} {r : Bytes} (h : Chunked (EdgeRule e) hist data cs r) (hi : I hist)
    {p : Nat} (h1 : 1 ≤ p) (h2 : p ≤ data.length) : CutAt cs p ↔ E (hist ++ data.take p) := by
  induction h generalizing p with
  | @rem hist data hn =>
    refine iff_of_false (not_cutAt_nil p) fun hp => ?_
    obtain ⟨n, _, hf⟩ := FirstCut.exists_of_edge (e := e hist) h1 h2 ((hE _ _ hi).2 hp)
    exact hn n hf
  | @cut hist data n cs r hr _ ih =>
    obtain ⟨k1, k2, k3, k4⟩ := hr
    have hl : (data.take n).length = n := by rw [List.length_take]; omega
    rw [cutAt_cons, hl]
    rcases Nat.lt_trichotomy p n with hp | rfl | hp
    · exact iff_of_false (by omega) fun h => k4 p h1 hp ((hE _ _ hi).2 h)
    · exact iff_of_true (Or.inl rfl) ((hE _ _ hi).1 k3)
    · have := ih (hI _ ((hE _ _ hi).1 k3)) (p := p - n) (by omega) (by rw [List.length_drop]; omega)
      have ht : data.take n ++ (data.drop n).take (p - n) = data.take p := by
        rw [← List.take_add, Nat.add_sub_cancel' (by omega)]
      rw [List.append_assoc, ht] at this
      rw [← this]
      constructor
      · rintro (h | ⟨-, h⟩)
        · omega
        · exact h
      · exact fun h => Or.inr ⟨by omega, h⟩

/-- If an edge needs `L` bytes of the current chunk and then only looks at these, the cuts are the places where `F` holds of
the last `L` bytes of the stream, except those less than `L` bytes after another cut. -/
theorem Chunked.cutAt_spaced {F : Bytes → Prop} {L : Nat} {e : Bytes → Prop}
    (he : ∀ cur, e cur ↔ L ≤ cur.length ∧ F (lastN L cur))
    {hist data : Bytes} {cs : List Bytes} {r : Bytes} (h : Chunked (EdgeRule (Local e)) hist data cs r)
    {p : Nat} (h1 : 1 ≤ p) (h2 : p ≤ data.length) :
    CutAt cs p ↔ L ≤ p ∧ F (lastN L (data.take p)) ∧ ∀ m, 1 ≤ m → p < m + L → m < p → ¬ CutAt cs m := by
  have hlen : ∀ {d : Bytes} {p : Nat}, p ≤ d.length → (d.take p).length = p := by
    intro d p hp; rw [List.length_take]; omega
  induction h generalizing p with
  | @rem hist data hn =>
    refine iff_of_false (not_cutAt_nil p) ?_
    rintro ⟨a, b, -⟩
    obtain ⟨n, _, hf⟩ := FirstCut.exists_of_edge (e := e) h1 h2 ((he _).2 ⟨by rw [hlen h2]; exact a, b⟩)
    exact hn n hf
  | @cut hist data n cs r hr _ ih =>
    obtain ⟨k1, k2, k3, k4⟩ := hr
    change e _ at k3
    have k4 : ∀ m, 1 ≤ m → m < n → ¬ e (data.take m) := k4
    have hl : (data.take n).length = n := hlen k2
    have hcons : ∀ p, CutAt (data.take n :: cs) p ↔ p = n ∨ n ≤ p ∧ CutAt cs (p - n) := by
      intro p; rw [cutAt_cons, hl]
    rcases Nat.lt_trichotomy p n with hp | rfl | hp
    · refine iff_of_false (by rw [hcons]; omega) ?_
      rintro ⟨a, b, -⟩
      exact k4 p h1 hp ((he _).2 ⟨by rw [hlen h2]; exact a, b⟩)
    · obtain ⟨a, b⟩ := (he _).1 k3
      rw [hl] at a
      refine iff_of_true ((hcons _).2 (Or.inl rfl)) ⟨a, b, ?_⟩
      intro m _ _ hm
      rw [hcons]; omega
    · have hd : p - n ≤ (data.drop n).length := by rw [List.length_drop]; omega
      have := ih (p := p - n) (by omega) hd
      have ht : data.take p = data.take n ++ (data.drop n).take (p - n) := by
        rw [← List.take_add, Nat.add_sub_cancel' (by omega)]
      rw [hcons, ht]
      constructor
      · rintro (h | ⟨-, h⟩)
        · omega
        · obtain ⟨a, b, c⟩ := this.1 h
          refine ⟨by omega, ?_, ?_⟩
          · rw [lastN_append_right _ (by rw [hlen hd]; exact a)]; exact b
          · intro m m1 m2 m3
            rw [hcons]
            rintro (rfl | ⟨m4, m5⟩)
            · omega
            · rcases Nat.eq_or_lt_of_le m4 with rfl | m4
              · omega
              · exact c (m - n) (by omega) (by omega) (by omega) m5
      · rintro ⟨a, b, c⟩
        have hln : L ≤ p - n := by
          rcases Nat.lt_or_ge p (n + L) with hlt | hge
          · exact absurd ((hcons n).2 (Or.inl rfl)) (c n k1 hlt hp)
          · omega
        refine Or.inr ⟨by omega, this.2 ⟨hln, ?_, ?_⟩⟩
        · rwa [lastN_append_right _ (by rw [hlen hd]; exact hln)] at b
        · intro m m1 m2 m3 m4
          exact c (m + n) (by omega) (by omega) (by omega)
            ((hcons _).2 (Or.inr ⟨by omega, by rwa [Nat.add_sub_cancel]⟩))

end HashRoll.Spec

namespace HashRoll.Props

open Spec

variable {A : Chunk} {C : ChunkIncr} {rule : Rule}

theorem take_append_add (x t : Bytes) (q : Nat) : (x ++ t).take (x.length + q) = x ++ t.take q := by
  rw [List.take_append, List.take_of_length_le (by omega), Nat.add_sub_cancel_left]

/-- From the rule to the documented loop. -/
theorem docRecovers {W : Nat} (hd : DocLoopChunks A rule)
    (h : ∀ x y t cs ds r r', Chunked rule [] (x ++ t) cs r → Chunked rule [] (y ++ t) ds r' →
      ∀ q, 1 ≤ q → W ≤ q → q ≤ t.length → (CutAt cs (x.length + q) ↔ CutAt ds (y.length + q))) : DocRecovers A W := by
  intro x y t n cs ds rx ry hn h1 h2
  obtain ⟨cs', r, rest, k1, k2, -⟩ := hd (x ++ t) n (by rw [List.length_append]; omega)
  obtain ⟨ds', r', rest', l1, l2, -⟩ := hd (y ++ t) n (by rw [List.length_append]; omega)
  rw [h1] at k1
  rw [h2] at l1
  injection k1 with k1; injection l1 with l1
  injection k1 with k1 _; injection l1 with l1 _
  subst k1 l1
  exact h _ _ _ _ _ _ _ k2 l2

theorem strictRecovers {W : Nat} (hd : StrictChunks C rule)
    (h : ∀ x y t cs ds r r', Chunked rule [] (x ++ t) cs r → Chunked rule [] (y ++ t) ds r' →
      ∀ q, 1 ≤ q → W ≤ q → q ≤ t.length → (CutAt cs (x.length + q) ↔ CutAt ds (y.length + q))) : StrictRecovers C W := by
  intro x y t n cs ds rx ry hn h1 h2
  obtain ⟨it, cs', r, k1, k2, -⟩ := hd (x ++ t) n (by rw [List.length_append]; omega)
  obtain ⟨it', ds', r', l1, l2, -⟩ := hd (y ++ t) n (by rw [List.length_append]; omega)
  rw [h1] at k1
  rw [h2] at l1
  injection k1 with k1; injection l1 with l1
  injection k1 with k1 _; injection l1 with l1 _
  subst k1 l1
  exact h _ _ _ _ _ _ _ k2 l2

theorem recovers_of_whole {e : Bytes → Bytes → Prop} {E I : Bytes → Prop} {W : Nat}
    (hE : ∀ hist cur, I hist → (e hist cur ↔ E (hist ++ cur))) (hI : ∀ s, E s → I s) (h0 : I []) (hW : WindowLocal W E) :
    ∀ x y t cs ds r r', Chunked (EdgeRule e) [] (x ++ t) cs r → Chunked (EdgeRule e) [] (y ++ t) ds r' →
      ∀ q, 1 ≤ q → W ≤ q → q ≤ t.length → (CutAt cs (x.length + q) ↔ CutAt ds (y.length + q)) := by
  intro x y t cs ds r r' h1 h2 q q1 q2 q3
  rw [h1.cutAt_iff hE hI h0 (by omega) (by rw [List.length_append]; omega),
    h2.cutAt_iff hE hI h0 (by omega) (by rw [List.length_append]; omega), List.nil_append, List.nil_append,
    take_append_add, take_append_add]
  apply hW
  have hl : W ≤ (t.take q).length := by rw [List.length_take]; omega
  rw [lastN_append_right _ hl, lastN_append_right _ hl]

/-! ## Pigz: the reset after a cut changes nothing -/

theorem pigz_reset {mask hit : BitVec 32} (hm : Pigz.MaskOk mask) (hh : hit &&& mask = hit) (hist cur : Bytes)
    (hi : pigzHash hit hist &&& mask = hit) : pigzHash hit (hist ++ cur) &&& mask = pigzHash hit cur &&& mask := by
  induction cur using List.reverseRecOn with
  | nil =>
    rw [List.append_nil, hi]
    have : pigzHash hit [] = hit := by simp [pigzHash, wxor]
    rw [this, hh]
  | append_singleton cur v ih =>
    rw [← List.append_assoc, Pigz.pigzHash_snoc, Pigz.pigzHash_snoc, xor_and, xor_and, ← hm, ih, hm]

theorem pigz_recovers {prof : Profile} {bits : BitVec 8} {p : Pigz.PigzRsyncable}
    (h : Pigz.PigzRsyncable.withBits prof bits = .ok p) :
    ∀ x y t cs ds r r', Chunked (EdgeRule (Local (pigzEdge p.mask p.hit))) [] (x ++ t) cs r →
      Chunked (EdgeRule (Local (pigzEdge p.mask p.hit))) [] (y ++ t) ds r' →
      ∀ q, 1 ≤ q → bits.toNat % 32 ≤ q → q ≤ t.length → (CutAt cs (x.length + q) ↔ CutAt ds (y.length + q)) := by
  obtain ⟨hm, hh⟩ := Pigz.withBits_maskOk h
  refine recovers_of_whole (I := pigzEdge p.mask p.hit) ?_ (fun _ h => h) ?_ (C42_edge h)
  · intro hist cur hi
    unfold Local pigzEdge
    rw [pigz_reset hm hh hist cur hi]
  · unfold pigzEdge
    have : pigzHash p.hit [] = p.hit := by simp [pigzHash, wxor]
    rw [this, hh]

/-- C76. Pigz, both APIs: `bits` bytes (12 by default) after the edit all cuts are the same. -/
theorem C76_pigz {prof : Profile} {bits : BitVec 8} {p : Pigz.PigzRsyncable}
    (h : Pigz.PigzRsyncable.withBits prof bits = .ok p) :
    DocRecovers (Pigz.chunk p) (bits.toNat % 32) ∧ StrictRecovers (Pigz.incr p) (bits.toNat % 32) :=
  ⟨docRecovers (C08_pigz h) (pigz_recovers h), strictRecovers (C05_pigz h) (pigz_recovers h)⟩
example : DocRecovers (Pigz.chunk Ex.pigz2) 2 := (C76_pigz Ex.pigz2_ok).1
example : ∃ p, Pigz.PigzRsyncable.default .release = .ok p ∧ DocRecovers (Pigz.chunk p) 12 ∧ StrictRecovers (Pigz.incr p) 12 :=
  ⟨_, C50_default _, C76_pigz (bits := 12) (C50_default .release)⟩

/-! ## RollSumIncr: nothing is reset -/

/-- C76. `RollSumIncr`: a window (64 bytes by default) after the edit all cuts are the same. -/
theorem C76_rollsum_incr (n : Nat) : StrictRecovers (Bup.incr (Bup.RollSum.withWindow (2 ^ n))) (2 ^ n) := by
  refine strictRecovers (C05_rollsum n) (recovers_of_whole (E := bupEdge (2 ^ n)) (I := fun _ => True)
    (fun _ _ _ => Iff.rfl) (fun _ _ => trivial) trivial ?_)
  intro p q h
  unfold bupEdge bupS2
  rw [h]
example : StrictRecovers (Bup.incr Bup.RollSum.default) 64 := C76_rollsum_incr 6

/-! ## Mii: a descent ends all ascents -/

/-- among 256 bytes there is a zero in front, or one that is not greater than the one before -/
theorem exists_descent (t : Bytes) (h : 256 ≤ t.length) : ∃ d, ∃ (h2 : d ≤ 255),
    t[d]'(by omega) = 0 ∨ 1 ≤ d ∧ t[d]'(by omega) ≤ t[d - 1]'(by omega) := by
  apply Classical.byContradiction
  intro hno
  have key : ∀ i (hi : i ≤ 255), i + 1 ≤ (t[i]'(by omega)).toNat := by
    intro i
    induction i with
    | zero =>
      intro _
      apply Classical.byContradiction
      intro h0
      exact hno ⟨0, by omega, Or.inl (UInt8.toNat_inj.1 (by simpa using h0))⟩
    | succ i ih =>
      intro hi
      have h1 := ih (by omega)
      rcases Nat.lt_or_ge (t[i]'(by omega)).toNat (t[i + 1]'(by omega)).toNat with h2 | h2
      · omega
      · exact absurd ⟨i + 1, hi, Or.inr ⟨by omega, UInt8.le_iff_toNat_le.2 h2⟩⟩ hno
  have := key 255 (by omega)
  have := UInt8.toNat_lt (t[255]'(by omega))
  omega

theorem mii_recovers (w : Nat) :
    ∀ x y t cs ds r r', Chunked (EdgeRule (Local (miiEdge w))) [] (x ++ t) cs r →
      Chunked (EdgeRule (Local (miiEdge w))) [] (y ++ t) ds r' →
      ∀ q, 1 ≤ q → 256 ≤ q → q ≤ t.length → (CutAt cs (x.length + q) ↔ CutAt ds (y.length + q)) := by
  intro x y t cs ds r r' h1 h2 q _ q2 q3
  obtain ⟨d, d2, hd⟩ := exists_descent t (by omega)
  have he : ∀ cur, miiEdge w cur ↔ w + 1 ≤ cur.length ∧ (fun u => 1 ≤ w ∧ Increasing u) (lastN (w + 1) cur) := by
    intro cur
    unfold miiEdge
    constructor
    · rintro ⟨a, b, c⟩; exact ⟨b, a, c⟩
    · rintro ⟨b, a, c⟩; exact ⟨a, b, c⟩
  -- no window that contains the descent
  have hwin : ∀ (z : Bytes) m, d < m → m ≤ t.length → m ≤ d + w → w + 1 ≤ z.length + m →
      1 ≤ w → ¬ Increasing (lastN (w + 1) (z ++ t.take m)) := by
    intro z m m1 m2 m3 m4 hw hinc
    have hl : (z ++ t.take m).length = z.length + m := by rw [List.length_append, List.length_take]; omega
    have hll : (lastN (w + 1) (z ++ t.take m)).length = w + 1 := by
      unfold lastN; rw [List.length_drop, hl]; omega
    have hget : ∀ i (hi : i < m) (hi' : m ≤ i + (w + 1)),
        (lastN (w + 1) (z ++ t.take m))[i + (w + 1) - m]'(by rw [hll]; omega) = t[i]'(by omega) := by
      intro i hi hi'
      unfold lastN
      rw [List.getElem_drop, List.getElem_append_right (by rw [hl]; omega), List.getElem_take]
      congr 1
      rw [hl]; omega
    have := List.pairwise_iff_getElem.1 hinc (d + (w + 1) - m - 1) (d + (w + 1) - m) (by rw [hll]; omega)
      (by rw [hll]; omega) (by omega)
    rw [hget d (by omega) (by omega), UInt8.lt_iff_toNat_lt] at this
    rcases hd with hd | ⟨d1, hd⟩
    · rw [hd] at this
      exact Nat.not_lt_zero _ this
    · have hg := hget (d - 1) (by omega) (by omega)
      simp only [show d - 1 + (w + 1) - m = d + (w + 1) - m - 1 by omega] at hg
      rw [hg] at this
      rw [UInt8.le_iff_toNat_le] at hd
      omega
  have key : ∀ m, d < m → m ≤ t.length → (CutAt cs (x.length + m) ↔ CutAt ds (y.length + m)) := by
    intro m
    induction m using Nat.strongRecOn with
    | _ m ih =>
      intro m1 m2
      rw [h1.cutAt_spaced (L := w + 1) (F := fun u => 1 ≤ w ∧ Increasing u) he (by omega) (by rw [List.length_append]; omega),
        h2.cutAt_spaced (L := w + 1) (F := fun u => 1 ≤ w ∧ Increasing u) he (by omega) (by rw [List.length_append]; omega),
        take_append_add, take_append_add]
      rcases Nat.lt_or_ge (d + w) m with hm | hm
      · have hl : w + 1 ≤ (t.take m).length := by rw [List.length_take]; omega
        rw [lastN_append_right _ hl, lastN_append_right _ hl]
        constructor
        · rintro ⟨-, b, c⟩
          refine ⟨by omega, b, ?_⟩
          intro j j1 j2 j3 j4
          obtain ⟨i, rfl⟩ : ∃ i, j = y.length + i := ⟨j - y.length, by omega⟩
          exact c (x.length + i) (by omega) (by omega) (by omega)
            ((ih i (by omega) (by omega) (by omega)).2 j4)
        · rintro ⟨-, b, c⟩
          refine ⟨by omega, b, ?_⟩
          intro j j1 j2 j3 j4
          obtain ⟨i, rfl⟩ : ∃ i, j = x.length + i := ⟨j - x.length, by omega⟩
          exact c (y.length + i) (by omega) (by omega) (by omega)
            ((ih i (by omega) (by omega) (by omega)).1 j4)
      · exact iff_of_false (fun ⟨a, ⟨b, c⟩, _⟩ => hwin x m m1 m2 hm a b c)
          (fun ⟨a, ⟨b, c⟩, _⟩ => hwin y m m1 m2 hm a b c)
  exact key q (by omega) q3

/-- C76. Mii `find_chunk_edge`, any `w`: 256 bytes after the edit all cuts are the same. -/
theorem C76_mii (p : Mii.Mii) : DocRecovers (Mii.chunk p) 256 := docRecovers (C08_mii p) (mii_recovers p.w)
example : DocRecovers (Mii.chunk (Mii.Mii.withW 5)) 256 := C76_mii _

/-- 255 bytes are not enough: `1, 2, .., 255` with and without a zero in front. -/
theorem C76_mii_sharp : ¬ DocRecovers (Mii.chunk (Mii.Mii.withW 1)) 255 := by
  intro h
  let t : Bytes := (List.range 255).map fun n => UInt8.ofNat (n + 1)
  have h1 : (match (Mii.chunk (Mii.Mii.withW 1)).docLoop ([0] ++ t) 257 (Mii.chunk (Mii.Mii.withW 1)).init ([0] ++ t) 0 with
    | .ok (cs, some _) => cs.flatten.length == 256 && cs.length == 128
    | _ => false) = true := by decide +kernel
  have h2 : (match (Mii.chunk (Mii.Mii.withW 1)).docLoop ([] ++ t) 257 (Mii.chunk (Mii.Mii.withW 1)).init ([] ++ t) 0 with
    | .ok (cs, some _) => cs.flatten.length == 254
    | _ => false) = true := by decide +kernel
  have hl : t.length = 255 := by decide +kernel
  split at h1
  · rename_i cs rx e1
    split at h2
    · rename_i ds ry e2
      simp only [Bool.and_eq_true, beq_iff_eq] at h1 h2
      have := (h [0] [] t 257 cs ds rx ry (by rw [hl]; decide) e1 e2 255 (by decide) (by decide) (by rw [hl])).1
        ⟨cs, [], by simp, by rintro rfl; simp at h1, by simpa using h1.1⟩
      obtain ⟨a, b, rfl, -, h5⟩ := this
      rw [List.flatten_append, List.length_append] at h2
      simp only [List.length_nil] at h5
      omega
    · simp at h2
  · simp at h1

end HashRoll.Props
