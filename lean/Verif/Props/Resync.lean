import Verif.Props.Local
/-!
# C48: resynchronisation within a window
-/

namespace HashRoll.Props

open Spec

/-- Two inputs with a common end `t`. The first has a cut `p` bytes into `t` that ends a chunk of at least `W` bytes; the
second has no cut in the last `W` bytes before that place. Then the second is cut there, too, and its chunks from there on
are those of the first. -/
def DocWindowResync (W : Nat) (A : Chunk) : Prop :=
  ∀ (x y t : Bytes) (p n : Nat) a1 c b1 rx cs2 ry, x.length + y.length + t.length < n → W ≤ p → p ≤ t.length →
    A.docLoop (x ++ t) n A.init (x ++ t) 0 = .ok (a1 ++ c :: b1, some rx) →
    (a1 ++ [c]).flatten.length = x.length + p → W ≤ c.length →
    A.docLoop (y ++ t) n A.init (y ++ t) 0 = .ok (cs2, some ry) →
    (∀ a b, cs2 = a ++ b → a.flatten.length + W ≤ y.length + p ∨ y.length + p ≤ a.flatten.length) →
    ∃ a2 c2, cs2 = a2 ++ c2 :: b1 ∧ (a2 ++ [c2]).flatten.length = y.length + p

/-- The same for `iter_slices_strict`; the remainders agree as well. -/
def StrictWindowResync (W : Nat) (C : ChunkIncr) : Prop :=
  ∀ (x y t : Bytes) (p n : Nat) a1 c b1 itx cs2 ity, x.length + y.length + t.length < n → W ≤ p → p ≤ t.length →
    (C.iterSlicesStrict C.init (x ++ t)).run n = .ok (a1 ++ c :: b1, itx, true) →
    (a1 ++ [c]).flatten.length = x.length + p → W ≤ c.length →
    (C.iterSlicesStrict C.init (y ++ t)).run n = .ok (cs2, ity, true) →
    (∀ a b, cs2 = a ++ b → a.flatten.length + W ≤ y.length + p ∨ y.length + p ≤ a.flatten.length) →
    ∃ a2 c2, cs2 = a2 ++ c2 :: b1 ∧ (a2 ++ [c2]).flatten.length = y.length + p ∧ itx.rem = ity.rem

/-- the longest run of chunks that ends at or before `N` -/
theorem split_before (cs : List Bytes) (N : Nat) :
    ∃ a b, cs = a ++ b ∧ a.flatten.length ≤ N ∧ ∀ c b', b = c :: b' → N < a.flatten.length + c.length := by
  induction cs generalizing N with
  | nil => exact ⟨[], [], rfl, by simp, by simp⟩
  | cons c cs ih =>
    rcases Nat.lt_or_ge N c.length with h | h
    · refine ⟨[], c :: cs, rfl, by simp, ?_⟩
      intro c' b' hc
      cases hc
      simpa using h
    · obtain ⟨a, b, h1, h2, h3⟩ := ih (N - c.length)
      refine ⟨c :: a, b, by rw [h1]; rfl, ?_, ?_⟩
      · rw [List.flatten_cons, List.length_append]; omega
      · intro c' b' hc
        have := h3 c' b' hc
        rw [List.flatten_cons, List.length_append]; omega

theorem _root_.HashRoll.Spec.Chunked.window_resync {W : Nat} {e : Bytes → Prop} (hW0 : 0 < W) (hW : WindowLocal W e) {x y t : Bytes} {p : Nat}
    {a1 b1 cs2 : List Bytes} {c r1 r2 : Bytes} (hp : W ≤ p) (hpt : p ≤ t.length)
    (h1 : Chunked (EdgeRule (Local e)) [] (x ++ t) (a1 ++ c :: b1) r1)
    (hcut : (a1 ++ [c]).flatten.length = x.length + p) (hc : W ≤ c.length)
    (h2 : Chunked (EdgeRule (Local e)) [] (y ++ t) cs2 r2)
    (hno : ∀ a b, cs2 = a ++ b → a.flatten.length + W ≤ y.length + p ∨ y.length + p ≤ a.flatten.length) :
    ∃ a2 c2, cs2 = a2 ++ c2 :: b1 ∧ (a2 ++ [c2]).flatten.length = y.length + p ∧ r1 = r2 := by
  have hf : (EdgeRule (Local e)).Fresh := EdgeRule.fresh e
  have hg : (EdgeRule (Local e)).Good := EdgeRule.good _
  -- the first stream at the cut
  have k1 : Chunked (EdgeRule (Local e)) [] (t.drop p) b1 r1 := by
    have := (show Chunked (EdgeRule (Local e)) [] (x ++ t) ((a1 ++ [c]) ++ b1) r1 by simpa using h1).split
    rw [hcut, List.drop_append, List.drop_eq_nil_of_le (by omega), List.nil_append, Nat.add_sub_cancel_left] at this
    exact this.fresh hf
  have hfl1 := h1.flatten
  have hc1 : (a1 ++ [c]).flatten = x ++ t.take p := by
    have : (a1 ++ [c]).flatten ++ (b1.flatten ++ r1) = x ++ t := by
      rw [← hfl1]; simp
    have := congrArg (List.take (x.length + p)) this
    rw [← hcut, List.take_left, hcut, List.take_append, List.take_of_length_le (by omega), Nat.add_sub_cancel_left] at this
    exact this
  have hlc : lastN W c = lastN W (t.take p) := by
    have e1 : (a1 ++ [c]).flatten = a1.flatten ++ c := by simp
    rw [← lastN_append_right a1.flatten hc, ← e1, hc1, lastN_append_right]
    rw [List.length_take]; omega
  have hec : e c := by
    have := h1.split
    cases hs : this with
    | @cut _ _ n _ _ hr _ => exact hr.2.2.1
  -- the second stream
  obtain ⟨a, b, hab, hle, hmax⟩ := split_before cs2 (y.length + p - W)
  subst hab
  have k2 : Chunked (EdgeRule (Local e)) [] ((y ++ t).drop a.flatten.length) b r2 := h2.split.fresh hf
  have hrest : ((y ++ t).drop a.flatten.length).take (y.length + p - a.flatten.length) =
      (y ++ t.take p).drop a.flatten.length := by
    rw [List.take_drop]
    congr 1
    rw [show a.flatten.length + (y.length + p - a.flatten.length) = y.length + p by omega, List.take_append,
      List.take_of_length_le (by omega), Nat.add_sub_cancel_left]
  have hlast : lastN W ((y ++ t.take p).drop a.flatten.length) = lastN W (t.take p) := by
    have hlen : (y ++ t.take p).length = y.length + p := by rw [List.length_append, List.length_take]; omega
    have e1 := lastN_append_right (n := W) ((y ++ t.take p).take a.flatten.length)
      (w := (y ++ t.take p).drop a.flatten.length) (by rw [List.length_drop]; omega)
    rw [List.take_append_drop] at e1
    rw [← e1, lastN_append_right]
    rw [List.length_take]; omega
  have hedge : e (((y ++ t).drop a.flatten.length).take (y.length + p - a.flatten.length)) := by
    rw [hrest]
    exact (hW _ _ (hlc.trans hlast.symm)).1 hec
  obtain ⟨m, hm1, hm2⟩ := FirstCut.exists_of_edge (e := e) (d := (y ++ t).drop a.flatten.length)
    (m := y.length + p - a.flatten.length) (by omega) (by rw [List.length_drop, List.length_append]; omega) hedge
  cases hk2 : k2 with
  | rem hnone => exact absurd hm2 (hnone m)
  | @cut _ _ m' b' _ hr k3 =>
    have : m = m' := FirstCut.det hm2 hr
    subst this
    have hml : (((y ++ t).drop a.flatten.length).take m).length = m := by
      rw [List.length_take]
      have := hm2.2.1
      omega
    have hfl : (a ++ [((y ++ t).drop a.flatten.length).take m]).flatten.length = a.flatten.length + m := by
      simp only [List.flatten_append, List.flatten_cons, List.flatten_nil, List.append_nil, List.length_append, hml]
    have hmm : a.flatten.length + m = y.length + p := by
      have h3 := hmax _ _ rfl
      rw [hml] at h3
      rcases hno (a ++ [((y ++ t).drop a.flatten.length).take m]) b' (by simp) with h | h
      · rw [hfl] at h; omega
      · rw [hfl] at h; omega
    have hd : ((y ++ t).drop a.flatten.length).drop m = t.drop p := by
      rw [List.drop_drop, hmm, List.drop_append, List.drop_eq_nil_of_le (by omega), List.nil_append,
        Nat.add_sub_cancel_left]
    rw [hd] at k3
    have := k1.det hg (k3.fresh hf)
    exact ⟨a, _, by rw [this.1], by rw [hfl]; exact hmm, this.2⟩

theorem docWindowResync {A : Chunk} {W : Nat} {e : Bytes → Prop} (hW0 : 0 < W) (hW : WindowLocal W e)
    (hA : DocLoopChunks A (EdgeRule (Local e))) : DocWindowResync W A := by
  intro x y t p n a1 c b1 rx cs2 ry hn hp hpt hd1 hcut hc hd2 hno
  obtain ⟨cs, r, rest, k1, k2, _⟩ := hA (x ++ t) n (by rw [List.length_append]; omega)
  rw [hd1] at k1
  cases k1
  obtain ⟨cs', r', rest', k1', k2', _⟩ := hA (y ++ t) n (by rw [List.length_append]; omega)
  rw [hd2] at k1'
  cases k1'
  obtain ⟨a2, c2, h1, h2, _⟩ := k2.window_resync hW0 hW hp hpt hcut hc k2' hno
  exact ⟨a2, c2, h1, h2⟩

theorem strictWindowResync {C : ChunkIncr} {W : Nat} {e : Bytes → Prop} (hW0 : 0 < W) (hW : WindowLocal W e)
    (hC : StrictChunks C (EdgeRule (Local e))) : StrictWindowResync W C := by
  intro x y t p n a1 c b1 itx cs2 ity hn hp hpt hd1 hcut hc hd2 hno
  obtain ⟨it, cs, r, k1, k2, k3, _⟩ := hC (x ++ t) n (by rw [List.length_append]; omega)
  rw [hd1] at k1
  cases k1
  obtain ⟨it', cs', r', k1', k2', k3', _⟩ := hC (y ++ t) n (by rw [List.length_append]; omega)
  rw [hd2] at k1'
  cases k1'
  obtain ⟨a2, c2, h1, h2, h3⟩ := k2.window_resync hW0 hW hp hpt hcut hc k2' hno
  refine ⟨a2, c2, h1, h2, ?_⟩
  have e1 : itx.rem = r := k3
  have e2 : ity.rem = r' := k3'
  rw [e1, e2, h3]

theorem C48_gear (p : Gear.Gear32) : DocWindowResync 32 (Gear.chunk p) :=
  docWindowResync (by omega) (C40_edge _ _ _) (C08_gear p)

theorem C48_pigz {prof : Profile} {bits : BitVec 8} {p : Pigz.PigzRsyncable}
    (h : Pigz.PigzRsyncable.withBits prof bits = .ok p) (hb : 0 < bits.toNat % 32) :
    DocWindowResync (bits.toNat % 32) (Pigz.chunk p) ∧ StrictWindowResync (bits.toNat % 32) (Pigz.incr p) :=
  ⟨docWindowResync hb (C42_edge h) (C08_pigz h), strictWindowResync hb (C42_edge h) (C05_pigz h)⟩
example : Pigz.PigzRsyncable.default .debug = .ok { bits := 12, mask := 0xfff, hit := 0x7ff } ∧
    0 < (12 : BitVec 8).toNat % 32 := ⟨C50_default _, by decide⟩

theorem C48_gzip (p : Gzip.GzipRsyncable) (hm : p.modulus ≠ 0) (hw : 0 < p.windowLen) :
    DocWindowResync p.windowLen (Gzip.chunk p) ∧ StrictWindowResync p.windowLen (Gzip.incr p) :=
  ⟨docWindowResync hw (C43_edge _ _) (C08_gzip p hm), strictWindowResync hw (C43_edge _ _) (C05_gzip p hm hw)⟩
example : Ex.gzip3.modulus ≠ 0 ∧ 0 < Ex.gzip3.windowLen := by decide
-- the hypotheses of `DocWindowResync`, with `p = 13`
example : sumDoc (Gzip.chunk Ex.gzip3) ([3, 1] ++ sample.drop 2) =
      .ok ([[3, 1, 4, 1, 5]] ++ [9, 2, 6, 5, 3, 5, 8, 9, 7, 9] :: [[3, 2], [3, 8, 4]], some []) ∧
    ([[3, 1, 4, 1, 5]] ++ [[9, 2, 6, 5, 3, 5, 8, 9, 7, 9]] : List Bytes).flatten.length = 2 + 13 ∧
    sumDoc (Gzip.chunk Ex.gzip3) ([7, 7, 1, 1] ++ sample.drop 2) =
      .ok ([[7, 7, 1], [1, 4], [1, 5, 9], [2, 6, 5, 3, 5, 8, 9, 7, 9], [3, 2], [3, 8, 4]], some []) := by decide +kernel

theorem C48_rollsum (p : Bup.RollSum) (hw : 0 < p.windowLen) : DocWindowResync p.windowLen (Bup.chunk p) := by
  refine docWindowResync hw ?_ (C08_rollsum p)
  intro u v h
  unfold bupEdge bupS2
  rw [h]
example : 0 < Bup.RollSum.default.windowLen := by decide

theorem C48_buzhash (p : Buzhash.BuzHash) (hk : 0 < p.k) (hr : p.k % 32 < 8) : DocWindowResync p.k (Buzhash.chunk p) := by
  refine docWindowResync hk ?_ (C08_buzhash p hk)
  intro u v h
  unfold buzEdge
  rw [C45_rolling _ _ hr u v h]
example : 0 < nom.k ∧ nom.k % 32 < 8 := by decide

end HashRoll.Props
