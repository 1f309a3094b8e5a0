import Verif.Props.Loops
import Verif.Props.Zstd
/-!
# C71: how much of the stream the caller of `find_chunk_edge` has to keep

`find_chunk_edge` tells the caller how many bytes it may discard (src/lib.rs:289-365). In a run (`FceRun`) the bytes
that were presented and not discarded are those between `base` and `need`.
-/

namespace HashRoll.Spec

/-- C71. Between two calls, under any schedule of buffers, exactly the last `w` bytes of what was presented of the
current chunk (all of it while it is shorter) have to be presented again, and nothing before the last cut. -/
def Keeps (A : Chunk) (G : (prev need e : Nat) → Prop) (w : Nat) : Prop :=
  ∀ s st base need prev cs, FceRun A G s st base need prev cs →
    prev ≤ base ∧ base ≤ need ∧ need - base = min (need - prev) w

theorem FceSpec.keeps {A : Chunk} {g : Nat → Prop} {rule : Bytes → Nat → Prop} {w : Nat} (S : FceSpec A g rule)
    (hw : ∀ st c k, S.Inv st c k → k = min c.length w) : Keeps A (fun prev _ e => g (e - prev)) w := by
  intro s st base need prev cs h
  obtain ⟨h1, h2, h3, h4⟩ := S.run h
  have := hw _ _ _ h4
  rw [sub_length] at this
  exact ⟨h1, h2, by omega⟩

end HashRoll.Spec

namespace HashRoll.Props
open HashRoll.Spec

theorem C71_gear (p : Gear.Gear32) : Keeps (Gear.chunk p) Any 0 :=
  (Gear.fceLoop p).fceSpec.keeps fun _ _ _ h => by rw [h.2.2]; simp
example : Keeps (Gear.chunk Ex.gear2) Any 0 := C71_gear Ex.gear2

theorem C71_pigz {prof : Profile} {bits : BitVec 8} {p : Pigz.PigzRsyncable}
    (h : Pigz.PigzRsyncable.withBits prof bits = .ok p) : Keeps (Pigz.chunk p) Any 0 :=
  (Pigz.fceLoop p (Pigz.withBits_maskOk h).1 (Pigz.withBits_maskOk h).2).fceSpec.keeps
    fun _ _ _ h => by rw [h.2.2]; simp
example := C71_pigz Ex.pigz2_ok

theorem C71_zpaq (p : Zpaq.Zpaq) : Keeps (Zpaq.chunk p) Any 0 :=
  (Zpaq.fceLoop p).fceSpec.keeps fun _ _ _ h => by rw [h.2.2]; simp

theorem C71_ram (p : Ram.Ram) : Keeps (Ram.chunk p) Any 0 :=
  (Ram.fceSpec p).keeps fun _ _ _ h => by rw [h.2.2]; simp

theorem C71_mii (p : Mii.Mii) : Keeps (Mii.chunk p) Any 0 :=
  (Mii.fceSpec p).keeps fun _ _ _ h => by rw [h.2.2]; simp

/-- FastCdc, with the restriction of C12. -/
theorem C71_fastcdc (p : FastCdc.FastCdc) (hnm : p.normalSize ≤ p.maxSize) :
    Keeps (FastCdc.chunk p) (fun prev _ e => e - prev ≠ p.maxSize) 0 :=
  (FastCdc.fceSpec p hnm).keeps fun _ _ _ h => by rw [h.2.2.2]; simp

theorem C71_gzip (p : Gzip.GzipRsyncable) (hm : p.modulus ≠ 0) : Keeps (Gzip.chunk p) Any p.windowLen :=
  (Gzip.fceWindow p hm).fceSpec.keeps fun _ _ _ h => h.2.2.2
example : Keeps (Gzip.chunk Ex.gzip3) Any 3 := C71_gzip Ex.gzip3 (by decide)
/-- a run that keeps three bytes -/
example : ∃ st, FceRun (Gzip.chunk Ex.gzip3) Any [1, 1, 1, 1] st 1 4 0 [] :=
  ⟨_, FceRun.more (s := [1, 1, 1, 1]) (e := 4) (d := 1) .start (by decide) (by decide) trivial rfl⟩

theorem C71_rollsum (p : Bup.RollSum) : Keeps (Bup.chunk p) Any p.windowLen :=
  (Bup.fceWindow p).fceSpec.keeps fun _ _ _ h => h.2.2.2

theorem C71_buzhash (p : Buzhash.BuzHash) (hk : 0 < p.k) : Keeps (Buzhash.chunk p) Any p.k :=
  (Buzhash.fceWindow p hk).fceSpec.keeps fun _ _ _ h => h.2.2.2
example := C71_buzhash Ex.buz (by decide)

/-- Zstd: at most 32 bytes are kept by any call in any state, whatever the data. -/
theorem C71_zstd_call (p : Zstd.Zstd) (st : Zstd.ZstdSearchState) (data : Bytes) {st' r d}
    (h : (Zstd.chunk p).fce st data = .ok (st', r, d)) :
    d ≤ data.length ∧ data.length ≤ d + 32 ∧ ∀ c ∈ r, c ≤ data.length := by
  have key : ∀ n i (st st' : Zstd.ZstdSearchState) r,
      forRange (Zstd.fceBody p data) n i st = .ok (.ret st' r) →
      r.2 ≤ data.length ∧ data.length ≤ r.2 + 32 ∧ ∀ c ∈ r.1, c ≤ data.length := by
    intro n
    induction n with
    | zero => intro i st st' r h; cases h
    | succ n ih =>
      intro i st st' r h
      rw [forRange] at h
      cases hb : Zstd.fceBody p data i st with
      | error e => rw [hb] at h; cases h
      | ok f =>
        rw [hb] at h
        cases f with
        | next s => exact ih _ _ _ _ h
        | ret s r2 =>
          cases h
          unfold Zstd.fceBody at hb
          split at hb
          · cases hb
          · split at hb
            · cases hb
            · split at hb
              · cases hb
              · rename_i v hv
                dsimp only at hb
                split at hb
                · cases hb
                  have hi : i < data.length := by
                    unfold index at hv
                    split at hv
                    · rename_i hg
                      exact (List.getElem?_eq_some_iff.1 hg).1
                    · cases hv
                  refine ⟨show data.length - 32 ≤ _ by omega, show data.length ≤ data.length - 32 + 32 by omega, ?_⟩
                  rintro c hc
                  cases hc
                  omega
                · cases hb
  have full : ∀ st : Zstd.ZstdSearchState, p.findChunkEdgeFull st data = .ok (st', r, d) →
      d ≤ data.length ∧ data.length ≤ d + 32 ∧ ∀ c ∈ r, c ≤ data.length := by
    intro st h
    rw [Zstd.fceFull_eq] at h
    split at h
    · cases h
    · rename_i hf
      cases h
      exact key _ _ _ _ _ hf
    · cases h
      exact ⟨show data.length - 32 ≤ _ by omega, show data.length ≤ data.length - 32 + 32 by omega, fun c hc => by cases hc⟩
  change p.findChunkEdge st data = _ at h
  unfold Zstd.Zstd.findChunkEdge at h
  split at h
  · rename_i ho
    split at h
    · cases h
    · rename_i seed hs
      dsimp only at h
      split at h
      · rename_i ho2
        cases h
        refine ⟨Nat.zero_le _, ?_, fun c hc => by cases hc⟩
        unfold slice at hs
        split at hs
        · cases hs
          change st.offset < 32 at ho
          change st.offset + _ < 32 at ho2
          simp only [List.length_drop, List.length_take] at ho2
          change st.offset + (min (min 32 data.length) data.length - st.offset) < 32 at ho2
          omega
        · cases hs
      · exact full _ h
  · exact full _ h

/-- Zstd, in a run: what has to be presented again is at most the 32 bytes of the window. -/
theorem C71_zstd (p : Zstd.Zstd) {s st base need prev cs} (h : FceRun (Zstd.chunk p) Any s st base need prev cs) :
    base ≤ need ∧ need ≤ base + 32 := by
  induction h with
  | start => omega
  | @cut st base need prev cs e st' c d hr h1 h2 hG hf ih =>
    obtain ⟨-, k1, k2⟩ := C71_zstd_call p _ _ hf
    have := k2 c rfl
    rw [sub_length] at k1 this
    omega
  | @more st base need prev cs e st' d hr h1 h2 hG hf ih =>
    obtain ⟨hd, k1, -⟩ := C71_zstd_call p _ _ hf
    rw [sub_length] at k1 hd
    omega
/-- 40 bytes in one buffer: 8 are discarded, 32 kept -/
example : ∃ st, FceRun (Zstd.chunk Ex.zstd) Any (List.replicate 40 0) st 8 40 0 [] := by
  have h : ((Zstd.chunk Ex.zstd).fce (Zstd.chunk Ex.zstd).init (Spec.sub (List.replicate 40 0) 0 40)).map (·.2) =
      .ok (none, 8) := by decide +kernel
  cases hf : (Zstd.chunk Ex.zstd).fce (Zstd.chunk Ex.zstd).init (Spec.sub (List.replicate 40 0) 0 40) with
  | error e => rw [hf] at h; cases h
  | ok x =>
    obtain ⟨st, r, d⟩ := x
    rw [hf] at h
    cases h
    exact ⟨st, FceRun.more (s := List.replicate 40 0) (e := 40) (d := 8) .start (by decide) (by decide) trivial hf⟩

end HashRoll.Props
