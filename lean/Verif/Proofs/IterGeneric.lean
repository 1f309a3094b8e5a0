import Verif.Props.IterDefs
import Verif.Proofs.Iter
/-!
# The statements of `Props/IterDefs.lean` from conformance
-/

namespace HashRoll.Spec

variable {rule : Rule} {C : ChunkIncr} {A : Chunk}

theorem Safe.iterExact (hs : Safe C) : IterExact C := by
  intro st hr data n
  obtain ⟨vs, it, b, h1, _, h3, h4⟩ := hs.iter n (C.iterSlices st data) hr
  refine ⟨vs, it, b, h1, h3, rfl, ?_⟩
  intro hb
  rw [h4 hb, List.append_nil] at h3
  exact h3

theorem IncrConforms.iterChunks (hc : IncrConforms C rule) (hg : rule.Good) (hp : rule.Pos) :
    IterChunks C rule := by
  intro data n hn
  obtain ⟨ck, cs, r, h1, h2⟩ := hc.iter hg hp (s := data) n C.init 0 [] .start (by omega)
  exact ⟨⟨[], ck⟩, cs, r, h1, h2⟩

theorem length_le_flatten : ∀ (vs : List Bytes), (∀ v ∈ vs, v ≠ []) → vs.length ≤ vs.flatten.length := by
  intro vs
  induction vs with
  | nil => simp
  | cons v vs ih =>
    intro h
    have h1 := ih fun w hw => h w (List.mem_cons_of_mem _ hw)
    have h2 := List.length_pos_iff.2 (h v List.mem_cons_self)
    simp only [List.length_cons, List.flatten_cons, List.length_append]; omega

theorem tailSlice_flatten (r : Bytes) : (tailSlice r).flatten = r := by
  unfold tailSlice; split <;> simp_all

theorem IterChunks.ends (hc : IterChunks C rule) (hg : rule.Good) (hp : rule.Pos) : IterEnds C := by
  intro data
  obtain ⟨it, cs, r, h1, h2⟩ := hc data (data.length + 1) (Nat.lt_succ_self _)
  have hne : ∀ v ∈ cs ++ tailSlice r, v ≠ [] := by
    intro v hv
    rcases List.mem_append.1 hv with hv | hv
    · exact h2.ne_nil hg hp v hv
    · unfold tailSlice at hv
      split at hv
      · simp at hv
      · rename_i h; simp at hv; rw [hv]; exact h
  refine ⟨_, it, h1, ?_, hne⟩
  have := length_le_flatten _ hne
  rw [List.flatten_append, tailSlice_flatten, h2.flatten] at this
  exact this

theorem IncrConforms.strictChunks (hc : IncrConforms C rule) (hg : rule.Good) (hp : rule.Pos) :
    StrictChunks C rule := by
  intro data n hn
  obtain ⟨ck, cs, r, h1, h2⟩ := hc.strict hg hp (s := data) n C.init 0 [] .start (by omega)
  have h2' : Chunked rule [] data cs r := by simpa using h2
  exact ⟨⟨r, ck⟩, cs, r, h1, h2', rfl, rfl, rfl, h2'.flatten⟩

theorem Chunked.prefix (hg : rule.Good) (hp : rule.Pos) {data more r r' : Bytes} {cs cs' : List Bytes}
    (h : Chunked rule [] data cs r) (h' : Chunked rule [] (data ++ more) cs' r') : cs <+: cs' := by
  obtain ⟨ds, r2, hd⟩ := Chunked.exists hg hp ([] ++ cs.flatten) (r ++ more)
  have := (h.append hg hd).det hg h'
  exact ⟨ds, this.1⟩

theorem Chunked.resync (hg : rule.Good) (hf : rule.Fresh) {x y t rx ry : Bytes} {cx dx cy dy : List Bytes}
    (h1 : Chunked rule [] (x ++ t) (cx ++ dx) rx) (h2 : cx.flatten = x)
    (h3 : Chunked rule [] (y ++ t) (cy ++ dy) ry) (h4 : cy.flatten = y) : dx = dy ∧ rx = ry := by
  have h5 := h1.split
  have h6 := h3.split
  rw [h2, List.drop_left] at h5
  rw [h4, List.drop_left] at h6
  exact h5.det hg (h6.fresh hf)

theorem StrictChunks.stable (hc : StrictChunks C rule) (hg : rule.Good) (hp : rule.Pos) : StrictStable C := by
  intro data more n hn
  obtain ⟨it, cs, r, h1, h2, _⟩ := hc data n (by omega)
  obtain ⟨it', cs', r', h1', h2', _⟩ := hc (data ++ more) n (by simp; omega)
  exact ⟨cs, it, cs', it', h1, h1', h2.prefix hg hp h2'⟩

theorem StrictChunks.resync (hc : StrictChunks C rule) (hg : rule.Good) (hf : rule.Fresh) : StrictResync C := by
  intro x y t n cx dx itx cy dy ity hn h1 h2 h3 h4
  obtain ⟨it, cs, r, k1, k2, k3, _⟩ := hc (x ++ t) n (by simp; omega)
  obtain ⟨it', cs', r', k1', k2', k3', _⟩ := hc (y ++ t) n (by simp; omega)
  rw [h1] at k1
  rw [h3] at k1'
  cases k1; cases k1'
  have := k2.resync hg hf h2 k2' h4
  refine ⟨this.1, ?_⟩
  have e1 : itx.rem = r := k3
  have e2 : ity.rem = r' := k3'
  rw [e1, e2, this.2]

theorem FceConforms.docLoopChunks (hc : FceConforms A Any rule) (hd : DiscardsToCut A Any) (hg : rule.Good)
    (hp : rule.Pos) : DocLoopChunks A rule := by
  intro data n hn
  obtain ⟨cs, r, rest, h1, h2, h3⟩ := hc.doc hd hg hp (s := data) n A.init 0 0 0 [] .start (Nat.le_refl _) (by omega)
  exact ⟨cs, r, rest, by simpa using h1, by simpa using h3, h2⟩

theorem DocLoopChunks.stable (hc : DocLoopChunks A rule) (hg : rule.Good) (hp : rule.Pos) : DocStable A := by
  intro data more n hn
  obtain ⟨cs, r, rest, h1, h2, _⟩ := hc data n (by omega)
  obtain ⟨cs', r', rest', h1', h2', _⟩ := hc (data ++ more) n (by simp; omega)
  exact ⟨cs, rest, cs', rest', h1, h1', h2.prefix hg hp h2'⟩

theorem DocLoopChunks.resync (hc : DocLoopChunks A rule) (hg : rule.Good) (hf : rule.Fresh) : DocResync A := by
  intro x y t n cx dx rx cy dy ry hn h1 h2 h3 h4
  obtain ⟨cs, r, rest, k1, k2, _⟩ := hc (x ++ t) n (by simp; omega)
  obtain ⟨cs', r', rest', k1', k2', _⟩ := hc (y ++ t) n (by simp; omega)
  rw [h1] at k1
  rw [h3] at k1'
  cases k1; cases k1'
  exact (k2.resync hg hf h2 k2' h4).1

theorem DocLoopChunks.agree (hc : DocLoopChunks A rule) (hb : BytewiseConforms C rule) (hg : rule.Good)
    (hp : rule.Pos) : ApisAgree A C := by
  intro data n hn
  obtain ⟨cs, r, rest, h1, h2, _⟩ := hc data n hn
  obtain ⟨cs', r', h3, h4⟩ := hb.all hg hp data
  have := h2.det hg h4
  exact ⟨cs, rest, h1, by rw [h3, this.1]⟩

theorem FceConforms.splitsChunks (hc : FceConforms A Any rule) (hd : DiscardsToCut A Any) (hg : rule.Good)
    (hp : rule.Pos) : SplitsChunks A rule := by
  intro data sizes n h1 h2 hn
  have hlt : (data.length - 0) * (data.length + 1) + (data.length - 0) < n := by
    have : (data.length + 1) * (data.length + 1) = data.length * (data.length + 1) + (data.length + 1) := by
      rw [Nat.succ_mul]
    simp only [Nat.sub_zero]
    omega
  obtain ⟨cs, r, h3, h4⟩ := hc.splits hd hg hp h1 h2 (s := data) n A.init 0 0 0 0 0 [] .start (by omega)
    (by omega) hlt
  exact ⟨cs, r, h3, by simpa using h4⟩

/-- Without assuming that chunks are non-empty: if the rule splits the data, `iter_slices` yields that. -/
theorem IncrConforms.iter_of_chunked (hc : IncrConforms C rule) (hg : rule.Good) (h0 : ∀ h n, ¬ rule h [] n)
    {s : Bytes} {hist data r : Bytes} {cs' : List Bytes} (hk : Chunked rule hist data cs' r) :
    ∀ (st : C.State) (pos : Nat) (cs : List Bytes), IncrRun C s st pos pos cs →
    hist = s.take pos → data = s.drop pos → ∀ n, cs'.length + 2 ≤ n → ∃ ck,
      IterSlices.run n ⟨s.drop pos, st⟩ = .ok (cs' ++ tailSlice r, ⟨[], ck⟩, true) := by
  induction hk with
  | @rem hist data hno =>
    intro st pos cs hr e1 e2 n hn
    obtain ⟨n, rfl⟩ := Nat.exists_eq_add_of_le' hn
    subst e1 e2
    obtain ⟨_, hle, _⟩ := hc.chunks hg hr
    by_cases h : s.drop pos = []
    · refine ⟨st, ?_⟩
      rw [h]; simpa [tailSlice] using run_end (n + 1) (iter_next_nil (C := C) ⟨[], st⟩ rfl)
    · obtain ⟨ck, r, hpush, hm⟩ := hc _ _ _ _ _ hr s.length hle (Nat.le_refl _)
      rw [sub_full] at hpush hm
      cases r with
      | none =>
        refine ⟨ck, ?_⟩
        have h1 := iter_next_none (C := C) ⟨s.drop pos, st⟩ h hpush
        have h2 := run_end n (iter_next_nil (C := C) ⟨[], ck⟩ rfl)
        simpa [tailSlice, h] using run_step (n + 1) h1 h2
      | some i => exact absurd hm.2 (hno _)
  | @cut hist data k cs' r hrule _ ih =>
    intro st pos cs hr e1 e2 n hn
    obtain ⟨n, rfl⟩ := Nat.exists_eq_add_of_le' (show 1 ≤ n by simp at hn; omega)
    subst e1 e2
    obtain ⟨_, hle, _⟩ := hc.chunks hg hr
    by_cases h : s.drop pos = []
    · rw [h] at hrule; exact absurd hrule (h0 _ _)
    · obtain ⟨ck, r', hpush, hm⟩ := hc _ _ _ _ _ hr s.length hle (Nat.le_refl _)
      rw [sub_full] at hpush hm
      cases r' with
      | none => exact absurd hrule (hm _)
      | some i =>
        obtain ⟨k1, k2⟩ := hm
        have e1 : pos + i - pos = i := by omega
        rw [e1] at k2
        have hik : i = k := hg.det k2 hrule
        subst hik
        have h1 := iter_next_some (C := C) ⟨s.drop pos, st⟩ h hpush (by simp; omega)
        have hr' := IncrRun.cut hr hle (Nat.le_refl _) (by rw [sub_full]; exact hpush)
        obtain ⟨ck', h2⟩ := ih ck (pos + i) _ hr' (by rw [List.take_add]) (by rw [List.drop_drop]) n
          (by simp at hn; omega)
        refine ⟨ck', ?_⟩
        have e2 : (⟨(s.drop pos).drop i, ck⟩ : IterSlices C) = ⟨s.drop (pos + i), ck⟩ := by
          rw [List.drop_drop]
        rw [e2] at h1
        exact run_step n h1 h2

/-- … and if `iter_slices` reaches `None`, the rule splits the data. -/
theorem IncrConforms.chunked_of_iter (hc : IncrConforms C rule) (hg : rule.Good) (h0 : ∀ h n, ¬ rule h [] n)
    {s : Bytes} : ∀ (n : Nat) (st : C.State) (pos : Nat) (cs : List Bytes), IncrRun C s st pos pos cs →
    ∀ vs it, IterSlices.run n ⟨s.drop pos, st⟩ = .ok (vs, it, true) →
    ∃ cs' r, Chunked rule (s.take pos) (s.drop pos) cs' r := by
  intro n
  induction n with
  | zero => intro st pos cs _ vs it h; simp [IterSlices.run] at h
  | succ n ih =>
    intro st pos cs hr vs it hrun
    obtain ⟨_, hle, _⟩ := hc.chunks hg hr
    by_cases h : s.drop pos = []
    · exact ⟨[], [], by rw [h]; exact .rem fun k => h0 _ k⟩
    · obtain ⟨ck, r', hpush, hm⟩ := hc _ _ _ _ _ hr s.length hle (Nat.le_refl _)
      rw [sub_full] at hpush hm
      cases r' with
      | none => exact ⟨[], s.drop pos, .rem hm⟩
      | some i =>
        obtain ⟨k1, k2⟩ := hm
        have e1 : pos + i - pos = i := by omega
        rw [e1] at k2
        have h1 := iter_next_some (C := C) ⟨s.drop pos, st⟩ h hpush (by simp; omega)
        have hr' := IncrRun.cut hr hle (Nat.le_refl _) (by rw [sub_full]; exact hpush)
        have e2 : (⟨(s.drop pos).drop i, ck⟩ : IterSlices C) = ⟨s.drop (pos + i), ck⟩ := by
          rw [List.drop_drop]
        rw [e2] at h1
        rw [IterSlices.run, h1] at hrun
        cases h3 : IterSlices.run n ⟨s.drop (pos + i), ck⟩ with
        | error e => simp [h3] at hrun
        | ok x =>
          obtain ⟨vs', it', b⟩ := x
          simp [h3] at hrun
          obtain ⟨cs', r, h4⟩ := ih ck (pos + i) _ hr' vs' it' (by rw [h3, hrun.2.2])
          refine ⟨_, r, .cut k2 (cs := cs') ?_⟩
          rw [List.drop_drop, show s.take pos ++ (s.drop pos).take i = s.take (pos + i) by rw [List.take_add]]
          exact h4

/-- `iter_slices` of a new chunker ends exactly when the rule splits the data into finitely many chunks. -/
theorem IncrConforms.ends_iff (hc : IncrConforms C rule) (hg : rule.Good) (h0 : ∀ h n, ¬ rule h [] n)
    (data : Bytes) : (∃ n vs it, (C.iterSlices C.init data).run n = .ok (vs, it, true)) ↔
      ∃ cs r, Chunked rule [] data cs r := by
  constructor
  · rintro ⟨n, vs, it, h⟩
    exact hc.chunked_of_iter hg h0 (s := data) n C.init 0 [] .start vs it h
  · rintro ⟨cs, r, h⟩
    obtain ⟨ck, h1⟩ := hc.iter_of_chunked hg h0 (s := data) h C.init 0 [] .start rfl rfl _ (Nat.le_refl _)
    exact ⟨_, _, _, h1⟩

end HashRoll.Spec
