import Verif.Props.SizeSets
import Verif.Props.Loops
import Verif.Props.Lost
/-!
# C77, continued: the possible chunk sizes of the algorithms driven by a table

Default parameters. The inputs are zeros followed by two or three bytes that make the hash match; the tables below give these
bytes for every number of zeros up to the length of the window, from there on they stay the same.
-/

namespace HashRoll.Props

open Spec

/-- what the first call of `find_chunk_edge` returns is the first chunk of the rule -/
theorem rule_of_fce {A : Chunk} {rule : Rule} (hc : FceConforms A Any rule) {data : Bytes} {st : A.State} {n d : Nat}
    (h : A.fce A.init data = .ok (st, some n, d)) : rule [] data n := by
  obtain ⟨st', r, d', h1, -, h2⟩ := hc data A.init 0 0 0 [] .start data.length (Nat.zero_le _) (Nat.le_refl _) trivial
  rw [sub_full, List.drop_zero] at h1 h2
  rw [h] at h1
  cases h1
  simpa using h2.2.2

theorem lastN_zeros_append {W j : Nat} (x : Bytes) (hj : W ≤ j) :
    lastN W (List.replicate j 0 ++ x) = lastN W (List.replicate W 0 ++ x) := by
  rw [lastN_append, lastN_run, Nat.min_eq_right hj, lastN_append W (List.replicate W 0), lastN_run, Nat.min_self]

/-- more zeros in front than the window has -/
theorem firstCut_more_zeros {W : Nat} (hW : 1 ≤ W) {e : Bytes → Prop} (hl : WindowLocal W e) {x : Bytes}
    (h : FirstCut e (List.replicate W 0 ++ x) (W + x.length)) (hx : x ≠ []) {j : Nat} (hj : W ≤ j) :
    FirstCut e (List.replicate j 0 ++ x) (j + x.length) := by
  obtain ⟨h1, h2, h3, h4⟩ := h
  have hx' : 1 ≤ x.length := List.length_pos_of_ne_nil hx
  have ht : ∀ j i, (List.replicate j (0 : UInt8) ++ x).take (j + i) = List.replicate j 0 ++ x.take i := by
    intro j i
    have := take_append_length_add (List.replicate j 0) x i
    rwa [List.length_replicate] at this
  refine ⟨by omega, by simp, ?_, ?_⟩
  · rw [ht] at h3 ⊢
    exact (hl _ _ (lastN_zeros_append _ hj)).2 h3
  · intro m hm1 hm2 he
    by_cases hm : m ≤ j
    · rw [List.take_append_of_le_length (by simpa using hm), List.take_replicate, Nat.min_eq_left hm] at he
      by_cases hmW : m ≤ W
      · refine h4 m hm1 (by omega) ?_
        rwa [List.take_append_of_le_length (by simpa using hmW), List.take_replicate, Nat.min_eq_left hmW]
      · refine h4 W hW (by omega) ?_
        rw [List.take_append_of_le_length (by simp), List.take_replicate, Nat.min_self]
        have := lastN_zeros_append (W := W) (j := m) [] (by omega)
        rw [List.append_nil, List.append_nil] at this
        exact (hl _ _ this).1 he
    · obtain ⟨i, rfl⟩ : ∃ i, m = j + i := ⟨m - j, by omega⟩
      rw [ht] at he
      refine h4 (W + i) (by omega) (by omega) ?_
      rw [ht]
      exact (hl _ _ (lastN_zeros_append _ hj)).1 he

/-! ## Gear -/

/-- two bytes that make `Gear32::default()` cut after so many zeros -/
def gearEnd : List Bytes := [[53, 144], [2, 155], [65, 94], [131, 55], [40, 0], [15, 241], [58, 103], [10, 230], [20, 96], [47, 24], [8, 104],
  [59, 238], [10, 228], [30, 206], [27, 245], [52, 219], [12, 46], [38, 228], [7, 19], [6, 88], [21, 168], [17, 229],
  [57, 146], [28, 139], [3, 22], [36, 10], [15, 189], [36, 54], [12, 162], [94, 203], [79, 35], [79, 35], [79, 35]]

theorem gearEnd_ok : ∀ j : Fin 33, ((Gear.chunk Ex.gear).fce (Gear.chunk Ex.gear).init
    (List.replicate j.1 0 ++ gearEnd.getD j.1 [])).toOption.map (fun x => x.2.1) = some (some (j.1 + 2)) := by
  decide +kernel

/-- the table covers every number of zeros -/
theorem sizes_of_table {A : Chunk} {e : Bytes → Prop} {W : Nat} (hW : 1 ≤ W) (hl : WindowLocal W e)
    (hc : FceConforms A Any (EdgeRule (Local e))) {T : List Bytes} (hT : ∀ j, j < W + 1 → (T.getD j []).length = 2)
    (hok : ∀ j, j < W + 1 → (A.fce A.init (List.replicate j 0 ++ T.getD j [])).toOption.map (fun x => x.2.1) = some (some (j + 2)))
    {n : Nat} (hn : 2 ≤ n) : ∃ data, EdgeRule (Local e) [] data n := by
  have hf : ∀ j, j < W + 1 → EdgeRule (Local e) [] (List.replicate j 0 ++ T.getD j []) (j + 2) := by
    intro j hj
    have h := hok j hj
    cases hr : A.fce A.init (List.replicate j 0 ++ T.getD j []) with
    | error e => rw [hr] at h; cases h
    | ok x =>
      obtain ⟨st, r, d⟩ := x
      rw [hr] at h
      change some r = _ at h
      cases h
      exact rule_of_fce hc hr
  obtain ⟨j, rfl⟩ : ∃ j, n = j + 2 := ⟨n - 2, by omega⟩
  by_cases hj : j < W + 1
  · exact ⟨_, hf j hj⟩
  · have h2 := hT W (by omega)
    have := hf W (by omega)
    refine ⟨List.replicate j 0 ++ T.getD W [], ?_⟩
    rw [← h2] at this ⊢
    refine firstCut_more_zeros hW hl this ?_ (by omega)
    intro h
    rw [h] at h2
    cases h2

/-- C77. `Gear32::default()`, `find_chunk_edge`: every size from 1 on. -/
theorem C77_gear (n : Nat) : DocSize (Gear.chunk Ex.gear) n ↔ 1 ≤ n := by
  rw [docSize_iff (C08_gear Ex.gear) (EdgeRule.good _) (EdgeRule.fresh _)]
  constructor
  · rintro ⟨data, h, -⟩
    exact h
  · intro h
    by_cases h1 : n = 1
    · subst h1
      exact ⟨[17], rule_of_fce (A := Gear.chunk Ex.gear) (Gear.fce_conforms Ex.gear) (st := ⟨0⟩) (d := 1) (by decide +kernel)⟩
    · exact sizes_of_table (W := 32) (by decide) (C40_edge _ _ _) (Gear.fce_conforms Ex.gear) (T := gearEnd)
        (fun j hj => (by decide +kernel : ∀ j : Fin 33, (gearEnd.getD j.1 []).length = 2) ⟨j, hj⟩)
        (fun j hj => gearEnd_ok ⟨j, hj⟩) (by omega)

example : DocSize (Gear.chunk Ex.gear) 1 ∧ DocSize (Gear.chunk Ex.gear) (10 ^ 9) :=
  ⟨(C77_gear 1).2 (by decide), (C77_gear _).2 (by decide)⟩

/-! ## BuzHash -/

/-- two bytes that make `BuzHash::new_nom(0)` cut after so many zeros -/
def buzEnd : List Bytes := [[2, 101], [15, 72], [1, 70], [10, 36], [4, 150], [40, 134], [24, 222], [26, 189], [23, 105], [6, 72], [5, 219],
  [4, 180], [15, 129], [0, 135], [1, 76], [7, 159], [6, 164], [0, 193], [44, 113], [5, 83], [33, 150], [13, 239],
  [19, 104], [6, 131], [2, 110], [1, 173], [8, 9], [7, 124], [28, 111], [8, 142], [43, 83], [27, 234], [2, 101],
  [15, 72], [1, 70], [10, 36], [4, 150], [40, 134], [24, 222], [26, 189], [23, 105], [6, 72], [5, 219], [4, 180],
  [15, 129], [0, 135], [1, 76], [7, 159], [6, 164], [0, 193], [44, 113], [5, 83], [33, 150], [13, 239], [19, 104],
  [6, 131], [2, 110], [1, 173], [8, 9], [7, 124], [28, 111], [8, 142], [43, 83], [27, 234], [2, 101], [15, 72],
  [15, 72], [15, 72]]

theorem buzEnd_ok : ∀ j : Fin 68, ((Buzhash.chunk nom).fce (Buzhash.chunk nom).init
    (List.replicate j.1 0 ++ buzEnd.getD j.1 [])).toOption.map (fun x => x.2.1) = some (some (j.1 + 2)) := by
  decide +kernel

theorem buz_single : ∀ b : Fin 256, ¬ buzEdge nom.k nom.h nom.mask [UInt8.ofNat b.1] := by
  unfold buzEdge
  decide +kernel

theorem nom_local : WindowLocal 67 (buzEdge nom.k nom.h nom.mask) := by
  intro p q h
  show buzHash 67 nom.h p &&& nom.mask = nom.mask ↔ buzHash 67 nom.h q &&& nom.mask = nom.mask
  rw [C45_rolling 67 nom.h (by decide) p q h]

theorem nom_size (n : Nat) : (∃ data, FirstCut (buzEdge nom.k nom.h nom.mask) data n) ↔ 2 ≤ n := by
  constructor
  · rintro ⟨data, h1, h2, h3, -⟩
    by_contra hn
    obtain rfl : n = 1 := by omega
    cases data with
    | nil => simp at h2
    | cons b data =>
      refine buz_single ⟨b.toNat, b.toNat_lt⟩ ?_
      rw [UInt8.ofNat_toNat]
      exact h3
  · intro h
    exact sizes_of_table (W := 67) (by decide) nom_local (Buzhash.fce_conforms nom (by decide)) (T := buzEnd)
      (fun j hj => (by decide +kernel : ∀ j : Fin 68, (buzEnd.getD j.1 []).length = 2) ⟨j, hj⟩)
      (fun j hj => buzEnd_ok ⟨j, hj⟩) h

/-- C77. `BuzHash::new_nom(0)`, `find_chunk_edge`: every size from 2 on. -/
theorem C77_buzhash (n : Nat) : DocSize (Buzhash.chunk nom) n ↔ 2 ≤ n := by
  rw [docSize_iff (C08_buzhash nom (by decide)) (EdgeRule.good _) (EdgeRule.fresh _)]
  exact nom_size n

/-- C77. BuzHashIncr: every size from 2 to the maximum plus one. -/
theorem C77_buzhash_incr (n : Nat) : StrictSize (Buzhash.incr nom) n ↔ 2 ≤ n ∧ n ≤ 2 ^ 24 + 1 := by
  rw [strictSize_iff (C05_buzhash nom (by decide)) (EdgeRule.good _) (EdgeRule.fresh _)]
  have hmax : nom.maxChunkSize = 2 ^ 24 := rfl
  constructor
  · rintro ⟨data, h1, h2, h3, h4⟩
    have hle : n ≤ 2 ^ 24 + 1 := by
      by_contra hlt
      refine h4 (2 ^ 24 + 1) (by omega) (by omega) (.inr ?_)
      rw [List.length_take, hmax]
      omega
    refine ⟨?_, hle⟩
    rcases h3 with h3 | h3
    · refine (nom_size n).1 ⟨data, h1, h2, h3, fun m hm1 hm2 he => h4 m hm1 hm2 (.inl he)⟩
    · rw [List.length_take, hmax] at h3
      omega
  · rintro ⟨h1, h2⟩
    obtain ⟨data, k1, k2, k3, k4⟩ := (nom_size n).2 h1
    refine ⟨data, k1, k2, .inl k3, ?_⟩
    rintro m hm1 hm2 (he | he)
    · exact k4 m hm1 hm2 he
    · rw [List.length_take, hmax] at he
      omega
example : DocSize (Buzhash.chunk nom) (2 ^ 24 + 2) ∧ ¬ StrictSize (Buzhash.incr nom) (2 ^ 24 + 2) :=
  ⟨(C77_buzhash _).2 (by omega), fun h => absurd ((C77_buzhash_incr _).1 h) (by omega)⟩

/-! ## FastCdc -/

/-- three bytes that complete a match of the stricter mask of FastCDC after so many zeros -/
def fastEnd : List Bytes := [[0, 133, 233], [0, 162, 182], [0, 115, 213], [0, 76, 122], [0, 204, 171], [0, 198, 124], [0, 62, 27], [0, 0, 14],
  [0, 61, 185], [1, 19, 42], [0, 40, 98], [2, 219, 36], [0, 19, 95], [1, 203, 110], [0, 116, 177], [0, 8, 51],
  [0, 80, 68], [0, 8, 221], [0, 61, 155], [0, 41, 144], [0, 65, 42], [0, 61, 36], [1, 57, 170], [1, 205, 199],
  [0, 54, 255], [0, 35, 55], [0, 62, 67], [0, 27, 11], [0, 9, 111], [0, 11, 248], [0, 7, 192], [0, 246, 199],
  [0, 31, 13], [0, 46, 139], [0, 128, 56], [0, 67, 123], [0, 128, 42], [0, 67, 123], [1, 110, 223], [0, 35, 208],
  [0, 16, 31], [1, 16, 194], [0, 69, 114], [0, 211, 133], [0, 18, 39], [1, 40, 142], [0, 75, 240], [0, 18, 39],
  [0, 18, 39], [0, 18, 39], [0, 18, 39], [0, 18, 39], [0, 18, 39], [0, 18, 39], [0, 18, 39], [0, 18, 39],
  [0, 18, 39], [0, 18, 39], [0, 18, 39], [0, 18, 39], [0, 18, 39], [0, 18, 39]]

/-- the bits of the two masks -/
def fastS : BitVec 64 := 0x0003590703530000
def fastL : BitVec 64 := 0x0000d90003530000

/-- the fingerprint of the bytes after `min_size` -/
abbrev fastFp (x : Bytes) : BitVec 64 := gearSum (lookup Tables.gear64) x

/-- the last fingerprint matches, none before it does -/
def fastScan (mask : BitVec 64) : BitVec 64 → Bytes → Bool
  | _,  []      => false
  | fp, [b]     => ((fp <<< 1) + lookup Tables.gear64 b) &&& mask == 0
  | fp, b :: xs => !(((fp <<< 1) + lookup Tables.gear64 b) &&& mask == 0) && fastScan mask ((fp <<< 1) + lookup Tables.gear64 b) xs

theorem fastScan_spec {mask : BitVec 64} : ∀ {x c : Bytes}, fastScan mask (fastFp c) x = true →
    fastFp (c ++ x) &&& mask = 0 ∧ ∀ i, 1 ≤ i → i < x.length → ¬ fastFp (c ++ x.take i) &&& mask = 0
  | [],          c, h => by cases h
  | [b],         c, h => by
    refine ⟨?_, fun i h1 h2 => by simp at h2; omega⟩
    rw [fastFp, gearSum_snoc]
    exact beq_iff_eq.1 h
  | b :: b' :: x, c, h => by
    rw [fastScan, Bool.and_eq_true, Bool.not_eq_true', beq_eq_false_iff_ne] at h
    · obtain ⟨h1, h2⟩ := h
      rw [fastFp, ← gearSum_snoc (lookup Tables.gear64)] at h1 h2
      obtain ⟨h3, h4⟩ := fastScan_spec h2
      rw [List.append_assoc] at h3
      refine ⟨h3, fun i hi1 hi2 => ?_⟩
      obtain ⟨i, rfl⟩ : ∃ k, i = k + 1 := ⟨i - 1, by omega⟩
      rw [List.take_succ_cons]
      by_cases h0 : i = 0
      · subst h0; exact h1
      · have := h4 i (by omega) (by simpa using hi2)
        rwa [List.append_assoc] at this
    · simp

theorem fastEnd_ok : ∀ j : Fin 62, fastScan fastS 0 (List.replicate j.1 0 ++ fastEnd.getD j.1 []) = true := by
  decide +kernel

/-- zeros never match -/
theorem fast_zeros (m : Nat) (hm : 1 ≤ m) :
    ¬ fastFp (List.replicate m 0) &&& fastS = 0 ∧ ¬ fastFp (List.replicate m 0) &&& fastL = 0 := by
  have key : ∀ m : Fin 65, 1 ≤ m.1 → ¬ fastFp (List.replicate m.1 0) &&& fastS = 0 ∧
      ¬ fastFp (List.replicate m.1 0) &&& fastL = 0 := by
    decide +kernel
  by_cases h : m < 65
  · exact key ⟨m, h⟩ hm
  · have e : fastFp (List.replicate m 0) = fastFp (List.replicate 64 0) := by
      rw [fastFp, gearSum_lastN, lastN_run, Nat.min_eq_right (by omega)]
    rw [e]
    exact key ⟨64, by omega⟩ (Nat.le_add_left 1 63)

theorem fast_far {j : Nat} (hj : 64 ≤ j) (x : Bytes) :
    fastFp (List.replicate j 0 ++ x) = fastFp (List.replicate 64 0 ++ x) := by
  rw [fastFp, gearSum_lastN, lastN_zeros_append x hj, ← gearSum_lastN]

theorem fast_ends :
    ¬ fastFp (List.replicate 64 0 ++ [18]) &&& fastS = 0 ∧ ¬ fastFp (List.replicate 64 0 ++ [18]) &&& fastL = 0 ∧
    ¬ fastFp (List.replicate 64 0 ++ [14]) &&& fastS = 0 ∧ ¬ fastFp (List.replicate 64 0 ++ [14]) &&& fastL = 0 ∧
    fastFp (List.replicate 64 0 ++ [18, 39]) &&& fastS = 0 ∧ fastFp (List.replicate 64 0 ++ [14, 50]) &&& fastL = 0 := by
  decide +kernel

/-- the mask in force at chunk length `2048 + t` -/
def fastMask (t : Nat) : BitVec 64 := if 2048 + t ≤ 8192 then fastS else fastL

/-- `t` bytes whose fingerprint matches at the last byte and not before -/
theorem fast_bytes (t : Nat) (ht : 2 ≤ t) : ∃ x : Bytes, x.length = t ∧ fastFp x &&& fastMask t = 0 ∧
    ∀ i, 1 ≤ i → i < t → ¬ fastFp (x.take i) &&& fastMask i = 0 := by
  have hS : ∀ i, i ≤ 66 → fastMask i = fastS := fun i hi => if_pos (by omega)
  have small : ∀ x : Bytes, x.length = t → t ≤ 66 → fastScan fastS 0 x = true → ∃ x : Bytes, x.length = t ∧
      fastFp x &&& fastMask t = 0 ∧ ∀ i, 1 ≤ i → i < t → ¬ fastFp (x.take i) &&& fastMask i = 0 := by
    intro x hx ht' hs
    have h0 : (0 : BitVec 64) = fastFp [] := by rfl
    rw [h0] at hs
    obtain ⟨h1, h2⟩ := fastScan_spec hs
    refine ⟨x, hx, ?_, ?_⟩
    · rw [hS t ht']; exact h1
    · intro i hi1 hi2
      rw [hS i (by omega)]
      exact h2 i hi1 (by omega)
  by_cases h2 : t = 2
  · subst h2
    exact small [42, 64] rfl (by omega) (by decide +kernel)
  by_cases h64 : t < 65
  · have hl : ∀ j : Fin 62, (fastEnd.getD j.1 []).length = 3 := by decide +kernel
    have := fastEnd_ok ⟨t - 3, by omega⟩
    refine small _ ?_ (by omega) this
    rw [List.length_append, List.length_replicate, hl ⟨t - 3, by omega⟩]
    show t - 3 + 3 = t
    omega
  by_cases h66 : t < 66
  · have : t = 65 := by omega
    subst this
    exact small (List.replicate 63 0 ++ [18, 39]) rfl (by omega) (by decide +kernel)
  -- at least 64 zeros in front
  obtain ⟨j, rfl⟩ : ∃ j, t = j + 2 := ⟨t - 2, by omega⟩
  obtain ⟨e1, e2, e3, e4, e5, e6⟩ := fast_ends
  have main : ∀ a b : UInt8, (¬ fastFp (List.replicate 64 0 ++ [a]) &&& fastS = 0) →
      (¬ fastFp (List.replicate 64 0 ++ [a]) &&& fastL = 0) → fastFp (List.replicate 64 0 ++ [a, b]) &&& fastMask (j + 2) = 0 →
      ∃ x : Bytes, x.length = j + 2 ∧ fastFp x &&& fastMask (j + 2) = 0 ∧
        ∀ i, 1 ≤ i → i < j + 2 → ¬ fastFp (x.take i) &&& fastMask i = 0 := by
    intro a b ha hb hab
    refine ⟨List.replicate j 0 ++ [a, b], by simp, by rw [fast_far (by omega)]; exact hab, ?_⟩
    intro i hi1 hi2
    by_cases hi : i ≤ j
    · rw [List.take_append_of_le_length (by simpa using hi), List.take_replicate, Nat.min_eq_left hi, fastMask]
      split
      · exact (fast_zeros i hi1).1
      · exact (fast_zeros i hi1).2
    · obtain rfl : i = j + 1 := by omega
      have := take_append_length_add (List.replicate j (0 : UInt8)) [a, b] 1
      rw [List.length_replicate] at this
      rw [this, fastMask]
      change ¬ fastFp (List.replicate j 0 ++ [a]) &&& _ = 0
      rw [fast_far (by omega)]
      split
      · exact ha
      · exact hb
  by_cases hn : 2048 + (j + 2) ≤ 8192
  · exact main 18 39 e1 e2 (by rw [fastMask, if_pos hn]; exact e5)
  · exact main 14 50 e3 e4 (by rw [fastMask, if_neg hn]; exact e6)

theorem fast_single : ∀ b : Fin 256, ¬ fastFp [UInt8.ofNat b.1] &&& fastS = 0 := by
  decide +kernel

/-- `2048` zeros, then the bytes of `fast_bytes` -/
theorem fast_hit (x : Bytes) (i : Nat) (hi : i ≤ x.length) :
    fastHit (lookup Tables.gear64) 2048 8192 ((List.replicate 2048 0 ++ x).take (2048 + i)) ↔
      fastFp (x.take i) &&& fastMask i = 0 := by
  have h1 := take_append_length_add (List.replicate 2048 (0 : UInt8)) x i
  rw [List.length_replicate] at h1
  have h2 : (List.replicate 2048 (0 : UInt8) ++ x.take i).drop 2048 = x.take i := by
    rw [List.drop_append_of_le_length (by rw [List.length_replicate]), List.drop_of_length_le (by rw [List.length_replicate]),
      List.nil_append]
  rw [h1, fastHit, h2, List.length_append, List.length_replicate, List.length_take, Nat.min_eq_left hi]
  rfl

theorem fast_one (d : Bytes) (hd : 2049 ≤ d.length) : ¬ fastHit (lookup Tables.gear64) 2048 8192 (d.take 2049) := by
  intro h
  have hl : (d.take 2049).length = 2049 := by rw [List.length_take]; omega
  rw [fastHit, hl, if_pos (by omega)] at h
  have h1 : ((d.take 2049).drop 2048).length = 1 := by rw [List.length_drop, hl]
  obtain ⟨b, hb⟩ := List.length_eq_one_iff.1 h1
  rw [hb] at h
  refine fast_single ⟨b.toNat, b.toNat_lt⟩ ?_
  rw [UInt8.ofNat_toNat]
  exact h

theorem fast_fce_size (n : Nat) : (∃ data : Bytes, data.length = n ∧
    FirstCut (fastFceEdge (lookup Tables.gear64) 2048 8192 65536) data n) ↔ 2050 ≤ n ∧ n ≤ 65537 := by
  constructor
  · rintro ⟨data, hl, h1, -, ⟨h3, h3'⟩, h4⟩
    rw [List.length_take] at h3 h3'
    have hle : n ≤ 65537 := by
      by_contra hlt
      refine h4 65537 (by omega) (by omega) ⟨?_, .inl ?_⟩ <;> rw [List.length_take] <;> omega
    refine ⟨?_, hle⟩
    by_contra hlt
    obtain rfl : n = 2049 := by omega
    rcases h3' with h | h
    · omega
    · exact fast_one data (by omega) h
  · rintro ⟨h1, h2⟩
    obtain ⟨t, rfl⟩ : ∃ t, n = 2048 + t := ⟨n - 2048, by omega⟩
    obtain ⟨x, hx, hm, hno⟩ := fast_bytes t (by omega)
    have hlen : (List.replicate 2048 (0 : UInt8) ++ x).length = 2048 + t := by
      rw [List.length_append, List.length_replicate, hx]
    refine ⟨List.replicate 2048 0 ++ x, hlen, by omega, by omega, ⟨?_, .inr ?_⟩, ?_⟩
    · rw [List.length_take]; omega
    · rw [fast_hit x t (by omega), List.take_of_length_le (by omega)]
      exact hm
    · rintro m hm1 hm2 ⟨he1, he2⟩
      rw [List.length_take] at he1 he2
      obtain ⟨i, rfl⟩ : ∃ i, m = 2048 + i := ⟨m - 2048, by omega⟩
      rcases he2 with he2 | he2
      · omega
      · rw [fast_hit x i (by omega)] at he2
        exact hno i (by omega) (by omega) he2

/-- C77. `FastCdc::default()`, `find_chunk_edge`: every size from 2050 to 65537. (The documented bounds are 2048 and 65536;
no single byte matches the mask, so 2049 is not reached.) -/
theorem C77_fastcdc (n : Nat) : DocSize (FastCdc.chunk FastCdc.FastCdc.default) n ↔ 2050 ≤ n ∧ n ≤ 65537 := by
  have h64 := C64_fastcdc FastCdc.FastCdc.default (by decide) (by decide)
  constructor
  · rintro ⟨data, N, cs, rest, hN, hl, c, hc, rfl⟩
    obtain ⟨cs', r, h1, h2⟩ := h64 data N hN
    rw [hl] at h2
    by_cases hr : r.length = FastCdc.FastCdc.default.maxSize
    · rw [if_pos hr] at h2; cases h2
    · rw [if_neg hr] at h2
      cases h2
      obtain ⟨h', d', n, hrule, rfl⟩ := h1.mem c hc
      have hle : n ≤ d'.length := hrule.2.1
      rw [List.length_take, Nat.min_eq_left hle]
      refine (fast_fce_size n).1 ⟨d'.take n, by rw [List.length_take, Nat.min_eq_left hle], hrule.1, ?_, ?_, ?_⟩
      · rw [List.length_take, Nat.min_eq_left hle]
      · rw [List.take_take, Nat.min_self]; exact hrule.2.2.1
      · intro m hm1 hm2
        rw [List.take_take, Nat.min_eq_left (by omega)]
        exact hrule.2.2.2 m hm1 hm2
  · intro hn
    obtain ⟨data, hl, hf⟩ := (fast_fce_size n).2 hn
    obtain ⟨cs, r, h1, h2⟩ := h64 data (data.length + 1) (by omega)
    have hno : ∀ hist m, ¬ EdgeRule (Local (fastFceEdge (lookup Tables.gear64) 2048 8192 65536)) hist [] m := by
      rintro hist m ⟨k1, k2, -⟩
      rw [List.length_nil] at k2
      omega
    have hc : Chunked (EdgeRule (Local (fastFceEdge (lookup Tables.gear64) 2048 8192 65536))) [] data [data.take n] [] :=
      .cut hf (by
        rw [List.drop_of_length_le (by omega)]
        exact .rem (hno _))
    obtain ⟨rfl, rfl⟩ := h1.det (EdgeRule.good _) hc
    rw [if_neg (by decide)] at h2
    exact ⟨data, _, _, _, by omega, h2, data.take n, List.mem_cons_self, by rw [List.length_take]; omega⟩

/-- C77. FastCdcIncr: every size from 2049 to 65536. -/
theorem C77_fastcdc_incr (n : Nat) : StrictSize (FastCdc.incr FastCdc.FastCdc.default) n ↔ 2049 ≤ n ∧ n ≤ 65536 := by
  rw [strictSize_iff (C05_fastcdc FastCdc.FastCdc.default (by decide) (by decide) (by decide)) (fastIncrRule.good _ _ _ _)
    (fastIncrRule.fresh _ _ _ _)]
  change (∃ data, fastIncrRule (lookup Tables.gear64) 2048 8192 65536 [] data n) ↔ _
  constructor
  · rintro ⟨data, h1, h2, h3, h4, -⟩
    refine ⟨?_, h2⟩
    by_contra hlt
    obtain rfl : n = 2048 := by omega
    rcases h4 with h | ⟨h, h'⟩
    · omega
    · exact fast_one data (by omega) h'
  · rintro ⟨h1, h2⟩
    obtain ⟨t, rfl⟩ : ∃ t, n = 2048 + t := ⟨n - 2048, by omega⟩
    obtain ⟨x, hx, hm, hno⟩ := fast_bytes (t + 1) (by omega)
    have hlen : (List.replicate 2048 (0 : UInt8) ++ x).length = 2048 + (t + 1) := by
      rw [List.length_append, List.length_replicate, hx]
    refine ⟨List.replicate 2048 0 ++ x, by omega, h2, by omega, .inr ⟨by omega, ?_⟩, ?_⟩
    · rw [Nat.add_assoc, fast_hit x (t + 1) (by omega), List.take_of_length_le (by omega)]
      exact hm
    · intro m hm1 hm2
      obtain ⟨i, rfl⟩ : ∃ i, m = 2048 + i := ⟨m - 2048, by omega⟩
      rw [Nat.add_assoc, fast_hit x (i + 1) (by omega)]
      exact hno (i + 1) (by omega) (by omega)

example : DocSize (FastCdc.chunk FastCdc.FastCdc.default) 65537 ∧ ¬ StrictSize (FastCdc.incr FastCdc.FastCdc.default) 2048 :=
  ⟨(C77_fastcdc _).2 (by decide), fun h => absurd ((C77_fastcdc_incr _).1 h) (by decide)⟩

/-! ## RollSumIncr -/

/-- streams that RollSumIncr cuts after 64 bytes and then after 1, 2, … 6 more -/
def bupShort : List Bytes :=
  [[16, 140, 52, 205, 97, 47, 144, 255, 66, 239, 205, 240, 34, 182, 192, 155, 164, 167, 240, 31, 41, 66, 90, 1,
    138, 51, 235, 112, 84, 207, 133, 39, 223, 182, 255, 156, 192, 90, 237, 51, 119, 200, 245, 100, 28, 187, 132,
    139, 184, 200, 68, 251, 248, 192, 43, 29, 123, 215, 76, 214, 126, 172, 154, 124, 209],
   [189, 75, 99, 137, 21, 1, 182, 249, 104, 45, 231, 250, 25, 164, 24, 0, 239, 167, 109, 229, 79, 83, 220, 174,
    152, 109, 4, 5, 95, 172, 190, 9, 254, 57, 212, 243, 125, 77, 56, 213, 238, 61, 248, 128, 117, 254, 222, 175,
    99, 148, 36, 249, 22, 210, 26, 157, 195, 30, 16, 167, 253, 77, 68, 98, 217, 189],
   [131, 176, 254, 26, 0, 154, 224, 119, 221, 43, 85, 79, 198, 115, 197, 240, 149, 160, 95, 230, 247, 150, 26, 105,
    143, 171, 18, 203, 153, 69, 204, 208, 220, 130, 160, 120, 28, 189, 226, 213, 51, 187, 237, 253, 201, 88, 106,
    70, 239, 92, 185, 225, 90, 12, 222, 16, 109, 173, 92, 29, 64, 175, 136, 213, 250, 141, 247],
   [66, 122, 208, 95, 167, 117, 138, 119, 62, 159, 9, 11, 153, 132, 5, 62, 26, 100, 58, 167, 235, 94, 175, 231, 23,
    105, 166, 194, 55, 27, 174, 210, 245, 8, 162, 127, 186, 177, 102, 60, 38, 198, 77, 192, 171, 141, 182, 182, 54,
    93, 57, 56, 46, 112, 212, 186, 94, 144, 202, 41, 206, 93, 124, 146, 149, 146, 202, 11],
   [185, 227, 68, 53, 32, 79, 203, 28, 187, 199, 92, 69, 101, 208, 169, 11, 239, 120, 202, 19, 161, 50, 165, 6, 1,
    41, 100, 122, 174, 220, 7, 85, 197, 57, 91, 99, 251, 255, 58, 243, 184, 217, 18, 56, 84, 57, 53, 5, 18, 35,
    254, 171, 61, 111, 34, 242, 73, 129, 125, 97, 56, 43, 217, 65, 210, 128, 76, 72, 6],
   [114, 249, 181, 102, 97, 35, 240, 183, 243, 232, 193, 162, 223, 4, 254, 82, 86, 6, 67, 3, 37, 117, 174, 80, 76,
    111, 57, 27, 132, 107, 180, 143, 199, 130, 178, 37, 33, 223, 87, 188, 53, 152, 51, 125, 132, 193, 53, 92, 234,
    241, 183, 194, 7, 156, 17, 17, 40, 160, 143, 29, 236, 191, 49, 240, 235, 242, 240, 211, 169, 69]]

theorem bupShort_ok : ∀ i : Fin 6, (bupShort.getD i.1 []).length = 64 + (i.1 + 1) ∧
    FirstCut (bupEdge 64) (bupShort.getD i.1 []) 64 ∧
    FirstCut (fun x => bupEdge 64 ((bupShort.getD i.1 []).take 64 ++ x)) ((bupShort.getD i.1 []).drop 64) (i.1 + 1) := by
  decide +kernel

/-- C77. `RollSumIncr::default()`: every size from 1 on (`find_chunk_edge`, which resets, has none below 7). -/
theorem C77_rollsum_incr (n : Nat) : StrictSize (Bup.incr Bup.RollSum.default) n ↔ 1 ≤ n := by
  have h5 : StrictChunks (Bup.incr Bup.RollSum.default) (EdgeRule (bupIncrEdge 64)) := C05_rollsum 6
  constructor
  · intro hs
    obtain ⟨h', d', hr⟩ := hs.exists h5 (EdgeRule.good _)
    exact hr.1
  · intro h
    by_cases h7 : 7 ≤ n
    · have h8 : 8191 ≤ 31 * 64 * (64 - 1) % 8192 + 255 * tri (min 64 n) := by
        have h1 := tri_mono (show 7 ≤ min 64 n by omega)
        have h2 : tri 7 = 28 := by decide
        omega
      obtain ⟨data, hf⟩ := (bup_size 64 n).2 h8
      exact strictSize_of_first h5 (EdgeRule.good _) (data := data) hf
    · obtain ⟨i, rfl⟩ : ∃ i, n = i + 1 := ⟨n - 1, by omega⟩
      obtain ⟨h1, h2, h3⟩ := bupShort_ok ⟨i, by omega⟩
      generalize bupShort.getD (Fin.val ⟨i, _⟩) [] = q at h1 h2 h3
      obtain ⟨cs, r, hc⟩ := Chunked.exists (EdgeRule.good (bupIncrEdge 64)) (EdgeRule.pos _)
        (q.take 64 ++ (q.drop 64).take (i + 1)) ((q.drop 64).drop (i + 1))
      have c2 : Chunked (EdgeRule (bupIncrEdge 64)) ([] ++ q.take 64) (q.drop 64) _ r := Chunked.cut h3 hc
      have c1 : Chunked (EdgeRule (bupIncrEdge 64)) [] q _ r := Chunked.cut h2 c2
      have := strictSize_of_mem h5 (EdgeRule.good _) c1 (List.mem_cons_of_mem _ List.mem_cons_self)
      rw [List.length_take, List.length_drop, h1] at this
      rwa [show min (i + 1) (64 + (i + 1) - 64) = i + 1 by omega] at this

example : StrictSize (Bup.incr Bup.RollSum.default) 3 ∧ ¬ DocSize (Bup.chunk Bup.RollSum.default) 3 :=
  ⟨(C77_rollsum_incr 3).2 (by decide), fun h => absurd ((C77_rollsum_default 3).1 h) (by decide)⟩

end HashRoll.Props
