# hash-roll in Lean 4: design

## Layout

* `lean/Verif/Model/*`   executable model of the Rust code, function by function, with file:line citations.
* `lean/Verif/Spec/*`    small declarative specification: what a "cut rule" is, what it means for an API to
  conform to one, closed forms of the hashes. Imports nothing of the model except the trait shapes.
* `lean/Verif/Proofs/*`  lemmas.
* `lean/Verif/Props/*`   the property theorems, named `Cnn_...`, each with an `example` showing its hypotheses are met.
* `lean/Verif/Check/*`   tests, not proofs: `Check/Cuts.lean` runs the model on the inputs of `tests/cuts.rs` (PCG
  generator included) and compares with the split lengths recorded there, for both APIs. No theorem depends on it. It
  guards against a wrong reading of the source.
* `seeded/LOG.jsonl`     the seeded errors and which theorems reject them.

## How the code is modelled

* A byte is `UInt8`, a slice `&[u8]` is `List UInt8`, `u32`/`u64` hash words are `BitVec 32`/`BitVec 64`
  (wrapping arithmetic exactly as `Wrapping<_>`), positions and sizes are `Nat`.
* `&mut self` methods return the new state. Panics are the error value of `R := Except Panic`.
* `for` loops with early return are the combinators `forEnum` / `forRange` (structural recursion).
* `Chunk` and `ChunkIncr` implementations are records (`State`, `init`, `fce` / `push`).
* Overflow of arithmetic in constructors is modelled for both build profiles (`debug`: panic, `release`: wrap).

## How the properties are stated

A *rule* is a relation `rule hist data n`: "having already cut off `hist`, the next chunk of `data` is its
first `n` bytes". `Chunked rule hist data chunks rem` iterates it. Almost every rule is given by an *edge
predicate* on the bytes of the current chunk (`FirstCut`: least prefix satisfying the predicate).

* `FceConforms A rule`: for every stream and every legal sequence of buffers (user histories of
  `find_chunk_edge`), calls do not panic, stay in range, and report exactly the chunks of `rule`.
* `IncrConforms C rule`: the same for `push` with arbitrary slicings and re-push of the rest of the slice.
* `BytewiseConforms C rule`: the same for the one-byte-at-a-time protocol of `tests/cuts.rs`.

Per algorithm we prove these with the closed-form edge; iterator, doc-loop, `splits_fce`, prefix-stability and
resynchronisation properties then follow generically.

## Plan per property

| id | modelled | proof |
|----|----------|-------|
| C01 | IterSlices over every ChunkIncr model | induction on number of `next` calls; in-range lemma per algorithm |
| C02, C04, C05 | IterSlices, IterSlicesStrict | generic from `IncrConforms` with positive-length rules |
| C03 | GearIncr32 + GEAR_32 | refutation (explicit input, all fuel), and partial theorem when no byte alone matches |
| C06 | iterators | direct + witness |
| C07 | every `fce` | loop invariants for arbitrary state and data |
| C08 | doc loop as fuel function | generic from `FceConforms` |
| C09, C10, C48 | spec level `Chunked` | induction; applies through conformance |
| C11-C20 | `find_chunk_edge` | refinement invariant state = closed form of the chunk so far |
| C21-C30 | `push` | same |
| C31-C35 | both | conformance to the same rule / witnesses for disagreement |
| C36-C39 | rules | from conformance |
| C40-C47 | hashes | algebra in `BitVec` |
| C49-C55 | constructors, range.rs | case analysis, for both build profiles |
| C56 | test oracle `fast_cdc_8kb` | loop equivalence |
| C57 | test harness `splits_fce` | generic from `FceConforms` |
| C58-C60 | states, parameters, tables | invariants; `decide +kernel` over the complete finite table lifted to all bytes |
| C61 | BuzHash tables, `table_byte` | xor algebra over the complete table |
| C62 | RollSum edge | parity/range of the two sums for degenerate windows |
| C63 | `Default` impls | literal constants, then the conformance theorems instantiated |
| C64, C65 | doc loop | FastCdc exact result incl. the panic; what `remain` is |
| C66 | Zstd `find_chunk_edge` | relation giving the exact cuts under drift, and its determinism |
| C67 | zpaq logarithm | real analysis (`Real.logb`): integer floor-log2 has the margin an f64 needs |
| C68 | ChunkIncr kept over several iterators | generic from `IncrConforms` |
| C69, C70 | ZstdIncr iterators | two adjacent windows never both match (20-bit masks), hence progress |
| C71 | what find_chunk_edge needs to see again | the loop invariants of the conformance proofs carry the number of bytes kept |
| C72 | streams that repeat one byte | hash of a run in closed form (`gearSum_run`, `tri_sum`, gcd) or stationary after one window; the remaining lengths are a kernel-checked table of 256 bytes; for Zpaq a kernel-evaluated scan of the hash, for the bytes 0, 124, 255 only |
| C73 | `push(a ++ b)` and `push(a)`, `push(b)` | loop split (`splitLaw_loop`); FastCdc by the three loops, Zstd by the two phases of the window |
| C74 | how many of the 256 next bytes cut | injectivity of adding a byte mod 2^k, or a kernel-checked table of 256 entries (Gear, Go table, multiplier of zpaq) |
| C75 | exact frequency of the cuts of Pigz and RollSumIncr | every remainder mod 2^j is equally frequent among the hashes of the strings of length k (induction on k) |
| C76 | recovery after an edit | cuts as a predicate of the whole stream (Pigz: the reset changes nothing; RollSumIncr: no reset), spacing of cuts and descents (Mii); streams that repeat one chunk for those that do not recover |
| C77 | exact sets of chunk sizes | `DocSize`, `StrictSize`: n is the length of some chunk of some stream; equivalences with arithmetic conditions |
| C78 | streams with a period | two chunks that start at the same phase (and, where the rule looks back, after the same bytes) have the same future; pigeonhole over the phases |
| C79 | one call or several calls of find_chunk_edge | loop splitting, through `push` (C73) where find_chunk_edge calls it, with a moved window for Gzip, RollSum, BuzHash |
| C80 | mean chunk size for uniform random bytes | spec `MeanChunk`, `MeanPush` (series over string lengths of counts / 256^n); mean = sum of the shares of strings without a cut; Mii by inclusion-exclusion over increasing runs |
| C81 | after a cut the chunker is as new | spec `Renews`, `RenewsPush`; invariants of the loops; negatives by witness |
| C82 | distribution of chunk sizes | counts `cutAt`, `pushCutAt` for every length: closed forms (Gzip, Ram), recurrences that determine the sequence (`MiiSeq`, renewal equation of Pigz) |
| C83 | strings that force a cut | spec `DocBoundary`, `StrictBoundary`, `StrictForgets`; four generic lemmas (`boundary_always`, `_quiet`, `_pair`, `_before`) on rules; explicit strings, the windows inside them checked by the kernel |
| C84 | what a larger size parameter does | spec `DocCoarser`, `DocNestedAfter`, `DocFewer`, `DocDisjoint`; inclusion of edge predicates, `Chunked.cutAt_last` (a cut is decided by the bytes since the last one); Pigz by comparing one bit |
| C85 | chunks put together again | spec `DocCode`, `DocPrefixFree`: a chunk is its own first chunk, so chunks can be concatenated |
| C86 | what the seed of the borg table changes | `seedMix`: linearity of the xor hash, rotation by 32 is the identity |
| C87 | the hand-written equality | `sliceEq_iff` |
| C88 | how many past bytes a decision depends on, exactly | `FceMemory`, `IncrMemory` (`FceDecidesAlike W` iff `M ≤ W`) |
| C89 | what of the bytes matters | spec `DocAlike`, `StrictAlike`, `SameOrder`, `SameSteps`, `SameZeros`, `SameMod`; `Chunked.alike`: rules that agree on corresponding pieces cut alike |
| C90 | frequency of BuzHash's cut condition | spec `AboutOneIn`, `hitsAfter`; characters `chi`; all 4095 Walsh coefficients of each of the 32 rotations of the two tables are computed as one number in base 1024 (`WalshDefs`, checked by the kernel) |
| C91 | frequency of Gear32's cut condition | spec `CloseToOneIn`, `gearHits`; the distribution of the top 16 bits contributed by 16 bytes, for every value of the other 16 bytes: a product of 16 polynomials modulo x^65536 - 1 is computed as one number (`GearDigits`, checked by the kernel) and each window of neighbouring coefficients is near its mean |
| C92 | bounds for the mean chunk size of Gear32, BuzHash and RollSum | spec `MeanChunk`, `MeanPush`, `noCut` (the mean over all streams, by counting strings); the chance of a cut at each later position is known up to a small error (C75, C90, C91) and the expected number of further cuts shortly after a cut is bounded by counting over the last few bytes; inclusion-exclusion over blocks (`mean_between`) then bounds the mean from both sides. The bounds are not sharp: cuts of neighbouring positions are correlated |
| C93 | how often FastCDC's masks accept the fingerprint | spec `fpAfter`, `OneIn` (by counting strings); each mask splits into groups of bits, each group depends on other bytes than the groups below it once the newer bytes are fixed, and the distribution of the sum of 15 (9) table entries in a window of places is computed as one product of numbers with 2^15 (2^9) digits (`FcdcDigits`) |

Not expressible: none of the list. Average chunk size ("distribution") claims of the documentation are
probabilistic. They are stated as counts of strings: how many next bytes cut (C74), the exact frequency of cuts
(C75), the numbers of chunks of each length (C82) and the mean chunk size as a series (C80, Pigz, Gzip, Ram, Mii). For Gear32, FastCdc, Zpaq, BuzHash and Zstd the mean
depends on the table or on 32-bit products and has no closed form; their deterministic core is C49-C52 and C74.

## Trusted base

* Lean 4.33.0 kernel; axioms at most `propext`, `Classical.choice`, `Quot.sound`.
* The reading of the Rust sources (cited at each definition).
* Rust semantics assumed: `Wrapping` arithmetic is arithmetic modulo 2^n; slice indexing / `split_at` panic when out
  of range; `enumerate`, ranges, `min`, `saturating_sub` as documented; 64-bit `usize`.
* Counters of type u64/usize are `Nat` (C58 shows they count bytes, so they cannot overflow before 2^64 bytes).
* `f64::log2(..) as u8` in zpaq.rs is modelled as integer floor-log2 (see the comment in the model).

Not modelled: `fmt::Debug` impls, derived `Clone`, memory allocation, benches, performance, and the
random-data generators of tests (the PCG generator is only in `Check/Cuts.lean`).

## Where the code disagrees with its documentation, its tests or the property list

Each is proved on the model with a concrete witness; the MANIFEST entry is `partial` where the property as listed fails.

* **Gear32 `iter_slices` can hang** (C03): `GearIncr32::push` returns `Some(i)` for the byte index and not `i + 1`, so a
  byte that matches on its own yields empty slices for ever.
* **The seed of `borg_buzhash_table` can have no effect** (C86): with a window of 64, 128, ... bytes all seeds cut at the same
  places once the window is full. Borg avoids this with 4095, but for 4095 the rotation by `k % 8` is wrong (C45).
* **Pigz: another number of bits keeps no cut** (C84): chunk stores written with different `bits` share no cut at all.
* **FastCdc `find_chunk_edge` leaves the buffer** (C12, C64): when a buffer ends exactly `max_size` bytes after a cut, the
  returned edge is one past the data and the documented loop panics. `max_size < normal_size` is accepted and makes the
  incremental cuts depend on the slicing (C36).
* **Zstd `find_chunk_edge` drifts** (C20, C57, C66): the positions it reports depend on the buffering, the repository's
  self-consistency test property is false of it for default parameters.
* **Zstd's discard count after a cut** depends on the length of the buffer (C79): 33 bytes that end with a cut in one
  buffer on their own: discard 1; the same bytes followed by more: discard 33.
* **ZstdIncr consumes `i + 1` bytes and returns `i`** (C30, C69): iterators feed the last byte of each chunk twice.
  They still terminate, because two adjacent windows never both match (C70).
* **Mii** (C32): after a cut `MiiIncr` compares with a zero byte, `find_chunk_edge` does not.
* **RollSum** (C33): `RollSumIncr` does not reset after a cut, `find_chunk_edge` does.
* **Zpaq** (C34, C39): `find_chunk_edge` compares `idx + 1` with the range and `ZpaqIncr` `idx`: off by one, either
  way outside the documented bounds.
* **BuzHash** (C35, C45): `find_chunk_edge` ignores `max_chunk_size`; the hash is a rolling hash only for `k mod 32 < 8`.
* **FastCdc chunk sizes** (C77): with the default 2048..65536 the chunks of `find_chunk_edge` have 2050..65537 bytes, those
  of `FastCdcIncr` 2049..65536, and all these sizes occur.
* **Ram** (C37): the two APIs differ by one byte in the shortest chunk.
* **Gzip, RollSum** (C59): zero modulus/window panic or degenerate.
* **`IterSlicesStrict`** (C06): calling `next` again after `None` feeds the remainder again.
* **The documented loop** (C65): the `remain` it prints is only the part `find_chunk_edge` did not discard.

## Seeded errors

`seeded/LOG.jsonl` has one line per wrong program: the definition edited, the edit, the claim it breaks, the theorems
that stop compiling. An error whose first failure was only the definitional unfolding lemma of the edited function was
tried again with that lemma edited too (`second_stage`), so that the failure is in a proof about behaviour. Errors that
survived led to new or stronger theorems (`theorems_tightened`).

## Axioms per property theorem

Generated from `Lean.collectAxioms`.

<!-- axioms:begin -->

**no axiom** (11): `C06_strict_not_fused`, `C32_refuted`, `C37_tight`, `C38_255`, `C43_edge`, `C49_default`, `C52_default`, `C62_seven`, `C63_fastcdc_new`, `C65_loses`, `C81_ram`

**`propext`** (18): `C06_fused`, `C34_refuted`, `C39_refuted`, `C39_refuted_max`, `C49_debug`, `C50_debug`, `C50_default`, `C52_average`, `C55_incomparable`, `C59_gzip_window_incr`, `C60_checksum`, `C60_gear_upper`, `C81_gzip`, `C81_mii`, `C81_mii_push`, `C81_zpaq`, `C85_not_mii_incr`, `C89_mii_zeros`

**`propext`, `Quot.sound`** (75): `C20_contract_needed`, `C20_refuted`, `C30_repush`, `C31_fastcdc_max`, `C33_later`, `C33_refuted`, `C33_refuted_window`, `C35_refuted_chunk`, `C36_max_lt_normal`, `C43_exact`, `C45_not_rolling`, `C45_table`, `C49_gear`, `C49_release`, `C50_pigz`, `C50_zero_bits`, `C51_default`, `C52_max`, `C52_range`, `C53_fce`, `C54_new`, `C54_new_nom`, `C56_oracle`, `C57_zstd_refuted`, `C58_fastcdc_fce`, `C58_fastcdc_incr`, `C59_buzhash_zero`, `C59_gzip_modulus_incr`, `C59_rollsum_incr`, `C60_distinct`, `C60_single`, `C61_borg`, `C63_rollsum_rs`, `C66_det`, `C69_det`, `C71_zstd_call`, `C73_buzhash`, `C73_fastcdc_needs_order`, `C73_gear`, `C73_gzip`, `C73_mii`, `C73_pigz`, `C73_ram`, `C73_rollsum`, `C73_zpaq`, `C73_zstd`, `C73_zstd_kept`, `C74_gear_default`, `C74_gzip`, `C74_gzip_kept`, `C75_short`, `C76_mii_sharp`, `C78_mii_incr_sharp`, `C79_gear`, `C79_mii`, `C79_pigz`, `C79_ram`, `C79_rollsum`, `C79_zpaq`, `C79_zstd_refuted`, `C81_bup`, `C81_buzhash`, `C81_fastcdc`, `C81_gear`, `C81_gear_push`, `C81_not_bup`, `C81_not_buzhash`, `C81_not_zstd`, `C81_not_zstd_push`, `C81_pigz`, `C84_not_nested`, `C85_not_fastcdc_incr`, `C85_not_rollsum_incr`, `C88_fastcdc`, `C93_push`

**`propext`, `Classical.choice`, `Quot.sound`** (401): `C01_buzhash`, `C01_fastcdc`, `C01_gear`, `C01_gzip`, `C01_mii`, `C01_pigz`, `C01_ram`, `C01_rollsum`, `C01_zpaq`, `C01_zstd`, `C02_buzhash`, `C02_fastcdc`, `C02_gzip`, `C02_mii`, `C02_pigz`, `C02_ram`, `C02_rollsum`, `C02_zpaq`, `C03_ends_iff`, `C03_hangs`, `C03_partial`, `C03_refuted`, `C04_buzhash`, `C04_fastcdc`, `C04_gzip`, `C04_mii`, `C04_pigz`, `C04_ram`, `C04_rollsum`, `C04_zpaq`, `C05_buzhash`, `C05_fastcdc`, `C05_gzip`, `C05_mii`, `C05_pigz`, `C05_ram`, `C05_rollsum`, `C05_zpaq`, `C07_buzhash`, `C07_gear`, `C07_gzip`, `C07_mii`, `C07_pigz`, `C07_ram`, `C07_rollsum`, `C07_zpaq`, `C08_buzhash`, `C08_gear`, `C08_gzip`, `C08_mii`, `C08_pigz`, `C08_ram`, `C08_rollsum`, `C08_zpaq`, `C09_append`, `C09_buzhash_fce`, `C09_buzhash_incr`, `C09_fastcdc_incr`, `C09_gear_fce`, `C09_gzip_fce`, `C09_gzip_incr`, `C09_mii_fce`, `C09_mii_incr`, `C09_pigz_fce`, `C09_pigz_incr`, `C09_ram_fce`, `C09_ram_incr`, `C09_rollsum_fce`, `C09_rollsum_incr`, `C09_zpaq_fce`, `C09_zpaq_incr`, `C10_buzhash_fce`, `C10_buzhash_incr`, `C10_fastcdc_incr`, `C10_gear_fce`, `C10_gzip_fce`, `C10_gzip_incr`, `C10_mii_fce`, `C10_pigz_fce`, `C10_pigz_incr`, `C10_ram_fce`, `C10_ram_incr`, `C10_rollsum_fce`, `C10_zpaq_fce`, `C10_zpaq_incr`, `C11_gear`, `C12_doc_panics`, `C12_out_of_range`, `C12_partial`, `C12_refuted`, `C12_zeros`, `C13_pigz`, `C14_ram`, `C15_gzip`, `C16_mii`, `C17_zpaq`, `C18_rollsum`, `C19_buzhash`, `C19_window`, `C20_first_partial`, `C20_no_panic`, `C20_partial`, `C21_gear`, `C21_gear_after`, `C21_gear_bytewise`, `C22_fastcdc`, `C22_fastcdc_bytewise`, `C23_pigz`, `C24_ram`, `C24_ram_after`, `C24_ram_bytewise`, `C25_gzip`, `C26_mii`, `C27_zpaq`, `C28_rollsum`, `C29_buzhash`, `C29_window`, `C30_after`, `C30_hash_snoc`, `C30_positions`, `C30_zstd`, `C31_buzhash`, `C31_fastcdc`, `C31_gear`, `C31_gzip`, `C31_pigz`, `C31_ram`, `C31_zpaq`, `C32_later`, `C32_partial`, `C33_partial`, `C34_partial`, `C35_incr`, `C35_refuted`, `C35_refuted_doc`, `C36_fce`, `C36_incr`, `C37_fce`, `C37_incr`, `C38_fce`, `C38_incr`, `C38_silent`, `C39_fce`, `C39_incr`, `C40_edge`, `C40_fce`, `C40_fingerprint`, `C40_incr`, `C41_local`, `C42_edge`, `C42_fce`, `C42_incr`, `C43_fce`, `C43_incr`, `C44_closed`, `C44_fce`, `C44_push`, `C44_rolling`, `C45_fce`, `C45_rolling`, `C46_zstd`, `C47_forgets`, `C47_needs`, `C48_buzhash`, `C48_gear`, `C48_gzip`, `C48_pigz`, `C48_rollsum`, `C51_zstd`, `C52_average_doc`, `C53_incr`, `C55_range`, `C57_buzhash`, `C57_fastcdc`, `C57_fastcdc_sizes`, `C57_gear`, `C57_gzip`, `C57_mii`, `C57_pigz`, `C57_ram`, `C57_rollsum`, `C57_zpaq`, `C57_zstd_total`, `C58_buzhash_incr`, `C58_mii_fce`, `C58_mii_incr`, `C58_ram_fce`, `C58_ram_incr`, `C58_zpaq_fce`, `C58_zpaq_incr`, `C59_gzip_modulus_fce`, `C59_gzip_window_fce`, `C59_no_panic`, `C59_rollsum_fce`, `C62_small`, `C63_buzhash_nom`, `C63_fastcdc_default`, `C63_fastcdc_incr`, `C63_gear_default`, `C63_gzip_default`, `C63_gzip_with`, `C63_mii_default`, `C63_pigz_default`, `C63_ram_with`, `C63_rollsum_default`, `C63_zpaq_default`, `C64_fastcdc`, `C65_buzhash`, `C65_gear`, `C65_gzip`, `C65_mii`, `C65_pigz`, `C65_ram`, `C65_rollsum`, `C65_zpaq`, `C66_after_first`, `C66_exact`, `C66_never_recovers`, `C67_floor`, `C67_large`, `C67_margin`, `C67_small`, `C68_buzhash`, `C68_fastcdc`, `C68_gear`, `C68_gzip`, `C68_mii`, `C68_pigz`, `C68_ram`, `C68_rollsum`, `C68_zpaq`, `C69_iter`, `C69_strict`, `C70_adjacent`, `C70_chunks`, `C71_buzhash`, `C71_fastcdc`, `C71_gear`, `C71_gzip`, `C71_mii`, `C71_pigz`, `C71_ram`, `C71_rollsum`, `C71_zpaq`, `C71_zstd`, `C72_buzhash`, `C72_fastcdc`, `C72_fastcdc_incr`, `C72_gear`, `C72_gear_incr`, `C72_gzip`, `C72_mii`, `C72_pigz`, `C72_ram`, `C72_ram_incr`, `C72_rollsum`, `C72_zpaq`, `C72_zstd`, `C73_fastcdc`, `C73_fastcdc_kept`, `C74_buzhash`, `C74_gear`, `C74_mii`, `C74_pigz`, `C74_ram`, `C74_rollsum`, `C74_zpaq`, `C74_zstd`, `C75_pigz`, `C75_pigz_average`, `C75_rollsum`, `C75_rollsum_average`, `C75_rollsum_short`, `C76_buzhash`, `C76_fastcdc`, `C76_gear`, `C76_gzip`, `C76_mii`, `C76_mii_incr`, `C76_pigz`, `C76_ram`, `C76_ram_incr`, `C76_rollsum`, `C76_rollsum_incr`, `C76_zpaq`, `C77_buzhash`, `C77_buzhash_incr`, `C77_fastcdc`, `C77_fastcdc_incr`, `C77_gear`, `C77_gzip`, `C77_mii`, `C77_mii_incr`, `C77_pigz`, `C77_ram`, `C77_ram_incr`, `C77_rollsum`, `C77_rollsum_default`, `C77_rollsum_incr`, `C78_buzhash`, `C78_fastcdc`, `C78_gear`, `C78_gzip`, `C78_mii`, `C78_mii_incr`, `C78_pigz`, `C78_ram`, `C78_rollsum`, `C78_rollsum_incr`, `C78_zpaq`, `C79_buzhash`, `C79_fastcdc`, `C79_gzip`, `C80_gzip`, `C80_mii`, `C80_mii_default`, `C80_mii_later`, `C80_mii_later_default`, `C80_pigz`, `C80_ram`, `C82_gzip`, `C82_mii`, `C82_mii_later`, `C82_mii_seq`, `C82_mii_steps`, `C82_pigz`, `C82_pigz_default`, `C82_ram`, `C83_buzhash`, `C83_fastcdc`, `C83_fastcdc_incr`, `C83_gear`, `C83_gzip`, `C83_gzip_incr`, `C83_mii`, `C83_mii_incr`, `C83_pigz`, `C83_pigz_incr`, `C83_ram`, `C83_ram_incr`, `C83_rollsum`, `C83_rollsum_incr`, `C83_zstd`, `C84_buzhash`, `C84_fastcdc`, `C84_gear`, `C84_gzip`, `C84_mii`, `C84_pigz`, `C84_ram`, `C84_zpaq`, `C84_zstd`, `C85_buzhash`, `C85_fastcdc`, `C85_gear`, `C85_gzip`, `C85_mii`, `C85_not_ram_incr`, `C85_pigz`, `C85_ram`, `C85_rollsum`, `C85_zpaq`, `C86_borg`, `C86_borg_32`, `C86_constant`, `C86_seed`, `C87_fastcdc`, `C87_zpaq`, `C88_buzhash`, `C88_fastcdc_sharp`, `C88_gear`, `C88_gzip`, `C88_mii`, `C88_mii_incr`, `C88_pigz`, `C88_ram`, `C88_rollsum`, `C88_zstd`, `C89_buzhash`, `C89_gear`, `C89_gzip`, `C89_mii`, `C89_pigz`, `C89_ram`, `C89_salt`, `C90_borg`, `C90_buzhash`, `C90_buzhash_window`, `C90_go`, `C90_zeros`, `C91_gear`, `C91_gear_default`, `C92_buzhash`, `C92_buzhash_tail`, `C92_gear`, `C92_gear_tail`, `C92_rollsum`, `C92_rollsum_incr`, `C92_rollsum_tail`, `C93_masks`, `C93_rule`
<!-- axioms:end -->
