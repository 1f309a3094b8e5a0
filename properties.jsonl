{"id": "C01", "title": "iter_slices never loses, duplicates or reorders bytes", "statement": "For every chunker of the crate (Gear32, FastCdc, PigzRsyncable, Ram, GzipRsyncable with non-zero window and modulus, Mii, Zpaq, Zstd, RollSum with non-zero window, BuzHash), started from to_chunk_incr(), and for every input: after any number of next() calls on iter_slices(data), none of which panics, the slices yielded so far followed by the remainder given by into_parts are exactly data, and iter_slices on the two parts continues the iteration; so when the iterator ends the yielded slices concatenate to data.", "quantifier": "all inputs, all parameters, every number of next() calls, all ten algorithms", "why_tests_cant": "the invariant is about every intermediate point of every iteration over inputs of any length; a test samples a few inputs of one size", "anchors": ["src/lib.rs: IterSlices::next, ChunkIncr::iter_slices", "src/*.rs: impl ChunkIncr"]}
{"id": "C02", "title": "iter_slices terminates and yields only non-empty slices", "statement": "For Pigz, Gzip, Mii, RollSum (power-of-two window), BuzHash, Zpaq and Ram with any accepted parameters, and FastCdc with 1 <= min_size: iter_slices(data) returns None after at most len(data) slices, and no yielded slice is empty.", "quantifier": "all inputs and all parameters of the listed algorithms", "why_tests_cant": "non-termination can only be excluded by a proof over all inputs", "anchors": ["src/lib.rs: IterSlices::next", "src/pigz.rs, gzip.rs, mii.rs, bup.rs, buzhash.rs, zpaq.rs, ram.rs, fastcdc.rs: ChunkIncr::push"]}
{"id": "C03", "title": "Gear32 iter_slices terminates", "statement": "iter_slices over a GearIncr32 ends after finitely many slices for every input. (Expected by users; the code violates it: GearIncr32::push reports the index of the matching byte, not the index after it, so an input containing, at the start of a chunk, a byte whose table entry alone matches the mask yields empty slices for ever.)", "quantifier": "all inputs, all average_size_log2", "why_tests_cant": "the failing inputs are rare for random data and the failure is an infinite loop", "anchors": ["src/gear.rs: GearIncr32::push", "src/lib.rs: IterSlices::next", "src/gear_table/gear32.rs: GEAR_32"]}
{"id": "C04", "title": "iter_slices yields exactly the algorithm's chunks followed by the tail", "statement": "For each of Pigz, Gzip, Mii, RollSum (power-of-two window), BuzHash, Zpaq, Ram, FastCdc (1 <= min <= normal <= max, min < max): the slices yielded by iter_slices(data) are the chunks given by the algorithm's declarative cut rule, in order, followed by the non-empty remainder if there is one.", "quantifier": "all inputs and all valid parameters", "why_tests_cant": "equality with a declarative rule for inputs of unbounded length", "anchors": ["src/lib.rs: IterSlices", "src/*.rs: ChunkIncr::push"]}
{"id": "C05", "title": "iter_slices_strict yields only complete chunks and keeps the remainder", "statement": "iter_slices_strict(data) yields exactly the complete chunks of the cut rule, then None; into_parts().1 and take_rem() then give exactly the bytes after the last chunk; take_rem() leaves an empty remainder; yielded chunks followed by that remainder are data.", "quantifier": "all inputs, all chunkers with an in-range cut rule", "why_tests_cant": "needs every input length and every position of the last cut", "anchors": ["src/lib.rs: IterSlicesStrict::next, take_rem, into_parts"]}
{"id": "C06", "title": "behaviour of the iterators after None", "statement": "Once IterSlices::next has returned None it returns None for ever (whatever the chunker does). IterSlicesStrict does not have this property: calling next() again after None re-feeds the remainder and can yield a slice.", "quantifier": "all chunkers, all inputs, all numbers of further calls", "why_tests_cant": "quantifies over all further calls; the strict case needs a specific remainder", "anchors": ["src/lib.rs: IterSlices::next, IterSlicesStrict::next"]}
{"id": "C07", "title": "find_chunk_edge is total and in range even for data that violates the contract", "statement": "For Gear32, Pigz, Ram, Gzip (modulus != 0), Mii, Zpaq, RollSum and BuzHash: find_chunk_edge called in any search state with any data at all (not necessarily an extension of earlier data) does not panic, returns discard_ct <= data.len(), and returns a cut point c with 1 <= c <= data.len() if any. (FastCdc and Zstd violate this, see C12 and C20.)", "quantifier": "all search states, all data slices, all parameters", "why_tests_cant": "quantifies over arbitrary, even inconsistent, state/data pairs", "anchors": ["src/lib.rs: Chunk::find_chunk_edge (documentation note on non-extension data)", "src/*.rs: impl Chunk"]}
{"id": "C08", "title": "the documented find_chunk_edge loop enumerates the chunks", "statement": "The loop in the documentation of Chunk::find_chunk_edge, run on any input with Gear32, Pigz, Ram, Gzip, Mii, Zpaq, RollSum or BuzHash, terminates without panicking and prints exactly the chunks of the algorithm's cut rule in order.", "quantifier": "all inputs, all valid parameters", "why_tests_cant": "termination and exact output for inputs of any length", "anchors": ["src/lib.rs: Chunk::find_chunk_edge doc example", "tests/cuts.rs: cut_test_sz"]}
{"id": "C09", "title": "appending data never changes chunks already emitted", "statement": "For every algorithm's cut rule: if data is split into chunks cs with remainder r, then data followed by any more data is split into cs followed by the chunks of r followed by the new data.", "quantifier": "all data, all continuations, all algorithms", "why_tests_cant": "two unbounded inputs", "anchors": ["src/lib.rs: Chunk, ChunkIncr documentation", "src/*.rs"]}
{"id": "C10", "title": "resynchronisation after a common cut", "statement": "For every algorithm that starts each chunk afresh (all find_chunk_edge implementations but Zstd; all incremental ones but RollSum, Zstd and Mii): if two inputs share a suffix t and both have a cut exactly where t starts, then all later chunks and the remainder are identical.", "quantifier": "all pairs of inputs with a common suffix", "why_tests_cant": "this is the deduplication guarantee, over all edits of a prefix", "anchors": ["src/lib.rs: crate documentation (stability in split locations)", "src/*.rs"]}
{"id": "C11", "title": "Gear32: find_chunk_edge follows its cut rule for every buffering", "statement": "For Gear32: for every way of presenting the input in growing buffers that respects the documented contract (undiscarded bytes are presented again; more may be appended between calls), every call succeeds, discards at most the buffer, and the chunks reported are exactly those of the rule: a chunk ends after the first byte where (sum over j of GEAR[j-th most recent byte of the chunk] * 2^j mod 2^32) & mask == xxx.", "quantifier": "all inputs, all buffer schedules, all valid parameters, any number of chunks", "why_tests_cant": "the property tests in tests/cuts_qc.rs sample random data and buffer sizes; the claim is for all of them and pins the rule itself", "anchors": ["src/gear.rs: impl Chunk", "tests/cuts_qc.rs: splits_fce"]}
{"id": "C12", "title": "FastCdc: find_chunk_edge follows its cut rule for every buffering", "statement": "For FastCdc: for every way of presenting the input in growing buffers that respects the documented contract (undiscarded bytes are presented again; more may be appended between calls), every call succeeds, discards at most the buffer, and the chunks reported are exactly those of the rule: a chunk ends after the first byte at chunk position n > min_size with fp & MASK_S == 0 (n <= normal_size) or fp & MASK_L == 0 (n > normal_size), where fp is the 64-bit gear sum of the chunk's bytes after min_size, or at n = max_size + 1. (The code violates the range part: when a buffer ends exactly max_size bytes after the last cut the reported cut and discard are one past the end of the buffer; holds for all other schedules.)", "quantifier": "all inputs, all buffer schedules, all valid parameters, any number of chunks", "why_tests_cant": "the property tests in tests/cuts_qc.rs sample random data and buffer sizes; the claim is for all of them and pins the rule itself", "anchors": ["src/fastcdc.rs: impl Chunk", "tests/cuts_qc.rs: splits_fce"]}
{"id": "C13", "title": "PigzRsyncable: find_chunk_edge follows its cut rule for every buffering", "statement": "For PigzRsyncable: for every way of presenting the input in growing buffers that respects the documented contract (undiscarded bytes are presented again; more may be appended between calls), every call succeeds, discards at most the buffer, and the chunks reported are exactly those of the rule: a chunk ends after the first byte where ((hit << n) xor (xor over j of byte_j << j)) & mask == hit, n = bytes in the chunk, byte_j the j-th most recent.", "quantifier": "all inputs, all buffer schedules, all valid parameters, any number of chunks", "why_tests_cant": "the property tests in tests/cuts_qc.rs sample random data and buffer sizes; the claim is for all of them and pins the rule itself", "anchors": ["src/pigz.rs: impl Chunk", "tests/cuts_qc.rs: splits_fce"]}
{"id": "C14", "title": "Ram: find_chunk_edge follows its cut rule for every buffering", "statement": "For Ram: for every way of presenting the input in growing buffers that respects the documented contract (undiscarded bytes are presented again; more may be appended between calls), every call succeeds, discards at most the buffer, and the chunks reported are exactly those of the rule: a chunk ends after the first byte at 0-based chunk position > w that is >= the maximum of chunk bytes 0..=w.", "quantifier": "all inputs, all buffer schedules, all valid parameters, any number of chunks", "why_tests_cant": "the property tests in tests/cuts_qc.rs sample random data and buffer sizes; the claim is for all of them and pins the rule itself", "anchors": ["src/ram.rs: impl Chunk", "tests/cuts_qc.rs: splits_fce"]}
{"id": "C15", "title": "GzipRsyncable: find_chunk_edge follows its cut rule for every buffering", "statement": "For GzipRsyncable: for every way of presenting the input in growing buffers that respects the documented contract (undiscarded bytes are presented again; more may be appended between calls), every call succeeds, discards at most the buffer, and the chunks reported are exactly those of the rule: a chunk ends after the first byte where the sum of the last window_len bytes of the chunk (mod 2^64) is divisible by modulus.", "quantifier": "all inputs, all buffer schedules, all valid parameters, any number of chunks", "why_tests_cant": "the property tests in tests/cuts_qc.rs sample random data and buffer sizes; the claim is for all of them and pins the rule itself", "anchors": ["src/gzip.rs: impl Chunk", "tests/cuts_qc.rs: splits_fce"]}
{"id": "C16", "title": "Mii: find_chunk_edge follows its cut rule for every buffering", "statement": "For Mii: for every way of presenting the input in growing buffers that respects the documented contract (undiscarded bytes are presented again; more may be appended between calls), every call succeeds, discards at most the buffer, and the chunks reported are exactly those of the rule: a chunk ends after the first byte where the last w+1 bytes of the chunk are strictly increasing (never if w = 0).", "quantifier": "all inputs, all buffer schedules, all valid parameters, any number of chunks", "why_tests_cant": "the property tests in tests/cuts_qc.rs sample random data and buffer sizes; the claim is for all of them and pins the rule itself", "anchors": ["src/mii.rs: impl Chunk", "tests/cuts_qc.rs: splits_fce"]}
{"id": "C17", "title": "Zpaq: find_chunk_edge follows its cut rule for every buffering", "statement": "For Zpaq: for every way of presenting the input in growing buffers that respects the documented contract (undiscarded bytes are presented again; more may be appended between calls), every call succeeds, discards at most the buffer, and the chunks reported are exactly those of the rule: a chunk of length n ends after the first byte where (hash < max_hash and n+1 is not under the range's minimum) or n+1 exceeds the range's maximum; hash is the order-1-predicted product hash of the chunk.", "quantifier": "all inputs, all buffer schedules, all valid parameters, any number of chunks", "why_tests_cant": "the property tests in tests/cuts_qc.rs sample random data and buffer sizes; the claim is for all of them and pins the rule itself", "anchors": ["src/zpaq.rs: impl Chunk", "tests/cuts_qc.rs: splits_fce"]}
{"id": "C18", "title": "RollSum: find_chunk_edge follows its cut rule for every buffering", "statement": "For RollSum: for every way of presenting the input in growing buffers that respects the documented contract (undiscarded bytes are presented again; more may be appended between calls), every call succeeds, discards at most the buffer, and the chunks reported are exactly those of the rule: a chunk ends after the first byte where (31*W*(W-1) + sum over j<W of (j+1) * (j-th most recent byte of the chunk)) mod 8192 == 8191.", "quantifier": "all inputs, all buffer schedules, all valid parameters, any number of chunks", "why_tests_cant": "the property tests in tests/cuts_qc.rs sample random data and buffer sizes; the claim is for all of them and pins the rule itself", "anchors": ["src/bup.rs: impl Chunk", "tests/cuts_qc.rs: splits_fce"]}
{"id": "C19", "title": "BuzHash: find_chunk_edge follows its cut rule for every buffering", "statement": "For BuzHash: for every way of presenting the input in growing buffers that respects the documented contract (undiscarded bytes are presented again; more may be appended between calls), every call succeeds, discards at most the buffer, and the chunks reported are exactly those of the rule: a chunk ends after the first byte where every mask bit is set in the hash of the chunk; when k mod 32 < 8 that hash is the xor over the last k bytes of rotl(h(byte_j), j).", "quantifier": "all inputs, all buffer schedules, all valid parameters, any number of chunks", "why_tests_cant": "the property tests in tests/cuts_qc.rs sample random data and buffer sizes; the claim is for all of them and pins the rule itself", "anchors": ["src/buzhash.rs: impl Chunk", "tests/cuts_qc.rs: splits_fce"]}
{"id": "C20", "title": "Zstd: find_chunk_edge follows its cut rule for every buffering", "statement": "For Zstd: for every way of presenting the input in growing buffers that respects the documented contract (undiscarded bytes are presented again; more may be appended between calls), every call succeeds, discards at most the buffer, and the chunks reported are exactly those of the rule: a cut occurs after each stream position n > 32 where the polynomial hash of the last 32 bytes has all hit_mask bits set. (The code violates this after a first cut that is not at the end of its buffer: the rest of the buffer is skipped. Holds up to and including the first cut for every schedule, and for all cuts when the buffer grows one byte at a time.)", "quantifier": "all inputs, all buffer schedules, all valid parameters, any number of chunks", "why_tests_cant": "the property tests in tests/cuts_qc.rs sample random data and buffer sizes; the claim is for all of them and pins the rule itself", "anchors": ["src/zstd.rs: impl Chunk", "tests/cuts_qc.rs: splits_fce"]}
{"id": "C21", "title": "GearIncr32: incremental push follows its cut rule for every slicing", "statement": "For GearIncr32: for every way of splitting the input into slices fed to push(), continuing after a cut with the rest of the slice as iter_slices does, no call panics, every returned index is within the slice, and the chunks are exactly those of the rule: the chunk ends just before the first byte at which the gear sum of the chunk including that byte matches; fed one byte at a time (tests/cuts.rs) and cutting after the byte, the chunks are those of find_chunk_edge.", "quantifier": "all inputs, all slicings (including empty slices), all valid parameters", "why_tests_cant": "unbounded inputs and slicings; pins the rule itself", "anchors": ["src/gear.rs: impl ChunkIncr"]}
{"id": "C22", "title": "FastCdcIncr: incremental push follows its cut rule for every slicing", "statement": "For FastCdcIncr: for every way of splitting the input into slices fed to push(), continuing after a cut with the rest of the slice as iter_slices does, no call panics, every returned index is within the slice, and the chunks are exactly those of the rule: for min <= normal <= max, min < max, the chunk ends at the least position n >= min_size with n = max_size, or with the gear sum of bytes min_size..=n matching MASK_S (n < normal_size) or MASK_L (n >= normal_size).", "quantifier": "all inputs, all slicings (including empty slices), all valid parameters", "why_tests_cant": "unbounded inputs and slicings; pins the rule itself", "anchors": ["src/fastcdc.rs: impl ChunkIncr"]}
{"id": "C23", "title": "PigzRsyncableIncr: incremental push follows its cut rule for every slicing", "statement": "For PigzRsyncableIncr: for every way of splitting the input into slices fed to push(), continuing after a cut with the rest of the slice as iter_slices does, no call panics, every returned index is within the slice, and the chunks are exactly those of the rule: same rule as find_chunk_edge.", "quantifier": "all inputs, all slicings (including empty slices), all valid parameters", "why_tests_cant": "unbounded inputs and slicings; pins the rule itself", "anchors": ["src/pigz.rs: impl ChunkIncr"]}
{"id": "C24", "title": "RamIncr: incremental push follows its cut rule for every slicing", "statement": "For RamIncr: for every way of splitting the input into slices fed to push(), continuing after a cut with the rest of the slice as iter_slices does, no call panics, every returned index is within the slice, and the chunks are exactly those of the rule: the chunk ends just before the first byte at position > w that is >= the maximum of bytes 0..=w; fed one byte at a time the chunks are those of find_chunk_edge.", "quantifier": "all inputs, all slicings (including empty slices), all valid parameters", "why_tests_cant": "unbounded inputs and slicings; pins the rule itself", "anchors": ["src/ram.rs: impl ChunkIncr"]}
{"id": "C25", "title": "GzipRsyncableIncr: incremental push follows its cut rule for every slicing", "statement": "For GzipRsyncableIncr: for every way of splitting the input into slices fed to push(), continuing after a cut with the rest of the slice as iter_slices does, no call panics, every returned index is within the slice, and the chunks are exactly those of the rule: same rule as find_chunk_edge (window_len > 0).", "quantifier": "all inputs, all slicings (including empty slices), all valid parameters", "why_tests_cant": "unbounded inputs and slicings; pins the rule itself", "anchors": ["src/gzip.rs: impl ChunkIncr"]}
{"id": "C26", "title": "MiiIncr: incremental push follows its cut rule for every slicing", "statement": "For MiiIncr: for every way of splitting the input into slices fed to push(), continuing after a cut with the rest of the slice as iter_slices does, no call panics, every returned index is within the slice, and the chunks are exactly those of the rule: first chunk: last w+1 bytes strictly increasing; later chunks: as if a zero byte preceded the chunk.", "quantifier": "all inputs, all slicings (including empty slices), all valid parameters", "why_tests_cant": "unbounded inputs and slicings; pins the rule itself", "anchors": ["src/mii.rs: impl ChunkIncr"]}
{"id": "C27", "title": "ZpaqIncr: incremental push follows its cut rule for every slicing", "statement": "For ZpaqIncr: for every way of splitting the input into slices fed to push(), continuing after a cut with the rest of the slice as iter_slices does, no call panics, every returned index is within the slice, and the chunks are exactly those of the rule: (hash < max_hash and n not under the range's minimum) or n exceeds the range's maximum.", "quantifier": "all inputs, all slicings (including empty slices), all valid parameters", "why_tests_cant": "unbounded inputs and slicings; pins the rule itself", "anchors": ["src/zpaq.rs: impl ChunkIncr"]}
{"id": "C28", "title": "RollSumIncr: incremental push follows its cut rule for every slicing", "statement": "For RollSumIncr: for every way of splitting the input into slices fed to push(), continuing after a cut with the rest of the slice as iter_slices does, no call panics, every returned index is within the slice, and the chunks are exactly those of the rule: cut after each stream position where (31*W*(W-1) + sum over j<W of (j+1) * (j-th most recent byte of the whole stream)) mod 8192 == 8191 (power-of-two window W).", "quantifier": "all inputs, all slicings (including empty slices), all valid parameters", "why_tests_cant": "unbounded inputs and slicings; pins the rule itself", "anchors": ["src/bup.rs: impl ChunkIncr"]}
{"id": "C29", "title": "BuzHashIncr: incremental push follows its cut rule for every slicing", "statement": "For BuzHashIncr: for every way of splitting the input into slices fed to push(), continuing after a cut with the rest of the slice as iter_slices does, no call panics, every returned index is within the slice, and the chunks are exactly those of the rule: first byte where every mask bit is set in the hash of the chunk, or where the chunk is max_chunk_size + 1 long.", "quantifier": "all inputs, all slicings (including empty slices), all valid parameters", "why_tests_cant": "unbounded inputs and slicings; pins the rule itself", "anchors": ["src/buzhash.rs: impl ChunkIncr"]}
{"id": "C30", "title": "ZstdIncr: cut rule when fed one byte at a time", "statement": "ZstdIncr fed any input byte by byte reports a cut exactly after every stream position n > 32 where the polynomial hash (prime 0xCF1BBCDCB7A56463, offset 10) of the last 32 bytes has all hit_mask bits set; and any slicing of the input reports the same first cut. (With iter_slices-style re-pushing after a cut the matching byte is hashed twice, so later cuts are not those of the rule.)", "quantifier": "all inputs, all section sizes, all slicings up to the first cut", "why_tests_cant": "pins the rolling hash for unbounded streams", "anchors": ["src/zstd.rs: ZstdIncr::push, ZstdState::append, ZstdState::rotate"]}
{"id": "C31", "title": "incremental and whole-buffer APIs agree", "statement": "The incremental API (one byte at a time, cut after the byte) and find_chunk_edge report the same chunks for every input, for Gear32, Ram, Pigz, Gzip (window > 0), and for BuzHash whenever no chunk exceeds max_chunk_size, Zpaq with an unbounded range, FastCdc when no chunk reaches max_size.", "quantifier": "all inputs and parameters", "why_tests_cant": "tests compare on one pseudo-random input", "anchors": ["tests/cuts.rs: cut_test_sz", "src/*.rs"]}
{"id": "C32", "title": "Mii: incremental and whole-buffer APIs agree", "statement": "Mii and MiiIncr report the same chunks. (Violated from the second chunk on: MiiIncr::push leaves prev = 0, find_chunk_edge resets it to 0xff. They agree on the first chunk for every input.)", "quantifier": "all inputs, all w", "why_tests_cant": "tests compare on one pseudo-random input where the difference does not show", "anchors": ["src/mii.rs: MiiIncr::push, Mii::find_chunk_edge, MiiIncr::reset"]}
{"id": "C33", "title": "RollSum: incremental and whole-buffer APIs agree", "statement": "RollSum and RollSumIncr report the same chunks. (Violated: RollSumIncr does not reset after a cut, and for window lengths that are not powers of two its ring index is wrong. They agree on the first chunk for power-of-two windows, and at every position at least W bytes after the previous cut of both.)", "quantifier": "all inputs, all window lengths", "why_tests_cant": "tests use W = 64 and random data where two cuts never fall within 64 bytes", "anchors": ["src/bup.rs: RollSum::find_chunk_edge, RollSumIncr::push, RollSumIncr::roll_byte"]}
{"id": "C34", "title": "Zpaq: incremental and whole-buffer APIs agree", "statement": "Zpaq and ZpaqIncr report the same chunks. (Violated at the size bounds: find_chunk_edge compares the bounds with chunk length + 1, ZpaqIncr with the chunk length, so find_chunk_edge behaves exactly like ZpaqIncr with both bounds lowered by one.)", "quantifier": "all inputs, all ranges", "why_tests_cant": "needs an input that hits the minimum or maximum size exactly", "anchors": ["src/zpaq.rs: Zpaq::find_chunk_edge, ZpaqIncr::push"]}
{"id": "C35", "title": "BuzHash: the maximum chunk size is enforced", "statement": "No chunk is longer than max_chunk_size + 1. (Holds for BuzHashIncr for every input; violated by find_chunk_edge, which has no maximum.)", "quantifier": "all inputs, all parameters", "why_tests_cant": "needs an input longer than max_chunk_size without a hash match", "anchors": ["src/buzhash.rs: BuzHashIncr::push, BuzHash::find_chunk_edge"]}
{"id": "C36", "title": "FastCdc chunk sizes lie between min_size and max_size", "statement": "With min <= normal <= max, min < max, every complete chunk of FastCdcIncr has min_size <= length <= max_size and every complete chunk of find_chunk_edge has min_size < length <= max_size + 1; so without a forced cut find_chunk_edge also respects max_size. If max_size < normal_size the incremental chunks depend on the slicing.", "quantifier": "all inputs, all tables, all slicings", "why_tests_cant": "bounds must hold for every chunk of every input", "anchors": ["src/fastcdc.rs: FastCdcState::push, FastCdc::new"]}
{"id": "C37", "title": "Ram chunks are longer than w", "statement": "Every complete chunk of RamIncr is at least w+1 bytes long and every complete chunk of Ram::find_chunk_edge at least w+2.", "quantifier": "all inputs, all w", "why_tests_cant": "lower bound over all inputs", "anchors": ["src/ram.rs: RamState::push, Ram::with_w"]}
{"id": "C38", "title": "Mii chunk length and silent parameters", "statement": "Every complete chunk of Mii has at least w+1 bytes (MiiIncr: at least w, and w+1 for the first); with w = 0 or w >= 256 no input is ever cut, by either API.", "quantifier": "all inputs, all w", "why_tests_cant": "universally quantified non-existence of cuts", "anchors": ["src/mii.rs: Mii::with_w, MiiIncr::push"]}
{"id": "C39", "title": "Zpaq chunk sizes respect the range", "statement": "With a range whose start is (included) lo and end (excluded) hi, lo < hi: every complete chunk of ZpaqIncr has lo <= length <= hi and every input with at least hi bytes is cut; for find_chunk_edge the bounds are lo-1 and hi-1.", "quantifier": "all inputs, all ranges", "why_tests_cant": "bounds must hold for every chunk", "anchors": ["src/zpaq.rs: Zpaq::split_here", "src/range.rs: RangeExt"]}
{"id": "C40", "title": "Gear32 decisions depend on at most the last 32 bytes", "statement": "The gear fingerprint after n bytes of a chunk is determined by the last 32 of them; two chunks-so-far ending with the same 32 bytes get the same decision.", "quantifier": "all chunk prefixes", "why_tests_cant": "all pairs of inputs", "anchors": ["src/gear.rs: GearState32::push"]}
{"id": "C41", "title": "FastCdc fingerprint depends on at most the last 64 bytes after min_size", "statement": "Two chunks-so-far of equal length, at least min_size + 64 bytes long, ending with the same 64 bytes get the same decision.", "quantifier": "all chunk prefixes", "why_tests_cant": "all pairs of inputs", "anchors": ["src/fastcdc.rs: FastCdcState::push"]}
{"id": "C42", "title": "Pigz decisions depend on at most the last `bits` bytes", "statement": "Two chunks-so-far of at least `bits` bytes ending with the same `bits` bytes get the same decision.", "quantifier": "all chunk prefixes, all bits in 0..=31", "why_tests_cant": "all pairs of inputs", "anchors": ["src/pigz.rs: PigzRsyncableState::add"]}
{"id": "C43", "title": "Gzip decisions depend on at most the last window_len bytes", "statement": "Two chunks-so-far ending with the same window_len bytes get the same decision; for window_len <= 2^56 the decision is exactly that the arithmetic sum of the window is a multiple of modulus.", "quantifier": "all chunk prefixes, all windows and moduli", "why_tests_cant": "all pairs of inputs", "anchors": ["src/gzip.rs: GzipRsyncableState::add"]}
{"id": "C44", "title": "RollSumIncr::digest is a rolling digest", "statement": "For a power-of-two window W, after any sequence of roll_byte calls the digest is a function of the last W bytes only (zero-padded at the start): digest(x ++ w) = digest(y ++ w) whenever |w| >= W, and s1, s2 have their closed forms.", "quantifier": "all byte histories", "why_tests_cant": "all pairs of histories", "anchors": ["src/bup.rs: RollSumIncr::roll_byte, digest, RollSumState::add"]}
{"id": "C45", "title": "BuzHash hash is a rolling hash exactly when k mod 32 < 8", "statement": "If k mod 32 < 8 the hash depends only on the last k bytes of the chunk. If k mod 32 >= 8 (the removal rotates by k mod 8 instead of k mod 32) bytes older than k keep influencing the hash.", "quantifier": "all k, all hash functions, all histories", "why_tests_cant": "all pairs of histories", "anchors": ["src/buzhash.rs: BuzHashState::add_overflow"]}
{"id": "C46", "title": "ZstdIncr resynchronises after 32 common bytes", "statement": "For two streams x ++ t and y ++ t (each with |x|,|y| arbitrary), fed byte by byte, the cuts inside t after its first 32 bytes are at the same places.", "quantifier": "all pairs of streams with common suffix", "why_tests_cant": "all pairs of inputs", "anchors": ["src/zstd.rs: ZstdIncr::push"]}
{"id": "C47", "title": "Zpaq hash forgets after 32 mispredictions", "statement": "The multiplier for a mispredicted byte is even, so two hash states with the same prediction table and last byte, fed the same bytes of which at least 32 are mispredicted, end with the same hash.", "quantifier": "all pairs of states, all byte sequences", "why_tests_cant": "all pairs of states", "anchors": ["src/zpaq.rs: ZpaqHash::feed"]}
{"id": "C48", "title": "windowed resynchronisation for resetting chunkers", "statement": "For Gear32, Pigz, Gzip, RollSum and BuzHash find_chunk_edge rules with window W: if two inputs x ++ t and y ++ t are being chunked, the first has a cut at offset p of t, and neither has a cut at offsets of t in (p-W, p) (nor do their current chunks start later than W before p), then the second also has a cut at p, and from there on all chunks coincide.", "quantifier": "all pairs of inputs with common suffix", "why_tests_cant": "all pairs of inputs", "anchors": ["src/*.rs: impl Chunk"]}
{"id": "C49", "title": "Gear32::with_average_size_log2 builds the documented mask", "statement": "For 1 <= n <= 31 the mask has exactly its n most significant bits set, in both build profiles; n = 0 and n >= 32 panic with overflow checks; default is n = 13.", "quantifier": "all n, both build profiles", "why_tests_cant": "all n", "anchors": ["src/gear.rs: msb_mask, Gear32::with_average_size_log2, Default"]}
{"id": "C50", "title": "PigzRsyncable::with_bits", "statement": "For bits <= 31: mask = 2^bits - 1 and hit = mask / 2; for bits >= 32 a build with overflow checks panics; with bits = 0 every byte is its own chunk.", "quantifier": "all bits, all inputs", "why_tests_cant": "all bits", "anchors": ["src/pigz.rs: with_bits, Default"]}
{"id": "C51", "title": "Zstd::with_target_section_size", "statement": "Panics exactly when the size is below 2^20 or at least 2^52; otherwise hit_mask = 2^(20 + floor(log2(size / 2^20))) - 1 and prime_power = prime^31 mod 2^64; the default gives 0x7fffff and 0xf5507fe35f91f8cb.", "quantifier": "all u64 sizes", "why_tests_cant": "all sizes", "anchors": ["src/zstd.rs: with_target_section_size, Default"]}
{"id": "C52", "title": "Zpaq constructors", "statement": "with_average_size_pow_2(n) panics exactly when n < 10 or n > 32; otherwise the range is [64*2^(n-10), 8128*2^n) and max_hash = 2^(32-n). with_max_size(m) with overflow checks panics exactly when m < 8192 or m >= 2^45; otherwise range [m/64, m), max_hash = 2^(32 - floor(log2(m/4096))). Documented facts that fail: the default maximum is 520192 (it is 532676608), with_max_size targets an average of max/4 (the threshold is at least 1024 times too likely).", "quantifier": "all u8 / u64 arguments", "why_tests_cant": "all arguments", "anchors": ["src/zpaq.rs: with_average_size_pow_2, with_max_size, with_range, max_hash_from_fragment_ave, Default"]}
{"id": "C53", "title": "BuzHash salt is an input transformation", "statement": "BuzHash with BuzHashTableByteSaltHash(salt, table), by either API, cuts data exactly where BuzHash with the unsalted table cuts the data xor-ed bytewise with salt.", "quantifier": "all inputs, salts, tables, parameters", "why_tests_cant": "all inputs", "anchors": ["src/buzhash.rs: BuzHashTableByteSaltHash::hash, new_nom"]}
{"id": "C54", "title": "BuzHash::new and new_nom", "statement": "BuzHash::new panics exactly when capacity is 0 and otherwise stores its arguments; new_nom(salt) has k=67, mask=0xfff, max 2^24 and satisfies the rolling condition of C45.", "quantifier": "all arguments", "why_tests_cant": "all arguments", "anchors": ["src/buzhash.rs: BuzHash::new, new_nom"]}
{"id": "C55", "title": "RangeExt agrees with interval membership", "statement": "contains(x) holds exactly when x satisfies both bounds; under_min / exceeds_max hold exactly when the lower / upper bound is violated; into_tuple and bound_cloned preserve the bounds.", "quantifier": "all bounds and items", "why_tests_cant": "all values", "anchors": ["src/range.rs: RangeExt, bound_cloned"]}
{"id": "C56", "title": "FastCdcIncr matches the reference FastCDC on one buffer", "statement": "For every input the first push of a default FastCdcIncr returns exactly what the single-buffer reference implementation in tests/fastcdc.rs returns (0 standing for None).", "quantifier": "all inputs of any length", "why_tests_cant": "the test samples 8 MiB random inputs", "anchors": ["tests/fastcdc.rs: fast_cdc_8kb, oracle_1", "src/fastcdc.rs: FastCdcState::push"]}
{"id": "C57", "title": "splits_fce self-consistency", "statement": "For Gear32, Pigz, Ram, Gzip, Mii, Zpaq, RollSum and BuzHash: the split list computed by tests/cuts_qc.rs splits_fce is the same for any two lists of positive buffer sizes, and is the list of chunk lengths of the cut rule. (False for Zstd and, because of the out-of-range cut, FastCdc.)", "quantifier": "all inputs and buffer-size lists", "why_tests_cant": "proptest samples data below 100 kB", "anchors": ["tests/cuts_qc.rs: splits_fce and the *_fce_self_consistent_with_varying_buf_size tests"]}
{"id": "C58", "title": "position counters count bytes since the last cut", "statement": "The u64 counters of FastCdc, Ram, Zpaq and BuzHashIncr always equal the number of bytes consumed since the last cut, and the increment counter of Mii never exceeds 255: so no counter overflows unless 2^64 bytes are fed without a cut.", "quantifier": "all histories", "why_tests_cant": "all histories", "anchors": ["src/fastcdc.rs: FastCdcState::l", "src/ram.rs: RamState::i", "src/zpaq.rs: idx", "src/buzhash.rs: input_idx", "src/mii.rs: increment"]}
{"id": "C59", "title": "parameter panics of Gzip and RollSum", "statement": "GzipRsyncable with modulus 0 panics on the first byte (both APIs); GzipRsyncableIncr with window_len 0 panics on the first byte while find_chunk_edge with window_len 0 cuts after every byte; RollSumIncr with window 0 panics on the first byte while RollSum::find_chunk_edge never cuts. For all other parameters no call panics. BuzHashIncr with k = 0 (which BuzHash::new refuses) would panic in every state.", "quantifier": "all inputs and parameters", "why_tests_cant": "all parameters", "anchors": ["src/gzip.rs: push, add", "src/bup.rs: roll_byte", "src/buzhash.rs: push_byte"]}
{"id": "C60", "title": "constant tables", "statement": "GEAR_32[b] is the upper half of GEAR_64[b] for every byte b; all four tables have 256 pairwise different entries; a single byte alone can trigger a default Gear32 cut (hence C03) exactly for average_size_log2 <= 24. The sum and the position-weighted sum of the entries of each table are those of the source text.", "quantifier": "all 256 entries of each table", "why_tests_cant": "finite, but checked nowhere", "anchors": ["src/gear_table/gear32.rs", "src/gear_table/gear64.rs", "src/buzhash_table.rs"]}
{"id": "C61", "title": "seeded borg table", "statement": "borg_buzhash_table(seed) never panics and entry i of the result is BORG_BUZHASH_BASE[i] ^ seed for every i < 256.", "quantifier": "all 2^32 seeds, all 256 entries", "why_tests_cant": "all seeds", "anchors": ["src/buzhash_table.rs: borg_buzhash_table"]}
{"id": "C62", "title": "RollSum windows that can never cut", "statement": "RollSum with a window of at most 6 bytes never finds an edge, for any input and any buffer schedule; a window of 7 bytes can.", "quantifier": "all inputs, all schedules, all windows <= 6", "why_tests_cant": "universally quantified non-existence over all inputs", "anchors": ["src/bup.rs: RollSum::with_window, find_chunk_edge, at_split"]}
{"id": "C63", "title": "default instances with literal constants", "statement": "The default constructors succeed and the resulting chunkers follow their cut rule with exactly the shipped constants (FastCdc 2048/8192/65536 with GEAR_64, Gear32 mask 0xfff80000, pigz mask 0xfff hit 0x7ff, gzip window 8192 modulus 4096, Mii w=5, Zpaq default range and max_hash, RollSum window 64, BuzHash new_nom); FastCdc::new, GzipRsyncable::with_window_and_modulus and Ram::with_w put each argument into the field of its name.", "quantifier": "all inputs, all call schedules", "why_tests_cant": "The recorded splits pin the behaviour on one input only; swapped constants can agree on it.", "anchors": ["src/fastcdc.rs", "src/gzip.rs", "src/gear.rs", "src/pigz.rs", "src/mii.rs", "src/zpaq.rs", "src/bup.rs", "src/buzhash.rs"]}
{"id": "C64", "title": "the documented loop on FastCdc", "statement": "For every input the loop of the find_chunk_edge documentation on FastCdc (min < max, normal <= max) panics exactly when the piece behind the last cut has exactly max_size bytes and otherwise prints the chunks of the rule and an empty remainder.", "quantifier": "all inputs, all parameters with normal <= max and min < max", "why_tests_cant": "Only inputs whose last piece has exactly max_size bytes panic.", "anchors": ["src/fastcdc.rs:143-214", "src/lib.rs:308-333"]}
{"id": "C65", "title": "the remainder printed by the documented loop", "statement": "The documented loop prints as the remainder only the last W bytes of what lies behind the last cut, W = window length for gzip, RollSum and BuzHash and 0 for Gear32, Pigz, Ram, Mii and Zpaq: the printed pieces do not make up the input.", "quantifier": "all inputs, all parameters", "why_tests_cant": "No test runs the documented loop to its break.", "anchors": ["src/lib.rs:308-333"]}
{"id": "C66", "title": "Zstd find_chunk_edge: exact cuts for every schedule of growing buffers", "statement": "For every stream and every sequence of growing buffers, Zstd::find_chunk_edge called under the documented contract never panics and reports exactly the cuts given by the window hash plus an error term; the error is the difference of the window hashes at the cut and at the end of the buffer it was found in, it is carried along multiplied by powers of the prime, and it never disappears before the next cut unless it is zero.", "quantifier": "all streams, all buffer schedules, all accepted parameters", "why_tests_cant": "The only test with varying buffer sizes uses random data, in which a default Zstd (1 cut per 8 MiB) never finds a cut.", "anchors": ["src/zstd.rs:189-223", "tests/cuts_qc.rs:165-176"]}
{"id": "C67", "title": "floating point logarithm of fragment_ave_from_max", "statement": "For every max in [4096, 2^45) any value between floor(log2(max/4096)) and the real log2(max/4096) + 2^-45 has the same floor, namely the one the model uses; below 4096 the logarithm is negative and the cast gives 0; from 2^45 on both are at least 33 and the callers panic.", "quantifier": "all u64 values", "why_tests_cant": "Tests use one value; the danger is at values just below a power of two.", "anchors": ["src/zpaq.rs:56-59"]}
{"id": "C68", "title": "one chunker over successive buffers", "statement": "Running iter_slices_strict over successive buffers with the chunker handed on by into_parts, completing the first slice of a buffer by the bytes kept from before, yields exactly the chunks of the cut rule on the concatenation, however the stream is divided into buffers (also empty ones and one-byte ones): Pigz, Ram, Gzip, Mii, Zpaq, RollSum (power-of-two window), BuzHash, FastCdc, and Gear32 if no table entry matches by itself.", "quantifier": "all streams, all divisions into buffers, all parameters listed", "why_tests_cant": "No test uses a chunker for more than one buffer; the documentation only warns that the results may be unexpected.", "anchors": ["src/lib.rs:163-169", "src/lib.rs:200-217"]}
{"id": "C69", "title": "iter_slices over ZstdIncr", "statement": "iter_slices and iter_slices_strict over a new ZstdIncr end on every input, after at most len(data) slices, none empty, and lose nothing; the slices end before the byte that matches, and the search goes on with that byte fed a second time.", "quantifier": "all inputs, all accepted section sizes", "why_tests_cant": "A default Zstd cuts once in 8 MiB; the second slice is never reached by tests.", "anchors": ["src/zstd.rs:227-265", "src/lib.rs:208-262"]}
{"id": "C70", "title": "Zstd cuts are never adjacent", "statement": "For every accepted section size, the hashes of two windows one byte apart never both match; every chunk of the incremental rule has at least two bytes, and re-feeding the matching byte never matches again at once.", "quantifier": "all byte values, all windows, all accepted section sizes", "why_tests_cant": "A non-existence statement over 2^264 windows.", "anchors": ["src/zstd.rs:91-110"]}
{"id": "C71", "title": "how much the caller of find_chunk_edge keeps", "statement": "Under every schedule of buffers, the bytes presented to find_chunk_edge and not yet discarded are exactly the last w bytes of the current chunk (all of it while shorter), never anything before the last cut, where w = 0 for Gear32, FastCdc (buffers allowed by C12), Pigz, Zpaq, Ram and Mii and w = the window length for Gzip, RollSum and BuzHash; for Zstd at most 32 bytes, and every call from any state on any data keeps at most 32", "quantifier": "all streams, all schedules, all parameters", "why_tests_cant": "Tests always re-present the whole buffer; whether a caller with bounded memory loses cuts needs all schedules.", "anchors": ["src/lib.rs:289-365", "src/zstd.rs: impl Chunk"]}
{"id": "C72", "title": "streams that repeat one byte", "statement": "The chunks of a run of n equal bytes, for every byte value and every n: Gear32 default cuts after every byte for the 20 values b with b mod 25 in {17,23}, every 20 bytes for 170, otherwise never; Pigz default, RollSum default, Mii (any w) and Zstd (any accepted size) never cut; Ram(w) cuts every w+2 bytes (RamIncr: w+1); Gzip(W,m) cuts every m/gcd(m,b) bytes if that is at most W and otherwise never; BuzHash new_nom cuts every 32 bytes if the table entry has odd parity (three earlier exceptions), otherwise never resp. at the size limit for BuzHashIncr; FastCdc default cuts at 65537 resp. 65536 bytes; Zpaq default cuts zeros every 41343 bytes, bytes 255 every 69281 and bytes 124 every 4272, in both APIs.", "quantifier": "all 256 byte values (Zpaq: the three named), all lengths, all schedules of buffers, both profiles", "why_tests_cant": "Zero runs dominate disk images; the no-cut statements are over runs of unbounded length.", "anchors": ["src/gear.rs", "src/fastcdc.rs", "src/pigz.rs", "src/ram.rs", "src/mii.rs", "src/gzip.rs", "src/bup.rs", "src/buzhash.rs", "src/zstd.rs", "src/zpaq.rs"]}
{"id": "C73", "title": "push does not depend on how the stream is sliced", "statement": "For every ChunkIncr, in every reachable state and for all a, b: if push(a) finds a cut then push(a ++ b) returns the same cut and the same state; if not, push(a ++ b) gives the same state and result as push(b) from the state after push(a), with the offset moved by |a| when it is counted from the slice; panics likewise. Any state for Gear, Pigz, Mii, Zpaq, Gzip, RollSum, BuzHash, Ram; for FastCdc the states with normal <= max and a counter in range (kept by push; false without: C73_fastcdc_needs_order), for Zstd the states with an offset inside the window (kept by push)", "quantifier": "all states, all splits, all data", "why_tests_cant": "Unit tests push one slicing; the law is about every pair of slices and about the complete state left behind.", "anchors": ["src/lib.rs: trait ChunkIncr", "src/*.rs: impl ChunkIncr"]}
{"id": "C74", "title": "how many of the 256 next bytes cut", "statement": "In every state: RollSum at most 1; Pigz(bits) exactly 2^(8-bits) for bits <= 8 and at most 1 above; Ram 256 - max after the window and 0 in it; Mii 255 - prev after w-1 increases and 0 otherwise; Zstd at most 1, and 0 while the window fills (offset inside the window, which push maintains); Gzip(W,m) at most 1 for m >= 256 and exactly 256/m for m dividing 256 (window not empty and at most 2^48, accum the sum of the window, which push maintains); Gear32(n) at most 20 for 11 <= n <= 31, attained by the default after every cut; BuzHash new_nom at most 2 unless forced by the size; Zpaq with an average of 2^14 or more at most 2 unless forced.", "quantifier": "all states, all 256 bytes", "why_tests_cant": "The target averages of the constructors presume about one byte in 2^n; whether a state exists in which many bytes cut needs all states.", "anchors": ["src/gear.rs:99-102", "src/pigz.rs:114-117", "src/bup.rs", "src/gzip.rs", "src/ram.rs", "src/mii.rs", "src/zstd.rs", "src/zpaq.rs:321-331", "src/buzhash.rs:209-219"]}
{"id": "C75", "title": "exact cut frequency of PigzRsyncable and RollSumIncr", "statement": "For with_bits(bits), bits <= 31, from every state and for every k >= 1 with bits <= k + 7: of the 256^k strings of k bytes exactly 256^k / 2^bits make the last byte a cut (one byte at a time, whatever cuts came before). RollSumIncr with window 2^n >= 32, from every reachable state and for every k >= 32: exactly 256^k / 8192 of the strings of k bytes make the last byte a cut. So the average number of cuts over all strings of a length is exact.", "quantifier": "all states, all lengths k, all bits", "why_tests_cant": "An average over 256^k strings cannot be sampled to equality.", "anchors": ["src/pigz.rs:15-19", "src/pigz.rs:114-117", "src/bup.rs: RollSumIncr"]}
{"id": "C76", "title": "recovery after an edit", "statement": "Two streams with a common end t: Pigz (both APIs) cuts t at the same places from bits mod 32 bytes into t on, RollSumIncr from one window on, Mii::find_chunk_edge from 256 bytes on (255 are not enough). Not so for Gear32 (default), Ram, RamIncr (w >= 1), GzipRsyncable (both APIs, 2 <= modulus <= window), BuzHash new_nom (both), FastCdc (default, both), Zpaq (default, both), RollSum::find_chunk_edge (default): one inserted byte can shift all cuts of an arbitrarily long stream; MiiIncr: it can make all cuts appear.", "quantifier": "all pairs of prefixes, all common ends, resp. every number k of cuts", "why_tests_cant": "Whether two chunkings ever meet again is a statement about unbounded streams; random tests find them meeting after a few chunks.", "anchors": ["COMPARE.md:27", "src/pigz.rs:114-117", "src/bup.rs", "src/mii.rs", "src/gear.rs", "src/ram.rs", "src/gzip.rs", "src/buzhash.rs", "src/fastcdc.rs", "src/zpaq.rs"]}
{"id": "C77", "title": "exact sets of chunk sizes", "statement": "For each algorithm the set of lengths its chunks can have is exactly: Ram n >= w+2, RamIncr n >= w+1; Mii 1 <= w <= 255 and n >= w+1, MiiIncr n >= w; Pigz (1 <= bits <= 31, both APIs) n >= max 1 (bits-7); Gzip (both APIs) n = 1, or n >= 2 and (modulus <= 255 n or window < n); RollSum a closed condition on window and n (default: n >= 7), RollSumIncr default n >= 1; Gear32 default n >= 1; BuzHash new_nom n >= 2, incremental 2 <= n <= 2^24+1; FastCdc default 2050 <= n <= 65537, FastCdcIncr 2049 <= n <= 65536.", "quantifier": "all n: every chunk of every stream (every slicing) has such a length, and for every such n some stream has a chunk of n bytes", "why_tests_cant": "The upward direction is about all streams; the downward one needs for every n an input that the algorithm does not cut earlier.", "anchors": ["src/ram.rs", "src/mii.rs", "src/pigz.rs", "src/gzip.rs", "src/bup.rs", "src/gear.rs", "src/buzhash.rs", "src/fastcdc.rs"]}
{"id": "C78", "title": "streams with a period", "statement": "If the bytes of a stream repeat with period p then from some chunk on the chunks repeat too, and there are at most p different chunks (the part before the repetition plus the repeated part has at most p chunks): Gear32, Pigz, Ram, Gzip, Mii, Zpaq, RollSum, BuzHash over find_chunk_edge; Pigz, Ram, Gzip, Zpaq, BuzHash, FastCdc incrementally. For MiiIncr the bound is p+1 (and p is not enough), for RollSumIncr with window 2^n it is 2^n + p.", "quantifier": "all streams, all periods p >= 1", "why_tests_cant": "All periodic streams of any length.", "anchors": ["src/gear.rs", "src/pigz.rs", "src/ram.rs", "src/gzip.rs", "src/mii.rs", "src/zpaq.rs", "src/bup.rs", "src/buzhash.rs", "src/fastcdc.rs"]}
{"id": "C79", "title": "find_chunk_edge does not depend on how the buffer is filled", "statement": "For Gear32, Pigz, Zpaq, Ram, Mii, FastCdc, RollSum, Gzip and BuzHash: one call of find_chunk_edge with a ++ b returns what a call with a and, if it finds no cut, a second call with the undiscarded rest of a followed by b returns (cut and discard counted from the same place, same final state); so any sequence of portions gives the result of the single call, and a call with nothing new changes nothing. False for Zstd.", "quantifier": "all states that fit the buffer, all buffers, all ways to deliver the bytes, all parameters", "why_tests_cant": "All splittings of all buffers.", "anchors": ["src/lib.rs: Chunk::find_chunk_edge", "src/*.rs: find_chunk_edge"]}
{"id": "C80", "title": "mean chunk size", "statement": "For independent uniformly distributed bytes the length of the first chunk is finite with probability 1 and has the mean: Pigz with_bits(bits), bits <= 31: 2^bits (both APIs); Gzip with modulus dividing 256 and window >= 1: modulus (both APIs); Ram (find_chunk_edge) a closed form in w; Mii, 1 <= w <= 255 (find_chunk_edge and first chunk of push) the inverse of a finite alternating sum of binomials, between 887.59 and 887.6 for the default w = 5; later chunks of MiiIncr another closed form, between 881.76 and 881.77 for w = 5. (Answers the TODO of src/mii.rs: 'determine distribution and expected size of chunks'.)", "quantifier": "all parameters in the stated ranges; sums over all strings of all lengths", "why_tests_cant": "A mean over infinitely many strings.", "anchors": ["src/mii.rs:6-9", "src/pigz.rs", "src/gzip.rs", "src/ram.rs"]}
{"id": "C81", "title": "after a cut the chunker is as new", "statement": "find_chunk_edge of Gear32, Pigz, Zpaq, Gzip, RollSum, BuzHash, Ram, FastCdc and Mii: whenever it returns a cut, the state is the initial search state and exactly the bytes before the cut are discarded. push of Gear32, Pigz, Zpaq, Gzip, Ram and FastCdc: whenever it returns a cut, the state is that of a new chunker. Not so for MiiIncr (prev is 0 instead of 0xff), RollSumIncr, BuzHashIncr (old ring buffer), ZstdIncr and Zstd::find_chunk_edge.", "quantifier": "all reachable states, all buffers, all parameters", "why_tests_cant": "All states after all histories.", "anchors": ["src/lib.rs: Chunk, ChunkIncr", "src/*.rs: find_chunk_edge, push, reset"]}
{"id": "C82", "title": "distribution of chunk sizes", "statement": "The exact number of strings of each length that are a (first) chunk: Gzip with modulus dividing 256 and window >= 1 (both APIs) c (256-c)^n of length n+1, c = 256/modulus; Ram none up to w+1 and of w+2+j bytes sum_v ((v+1)^(w+1) - v^(w+1)) v^j (256-v); Mii (find_chunk_edge and first chunk of push) and MiiIncr after a cut by linear recurrences with binomial coefficients, with the conditional frequencies the comment of src/mii.rs:25-28 asks for; Pigz (both APIs) by the renewal equation of the number of strings that lead from a cut to a cut (256^k/2^bits if bits <= k+7, else 0).", "quantifier": "all parameters in the stated ranges, all lengths", "why_tests_cant": "Counts over 256^n strings for every n.", "anchors": ["src/mii.rs:20-29", "src/pigz.rs", "src/gzip.rs", "src/ram.rs"]}
{"id": "C83", "title": "strings that force a cut", "statement": "For each of Gzip (window zeros), Pigz (a zero and bits-1 ones), Mii with 1 <= w <= 255 (0,1,...,w), Ram (255 w+2 times, 0 w+1 times, 255), with all parameters, and for Gear32::default, RollSum::default, BuzHash::new_nom(salt), FastCdc::default and Zstd (any accepted size, fed byte by byte) there is an explicit byte string m such that wherever m stands in a stream, whatever comes before and however it was cut, there is a cut exactly at the end of m (before its last byte for RamIncr and FastCdcIncr, which cut before the matching byte), and the chunks after it do not depend on what came before; except for MiiIncr, RollSumIncr and Zstd they are those of the rest of the stream alone.", "quantifier": "all bytes before, all bytes after, all parameters of Gzip, Pigz, Mii, Ram; documented loop and iter_slices_strict", "why_tests_cant": "A test can try a marker in some contexts; that no earlier content can hide it needs a proof over all prefixes.", "anchors": ["COMPARE.md", "src/gzip.rs", "src/pigz.rs", "src/mii.rs", "src/ram.rs", "src/gear.rs", "src/bup.rs", "src/buzhash.rs", "src/fastcdc.rs", "src/zstd.rs"]}
{"id": "C84", "title": "what a larger size parameter does", "statement": "A larger size parameter (Gear32 log2, Gzip modulus multiplied, Mii w, Ram w, Zpaq average, BuzHash mask and maximum, FastCdcIncr max_size) never makes the first chunk shorter. Gear32, Gzip and BuzHash: every cut of the coarser chunker is a cut of the finer one unless one of them has cut within the last window. Mii: the k-th cut never comes earlier. Zstd (byte by byte): the cuts of the larger section size are a subset. Pigz: two different numbers of bits never cut at the same place. For Gear32, Gzip, Mii and Ram the cuts are not nested in general.", "quantifier": "all inputs, all pairs of parameters in the stated order; documented loop and iter_slices_strict", "why_tests_cant": "Tests with a few parameters show how often cuts coincide on their data; the inclusions and the disjointness for Pigz are statements about all streams.", "anchors": ["COMPARE.md", "src/gear.rs", "src/gzip.rs", "src/mii.rs", "src/ram.rs", "src/zpaq.rs", "src/buzhash.rs", "src/fastcdc.rs", "src/zstd.rs", "src/pigz.rs"]}
{"id": "C85", "title": "chunks put together again", "statement": "find_chunk_edge of Gear32, Pigz, Gzip, Mii, Ram, Zpaq, RollSum, BuzHash and FastCdc, and push of Pigz, Gzip, Zpaq and BuzHash: chunks of any streams, concatenated in any order before any stream t, are found again exactly, followed by the chunks of t; no chunk is a proper prefix of another. RamIncr (every w), MiiIncr::default, RollSumIncr and FastCdcIncr do not have this property.", "quantifier": "all lists of chunks, all streams, all parameters", "why_tests_cant": "The quantifier ranges over all sequences of chunks of all streams.", "anchors": ["COMPARE.md", "src/lib.rs", "src/ram.rs", "src/mii.rs", "src/bup.rs", "src/fastcdc.rs"]}
{"id": "C86", "title": "what the seed of the borg table changes", "statement": "With a table from borg_buzhash_table(seed) the hash differs from that of the base table by a word that depends only on the seed and the number of bytes since the last cut. For windows k with k mod 32 < 8 that are full, it is the constant seed ^ rotl(seed,1) ^ ... ^ rotl(seed,k-1). If k is a multiple of 64 it is 0: all seeds cut at the same places except within k bytes after a cut. If k mod 64 = 32 it is 0 or all ones: of any three seeds two cut at the same places.", "quantifier": "all seeds, all windows of the stated form, all masks, all inputs", "why_tests_cant": "2^32 seeds and all streams; that a seed has no effect cannot be seen from samples.", "anchors": ["src/buzhash_table.rs:77-84", "src/buzhash.rs:67-170"]}
{"id": "C87", "title": "the hand-written equality", "statement": "FastCdc::eq and ZpaqHash::eq return true exactly for equal values: no field and no element of the 256-element arrays is left out.", "quantifier": "all pairs of values", "why_tests_cant": "Tests compare a few values; a forgotten field or array element shows up only for pairs that differ exactly there.", "anchors": ["src/fastcdc.rs:33-40", "src/zpaq.rs:285-291"]}
{"id": "C88", "title": "how many past bytes a decision depends on, exactly", "statement": "What find_chunk_edge (push) will find in new bytes is determined by the last W bytes of the current chunk exactly for W >= M. M is window_len - 1 for Gzip (0 for modulus 1), bits mod 32 - 1 for Pigz, w for Mii with 1 <= w <= 255 and 0 for other w, 31 for Gear32::default, 63 for RollSum::default (push: of the stream), 66 for find_chunk_edge and 2^24 for push of BuzHash::new_nom. For Ram no W is enough. FastCdc at equal lengths: the last 50 bytes, 48 beyond normal_size, and no fewer for the default. Zstd: the 32 bytes of C46 cannot be 31.", "quantifier": "all pairs of call histories, all new bytes, all W; all parameters for Gzip, Pigz, Mii, Ram, Zstd", "why_tests_cant": "Both directions: enough is a statement about all pairs of histories, and not enough needs a pair of histories constructed for every parameter.", "anchors": ["src/gzip.rs", "src/pigz.rs", "src/mii.rs", "src/gear.rs", "src/bup.rs", "src/buzhash.rs", "src/ram.rs", "src/fastcdc.rs", "src/zstd.rs"]}
{"id": "C89", "title": "what of the bytes matters", "statement": "Two streams of the same length have chunks of the same lengths: for Ram if all comparisons of two bytes have the same outcome, for Mii if all comparisons of neighbours have the same outcome (MiiIncr: and the zeros are at the same places, which is needed), for Gzip with windows up to 2^56 if the bytes are congruent modulo the modulus, for Pigz if the low bits of the bytes agree. BuzHash and Gear32: changing the bytes by f and the table accordingly gives the same cuts; in particular the salt of new_nom only xors every byte.", "quantifier": "all pairs of streams so related, all parameters; documented loop and iter_slices_strict (Gear32: documented loop)", "why_tests_cant": "Metamorphic relations between all pairs of streams.", "anchors": ["src/ram.rs", "src/mii.rs", "src/gzip.rs", "src/pigz.rs", "src/buzhash.rs:345-383", "src/gear.rs"]}
{"id": "C90", "title": "frequency of BuzHash's cut condition", "statement": "BuzHash::new_nom, any salt, in any reachable state of BuzHashIncr: of the 256^n strings of n <= 67 bytes, N meet the condition for a cut after push_byte of all n bytes, with |4096 N - 256^n| <= 4095 * 76^n; for n = 67 the frequency is 1/4096 up to a relative error of 10^-31. The same for other windows k >= n and masks of m <= 12 low bits, and with the borg table for every seed (72 instead of 76). A table of zeros never meets it.", "quantifier": "all salts, seeds, windows, masks of at most 12 low bits, reachable states and n <= k", "why_tests_cant": "256^67 strings; needs all Walsh coefficients of all 32 rotations of the tables.", "anchors": ["src/buzhash.rs:111-118", "src/buzhash.rs:240-278", "src/buzhash_table.rs:1-84"]}
{"id": "C91", "title": "frequency of Gear32's cut condition", "statement": "Gear32::with_average_size_log2(m) for m from 1 to 13 (13 is the default), from any state of the hash, so after any bytes: of the 256^n strings of n >= 32 bytes, N meet the condition for a cut after push of all n bytes, with |2^m N - 256^n| <= 256^n / 200000.", "quantifier": "all m from 1 to 13, all states, all n >= 32", "why_tests_cant": "256^32 strings; needs the distribution of the sum of 16 shifted table entries to 2^16 places.", "anchors": ["src/gear.rs:98-105", "src/gear.rs:121-147", "src/gear_table/gear32.rs:2-35"]}
{"id": "C92", "title": "bounds for the mean chunk size of Gear32, BuzHash and RollSum", "statement": "For independent uniformly distributed bytes the length of the first chunk is finite with probability 1 and its mean lies between 4840 and 9850 for Gear32::default (find_chunk_edge), between 3540 and 4500 for BuzHash::new_nom with any salt (both APIs; the maximal size of 2^24 of BuzHashIncr lowers the mean by less than 1), and between 6900 and 9070 for RollSum with any window of at least 32 bytes (find_chunk_edge; push with windows 2^n >= 32 from every reachable state). At most 0.806^k of the strings of 2048 k bytes contain no chunk end of Gear32::default, 0.788^k for RollSum, and 0.787^k of the strings of 1024 k bytes for BuzHash::new_nom.", "quantifier": "all salts, all windows >= 32, all reachable states, all k", "why_tests_cant": "A mean over all infinite streams; the cuts of nearby positions are not independent.", "anchors": ["src/gear.rs:52-71", "src/gear.rs:121-147", "src/buzhash.rs:111-118", "src/buzhash.rs:129-160", "src/bup.rs:44-75", "src/bup.rs:171-187", "src/bup.rs:225-238"]}
{"id": "C93", "title": "how often FastCDC's masks accept the fingerprint", "statement": "With the table GEAR_64, after any bytes (any fingerprint) and n >= 50 further independent uniformly distributed bytes, the fingerprint has no bit of MASK_S with a probability of 2^-15 and no bit of MASK_L with a probability of 2^-11, both up to a relative error of one in three million. So before the normal size the condition for a cut is 16 times rarer than beyond it, in the rule that find_chunk_edge and push implement; push of a single byte between the minimal and the maximal size tests exactly this condition.", "quantifier": "all fingerprints, all n >= 50, all minimal and normal sizes", "why_tests_cant": "A statement about all 256^50 continuations; the table is not a permutation of anything, so the distribution is not obvious.", "anchors": ["src/fastcdc.rs:13-15", "src/fastcdc.rs:143-213", "src/gear_table/gear64.rs:2-259"]}
