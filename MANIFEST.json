{
 "claims": [
  {
   "property": "C01",
   "status": "proved",
   "theorems": [
    "HashRoll.Props.C01_pigz",
    "HashRoll.Props.C01_ram",
    "HashRoll.Props.C01_gzip",
    "HashRoll.Props.C01_mii",
    "HashRoll.Props.C01_zpaq",
    "HashRoll.Props.C01_rollsum",
    "HashRoll.Props.C01_buzhash",
    "HashRoll.Props.C01_gear",
    "HashRoll.Props.C01_fastcdc",
    "HashRoll.Props.C01_zstd"
   ],
   "note": "One theorem per algorithm (ten); IterExact covers every number of next() calls."
  },
  {
   "property": "C02",
   "status": "proved",
   "theorems": [
    "HashRoll.Props.C02_pigz",
    "HashRoll.Props.C02_ram",
    "HashRoll.Props.C02_gzip",
    "HashRoll.Props.C02_mii",
    "HashRoll.Props.C02_zpaq",
    "HashRoll.Props.C02_rollsum",
    "HashRoll.Props.C02_buzhash",
    "HashRoll.Props.C02_fastcdc"
   ],
   "note": "One theorem per algorithm listed."
  },
  {
   "property": "C03",
   "status": "partial",
   "theorems": [
    "HashRoll.Props.C03_hangs",
    "HashRoll.Props.C03_refuted",
    "HashRoll.Props.C03_ends_iff",
    "HashRoll.Props.C03_partial"
   ],
   "note": "False of the code: C03_hangs/C03_refuted give the witness (iterator that never ends). C03_ends_iff says exactly when it ends, C03_partial gives termination when no single byte matches the mask."
  },
  {
   "property": "C04",
   "status": "proved",
   "theorems": [
    "HashRoll.Props.C04_pigz",
    "HashRoll.Props.C04_ram",
    "HashRoll.Props.C04_gzip",
    "HashRoll.Props.C04_mii",
    "HashRoll.Props.C04_zpaq",
    "HashRoll.Props.C04_rollsum",
    "HashRoll.Props.C04_buzhash",
    "HashRoll.Props.C04_fastcdc"
   ],
   "note": "Slices are the chunks of the declarative rule followed by the tail."
  },
  {
   "property": "C05",
   "status": "proved",
   "theorems": [
    "HashRoll.Props.C05_pigz",
    "HashRoll.Props.C05_ram",
    "HashRoll.Props.C05_gzip",
    "HashRoll.Props.C05_mii",
    "HashRoll.Props.C05_zpaq",
    "HashRoll.Props.C05_rollsum",
    "HashRoll.Props.C05_buzhash",
    "HashRoll.Props.C05_fastcdc"
   ],
   "note": "take_rem and into_parts included."
  },
  {
   "property": "C06",
   "status": "proved",
   "theorems": [
    "HashRoll.Props.C06_fused",
    "HashRoll.Props.C06_strict_not_fused"
   ],
   "note": "Fusedness for every ChunkIncr; witness for the strict iterator."
  },
  {
   "property": "C07",
   "status": "proved",
   "theorems": [
    "HashRoll.Props.C07_pigz",
    "HashRoll.Props.C07_ram",
    "HashRoll.Props.C07_gzip",
    "HashRoll.Props.C07_mii",
    "HashRoll.Props.C07_zpaq",
    "HashRoll.Props.C07_rollsum",
    "HashRoll.Props.C07_buzhash",
    "HashRoll.Props.C07_gear"
   ],
   "note": "Total = any state, any data."
  },
  {
   "property": "C08",
   "status": "proved",
   "theorems": [
    "HashRoll.Props.C08_pigz",
    "HashRoll.Props.C08_ram",
    "HashRoll.Props.C08_gzip",
    "HashRoll.Props.C08_mii",
    "HashRoll.Props.C08_zpaq",
    "HashRoll.Props.C08_rollsum",
    "HashRoll.Props.C08_buzhash",
    "HashRoll.Props.C08_gear"
   ],
   "note": "Chunks printed by the doc loop are those of the rule. The `remain` it prints is a separate property (C65)."
  },
  {
   "property": "C09",
   "status": "proved",
   "theorems": [
    "HashRoll.Props.C09_append",
    "HashRoll.Props.C09_pigz_incr",
    "HashRoll.Props.C09_ram_incr",
    "HashRoll.Props.C09_gzip_incr",
    "HashRoll.Props.C09_mii_incr",
    "HashRoll.Props.C09_zpaq_incr",
    "HashRoll.Props.C09_rollsum_incr",
    "HashRoll.Props.C09_buzhash_incr",
    "HashRoll.Props.C09_fastcdc_incr",
    "HashRoll.Props.C09_pigz_fce",
    "HashRoll.Props.C09_ram_fce",
    "HashRoll.Props.C09_gzip_fce",
    "HashRoll.Props.C09_mii_fce",
    "HashRoll.Props.C09_zpaq_fce",
    "HashRoll.Props.C09_rollsum_fce",
    "HashRoll.Props.C09_buzhash_fce",
    "HashRoll.Props.C09_gear_fce"
   ],
   "note": "Generic (C09_append) and at the level of the iterators / doc loop per algorithm."
  },
  {
   "property": "C10",
   "status": "proved",
   "theorems": [
    "HashRoll.Props.C10_pigz_incr",
    "HashRoll.Props.C10_ram_incr",
    "HashRoll.Props.C10_gzip_incr",
    "HashRoll.Props.C10_zpaq_incr",
    "HashRoll.Props.C10_buzhash_incr",
    "HashRoll.Props.C10_fastcdc_incr",
    "HashRoll.Props.C10_pigz_fce",
    "HashRoll.Props.C10_ram_fce",
    "HashRoll.Props.C10_gzip_fce",
    "HashRoll.Props.C10_mii_fce",
    "HashRoll.Props.C10_zpaq_fce",
    "HashRoll.Props.C10_rollsum_fce",
    "HashRoll.Props.C10_buzhash_fce",
    "HashRoll.Props.C10_gear_fce"
   ],
   "note": "Per algorithm, both APIs where it holds."
  },
  {
   "property": "C11",
   "status": "proved",
   "theorems": [
    "HashRoll.Props.C11_gear"
   ],
   "note": ""
  },
  {
   "property": "C12",
   "status": "partial",
   "theorems": [
    "HashRoll.Props.C12_partial",
    "HashRoll.Props.C12_out_of_range",
    "HashRoll.Props.C12_zeros",
    "HashRoll.Props.C12_refuted",
    "HashRoll.Props.C12_doc_panics"
   ],
   "note": "False of the code for a buffer that ends exactly max_size bytes after a cut (C12_out_of_range, C12_refuted, C12_doc_panics). C12_partial proves everything for all schedules avoiding that (and min<=normal<=max). Missing: those schedules, on which the claim is false."
  },
  {
   "property": "C13",
   "status": "proved",
   "theorems": [
    "HashRoll.Props.C13_pigz"
   ],
   "note": ""
  },
  {
   "property": "C14",
   "status": "proved",
   "theorems": [
    "HashRoll.Props.C14_ram"
   ],
   "note": ""
  },
  {
   "property": "C15",
   "status": "proved",
   "theorems": [
    "HashRoll.Props.C15_gzip"
   ],
   "note": ""
  },
  {
   "property": "C16",
   "status": "proved",
   "theorems": [
    "HashRoll.Props.C16_mii"
   ],
   "note": ""
  },
  {
   "property": "C17",
   "status": "proved",
   "theorems": [
    "HashRoll.Props.C17_zpaq"
   ],
   "note": ""
  },
  {
   "property": "C18",
   "status": "proved",
   "theorems": [
    "HashRoll.Props.C18_rollsum"
   ],
   "note": ""
  },
  {
   "property": "C19",
   "status": "proved",
   "theorems": [
    "HashRoll.Props.C19_window",
    "HashRoll.Props.C19_buzhash"
   ],
   "note": ""
  },
  {
   "property": "C20",
   "status": "partial",
   "theorems": [
    "HashRoll.Props.C20_first_partial",
    "HashRoll.Props.C20_partial",
    "HashRoll.Props.C20_refuted",
    "HashRoll.Props.C20_no_panic",
    "HashRoll.Props.C20_contract_needed"
   ],
   "note": "False of the code (C20_refuted). C20_first_partial: first cut for every schedule; C20_partial: all cuts when the buffer grows a byte at a time; C20_no_panic: totality under the contract; C20_contract_needed. C66_exact gives the exact cuts for every schedule."
  },
  {
   "property": "C21",
   "status": "proved",
   "theorems": [
    "HashRoll.Props.C21_gear",
    "HashRoll.Props.C21_gear_bytewise",
    "HashRoll.Props.C21_gear_after"
   ],
   "note": ""
  },
  {
   "property": "C22",
   "status": "proved",
   "theorems": [
    "HashRoll.Props.C22_fastcdc",
    "HashRoll.Props.C22_fastcdc_bytewise"
   ],
   "note": ""
  },
  {
   "property": "C23",
   "status": "proved",
   "theorems": [
    "HashRoll.Props.C23_pigz"
   ],
   "note": ""
  },
  {
   "property": "C24",
   "status": "proved",
   "theorems": [
    "HashRoll.Props.C24_ram",
    "HashRoll.Props.C24_ram_bytewise",
    "HashRoll.Props.C24_ram_after"
   ],
   "note": ""
  },
  {
   "property": "C25",
   "status": "proved",
   "theorems": [
    "HashRoll.Props.C25_gzip"
   ],
   "note": ""
  },
  {
   "property": "C26",
   "status": "proved",
   "theorems": [
    "HashRoll.Props.C26_mii"
   ],
   "note": ""
  },
  {
   "property": "C27",
   "status": "proved",
   "theorems": [
    "HashRoll.Props.C27_zpaq"
   ],
   "note": ""
  },
  {
   "property": "C28",
   "status": "proved",
   "theorems": [
    "HashRoll.Props.C28_rollsum"
   ],
   "note": ""
  },
  {
   "property": "C29",
   "status": "proved",
   "theorems": [
    "HashRoll.Props.C29_window",
    "HashRoll.Props.C29_buzhash"
   ],
   "note": ""
  },
  {
   "property": "C30",
   "status": "proved",
   "theorems": [
    "HashRoll.Props.C30_zstd",
    "HashRoll.Props.C30_after",
    "HashRoll.Props.C30_positions",
    "HashRoll.Props.C30_hash_snoc",
    "HashRoll.Props.C30_repush"
   ],
   "note": "C30_repush documents the re-push anomaly with a witness."
  },
  {
   "property": "C31",
   "status": "proved",
   "theorems": [
    "HashRoll.Props.C31_buzhash",
    "HashRoll.Props.C31_zpaq",
    "HashRoll.Props.C31_fastcdc",
    "HashRoll.Props.C31_fastcdc_max",
    "HashRoll.Props.C31_pigz",
    "HashRoll.Props.C31_ram",
    "HashRoll.Props.C31_gzip",
    "HashRoll.Props.C31_gear"
   ],
   "note": "BuzHash, Zpaq and FastCdc under the stated side conditions; C31_fastcdc_max shows the side condition is needed."
  },
  {
   "property": "C32",
   "status": "partial",
   "theorems": [
    "HashRoll.Props.C32_refuted",
    "HashRoll.Props.C32_partial",
    "HashRoll.Props.C32_later"
   ],
   "note": "False of the code (C32_refuted); first chunk agreement for every input (C32_partial) and exact relation of later chunks (C32_later)."
  },
  {
   "property": "C33",
   "status": "partial",
   "theorems": [
    "HashRoll.Props.C33_refuted",
    "HashRoll.Props.C33_refuted_window",
    "HashRoll.Props.C33_partial",
    "HashRoll.Props.C33_later"
   ],
   "note": "False of the code (C33_refuted, C33_refuted_window); first chunk (C33_partial) and positions at least W after both cuts (C33_later)."
  },
  {
   "property": "C34",
   "status": "partial",
   "theorems": [
    "HashRoll.Props.C34_refuted",
    "HashRoll.Props.C34_partial"
   ],
   "note": "False of the code (C34_refuted); find_chunk_edge behaves as ZpaqIncr with both bounds lowered (C34_partial)."
  },
  {
   "property": "C35",
   "status": "partial",
   "theorems": [
    "HashRoll.Props.C35_incr",
    "HashRoll.Props.C35_refuted",
    "HashRoll.Props.C35_refuted_doc",
    "HashRoll.Props.C35_refuted_chunk"
   ],
   "note": "Proved for BuzHashIncr (C35_incr); false of find_chunk_edge (C35_refuted*)."
  },
  {
   "property": "C36",
   "status": "proved",
   "theorems": [
    "HashRoll.Props.C36_incr",
    "HashRoll.Props.C36_fce",
    "HashRoll.Props.C36_max_lt_normal"
   ],
   "note": "C36_max_lt_normal is the slicing dependence witness."
  },
  {
   "property": "C37",
   "status": "proved",
   "theorems": [
    "HashRoll.Props.C37_incr",
    "HashRoll.Props.C37_fce",
    "HashRoll.Props.C37_tight"
   ],
   "note": ""
  },
  {
   "property": "C38",
   "status": "proved",
   "theorems": [
    "HashRoll.Props.C38_fce",
    "HashRoll.Props.C38_incr",
    "HashRoll.Props.C38_silent",
    "HashRoll.Props.C38_255"
   ],
   "note": ""
  },
  {
   "property": "C39",
   "status": "proved",
   "theorems": [
    "HashRoll.Props.C39_incr",
    "HashRoll.Props.C39_fce",
    "HashRoll.Props.C39_refuted",
    "HashRoll.Props.C39_refuted_max"
   ],
   "note": "C39_refuted and C39_refuted_max show the documented bounds themselves fail for find_chunk_edge resp. ZpaqIncr."
  },
  {
   "property": "C40",
   "status": "proved",
   "theorems": [
    "HashRoll.Props.C40_edge",
    "HashRoll.Props.C40_fingerprint",
    "HashRoll.Props.C40_fce",
    "HashRoll.Props.C40_incr"
   ],
   "note": ""
  },
  {
   "property": "C41",
   "status": "proved",
   "theorems": [
    "HashRoll.Props.C41_local"
   ],
   "note": ""
  },
  {
   "property": "C42",
   "status": "proved",
   "theorems": [
    "HashRoll.Props.C42_edge",
    "HashRoll.Props.C42_fce",
    "HashRoll.Props.C42_incr"
   ],
   "note": ""
  },
  {
   "property": "C43",
   "status": "proved",
   "theorems": [
    "HashRoll.Props.C43_edge",
    "HashRoll.Props.C43_fce",
    "HashRoll.Props.C43_incr",
    "HashRoll.Props.C43_exact"
   ],
   "note": ""
  },
  {
   "property": "C44",
   "status": "proved",
   "theorems": [
    "HashRoll.Props.C44_closed",
    "HashRoll.Props.C44_rolling",
    "HashRoll.Props.C44_push",
    "HashRoll.Props.C44_fce"
   ],
   "note": ""
  },
  {
   "property": "C45",
   "status": "proved",
   "theorems": [
    "HashRoll.Props.C45_rolling",
    "HashRoll.Props.C45_fce",
    "HashRoll.Props.C45_not_rolling",
    "HashRoll.Props.C45_table"
   ],
   "note": "C45_not_rolling: every k with k mod 32 >= 8, for hash functions distinguished by the table (C45_table for the shipped table)."
  },
  {
   "property": "C46",
   "status": "proved",
   "theorems": [
    "HashRoll.Props.C46_zstd"
   ],
   "note": ""
  },
  {
   "property": "C47",
   "status": "proved",
   "theorems": [
    "HashRoll.Props.C47_forgets",
    "HashRoll.Props.C47_needs"
   ],
   "note": ""
  },
  {
   "property": "C48",
   "status": "proved",
   "theorems": [
    "HashRoll.Props.C48_gear",
    "HashRoll.Props.C48_pigz",
    "HashRoll.Props.C48_gzip",
    "HashRoll.Props.C48_rollsum",
    "HashRoll.Props.C48_buzhash"
   ],
   "note": ""
  },
  {
   "property": "C49",
   "status": "proved",
   "theorems": [
    "HashRoll.Props.C49_gear",
    "HashRoll.Props.C49_debug",
    "HashRoll.Props.C49_release",
    "HashRoll.Props.C49_default"
   ],
   "note": ""
  },
  {
   "property": "C50",
   "status": "proved",
   "theorems": [
    "HashRoll.Props.C50_pigz",
    "HashRoll.Props.C50_debug",
    "HashRoll.Props.C50_default",
    "HashRoll.Props.C50_zero_bits"
   ],
   "note": ""
  },
  {
   "property": "C51",
   "status": "proved",
   "theorems": [
    "HashRoll.Props.C51_zstd",
    "HashRoll.Props.C51_default"
   ],
   "note": ""
  },
  {
   "property": "C52",
   "status": "proved",
   "theorems": [
    "HashRoll.Props.C52_average",
    "HashRoll.Props.C52_default",
    "HashRoll.Props.C52_max",
    "HashRoll.Props.C52_average_doc",
    "HashRoll.Props.C52_range"
   ],
   "note": "Includes the documented facts that fail."
  },
  {
   "property": "C53",
   "status": "proved",
   "theorems": [
    "HashRoll.Props.C53_fce",
    "HashRoll.Props.C53_incr"
   ],
   "note": ""
  },
  {
   "property": "C54",
   "status": "proved",
   "theorems": [
    "HashRoll.Props.C54_new",
    "HashRoll.Props.C54_new_nom"
   ],
   "note": ""
  },
  {
   "property": "C55",
   "status": "proved",
   "theorems": [
    "HashRoll.Props.C55_range",
    "HashRoll.Props.C55_incomparable"
   ],
   "note": ""
  },
  {
   "property": "C56",
   "status": "proved",
   "theorems": [
    "HashRoll.Props.C56_oracle"
   ],
   "note": ""
  },
  {
   "property": "C57",
   "status": "proved",
   "theorems": [
    "HashRoll.Props.C57_pigz",
    "HashRoll.Props.C57_ram",
    "HashRoll.Props.C57_gzip",
    "HashRoll.Props.C57_mii",
    "HashRoll.Props.C57_zpaq",
    "HashRoll.Props.C57_rollsum",
    "HashRoll.Props.C57_buzhash",
    "HashRoll.Props.C57_gear",
    "HashRoll.Props.C57_fastcdc",
    "HashRoll.Props.C57_fastcdc_sizes",
    "HashRoll.Props.C57_zstd_refuted",
    "HashRoll.Props.C57_zstd_total"
   ],
   "note": "Eight algorithms listed; C57_fastcdc and C57_fastcdc_sizes add FastCdc (exact result, including the panic). For Zstd the claim is false: C57_zstd_refuted (default parameters); C57_zstd_total is what holds."
  },
  {
   "property": "C58",
   "status": "proved",
   "theorems": [
    "HashRoll.Props.C58_fastcdc_fce",
    "HashRoll.Props.C58_fastcdc_incr",
    "HashRoll.Props.C58_ram_fce",
    "HashRoll.Props.C58_ram_incr",
    "HashRoll.Props.C58_zpaq_fce",
    "HashRoll.Props.C58_zpaq_incr",
    "HashRoll.Props.C58_buzhash_incr",
    "HashRoll.Props.C58_mii_fce",
    "HashRoll.Props.C58_mii_incr"
   ],
   "note": "FastCdc without any condition on the parameters."
  },
  {
   "property": "C59",
   "status": "proved",
   "theorems": [
    "HashRoll.Props.C59_gzip_modulus_fce",
    "HashRoll.Props.C59_gzip_modulus_incr",
    "HashRoll.Props.C59_gzip_window_incr",
    "HashRoll.Props.C59_gzip_window_fce",
    "HashRoll.Props.C59_rollsum_incr",
    "HashRoll.Props.C59_rollsum_fce",
    "HashRoll.Props.C59_no_panic",
    "HashRoll.Props.C59_buzhash_zero"
   ],
   "note": ""
  },
  {
   "property": "C60",
   "status": "proved",
   "theorems": [
    "HashRoll.Props.C60_gear_upper",
    "HashRoll.Props.C60_distinct",
    "HashRoll.Props.C60_checksum",
    "HashRoll.Props.C60_single"
   ],
   "note": ""
  },
  {
   "property": "C61",
   "status": "proved",
   "theorems": [
    "HashRoll.Props.C61_borg"
   ],
   "note": ""
  },
  {
   "property": "C62",
   "status": "proved",
   "theorems": [
    "HashRoll.Props.C62_small",
    "HashRoll.Props.C62_seven"
   ],
   "note": ""
  },
  {
   "property": "C63",
   "status": "proved",
   "theorems": [
    "HashRoll.Props.C63_fastcdc_new",
    "HashRoll.Props.C63_fastcdc_incr",
    "HashRoll.Props.C63_fastcdc_default",
    "HashRoll.Props.C63_gear_default",
    "HashRoll.Props.C63_pigz_default",
    "HashRoll.Props.C63_gzip_default",
    "HashRoll.Props.C63_gzip_with",
    "HashRoll.Props.C63_mii_default",
    "HashRoll.Props.C63_ram_with",
    "HashRoll.Props.C63_zpaq_default",
    "HashRoll.Props.C63_rollsum_default",
    "HashRoll.Props.C63_buzhash_nom",
    "HashRoll.Props.C63_rollsum_rs"
   ],
   "note": ""
  },
  {
   "property": "C64",
   "status": "proved",
   "theorems": [
    "HashRoll.Props.C64_fastcdc"
   ],
   "note": ""
  },
  {
   "property": "C65",
   "status": "proved",
   "theorems": [
    "HashRoll.Props.C65_gear",
    "HashRoll.Props.C65_pigz",
    "HashRoll.Props.C65_ram",
    "HashRoll.Props.C65_mii",
    "HashRoll.Props.C65_zpaq",
    "HashRoll.Props.C65_gzip",
    "HashRoll.Props.C65_rollsum",
    "HashRoll.Props.C65_buzhash",
    "HashRoll.Props.C65_loses"
   ],
   "note": ""
  },
  {
   "property": "C66",
   "status": "proved",
   "theorems": [
    "HashRoll.Props.C66_exact",
    "HashRoll.Props.C66_det",
    "HashRoll.Props.C66_never_recovers",
    "HashRoll.Props.C66_after_first"
   ],
   "note": "C66_exact for every schedule; C66_det: the relation determines the cuts; C66_never_recovers, C66_after_first describe the error."
  },
  {
   "property": "C67",
   "status": "proved",
   "theorems": [
    "HashRoll.Props.C67_margin",
    "HashRoll.Props.C67_floor",
    "HashRoll.Props.C67_small",
    "HashRoll.Props.C67_large"
   ],
   "note": "Ties the integer floor-log2 of the model to the real logarithm with the margin an f64 log2 needs; that f64::log2 is at least the floor and off by less than 2^-45 is assumed (trusted base)."
  },
  {
   "property": "C68",
   "status": "proved",
   "theorems": [
    "HashRoll.Props.C68_pigz",
    "HashRoll.Props.C68_ram",
    "HashRoll.Props.C68_gzip",
    "HashRoll.Props.C68_mii",
    "HashRoll.Props.C68_zpaq",
    "HashRoll.Props.C68_rollsum",
    "HashRoll.Props.C68_buzhash",
    "HashRoll.Props.C68_fastcdc",
    "HashRoll.Props.C68_gear"
   ],
   "note": ""
  },
  {
   "property": "C69",
   "status": "proved",
   "theorems": [
    "HashRoll.Props.C69_det",
    "HashRoll.Props.C69_strict",
    "HashRoll.Props.C69_iter"
   ],
   "note": ""
  },
  {
   "property": "C70",
   "status": "proved",
   "theorems": [
    "HashRoll.Props.C70_adjacent",
    "HashRoll.Props.C70_chunks"
   ],
   "note": ""
  },
  {
   "property": "C71",
   "status": "proved",
   "theorems": [
    "HashRoll.Props.C71_gear",
    "HashRoll.Props.C71_pigz",
    "HashRoll.Props.C71_zpaq",
    "HashRoll.Props.C71_ram",
    "HashRoll.Props.C71_mii",
    "HashRoll.Props.C71_fastcdc",
    "HashRoll.Props.C71_gzip",
    "HashRoll.Props.C71_rollsum",
    "HashRoll.Props.C71_buzhash",
    "HashRoll.Props.C71_zstd_call",
    "HashRoll.Props.C71_zstd"
   ],
   "note": ""
  },
  {
   "property": "C72",
   "status": "proved",
   "theorems": [
    "HashRoll.Props.C72_gear",
    "HashRoll.Props.C72_gear_incr",
    "HashRoll.Props.C72_pigz",
    "HashRoll.Props.C72_ram",
    "HashRoll.Props.C72_ram_incr",
    "HashRoll.Props.C72_mii",
    "HashRoll.Props.C72_gzip",
    "HashRoll.Props.C72_rollsum",
    "HashRoll.Props.C72_buzhash",
    "HashRoll.Props.C72_fastcdc",
    "HashRoll.Props.C72_fastcdc_incr",
    "HashRoll.Props.C72_zstd",
    "HashRoll.Props.C72_zpaq"
   ],
   "note": ""
  },
  {
   "property": "C73",
   "status": "proved",
   "theorems": [
    "HashRoll.Props.C73_gear",
    "HashRoll.Props.C73_pigz",
    "HashRoll.Props.C73_mii",
    "HashRoll.Props.C73_zpaq",
    "HashRoll.Props.C73_gzip",
    "HashRoll.Props.C73_rollsum",
    "HashRoll.Props.C73_buzhash",
    "HashRoll.Props.C73_ram",
    "HashRoll.Props.C73_fastcdc_kept",
    "HashRoll.Props.C73_fastcdc",
    "HashRoll.Props.C73_fastcdc_needs_order",
    "HashRoll.Props.C73_zstd_kept",
    "HashRoll.Props.C73_zstd"
   ],
   "note": "FastCdc and Zstd for the states every constructor gives and push keeps (C73_fastcdc_kept, C73_zstd_kept); C73_fastcdc_needs_order is a counterexample without the order of the sizes."
  },
  {
   "property": "C74",
   "status": "proved",
   "theorems": [
    "HashRoll.Props.C74_gear",
    "HashRoll.Props.C74_gear_default",
    "HashRoll.Props.C74_buzhash",
    "HashRoll.Props.C74_zpaq",
    "HashRoll.Props.C74_rollsum",
    "HashRoll.Props.C74_pigz",
    "HashRoll.Props.C74_ram",
    "HashRoll.Props.C74_mii",
    "HashRoll.Props.C74_zstd",
    "HashRoll.Props.C74_gzip_kept",
    "HashRoll.Props.C74_gzip"
   ],
   "note": "FastCdc is not covered (its two masks are spread over 64 bits)."
  },
  {
   "property": "C75",
   "status": "proved",
   "theorems": [
    "HashRoll.Props.C75_rollsum",
    "HashRoll.Props.C75_rollsum_average",
    "HashRoll.Props.C75_pigz_average",
    "HashRoll.Props.C75_rollsum_short",
    "HashRoll.Props.C75_pigz",
    "HashRoll.Props.C75_short"
   ],
   "note": "C75_short: the condition on the length is needed."
  },
  {
   "property": "C76",
   "status": "proved",
   "theorems": [
    "HashRoll.Props.C76_gear",
    "HashRoll.Props.C76_ram",
    "HashRoll.Props.C76_ram_incr",
    "HashRoll.Props.C76_gzip",
    "HashRoll.Props.C76_buzhash",
    "HashRoll.Props.C76_fastcdc",
    "HashRoll.Props.C76_zpaq",
    "HashRoll.Props.C76_rollsum",
    "HashRoll.Props.C76_mii_incr",
    "HashRoll.Props.C76_pigz",
    "HashRoll.Props.C76_rollsum_incr",
    "HashRoll.Props.C76_mii",
    "HashRoll.Props.C76_mii_sharp"
   ],
   "note": "Positive theorems C76_pigz, C76_rollsum_incr, C76_mii; the other theorems are the negations with their witnesses. ZstdIncr is C46."
  },
  {
   "property": "C77",
   "status": "proved",
   "theorems": [
    "HashRoll.Props.C77_ram",
    "HashRoll.Props.C77_ram_incr",
    "HashRoll.Props.C77_mii",
    "HashRoll.Props.C77_mii_incr",
    "HashRoll.Props.C77_pigz",
    "HashRoll.Props.C77_gzip",
    "HashRoll.Props.C77_rollsum",
    "HashRoll.Props.C77_rollsum_default",
    "HashRoll.Props.C77_gear",
    "HashRoll.Props.C77_buzhash",
    "HashRoll.Props.C77_buzhash_incr",
    "HashRoll.Props.C77_fastcdc",
    "HashRoll.Props.C77_fastcdc_incr",
    "HashRoll.Props.C77_rollsum_incr"
   ],
   "note": "DocSize: chunks of the documented loop over find_chunk_edge; StrictSize: chunks of push under every slicing. FastCdc::find_chunk_edge sizes are one above the documented bounds at both ends (C35). Zstd and Zpaq not covered."
  },
  {
   "property": "C78",
   "status": "proved",
   "theorems": [
    "HashRoll.Props.C78_gear",
    "HashRoll.Props.C78_pigz",
    "HashRoll.Props.C78_ram",
    "HashRoll.Props.C78_gzip",
    "HashRoll.Props.C78_mii",
    "HashRoll.Props.C78_mii_incr",
    "HashRoll.Props.C78_mii_incr_sharp",
    "HashRoll.Props.C78_zpaq",
    "HashRoll.Props.C78_rollsum",
    "HashRoll.Props.C78_rollsum_incr",
    "HashRoll.Props.C78_buzhash",
    "HashRoll.Props.C78_fastcdc"
   ],
   "note": "DocPeriodic / StrictPeriodic: eventual periodicity of the chunk list and number of different chunks. The documented loop over FastCdc (which can panic, C64) and Zstd are not covered."
  },
  {
   "property": "C79",
   "status": "proved",
   "theorems": [
    "HashRoll.Props.C79_gear",
    "HashRoll.Props.C79_pigz",
    "HashRoll.Props.C79_zpaq",
    "HashRoll.Props.C79_ram",
    "HashRoll.Props.C79_mii",
    "HashRoll.Props.C79_fastcdc",
    "HashRoll.Props.C79_rollsum",
    "HashRoll.Props.C79_gzip",
    "HashRoll.Props.C79_buzhash",
    "HashRoll.Props.C79_zstd_refuted"
   ],
   "note": "FceSplit is the one-step law, BufferFree the version for any list of portions. FastCdc for normal_size <= max_size; C79_zstd_refuted is the witness for Zstd."
  },
  {
   "property": "C80",
   "status": "proved",
   "theorems": [
    "HashRoll.Props.C80_mii",
    "HashRoll.Props.C80_mii_later",
    "HashRoll.Props.C80_mii_default",
    "HashRoll.Props.C80_mii_later_default",
    "HashRoll.Props.C80_pigz",
    "HashRoll.Props.C80_gzip",
    "HashRoll.Props.C80_ram"
   ],
   "note": "MeanChunk/MeanPush: the shares of strings of length n that are a chunk sum to 1 and their first moment is the mean. With C81 the means hold for every chunk of Pigz, Gzip, Ram, Mii find_chunk_edge. RamIncr is left out: the byte it cuts at stays with the next chunk, so its chunks are not independent."
  },
  {
   "property": "C81",
   "status": "proved",
   "theorems": [
    "HashRoll.Props.C81_gear",
    "HashRoll.Props.C81_gear_push",
    "HashRoll.Props.C81_pigz",
    "HashRoll.Props.C81_zpaq",
    "HashRoll.Props.C81_gzip",
    "HashRoll.Props.C81_bup",
    "HashRoll.Props.C81_buzhash",
    "HashRoll.Props.C81_ram",
    "HashRoll.Props.C81_fastcdc",
    "HashRoll.Props.C81_mii",
    "HashRoll.Props.C81_mii_push",
    "HashRoll.Props.C81_not_bup",
    "HashRoll.Props.C81_not_buzhash",
    "HashRoll.Props.C81_not_zstd_push",
    "HashRoll.Props.C81_not_zstd"
   ],
   "note": "Renews / RenewsPush for the algorithms listed; the C81_not_* theorems are the negations with witnesses."
  },
  {
   "property": "C82",
   "status": "proved",
   "theorems": [
    "HashRoll.Props.C82_gzip",
    "HashRoll.Props.C82_ram",
    "HashRoll.Props.C82_mii",
    "HashRoll.Props.C82_mii_seq",
    "HashRoll.Props.C82_mii_later",
    "HashRoll.Props.C82_mii_steps",
    "HashRoll.Props.C82_pigz",
    "HashRoll.Props.C82_pigz_default"
   ],
   "note": "cutAt n / pushCutAt n count the strings of length n that are a chunk. C82_mii_seq: the recurrence has exactly one solution."
  },
  {
   "property": "C83",
   "status": "proved",
   "theorems": [
    "HashRoll.Props.C83_gzip",
    "HashRoll.Props.C83_gzip_incr",
    "HashRoll.Props.C83_pigz",
    "HashRoll.Props.C83_pigz_incr",
    "HashRoll.Props.C83_mii",
    "HashRoll.Props.C83_mii_incr",
    "HashRoll.Props.C83_ram",
    "HashRoll.Props.C83_ram_incr",
    "HashRoll.Props.C83_gear",
    "HashRoll.Props.C83_rollsum",
    "HashRoll.Props.C83_rollsum_incr",
    "HashRoll.Props.C83_buzhash",
    "HashRoll.Props.C83_zstd",
    "HashRoll.Props.C83_fastcdc",
    "HashRoll.Props.C83_fastcdc_incr"
   ],
   "note": "Gear32, RollSum, BuzHash, FastCdc: default instances (new_nom with any salt). Zpaq has no entry: with its minimum of 4096 bytes and its predictions no string of this kind was looked for. Zstd: flags of one-byte pushes (zstdFeed)."
  },
  {
   "property": "C84",
   "status": "proved",
   "theorems": [
    "HashRoll.Props.C84_gear",
    "HashRoll.Props.C84_gzip",
    "HashRoll.Props.C84_mii",
    "HashRoll.Props.C84_ram",
    "HashRoll.Props.C84_zpaq",
    "HashRoll.Props.C84_buzhash",
    "HashRoll.Props.C84_fastcdc",
    "HashRoll.Props.C84_zstd",
    "HashRoll.Props.C84_pigz",
    "HashRoll.Props.C84_not_nested"
   ],
   "note": "Gear32: average_size_log2 1..31, find_chunk_edge. FastCdc: only max_size (the two masks are not nested, so changing normal_size is not monotone). C84_not_nested has the counterexamples to full nesting."
  },
  {
   "property": "C85",
   "status": "proved",
   "theorems": [
    "HashRoll.Props.C85_gear",
    "HashRoll.Props.C85_pigz",
    "HashRoll.Props.C85_gzip",
    "HashRoll.Props.C85_mii",
    "HashRoll.Props.C85_ram",
    "HashRoll.Props.C85_zpaq",
    "HashRoll.Props.C85_rollsum",
    "HashRoll.Props.C85_buzhash",
    "HashRoll.Props.C85_fastcdc",
    "HashRoll.Props.C85_not_ram_incr",
    "HashRoll.Props.C85_not_mii_incr",
    "HashRoll.Props.C85_not_rollsum_incr",
    "HashRoll.Props.C85_not_fastcdc_incr"
   ],
   "note": "GearIncr and Zstd are not in the list: iter_slices_strict over GearIncr need not end (C03), Zstd keeps its window across cuts."
  },
  {
   "property": "C86",
   "status": "proved",
   "theorems": [
    "HashRoll.Props.C86_seed",
    "HashRoll.Props.C86_constant",
    "HashRoll.Props.C86_borg",
    "HashRoll.Props.C86_borg_32"
   ],
   "note": "For k mod 32 >= 8, for example borg's window of 4095 bytes, the hash does not roll (C45); C86_seed still holds."
  },
  {
   "property": "C87",
   "status": "proved",
   "theorems": [
    "HashRoll.Props.C87_fastcdc",
    "HashRoll.Props.C87_zpaq"
   ],
   "note": "sliceEq models == on slices of core."
  },
  {
   "property": "C88",
   "status": "proved",
   "theorems": [
    "HashRoll.Props.C88_gzip",
    "HashRoll.Props.C88_pigz",
    "HashRoll.Props.C88_mii",
    "HashRoll.Props.C88_mii_incr",
    "HashRoll.Props.C88_ram",
    "HashRoll.Props.C88_gear",
    "HashRoll.Props.C88_rollsum",
    "HashRoll.Props.C88_buzhash",
    "HashRoll.Props.C88_zstd",
    "HashRoll.Props.C88_fastcdc",
    "HashRoll.Props.C88_fastcdc_sharp"
   ],
   "note": "C88_fastcdc is about the edge predicates at equal lengths (the sizes count bytes, so the length matters as well); C88_fastcdc_sharp is about the code. Zpaq is left out: its prediction table remembers the whole chunk."
  },
  {
   "property": "C89",
   "status": "proved",
   "theorems": [
    "HashRoll.Props.C89_ram",
    "HashRoll.Props.C89_mii",
    "HashRoll.Props.C89_mii_zeros",
    "HashRoll.Props.C89_gzip",
    "HashRoll.Props.C89_pigz",
    "HashRoll.Props.C89_buzhash",
    "HashRoll.Props.C89_salt",
    "HashRoll.Props.C89_gear"
   ],
   "note": "For windows above 2^56 bytes the u64 sum of Gzip can wrap; excluded."
  },
  {
   "property": "C90",
   "status": "proved",
   "theorems": [
    "HashRoll.Props.C90_go",
    "HashRoll.Props.C90_buzhash",
    "HashRoll.Props.C90_buzhash_window",
    "HashRoll.Props.C90_borg",
    "HashRoll.Props.C90_zeros"
   ],
   "note": "Counts strings after which the hash meets the mask; the reset after earlier cuts inside the string is not taken into account."
  },
  {
   "property": "C91",
   "status": "proved",
   "theorems": [
    "HashRoll.Props.C91_gear",
    "HashRoll.Props.C91_gear_default"
   ],
   "note": "Counts strings after which the hash meets the mask; the reset after earlier cuts inside the string is not taken into account. Averages above 2^13 are not covered: the computed distribution has 2^16 places."
  },
  {
   "property": "C92",
   "status": "proved",
   "theorems": [
    "HashRoll.Props.C92_rollsum",
    "HashRoll.Props.C92_rollsum_incr",
    "HashRoll.Props.C92_rollsum_tail",
    "HashRoll.Props.C92_buzhash",
    "HashRoll.Props.C92_buzhash_tail",
    "HashRoll.Props.C92_gear",
    "HashRoll.Props.C92_gear_tail"
   ],
   "note": "Intervals, not exact means: neighbouring cut conditions are correlated. Gear32 only for the default average of 2^13 and find_chunk_edge; BuzHashIncr only from the initial state (a later chunk starts from a state with history); RollSumIncr only for windows that are powers of two."
  },
  {
   "property": "C93",
   "status": "proved",
   "theorems": [
    "HashRoll.Props.C93_masks",
    "HashRoll.Props.C93_rule",
    "HashRoll.Props.C93_push"
   ],
   "note": "Counts strings after which the fingerprint meets the mask; earlier cuts inside the string are not taken into account."
  }
 ]
}