{
 "claims": [
  {
   "property": "C01",
   "status": "partial",
   "theorems": [
    "Idx.C01_false",
    "Idx.C01_partial",
    "Idx.C01_band",
    "Idx.C01_iff"
   ],
   "note": "False of the code for 2^56 <= v < 2^63 (C01_false): the decoder swallows one extra byte there; C01_band gives the exact behaviour, C01_iff shows the round trip holds exactly outside the band."
  },
  {
   "property": "C02",
   "status": "partial",
   "theorems": [
    "Idx.C02_u32",
    "Idx.C02_char",
    "Idx.C02_bool",
    "Idx.C02_u8",
    "Idx.C02_f32",
    "Idx.C02_usize"
   ],
   "note": "Full claim for u32, char, bool, u8 and f32. For usize only outside the 2^56..2^63 band, where C01_false shows the codec itself fails."
  },
  {
   "property": "C03",
   "status": "proved",
   "theorems": [
    "Idx.C03"
   ],
   "note": "Byte length must be a number below 2^56 fitting the reader word."
  },
  {
   "property": "C04",
   "status": "proved",
   "theorems": [
    "Idx.C04_vec",
    "Idx.C04_array",
    "Idx.C04_map"
   ],
   "note": "Lengths below 2^56 fitting the reader word."
  },
  {
   "property": "C05",
   "status": "proved",
   "theorems": [
    "Idx.C05",
    "Idx.C05_count"
   ],
   "note": "Ids and count below 2^56 fitting the reader word."
  },
  {
   "property": "C06",
   "status": "proved",
   "theorems": [
    "Idx.C06",
    "Idx.C06_space",
    "Idx.C06_nospace",
    "Idx.C06_cut_iff"
   ],
   "note": ""
  },
  {
   "property": "C07",
   "status": "partial",
   "theorems": [
    "Idx.C07_partial",
    "Idx.C07_false_slice",
    "Idx.C07_false_assert",
    "Idx.C07_false_overflow",
    "Idx.C07_false_capacity"
   ],
   "note": "False as stated: four kinds of panic are reachable, shown by witnesses; no other panic is."
  },
  {
   "property": "C08",
   "status": "proved",
   "theorems": [
    "Idx.C08_suffix",
    "Idx.C08_trailing",
    "Idx.C08_trailing_any",
    "Idx.C08_trailing_needed",
    "Idx.deNodeTop_eq"
   ],
   "note": "Termination is totality of the model; deNodeTop_eq shows the fuel of the one recursive decoder is invisible."
  },
  {
   "property": "C09",
   "status": "proved",
   "theorems": [
    "Idx.C09",
    "Idx.C09_file"
   ],
   "note": "SameData spells out what is equal; descriptions and titles are cut to their limits (C06), option ids are renumbered (C10)."
  },
  {
   "property": "C10",
   "status": "partial",
   "theorems": [
    "Idx.C10_exact",
    "Idx.C10_false"
   ],
   "note": "False as stated: three witnesses; C10_exact is the exact condition."
  },
  {
   "property": "C11",
   "status": "proved",
   "theorems": [
    "Idx.C11",
    "Idx.C11_sorted"
   ],
   "note": "Same results and confidences up to the order of ties, for n between 1 and 764."
  },
  {
   "property": "C12",
   "status": "proved",
   "theorems": [
    "Idx.C12"
   ],
   "note": ""
  },
  {
   "property": "C13",
   "status": "proved",
   "theorems": [
    "Idx.C13",
    "Idx.C13_empty"
   ],
   "note": "The mismatch is a panic, not None."
  },
  {
   "property": "C14",
   "status": "proved",
   "theorems": [
    "Idx.C14"
   ],
   "note": ""
  },
  {
   "property": "C15",
   "status": "proved",
   "theorems": [
    "Idx.C15",
    "Idx.C15_getOrInsert",
    "Idx.C15_reload"
   ],
   "note": "Reload: table sizes and name lengths below 2^56 fitting the reader word."
  },
  {
   "property": "C16",
   "status": "proved",
   "theorems": [
    "Idx.C16",
    "Idx.C16_reload"
   ],
   "note": ""
  },
  {
   "property": "C17",
   "status": "partial",
   "theorems": [
    "Idx.C17_false",
    "Idx.C17_exact",
    "Idx.C17_partial"
   ],
   "note": "False: products without media shift the column (C17_false). C17_exact gives what is reported; C17_partial the claim up to the first product without media."
  },
  {
   "property": "C18",
   "status": "proved",
   "theorems": [
    "Idx.C18"
   ],
   "note": ""
  },
  {
   "property": "C19",
   "status": "proved",
   "theorems": [
    "Idx.C19"
   ],
   "note": ""
  },
  {
   "property": "C20",
   "status": "proved",
   "theorems": [
    "Idx.C20"
   ],
   "note": "Price orders for catalogues without NaN prices, as claimed."
  },
  {
   "property": "C21",
   "status": "proved",
   "theorems": [
    "Idx.C21_path_iff_substring",
    "Idx.C21_weight"
   ],
   "note": "Stated of the index built from a catalogue (buildAll)."
  },
  {
   "property": "C22",
   "status": "proved",
   "theorems": [
    "Idx.C22_postings",
    "Idx.C22_ascending",
    "Idx.C22_cutoff",
    "Idx.F32.toUsize_spec"
   ],
   "note": "The cut-off is the code expression; C22_cutoff evaluates it to floor(4n/5) for up to 2^20 products."
  },
  {
   "property": "C23",
   "status": "proved",
   "theorems": [
    "Idx.C23_weights",
    "Idx.C23_roots"
   ],
   "note": "At most 2^32 characters."
  },
  {
   "property": "C24",
   "status": "proved",
   "theorems": [
    "Idx.C24"
   ],
   "note": "sort_by is modelled as a stable sort that never panics."
  },
  {
   "property": "C25",
   "status": "proved",
   "theorems": [
    "Idx.C25_distinct",
    "Idx.C25_best_first"
   ],
   "note": "1 <= N <= 764 and at most 2^32 characters in the catalogue (order); distinctness for any index."
  },
  {
   "property": "C26",
   "status": "proved",
   "theorems": [
    "Idx.C26_justified",
    "Idx.C26_padded",
    "Idx.C29_nul_needed"
   ],
   "note": "1 <= N <= 764. C26_padded is the version for catalogues with NUL characters; C29_nul_needed shows the NUL hypothesis is needed."
  },
  {
   "property": "C27",
   "status": "proved",
   "theorems": [
    "Idx.C27_exact"
   ],
   "note": "1 <= N <= 764, at most 2^32 characters. Above 764 the lookup can panic."
  },
  {
   "property": "C28",
   "status": "partial",
   "theorems": [
    "Idx.C28_partial",
    "Idx.C28_false",
    "Idx.C28_small_n"
   ],
   "note": "False for N >= 3 (C28_false): a similar, more frequent n-gram wins the lookup although its posting list is cut off. Holds for N <= 2 (C28_small_n) and whenever no other n-gram of the catalogue resembles the query n-gram (C28_partial). What a lookup finds: C83, C96."
  },
  {
   "property": "C29",
   "status": "proved",
   "theorems": [
    "Idx.C29_short_query",
    "Idx.C29_nul_needed"
   ],
   "note": "1 <= N <= 764."
  },
  {
   "property": "C30",
   "status": "proved",
   "theorems": [
    "Idx.C30_no_postings",
    "Idx.C30_two_products"
   ],
   "note": "1 <= N <= 764."
  },
  {
   "property": "C31",
   "status": "proved",
   "theorems": [
    "Idx.C31_case",
    "Idx.C31_lowercased"
   ],
   "note": ""
  },
  {
   "property": "C32",
   "status": "proved",
   "theorems": [
    "Idx.C32_gram",
    "Idx.C32_results",
    "Idx.C32_finite"
   ],
   "note": "C32_finite: no reported sum is infinite"
  },
  {
   "property": "C33",
   "status": "proved",
   "theorems": [
    "Idx.C33",
    "Idx.C33_history",
    "Idx.C33_more",
    "Idx.C33_inRange_categories",
    "Idx.C33_inRange_tags",
    "Idx.C33_parsed"
   ],
   "note": "The selected options and tags must exist in the index the handler was made from; C33_inRange_* show handlers used with their own items satisfy this."
  },
  {
   "property": "C34",
   "status": "proved",
   "theorems": [
    "Idx.C34",
    "Idx.C34_any",
    "Idx.C34_unknown",
    "Idx.C34_ranked"
   ],
   "note": "C34_any is for arbitrary loaded files, C34 for written ones."
  },
  {
   "property": "C35",
   "status": "partial",
   "theorems": [
    "Idx.C35_partial",
    "Idx.C35_ignored",
    "Idx.C35_never",
    "Idx.C35_false"
   ],
   "note": "False as stated: an object value is always read as a range, so exact filters are ignored (C35_false, C35_ignored, C35_never). With getters and proxies: C92."
  },
  {
   "property": "C36",
   "status": "proved",
   "theorems": [
    "Idx.C36",
    "Idx.C36_not_object"
   ],
   "note": ""
  },
  {
   "property": "C37",
   "status": "proved",
   "theorems": [
    "Idx.C37_categories",
    "Idx.C37_tags"
   ],
   "note": "Tags: for tag objects in range of an index whose tag ids are positions (true of all built or loaded ones)."
  },
  {
   "property": "C38",
   "status": "proved",
   "theorems": [
    "Idx.C38_categories",
    "Idx.C38_tags"
   ],
   "note": "Same hypothesis on tags as C37."
  },
  {
   "property": "C39",
   "status": "proved",
   "theorems": [
    "Idx.C39_categories",
    "Idx.C39_options",
    "Idx.C39_name",
    "Idx.C39_tags",
    "Idx.C39_tag_name"
   ],
   "note": ""
  },
  {
   "property": "C40",
   "status": "proved",
   "theorems": [
    "Idx.C40",
    "Idx.C40_words",
    "Idx.C40_float",
    "Idx.C40_engine"
   ],
   "note": "Tag names up to 2048 bytes; C40_float has no bound and speaks of rounded similarities."
  },
  {
   "property": "C41",
   "status": "partial",
   "theorems": [
    "Idx.C41_partial",
    "Idx.C41_exact",
    "Idx.C41_false"
   ],
   "note": "False for names outside ASCII (C41_false); C41_exact is the exact condition."
  },
  {
   "property": "C42",
   "status": "partial",
   "theorems": [
    "Idx.C42",
    "Idx.C42_before",
    "Idx.C42_failed",
    "Idx.C42_serves_partial"
   ],
   "note": "False after a search that panicked: the locks stay unusable. Everything else proved for every history. Exactly what is left after any history: C93."
  },
  {
   "property": "C43",
   "status": "partial",
   "theorems": [
    "Idx.C43_partial",
    "Idx.C43_unordered",
    "Idx.C43_atomic",
    "Idx.C43_no_deadlock",
    "Idx.C43_finishes",
    "Idx.C43_false",
    "Idx.C43_false_lasting"
   ],
   "note": "Deadlock freedom, atomicity of every call part and termination proved for every interleaving; no mixing for searches without an order and for tidy interleavings. In the others a search does mix two files: C43_false."
  },
  {
   "property": "C44",
   "status": "proved",
   "theorems": [
    "Idx.C44",
    "Idx.C44_reports",
    "Idx.C44_search"
   ],
   "note": "C44 is for producers whose ids exist; C44_search shows every search of a loaded file gives such a producer."
  },
  {
   "property": "C45",
   "status": "partial",
   "theorems": [
    "Idx.C45_exact",
    "Idx.C45_partial",
    "Idx.C45_false"
   ],
   "note": "False for trailing numbers of 20 or more digits (C45_false): overflow panics or wraps. C45_exact gives the exact value modulo the word, C45_partial the claim up to 19 digits."
  },
  {
   "property": "C46",
   "status": "partial",
   "theorems": [
    "Idx.C46_refl",
    "Idx.C46_symm",
    "Idx.C46_meaning",
    "Idx.C46_trans_partial",
    "Idx.C46_trans_false"
   ],
   "note": "Transitivity is false (C46_trans_false)."
  },
  {
   "property": "C47",
   "status": "proved",
   "theorems": [
    "Idx.C47_popular_chain"
   ],
   "note": "For built indexes."
  },
  {
   "property": "C48",
   "status": "proved",
   "theorems": [
    "Idx.C48_search_total",
    "Idx.C48_gram_total"
   ],
   "note": ""
  },
  {
   "property": "C49",
   "status": "partial",
   "theorems": [
    "Idx.C49_partial",
    "Idx.C49_false",
    "Idx.C49_container",
    "Idx.C49_postings",
    "Idx.C49_trees",
    "Idx.C49_same_lookups",
    "Idx.C49_small_n"
   ],
   "note": "False for N >= 3 (C49_false): ties between candidates are broken by hash order. Proved: identical products, posting lists, paths, weights and lookup confidences; identical results up to ties when the lookups agree, and always for N <= 2. Where no best matches tie nothing depends on hash orders: C83, C96."
  },
  {
   "property": "C50",
   "status": "partial",
   "theorems": [
    "Idx.C50_partial",
    "Idx.C50_false"
   ],
   "note": "Proved for handlers of the file that is loaded; handlers kept over a re-load filter by positions of the earlier file: C50_false. Exactly: C91."
  },
  {
   "property": "C51",
   "status": "proved",
   "theorems": [
    "Idx.C51"
   ],
   "note": ""
  },
  {
   "property": "C52",
   "status": "proved",
   "theorems": [
    "Idx.C52_read",
    "Idx.C52_other",
    "Idx.C52_panics"
   ],
   "note": ""
  },
  {
   "property": "C53",
   "status": "partial",
   "theorems": [
    "Idx.C53_partial",
    "Idx.C53_exact",
    "Idx.C53_dead",
    "Idx.C53_false"
   ],
   "note": "A panic while parsing a file leaves the engine as it was; a panic inside a search disables it for good: C53_dead, C53_false. Exactly what is left after a panic: C93."
  },
  {
   "property": "C54",
   "status": "proved",
   "theorems": [
    "Idx.C54_found_iff"
   ],
   "note": "1 <= N <= 764."
  },
  {
   "property": "C55",
   "status": "partial",
   "theorems": [
    "Idx.C55_partial",
    "Idx.C55_false"
   ],
   "note": "False from 128 products on (C55_false for 129); proved below 128 products. C69 says exactly which truncations load."
  },
  {
   "property": "C56",
   "status": "proved",
   "theorems": [
    "Idx.C56"
   ],
   "note": ""
  },
  {
   "property": "C57",
   "status": "proved",
   "theorems": [
    "Idx.C10_exact",
    "Idx.limit_nil_iff"
   ],
   "note": ""
  },
  {
   "property": "C58",
   "status": "proved",
   "theorems": [
    "Idx.C58_trees",
    "Idx.C58_postings",
    "Idx.C58_lookups",
    "Idx.C58_results",
    "Idx.C58_small_n",
    "Idx.C58_files"
   ],
   "note": ""
  },
  {
   "property": "C59",
   "status": "proved",
   "theorems": [
    "Idx.C59_kept",
    "Idx.C59_confidence",
    "Idx.C59_engine"
   ],
   "note": ""
  },
  {
   "property": "C60",
   "status": "proved",
   "theorems": [
    "Idx.C60"
   ],
   "note": ""
  },
  {
   "property": "C61",
   "status": "proved",
   "theorems": [
    "Idx.C61"
   ],
   "note": ""
  },
  {
   "property": "C62",
   "status": "proved",
   "theorems": [
    "Idx.C62",
    "Idx.C62_products"
   ],
   "note": "Counts what is in the loaded value; memory reserved ahead of the elements is C56."
  },
  {
   "property": "C63",
   "status": "proved",
   "theorems": [
    "Idx.C63",
    "Idx.C63_table",
    "Idx.parseJson_iff"
   ],
   "note": "Grammar and decoding rules are stated as inductive relations, independently of the parser. The parser model follows serde_json 1.0.79 from its documentation and source as remembered; serde_json itself is not in the repository."
  },
  {
   "property": "C64",
   "status": "proved",
   "theorems": [
    "Idx.C64",
    "Idx.C64_escaped"
   ],
   "note": "Products whose title contains a quotation mark (such as 3\" pipe) make the whole catalogue unreadable."
  },
  {
   "property": "C65",
   "status": "proved",
   "theorems": [
    "Idx.C65",
    "Idx.C65_outcome"
   ],
   "note": ""
  },
  {
   "property": "C66",
   "status": "proved",
   "theorems": [
    "Idx.C66",
    "Idx.nearest_iff",
    "Idx.F32.special_nan",
    "Idx.F32.special_ordered",
    "Idx.F32.special_inf_fin",
    "Idx.F32.special_inf_inf",
    "Idx.F32.special_zero"
   ],
   "note": "The standard library is not in the repository; parseF32 follows its documentation. The rounding rule is stated as IEEE 754 round to nearest, ties to even, independently of the softfloat; what IEEE 754 says of NaN, infinities and zeros by the F32.special theorems."
  },
  {
   "property": "C67",
   "status": "proved",
   "theorems": [
    "Idx.C67",
    "Idx.C67_weak",
    "Idx.C67_strict",
    "Idx.C67_bound"
   ],
   "note": ""
  },
  {
   "property": "C68",
   "status": "partial",
   "theorems": [
    "Idx.C68_partial",
    "Idx.C68_false"
   ],
   "note": "False in general: a product for 19.90 is not kept from 19.9 on, because the price is stored as an f32 slightly below. Proved for prices in whole cents up to 131072.00 and whole bounds. Exactly for all bounds in cents: C90."
  },
  {
   "property": "C69",
   "status": "proved",
   "theorems": [
    "Idx.C69",
    "Idx.C69_some"
   ],
   "note": "Fits says that the machine can hold numbers up to the length of the file."
  },
  {
   "property": "C70",
   "status": "proved",
   "theorems": [
    "Idx.C01_iff",
    "Idx.C01_band"
   ],
   "note": ""
  },
  {
   "property": "C71",
   "status": "proved",
   "theorems": [
    "Idx.C45_exact"
   ],
   "note": ""
  },
  {
   "property": "C72",
   "status": "proved",
   "theorems": [
    "Idx.C17_exact"
   ],
   "note": ""
  },
  {
   "property": "C73",
   "status": "proved",
   "theorems": [
    "Idx.C41_exact"
   ],
   "note": ""
  },
  {
   "property": "C74",
   "status": "proved",
   "theorems": [
    "Idx.C53_exact",
    "Idx.C53_fatal"
   ],
   "note": ""
  },
  {
   "property": "C75",
   "status": "proved",
   "theorems": [
    "Idx.C43_atomic",
    "Idx.C43_no_deadlock",
    "Idx.C43_finishes",
    "Idx.C43_unordered"
   ],
   "note": ""
  },
  {
   "property": "C76",
   "status": "proved",
   "theorems": [
    "Idx.C35_never",
    "Idx.C35_ignored"
   ],
   "note": "With getters and proxies: C92."
  },
  {
   "property": "C77",
   "status": "proved",
   "theorems": [
    "Idx.C46_meaning",
    "Idx.C46_refl",
    "Idx.C46_symm"
   ],
   "note": ""
  },
  {
   "property": "C78",
   "status": "proved",
   "theorems": [
    "Idx.C78_enough",
    "Idx.C78_written",
    "Idx.C78_window",
    "Idx.C78_crafted"
   ],
   "note": "deserializeAllIn is the decoder with a bounded call stack. Only the recursive node calls are counted."
  },
  {
   "property": "C79",
   "status": "proved",
   "theorems": [
    "Idx.C79_bytes",
    "Idx.C79_rounds"
   ],
   "note": ""
  },
  {
   "property": "C80",
   "status": "proved",
   "theorems": [
    "Idx.C80_nodes",
    "Idx.C80_nodes_le",
    "Idx.C80_postings"
   ],
   "note": ""
  },
  {
   "property": "C81",
   "status": "proved",
   "theorems": [
    "Idx.C81_counts",
    "Idx.C81_any",
    "Idx.C81_built",
    "Idx.C81_five",
    "Idx.C81_least",
    "Idx.C81_exact"
   ],
   "note": "searchN is the search with a count of calls; C81_counts shows the results are those of the search."
  },
  {
   "property": "C82",
   "status": "proved",
   "theorems": [
    "Idx.C82",
    "Idx.C82_text",
    "Idx.C82_loads"
   ],
   "note": ""
  },
  {
   "property": "C83",
   "status": "proved",
   "theorems": [
    "Idx.C83_lookup",
    "Idx.C83_found",
    "Idx.C83_found_iff",
    "Idx.C83_deterministic"
   ],
   "note": ""
  },
  {
   "property": "C84",
   "status": "proved",
   "theorems": [
    "Idx.C84",
    "Idx.C84_loaded",
    "Idx.C84_same"
   ],
   "note": ""
  },
  {
   "property": "C85",
   "status": "proved",
   "theorems": [
    "Idx.C85",
    "Idx.C85_small"
   ],
   "note": "Answers states what a search hands out; TakesBest and countedFor what counts."
  },
  {
   "property": "C86",
   "status": "proved",
   "theorems": [
    "Idx.C86",
    "Idx.C86_safe",
    "Idx.C86_overflow",
    "Idx.C86_wrap",
    "Idx.C86_lost"
   ],
   "note": ""
  },
  {
   "property": "C87",
   "status": "proved",
   "theorems": [
    "Idx.C87_busy",
    "Idx.C87_inside",
    "Idx.C87_categories",
    "Idx.C87_tags",
    "Idx.C87_status",
    "Idx.C87_tag_status",
    "Idx.C87_notified",
    "Idx.C87_silent",
    "Idx.C87_tag_notified",
    "Idx.C87_get",
    "Idx.C87_clean",
    "Idx.C87_leak",
    "Idx.C87_depth",
    "Idx.C87_stack",
    "Idx.C87_unbounded"
   ],
   "note": "Reach: the states in which JavaScript code runs, inside observers too; editsOn: the accepted calls on a handler."
  },
  {
   "property": "C88",
   "status": "proved",
   "theorems": [
    "Idx.C88_load",
    "Idx.C88_kept",
    "Idx.C88_product",
    "Idx.C88_nodes",
    "Idx.C88_cost",
    "Idx.C88_written",
    "Idx.C88_leak"
   ],
   "note": "Memory.gramIndex and Memory.classic follow the references; loads come one after the other."
  },
  {
   "property": "C89",
   "status": "proved",
   "theorems": [
    "Idx.C89_values",
    "Idx.C89_references",
    "Idx.C89_no_dangling",
    "Idx.C89_kept"
   ],
   "note": "World: the engine and the objects handed out so far; Engine.step is the engine on values, RefEngine.step the one on references."
  },
  {
   "property": "C90",
   "status": "proved",
   "theorems": [
    "Idx.C90",
    "Idx.C90_edge",
    "Idx.C90_exact"
   ],
   "note": "The exact counterpart of C68 for prices and bounds in cents; JsLiteral: a double closest to the number written."
  },
  {
   "property": "C91",
   "status": "proved",
   "theorems": [
    "Idx.C91",
    "Idx.C91_again",
    "Idx.C91_newer",
    "Idx.C91_text"
   ],
   "note": "The exact counterpart of C50."
  },
  {
   "property": "C92",
   "status": "proved",
   "theorems": [
    "Idx.C92_safe",
    "Idx.C92_busy",
    "Idx.C92_shared",
    "Idx.C92_freed",
    "Idx.C92_free",
    "Idx.C92_history",
    "Idx.C92_categories",
    "Idx.C92_tags",
    "Idx.C92_clean",
    "Idx.C92_engine",
    "Idx.C92_refused",
    "Idx.C92_search",
    "Idx.C92_plain",
    "Idx.C92_values",
    "Idx.C92_get",
    "Idx.C92_exact",
    "Idx.C92_threw",
    "Idx.C92_status",
    "Idx.C92_item",
    "Idx.C92_unbounded"
   ],
   "note": "CbReach: the moments at which JavaScript code runs; directJobs: the code a call itself ran; Reads: a filter object as read."
  },
  {
   "property": "C93",
   "status": "proved",
   "theorems": [
    "Idx.C93_state",
    "Idx.C93_free",
    "Idx.C93_lost",
    "Idx.C93_one",
    "Idx.C93_both",
    "Idx.C93_forever"
   ],
   "note": "The exact counterpart of C42 and C53, which are false as stated."
  },
  {
   "property": "C94",
   "status": "proved",
   "theorems": [
    "Idx.C94_results",
    "Idx.C94_scores",
    "Idx.C94_vendors",
    "Idx.C94_vendor",
    "Idx.C94_search",
    "Idx.C94_product",
    "Idx.C94_offers",
    "Idx.C94_bytes"
   ],
   "note": "Made: built from a catalogue or read from bytes; which reloaded indexes compare equal: C10."
  },
  {
   "property": "C95",
   "status": "proved",
   "theorems": [
    "Idx.C95_array",
    "Idx.C95_written",
    "Idx.C95_exact",
    "Idx.C95_round",
    "Idx.C95_length"
   ],
   "note": ""
  },
  {
   "property": "C96",
   "status": "proved",
   "theorems": [
    "Idx.C96_lookup",
    "Idx.C96_occurs",
    "Idx.C96_small",
    "Idx.C96_exact",
    "Idx.C96_found",
    "Idx.C96_deterministic",
    "Idx.C96_lent"
   ],
   "note": ""
  },
  {
   "property": "C97",
   "status": "proved",
   "theorems": [
    "Idx.C97_received",
    "Idx.C97_shown",
    "Idx.C97_wellFormed",
    "Idx.C97_same",
    "Idx.C97_ask",
    "Idx.C97_answer",
    "Idx.C97_orders",
    "Idx.C97_suggest"
   ],
   "note": "wasm-bindgen glue as documented, see DESIGN.md."
  },
  {
   "property": "C98",
   "status": "proved",
   "theorems": [
    "Idx.C98_products",
    "Idx.C98_categories",
    "Idx.C98_selections",
    "Idx.C98_tags",
    "Idx.C98_orders",
    "Idx.C98_paths",
    "Idx.C98_nodes",
    "Idx.C98_postings",
    "Idx.C98_untouched",
    "Idx.C98_kept"
   ],
   "note": ""
  },
  {
   "property": "C99",
   "status": "proved",
   "theorems": [
    "Idx.C99_erase",
    "Idx.C99_linear",
    "Idx.C99_loaded",
    "Idx.C99_least",
    "Idx.C99_exact",
    "Idx.C99_tight"
   ],
   "note": "deserializeAllN is the decoder with a count of steps; C99_erase shows it is otherwise the decoder. The time of the allocator is not counted."
  },
  {
   "property": "C100",
   "status": "proved",
   "theorems": [
    "Idx.C100_ignored",
    "Idx.C100_text",
    "Idx.C100_tags",
    "Idx.C100_options",
    "Idx.C100_orders",
    "Idx.C100_features",
    "Idx.C100_page"
   ],
   "note": "Fields are compared by position. C100_text and C100_page compare runs with the same hash orders."
  },
  {
   "property": "C101",
   "status": "proved",
   "theorems": [
    "Idx.C101_comparable",
    "Idx.C101_index",
    "Idx.C101_write",
    "Idx.C101_order",
    "Idx.C101_search",
    "Idx.C101_search_iff",
    "Idx.C101_built",
    "Idx.C101_reloaded",
    "Idx.C101_engine",
    "Idx.C101_engine_strict",
    "Idx.C101_prices",
    "Idx.C101_prices_strict",
    "Idx.C101_prices_iff",
    "Idx.C101_unparsable",
    "Idx.C101_file",
    "Idx.C101_false",
    "Idx.C101_false_prices"
   ],
   "note": "`SortAlg` states what the documentation of the standard library promises about sort_by; all theorems quantify over it. SortAlg.strict and SortAlg.tolerant are two such algorithms."
  },
  {
   "property": "C102",
   "status": "proved",
   "theorems": [
    "Idx.C102_trees",
    "Idx.C102_postings",
    "Idx.C102_growth",
    "Idx.C102_size",
    "Idx.C102_order",
    "Idx.C102_equal",
    "Idx.C102_table",
    "Idx.C102_amounts",
    "Idx.C102_false"
   ],
   "note": "Numbers of products, of characters and the n-gram sizes are below 2^64; the table is for catalogues whose file is at most 2^32 bytes by the bound of C82. The text of the tables and the shuffling are not modelled; C102_amounts holds for any shuffled catalogues."
  },
  {
   "property": "C103",
   "status": "proved",
   "theorems": [
    "Idx.C103_counts",
    "Idx.C103_grams",
    "Idx.C103_index",
    "Idx.C103_categories",
    "Idx.C103_classic",
    "Idx.C103_bound",
    "Idx.C103_sorting",
    "Idx.C103_quadratic",
    "Idx.C103_family"
   ],
   "note": "A step is one execution of a loop body, one entry looked at by a linear search, one table access or one comparison while sorting; the time of one step, of hashing and of the allocator has no part. The number of comparisons of the sorting algorithm is a parameter."
  },
  {
   "property": "C104",
   "status": "proved",
   "theorems": [
    "Idx.C104_counts",
    "Idx.C104_exact",
    "Idx.C104_conditions",
    "Idx.C104_ids",
    "Idx.C104_call",
    "Idx.C104_nothing",
    "Idx.C104_index",
    "Idx.C104_bound",
    "Idx.C104_file",
    "Idx.C104_built"
   ],
   "note": "A step is one call of recursive_search, one character moved, one table access, one id added or drained, one selection or filter looked at, or one comparison while sorting; the time of one step, of hashing and of the allocator has no part. The number of comparisons of the sorting algorithm is a monotone parameter."
  },
  {
   "property": "C105",
   "status": "proved",
   "theorems": [
    "Idx.C105_index",
    "Idx.C105_exact",
    "Idx.C105_table",
    "Idx.C105_products",
    "Idx.C105_total",
    "Idx.C105_order",
    "Idx.C105_false"
   ],
   "note": "The printed texts are not modelled. char::is_whitespace is a parameter."
  },
  {
   "property": "C106",
   "status": "proved",
   "theorems": [
    "Idx.C106_moves",
    "Idx.C106_same",
    "Idx.C106_checks",
    "Idx.C106_false"
   ],
   "note": ""
  },
  {
   "property": "C107",
   "status": "proved",
   "theorems": [
    "Idx.C107_dominates",
    "Idx.C107_equal",
    "Idx.C107_longer",
    "Idx.C107_false"
   ],
   "note": "C107_false refutes the stronger claim named in the statement"
  },
  {
   "property": "C108",
   "status": "proved",
   "theorems": [
    "Idx.C108_kept",
    "Idx.C108_built",
    "Idx.C108_confidence",
    "Idx.C108_engine",
    "Idx.C108_false"
   ],
   "note": ""
  },
  {
   "property": "C109",
   "status": "proved",
   "theorems": [
    "Idx.C109_counts",
    "Idx.C109_hit",
    "Idx.C109_false"
   ],
   "note": "C109_false refutes the stronger claim named in the statement"
  },
  {
   "property": "C110",
   "status": "proved",
   "theorems": [
    "Idx.C110_bound",
    "Idx.C110_count",
    "Idx.C110_stays",
    "Idx.C110_ones",
    "Idx.C32_finite"
   ],
   "note": ""
  },
  {
   "property": "C111",
   "status": "proved",
   "theorems": [
    "Idx.C111_nothing",
    "Idx.C111_flood",
    "Idx.C111_page",
    "Idx.C111_builds",
    "Idx.C111_size"
   ],
   "note": "buildAll is the build below 2^32 characters, see C86"
  },
  {
   "property": "C112",
   "status": "proved",
   "theorems": [
    "Idx.C112_more",
    "Idx.C112_same",
    "Idx.C112_unique",
    "Idx.C112_built",
    "Idx.C112_engine",
    "Idx.C112_false"
   ],
   "note": ""
  },
  {
   "property": "C113",
   "status": "proved",
   "theorems": [
    "Idx.C113_exact",
    "Idx.C113_nothing",
    "Idx.C113_bound",
    "Idx.C113_file",
    "Idx.C113_tight"
   ],
   "note": "C113_exact: the answer is that of tag_suggestion."
  },
  {
   "property": "C114",
   "status": "proved",
   "theorems": [
    "Idx.C114_symm",
    "Idx.C114_self",
    "Idx.C114_trans",
    "Idx.C114_equal",
    "Idx.C114_products",
    "Idx.C114_false",
    "Idx.C114_nan"
   ],
   "note": ""
  },
  {
   "property": "C115",
   "status": "proved",
   "theorems": [
    "Idx.C115_masked",
    "Idx.C115_never",
    "Idx.C115_typo",
    "Idx.C115_misspelt",
    "Idx.C115_unfindable"
   ],
   "note": ""
  },
  {
   "property": "C116",
   "status": "proved",
   "theorems": [
    "Idx.C116_shown",
    "Idx.C116_hidden",
    "Idx.C116_page",
    "Idx.C116_tag",
    "Idx.C116_lost"
   ],
   "note": ""
  },
  {
   "property": "C117",
   "status": "proved",
   "theorems": [
    "Idx.C117",
    "Idx.C117_length",
    "Idx.C117_false"
   ],
   "note": ""
  },
  {
   "property": "C118",
   "status": "proved",
   "theorems": [
    "Idx.C118",
    "Idx.C118_place",
    "Idx.C118_top",
    "Idx.C118_page",
    "Idx.C118_ordered",
    "Idx.C118_false"
   ],
   "note": ""
  },
  {
   "property": "C119",
   "status": "proved",
   "theorems": [
    "Idx.C119",
    "Idx.C119_history",
    "Idx.C119_join",
    "Idx.C119_false"
   ],
   "note": ""
  },
  {
   "property": "C120",
   "status": "proved",
   "theorems": [
    "Idx.C120",
    "Idx.C120_pictures",
    "Idx.C120_texts",
    "Idx.C120_owner_false"
   ],
   "note": ""
  },
  {
   "property": "C121",
   "status": "proved",
   "theorems": [
    "Idx.C121",
    "Idx.C121_search",
    "Idx.C121_written",
    "Idx.C121_ascending",
    "Idx.C121_ranks",
    "Idx.C121_checked",
    "Idx.C121_false",
    "Idx.C121_false_order",
    "Idx.C121_false_vendor"
   ],
   "note": "Regular lists what a file from elsewhere can lack; C121_ascending shows which of it always holds where additions are checked."
  },
  {
   "property": "C122",
   "status": "proved",
   "theorems": [
    "Idx.C122",
    "Idx.C122_search",
    "Idx.C122_byte",
    "Idx.C122_false"
   ],
   "note": ""
  },
  {
   "property": "C123",
   "status": "proved",
   "theorems": [
    "Idx.C123_tag",
    "Idx.C123_category",
    "Idx.C123_option"
   ],
   "note": ""
  },
  {
   "property": "C124",
   "status": "proved",
   "theorems": [
    "Idx.C124",
    "Idx.C124_search",
    "Idx.C124_page"
   ],
   "note": ""
  },
  {
   "property": "C125",
   "status": "proved",
   "theorems": [
    "Idx.C125"
   ],
   "note": ""
  }
 ]
}
