# A Lean 4 model of JoakimLevorsen/algolia-index

The code turns a product catalogue into n-gram search indexes, writes them to a compact binary file, and (in the
browser) loads that file and answers searches. This directory models it in Lean 4 and proves the claims listed in
`properties.jsonl`. `MANIFEST.json` maps every claim to theorems and says whether it is proved in full.

## Layout

* `lean/Verif/Model/*` is the model: total, executable functions, one per Rust function, each citing file and lines.
* `lean/Verif/Lemmas/*` holds helper lemmas.
* `lean/Verif/Props/*` holds the property theorems. Specifications (substring counts, edit scripts, parity, ...) are
  defined there, or in the lemma file of the same topic, without using the model functions they specify. Next to each
  theorem with hypotheses an `example` (or a theorem applied in an `example`) shows a concrete case meeting them.
* `seeded/LOG.jsonl` records the wrong programs the theorems were tried against.

Names: `C12` or `C12_word` belongs to property C12. `_partial` marks a theorem proving less than the claim; its comment
says what is missing. `_false` marks a proof that the claim as stated does not hold of the code, `_exact` or `_iff` an
exact characterisation of when it does.

## Trusted base

1. Lean's kernel (4.33.0), and these axioms of core Lean: `propext`, `Quot.sound`, `Classical.choice`. No other axiom is
   used; the table at the end lists them per theorem. `decide +kernel` is used for concrete witnesses, it adds no axiom.
   No `sorry`, `native_decide`, `bv_decide`, no Mathlib import.
2. That the model says what the Rust code does. The code was read, not run. The citations are there to be checked.
3. The assumptions about the standard library and other crates below.

### Modelling conventions

| Rust | model |
|---|---|
| `u8`, `u32`, `u64` | `UInt8`, `UInt32`, `UInt64` where bits matter; counters are `Nat`. `Model/Heap.lean` has the index builder with 32-bit counters, C86 says when that makes a difference |
| `usize` | `Nat`; the word size of the machine is a field of `Target` (32 for wasm, 64 native), overflow checks on/off is another |
| `Vec::with_capacity` and the like | `Target.reserves` says which lengths memory can be reserved for; a refused length is the panic `capacity` (in Rust "capacity overflow" or an allocator abort) |
| `f32` | a 32-bit pattern with an exact softfloat: finite magnitudes are natural multiples of 2^-149, operations are exact and then rounded to nearest-even; `Lemmas/Round.lean` proves that sums, products, quotients and conversions are the f32 that IEEE 754 prescribes, and that there is only one such |
| `Option` return that may panic | `Res`: `ok`, `none`, `panic reason`; where `None` cannot occur, `Except Panic` |
| `String`, `&str` | `List Char`; its bytes are core Lean's UTF-8 encoding |
| `AHashMap`, `AHashSet` | association list; every *iteration* goes through an oracle (`HashOrd`) returning an arbitrary permutation, and theorems quantify over the oracle |
| arena references `&'a T` | the value itself; Model/Arena.lean loads into arenas with positions as references, C88 says it is the same; Model/RefEngine.lean searches and answers JavaScript on references, C89 says the same of it |
| `Rc<RefCell<Node>>` in the index builder | the node's path from the root; `Model/Heap.lean` has addresses and borrow checks instead, C86 proves that both give the same index |
| `&mut self` | function returning the new state |
| `sort_by`, `sort_by_cached_key` (stable) | stable insertion sort, shown to be *the* stable sort when the comparison is a total preorder; it never panics. Model/Sorting.lean has the crate again on top of any algorithm that does what the standard library documents (with an inconsistent comparison: panic, or any order); C101 says when that makes a difference |
| `char::to_lowercase`, `str::parse::<f32>` | parameters, theorems quantify over them; C66 to C68 are about the instance `parseF32` (`Model/ParseF32.lean`) |
| recursion of `GramNode::deserialize_arena` | recursion on fuel; `deNodeTop_eq` shows the fuel cannot be observed; C78 says how deep it goes |
| padding of short n-grams with `char::default()` | NUL through the class `RDefault` |
| `Mutex<Option<Arc<_>>>` globals | `Slot`: free, poisoned or (wasm trap) left locked, plus the value |
| threads | `Model/Concurrent.lean`: each call is a program of steps between two lock operations; any interleaving; panics unwind and poison |
| lazy iterator chains of `search` | for each product one filter after the other, products in turn |
| JavaScript objects | list of own enumerable entries; no prototypes, getters or proxies, except in `Model/Callbacks.lean`, where reading an object runs arbitrary code |

### What is modelled

| file | model |
|---|---|
| `src/serialize/primitives.rs` | all of it: `Model/Primitives.lean` |
| `src/serialize/collections.rs`, `sequential_array.rs`, `mod.rs` (`serialize_iter`, `deserialize_iter`, limits) | `Model/Collections.lean`, `Model/Data.lean` |
| `src/serialize/nodes.rs`, `all_indexes.rs` | `Model/Nodes.lean`; the decoder again with a bounded call stack: `Model/Stack.lean`, with everything in arenas: `Model/Arena.lean`, and with a count of steps, in which the time of the allocator has no part: `Model/LoadCost.lean` |
| `src/data/{vendor,features,product,container}.rs` | `Model/Data.lean`; the order of products: `Model/Laws.lean` |
| `src/data/raw_parser.rs` | `Model/RawParser.lean`; its `Deserialize` derives and the JSON reading of `serde_json::from_str`: `Model/Json.lean`; reading a price with `str::parse::<f32>`: `Model/ParseF32.lean` |
| `src/classic_indexes/*` | `Model/Classic.lean` |
| `src/ngram/{indexer,index,result_ranker}.rs` | `Model/NGram.lean`; the builder again with shared mutable nodes and 32-bit counters: `Model/Heap.lean`; the search again with a count of calls: `Model/Cost.lean`; the builder again, with the rest of indexing, with a count of steps: `Model/IndexCost.lean`; the search again, with the rest of `search` of `src/lib.rs`, with a count of steps: `Model/SearchCost.lean` |
| `src/js_interactable/*` | `Model/Js.lean`; the handlers again with observers that call back into the crate: `Model/Reentrant.lean`, and with all code that JavaScript can run inside the crate and objects freed by hand: `Model/Callbacks.lean`; all objects as references into arenas: `Model/RefEngine.lean`; strings as UTF-16: `Model/Glue.lean` |
| `tests/*` | `Model/Statistics.lean` (the numbers in the tables) |
| `src/ngram/index.rs` `test_gram_popularity` | `Model/Popularity.lean` (the numbers) |
| `src/serde_array.rs` (used nowhere in the crate) | `Model/SerdeArray.lean` |
| `src/lib.rs`, `src/main.rs` | `Model/Nodes.lean` (building, the trial search, writing, reading the catalogue out of its hash table), `Model/Engine.lean` (calls one at a time), `Model/Concurrent.lean` (calls from several threads); tag suggestions again with a count of steps: `Model/SuggestCost.lean` |

### What is not modelled

wasm-bindgen glue other than its borrow flags, `free` and strings, running out
of memory other than by one refused reservation, the reservation in `Product::deserialize` for a length already read
(src/data/product.rs:142), the size of a call frame (Model/Stack.lean counts nested calls), how the arenas lay out their chunks, `println!`, the text of the
tables that `tests/` write, `benches/` (they time the modelled functions),
the commented-out `preprocessor.rs`.

wasm-bindgen (0.2.80 in `Cargo.lock`) is not in the repository. `Model/Reentrant.lean` says what it does as documented: each
exported object has a borrow flag, arguments are borrowed in order, a refused borrow throws, and neither a throw nor a trap
runs destructors. `Model/Callbacks.lean` adds: `free()` forgets the pointer on the JavaScript side first and then drops the object
unless it is borrowed, in which case it throws; a forgotten pointer throws when its turn to be borrowed comes; `Object.entries` is
imported without `catch`, `Reflect.get` with it. `Model/Glue.lean` adds strings: `passStringToWasm0` (ASCII copied, the rest given
to `TextEncoder.encodeInto` with three bytes for each unit) and `getStringFromWasm0` (`TextDecoder`, fatal, keeping byte order marks).

`serde_json` (1.0.79 in `Cargo.lock`) and the derive macros are not in the repository. `Model/Json.lean` says what they do
as documented: RFC 8259 grammar, unknown fields skipped (without decoding their strings, and without a depth limit),
repeated or missing fields refused, structs also accepted as arrays, `&str` only from literals without escapes.

`str::parse::<f32>` is in the standard library, which is not in the repository either. `Model/ParseF32.lean` says what it does
as documented; the real one stops accumulating exponents after some digits, which is observable only with texts of
several hundred thousand digits.

## Where the code disagrees with a claim

Each is proved by a witness; the manifest names the theorems that say what does hold.

* C01, C02: numbers from 2^56 to 2^63 - 1 do not survive the codec, the decoder swallows one byte too many.
* C07, C56: loading damaged bytes can panic: a string length past the end, an n-gram of another length, a product number
  past the largest `usize` (with overflow checks), a length for which no memory can be reserved.
* C10: a file can differ from what was written: text cut at its limit, option ids renumbered.
* C17: products without media shift the image column.
* C28: for n >= 3 a product containing the query is not always found, a similar and more frequent n-gram can win the lookup. From n = 6 on a surplus
  character lends its share to the one that takes its place (C96).
* C35: a filter object is always read as a range, exact-value filters are ignored.
* C41: tag similarity counts characters against bytes, so names outside ASCII can miss the threshold.
* C42, C53: a search that panics leaves the locks unusable for good.
* C43: a search with an order concurrent with `initialize` can combine two files.
* C45: trailing numbers of 20 or more digits overflow.
* C46, C114: equality of products is not transitive, nor is that of indexes. An index with the price NaN is not equal to itself.
* C49: results can depend on the hash order for n >= 3.
* C50: handlers kept over a re-load filter by positions of the earlier file (exactly: C91). Even a second file made from the same text
  can have its products in another order, so that the kept selections mean other products (`C91_text`).
* C55: a truncated file can load from 128 products on (C69 says which), with one of its orders spoilt.
* C64: one title, vendor, id, tag, option or url with a quotation mark, backslash or control character makes the whole
  catalogue unreadable.
* C68: a price filter can refuse a product at its very bound, prices are stored as f32 and compared as f64. Of the prices in whole cents
  only the multiples of 25 cents are found from and to themselves (C90).
* C86: from 2^32 characters on, building stops at a counter; without overflow checks it goes on with wrong weights.
* C87: a search from an observer of the tag handler is refused and leaves the category handler unusable.
* C92: a filter object whose entries cannot be listed leaves both handlers borrowed for good; toggling with a freed option or tag does
  so with its handler. Exact filters exist after all, for objects that throw when `from` is read.
* C93: a search that panics makes the engine useless for searching for good; if it panics while sorting, the getters stop answering too.
  A file with too short an order is loaded without complaint and makes the first search by that order panic so.
* C116: of several products with one id only one is shown, filters look at that one alone, so the others can be lost even to a filter that only they pass.
* C115: a product can be such that no query finds it, or only a misspelt one.
* C118: results of equal confidence come in any order, so the first page of a search may differ from call to call.
* C119: if an option of another file is selected as well, the order in which the table of selections is iterated decides whether a product
  is left out or the call panics (`C119_false`).
* C120: a file does not tell which product a picture belongs to: two catalogues that differ in it give the same bytes
  (`C120_owner_false`).
* C121: bytes that load need not load again after the index is written: of two vendors with one name only one is written
  (`C121_false`), and a product can end up under another vendor (`C121_false_vendor`); in builds without overflow checks product lists of foreign files can descend and are then sorted
  (`C121_false_order`).
* C122: a damaged file is not noticed: a byte of a title can be changed to any ASCII character and the file loads (`C122_false`);
  the edited product is still searched, sorted and filtered as before.
  Names (C123), prices (C124) and vendor names (C125) can be edited in the same way; an edited price changes filters but not the stored order by price.
* C117: the length of a file depends on the order of the products, which for a JSON text is that of a hash table.
* C112: of equally similar tags the hash order of the build decides which one is suggested, even if one of them is exactly the word.
* C111: one product whose description repeats the texts of all others makes every search find nothing.
* C110: a sum of scores stops at 2^24; more hits are then no longer told apart.
* C109: description, title and vendor name are indexed without anything between them: "kunst" finds a product described as "kun" and named "st".
* C107: searching "kunsta" lists a product named "kunst kunst kunst" before the one named "kunsta": repetition outweighs a full match.
* C106: product numbers that add up past 2^32 wrap in the page's build, which loads such a file; natively it is refused.
* C105: the column `product_amount` counts occurrences; a product whose text has an n-gram twice counts twice.

## How the theorems were tried against wrong programs

A script outside this directory copies the Lean project, makes one edit to a model definition, and compiles the whole
project with failing proofs replaced by `sorry`. A claim is hit when one of its manifest theorems then depends on a
failed proof. A claim that the edit makes false but that is not hit is tightened. Each attempt is a line in
`seeded/LOG.jsonl`.

## That the hypotheses can be met

`Props/Shop.lean` builds, writes and loads a catalogue of five products with the kernel's evaluator.
`Props/Instances.lean` applies the theorems with hypotheses to it (or to the small cases beside the theorems), one `example` each.
## Axioms per theorem

* none: `C02_bool`, `C02_u8`, `C113_nothing`, `C46_trans_false`, `C96_occurs`, `F32.special_inf_fin`, `F32.special_inf_inf`
* propext: `C111_size`, `C39_name`, `C39_tag_name`, `C41_false`, `F32.special_nan`, `F32.special_zero`, `F32.toUsize_spec`
* Quot.sound, propext: `C02_f32`, `C06`, `C06_nospace`, `C101_order`, `C101_write`, `C103_sorting`, `C104_conditions`, `C104_exact`, `C104_ids`, `C105_exact`, `C105_index`, `C105_products`, `C110_count`, `C112_more`, `C113_bound`, `C113_exact`, `C113_tight`, `C119_false`, `C15_getOrInsert`, `C39_categories`, `C39_tags`, `C40_engine`, `C40_float`, `C40_words`, `C41_exact`, `C44`, `C44_reports`, `C45_exact`, `C45_partial`, `C51`, `C81_counts`, `C81_exact`, `F32.special_ordered`
* Classical.choice, Quot.sound, propext: `C01_band`, `C01_false`, `C01_iff`, `C01_partial`, `C02_char`, `C02_u32`, `C02_usize`, `C03`, `C04_array`, `C04_map`, `C04_vec`, `C05`, `C05_count`, `C06_cut_iff`, `C06_space`, `C07_false_assert`, `C07_false_capacity`, `C07_false_overflow`, `C07_false_slice`, `C07_partial`, `C08_suffix`, `C08_trailing`, `C08_trailing_any`, `C08_trailing_needed`, `C09`, `C09_file`, `C100_features`, `C100_ignored`, `C100_options`, `C100_orders`, `C100_page`, `C100_tags`, `C100_text`, `C101_built`, `C101_comparable`, `C101_engine`, `C101_engine_strict`, `C101_false`, `C101_false_prices`, `C101_file`, `C101_index`, `C101_prices`, `C101_prices_iff`, `C101_prices_strict`, `C101_reloaded`, `C101_search`, `C101_search_iff`, `C101_unparsable`, `C102_amounts`, `C102_equal`, `C102_false`, `C102_growth`, `C102_order`, `C102_postings`, `C102_size`, `C102_table`, `C102_trees`, `C103_bound`, `C103_categories`, `C103_classic`, `C103_counts`, `C103_family`, `C103_grams`, `C103_index`, `C103_quadratic`, `C104_bound`, `C104_built`, `C104_call`, `C104_counts`, `C104_file`, `C104_index`, `C104_nothing`, `C105_false`, `C105_order`, `C105_table`, `C105_total`, `C106_checks`, `C106_false`, `C106_moves`, `C106_same`, `C107_dominates`, `C107_equal`, `C107_false`, `C107_longer`, `C108_built`, `C108_confidence`, `C108_engine`, `C108_false`, `C108_kept`, `C109_counts`, `C109_false`, `C109_hit`, `C10_exact`, `C10_false`, `C11`, `C110_bound`, `C110_ones`, `C110_stays`, `C111_builds`, `C111_flood`, `C111_nothing`, `C111_page`, `C112_built`, `C112_engine`, `C112_false`, `C112_same`, `C112_unique`, `C113_file`, `C114_equal`, `C114_false`, `C114_nan`, `C114_products`, `C114_self`, `C114_symm`, `C114_trans`, `C115_masked`, `C115_misspelt`, `C115_never`, `C115_typo`, `C115_unfindable`, `C116_hidden`, `C116_lost`, `C116_page`, `C116_shown`, `C116_tag`, `C117`, `C117_false`, `C117_length`, `C118`, `C118_false`, `C118_ordered`, `C118_page`, `C118_place`, `C118_top`, `C119`, `C119_history`, `C119_join`, `C11_sorted`, `C12`, `C120`, `C120_owner_false`, `C120_pictures`, `C120_texts`, `C121`, `C121_ascending`, `C121_checked`, `C121_false`, `C121_false_order`, `C121_false_vendor`, `C121_ranks`, `C121_search`, `C121_written`, `C122`, `C122_byte`, `C122_false`, `C122_search`, `C123_category`, `C123_option`, `C123_tag`, `C124`, `C124_page`, `C124_search`, `C125`, `C13`, `C13_empty`, `C14`, `C15`, `C15_reload`, `C16`, `C16_reload`, `C17_exact`, `C17_false`, `C17_partial`, `C18`, `C19`, `C20`, `C21_path_iff_substring`, `C21_weight`, `C22_ascending`, `C22_cutoff`, `C22_postings`, `C23_roots`, `C23_weights`, `C24`, `C25_best_first`, `C25_distinct`, `C26_justified`, `C26_padded`, `C27_exact`, `C28_false`, `C28_partial`, `C28_small_n`, `C29_nul_needed`, `C29_short_query`, `C30_no_postings`, `C30_two_products`, `C31_case`, `C31_lowercased`, `C32_finite`, `C32_gram`, `C32_results`, `C33`, `C33_history`, `C33_inRange_categories`, `C33_inRange_tags`, `C33_more`, `C33_parsed`, `C34`, `C34_any`, `C34_ranked`, `C34_unknown`, `C35_false`, `C35_ignored`, `C35_never`, `C35_partial`, `C36`, `C36_not_object`, `C37_categories`, `C37_tags`, `C38_categories`, `C38_tags`, `C39_options`, `C40`, `C41_partial`, `C42`, `C42_before`, `C42_failed`, `C42_serves_partial`, `C43_atomic`, `C43_false`, `C43_false_lasting`, `C43_finishes`, `C43_no_deadlock`, `C43_partial`, `C43_unordered`, `C44_search`, `C45_false`, `C46_meaning`, `C46_refl`, `C46_symm`, `C46_trans_partial`, `C47_popular_chain`, `C48_gram_total`, `C48_search_total`, `C49_container`, `C49_false`, `C49_partial`, `C49_postings`, `C49_same_lookups`, `C49_small_n`, `C49_trees`, `C50_false`, `C50_partial`, `C52_other`, `C52_panics`, `C52_read`, `C53_dead`, `C53_exact`, `C53_false`, `C53_fatal`, `C53_partial`, `C54_found_iff`, `C55_false`, `C55_partial`, `C56`, `C58_files`, `C58_lookups`, `C58_postings`, `C58_results`, `C58_small_n`, `C58_trees`, `C59_confidence`, `C59_engine`, `C59_kept`, `C60`, `C61`, `C62`, `C62_products`, `C63`, `C63_table`, `C64`, `C64_escaped`, `C65`, `C65_outcome`, `C66`, `C67`, `C67_bound`, `C67_strict`, `C67_weak`, `C68_false`, `C68_partial`, `C69`, `C69_some`, `C78_crafted`, `C78_enough`, `C78_window`, `C78_written`, `C79_bytes`, `C79_rounds`, `C80_nodes`, `C80_nodes_le`, `C80_postings`, `C81_any`, `C81_built`, `C81_five`, `C81_least`, `C82`, `C82_loads`, `C82_text`, `C83_deterministic`, `C83_found`, `C83_found_iff`, `C83_lookup`, `C84`, `C84_loaded`, `C84_same`, `C85`, `C85_small`, `C86`, `C86_lost`, `C86_overflow`, `C86_safe`, `C86_wrap`, `C87_busy`, `C87_categories`, `C87_clean`, `C87_depth`, `C87_get`, `C87_inside`, `C87_leak`, `C87_notified`, `C87_silent`, `C87_stack`, `C87_status`, `C87_tag_notified`, `C87_tag_status`, `C87_tags`, `C87_unbounded`, `C88_cost`, `C88_kept`, `C88_leak`, `C88_load`, `C88_nodes`, `C88_product`, `C88_written`, `C89_kept`, `C89_no_dangling`, `C89_references`, `C89_values`, `C90`, `C90_edge`, `C90_exact`, `C91`, `C91_again`, `C91_newer`, `C91_text`, `C92_busy`, `C92_categories`, `C92_clean`, `C92_engine`, `C92_exact`, `C92_free`, `C92_freed`, `C92_get`, `C92_history`, `C92_item`, `C92_plain`, `C92_refused`, `C92_safe`, `C92_search`, `C92_shared`, `C92_status`, `C92_tags`, `C92_threw`, `C92_unbounded`, `C92_values`, `C93_both`, `C93_forever`, `C93_free`, `C93_lost`, `C93_one`, `C93_state`, `C94_bytes`, `C94_offers`, `C94_product`, `C94_results`, `C94_scores`, `C94_search`, `C94_vendor`, `C94_vendors`, `C95_array`, `C95_exact`, `C95_length`, `C95_round`, `C95_written`, `C96_deterministic`, `C96_exact`, `C96_found`, `C96_lent`, `C96_lookup`, `C96_small`, `C97_answer`, `C97_ask`, `C97_orders`, `C97_received`, `C97_same`, `C97_shown`, `C97_suggest`, `C97_wellFormed`, `C98_categories`, `C98_kept`, `C98_nodes`, `C98_orders`, `C98_paths`, `C98_postings`, `C98_products`, `C98_selections`, `C98_tags`, `C98_untouched`, `C99_erase`, `C99_exact`, `C99_least`, `C99_linear`, `C99_loaded`, `C99_tight`, `deNodeTop_eq`, `limit_nil_iff`, `nearest_iff`, `parseJson_iff`
