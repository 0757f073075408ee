{"id": "C01", "title": "Every u64 written is read back", "statement": "Serialising any u64 and deserialising the bytes, whatever bytes follow in the stream, yields the same u64 and leaves exactly the following bytes unread.", "quantifier": "all 2^64 values and all byte strings that may follow", "why_tests_cant": "2^64 values times every continuation; the repo's test checks six values with nothing following", "anchors": ["src/serialize/primitives.rs: impl Serializable for u64, impl Deserializable for u64"]}
{"id": "C02", "title": "Every scalar of the file format is read back", "statement": "For every u32, usize that fits the reader's word size, char, bool, u8 and f32 bit pattern (NaN payloads and signed zero included), deserialising its serialisation followed by any bytes returns the identical value and exactly those following bytes; a usize larger than the reader's word is refused, not truncated.", "quantifier": "all values of each type, reader word sizes 32 and 64, all following bytes", "why_tests_cant": "value domains of up to 2^32 times every continuation and both word sizes", "anchors": ["src/serialize/primitives.rs: char, f32, bool, usize, u32, u8 impls"]}
{"id": "C03", "title": "Every string is read back", "statement": "Serialising any Unicode string and deserialising it with any bytes after it returns the same string and exactly those bytes.", "quantifier": "all finite strings over all Unicode scalar values, all following bytes", "why_tests_cant": "unbounded strings; multi-byte boundaries and 1-, 2-, n-byte length prefixes", "anchors": ["src/serialize/collections.rs: impl Serializable for &str/String, impl Deserializable for String"]}
{"id": "C04", "title": "Vectors, arrays and maps are read back", "statement": "If every element (key, value) of a vector, fixed array or hash map is read back by its own codec, the whole collection is: a vector in the same order, a map with the same key/value pairs whatever order the hash table happened to iterate in.", "quantifier": "all element codecs, all lengths, all hash-table iteration orders, all following bytes", "why_tests_cant": "iteration order is randomly seeded; lengths unbounded", "anchors": ["src/serialize/collections.rs: Vec, AHashMap, [T; N] impls"]}
{"id": "C05", "title": "Compressed product-id lists keep exactly the ids", "statement": "Writing a list of product ids in the delta format, in any order and with repetitions, and reading it back returns the same ids with the same multiplicities in ascending order, and consumes exactly what was written.", "quantifier": "all finite lists of word-size ids, all following bytes, both word sizes, overflow checks on or off", "why_tests_cant": "unbounded lists; deltas and running sums must never lose or overflow", "anchors": ["src/serialize/sequential_array.rs: serialize, deserialize", "src/data/product.rs: serialize_to_sequential_array"]}
{"id": "C06", "title": "Stored descriptions are bounded prefixes cut at a space", "statement": "The description stored for a limit of L bytes is a prefix of the original ending on a character boundary, is at most L+4 bytes, is the whole string when that string is at most L bytes long, and when it is cut while a space starts in the first L+1 bytes, it is cut exactly before the last such space.", "quantifier": "all strings and all limits", "why_tests_cant": "all positions of spaces and multi-byte characters around the limit", "anchors": ["src/serialize/collections.rs: limit_string_len, serialize_string_with_limit"]}
{"id": "C07", "title": "Loading bytes that are not an index does not crash", "statement": "Deserialising arbitrary bytes either succeeds or reports failure; it does not panic.", "quantifier": "all byte strings", "why_tests_cant": "all malformed inputs", "anchors": ["src/serialize/collections.rs: impl Deserializable for String, [T; N]", "src/serialize/all_indexes.rs: deserialize_all"]}
{"id": "C08", "title": "Loading never reads backwards or invents bytes, and ignores trailing data", "statement": "Whatever the input bytes, decoding terminates and what is left unread is a suffix of the input; a valid index file followed by any extra bytes loads to the same result as the file alone.", "quantifier": "all byte strings; all valid files and all trailing bytes", "why_tests_cant": "all inputs including adversarial nesting", "anchors": ["src/serialize/all_indexes.rs: deserialize_all", "src/serialize/nodes.rs: GramNode::deserialize_arena"]}
{"id": "C09", "title": "A written index file reloads to the same index", "statement": "For every catalogue, the bytes produced by indexing, when loaded, give back every product (id, title, vendor, limited description, position), every vendor, every extra feature, the same n-gram tree and posting lists, and the same categories, options, tags and orders.", "quantifier": "all catalogues, all hash-table orders, any n-gram size, reader word sizes 32 and 64", "why_tests_cant": "the combination of all codecs over all catalogues", "anchors": ["src/serialize/all_indexes.rs: serialize_all, deserialize_all", "src/serialize/nodes.rs", "src/data/container.rs", "src/classic_indexes/mod.rs"]}
{"id": "C10", "title": "The reloaded index compares equal to the original", "statement": "After a write and reload the reloaded indexes are equal to the originals under the crate's own equality (what the crate's serialisation test asserts).", "quantifier": "all catalogues", "why_tests_cant": "the test asserts it for one catalogue; it depends on description and option layout", "anchors": ["src/serialize/mod.rs: test_serialize_and_deserialize", "src/data/product.rs: impl PartialEq", "src/classic_indexes/categorical.rs: CategoryOption"]}
{"id": "C11", "title": "Reloading does not change search results", "statement": "For every catalogue and query, searching the reloaded index returns the same products with bit-identical confidences as searching the index before it was written (up to the order of equal confidences).", "quantifier": "all catalogues, all queries, all hash orders before and after", "why_tests_cant": "all queries times all catalogues", "anchors": ["src/ngram/index.rs: search", "src/serialize/nodes.rs"]}
{"id": "C12", "title": "Whatever loads is internally consistent", "statement": "If any byte string loads successfully, product k reports position k, each product's vendor is the vendor table's entry at the vendor's id, and every posting list, tag and option refers only to existing products; tag ids equal their positions.", "quantifier": "all byte strings that load", "why_tests_cant": "adversarial or damaged files cannot be enumerated", "anchors": ["src/data/container.rs: ProductContainer::deserialize", "src/data/product.rs: deserialize_from_sequential_ids", "src/classic_indexes/tag.rs: TagIndex::deserialize"]}
{"id": "C13", "title": "An index built for another n-gram size cannot be loaded by mistake", "statement": "Loading a file whose posting lists were built for n-gram size M as size N, M different from N, never yields an index.", "quantifier": "all catalogues with a non-empty posting table, all M and N", "why_tests_cant": "all size pairs and catalogues", "anchors": ["src/serialize/collections.rs: impl Deserializable for [T; N]", "src/serialize/nodes.rs: GramIndex::deserialize"]}
{"id": "C14", "title": "Each product keeps its own data when indexed", "statement": "After indexing, the product at position i has the id, title, description and vendor name of the i-th input product and position i, and there are exactly as many products as inputs.", "quantifier": "all input lists", "why_tests_cant": "all lists", "anchors": ["src/data/raw_parser.rs: optimize"]}
{"id": "C15", "title": "The vendor table is duplicate-free and densely numbered", "statement": "After any sequence of insertions each distinct vendor name occurs exactly once, numbered 0,1,2,... in order of first appearance; looking a name up returns its number, and the table survives write and reload.", "quantifier": "all sequences of vendor names", "why_tests_cant": "all histories of insertions", "anchors": ["src/data/vendor.rs: VendorManager"]}
{"id": "C16", "title": "Every product reports its own price", "statement": "The numeric feature price of the i-th product is the parse of the i-th input's minimum price amount, before and after reload.", "quantifier": "all input lists", "why_tests_cant": "alignment between products and feature columns over all catalogues", "anchors": ["src/data/raw_parser.rs: to_intermediate, optimize", "src/data/features.rs: FeatureSet::get", "src/js_interactable/product_producer.rs: numeric_feature"]}
{"id": "C17", "title": "Every product reports its own image", "statement": "The string feature image_url of a product is the url of that product's first media item, and absent when it has none.", "quantifier": "all input lists", "why_tests_cant": "misalignment appears only for catalogues with missing media", "anchors": ["src/data/raw_parser.rs: to_intermediate, optimize", "src/data/features.rs: add_string", "src/js_interactable/product_producer.rs: string_feature"]}
{"id": "C18", "title": "Tag membership is exactly what the catalogue says", "statement": "After indexing there is exactly one tag per distinct tag name used, its id is its position, and it contains a product iff that product's input lists that name.", "quantifier": "all input lists, all hash orders", "why_tests_cant": "all catalogues and orders", "anchors": ["src/classic_indexes/tag.rs: TagIndex::index, Tag::contains"]}
{"id": "C19", "title": "Category membership is exactly what the catalogue says", "statement": "After indexing, category names are unique, option names unique within a category, an option exists iff some input gives that value for that category name, and it contains a product iff that product's input gives it; each product is listed once per option in ascending position.", "quantifier": "all input lists", "why_tests_cant": "all catalogues, repeated options and values", "anchors": ["src/classic_indexes/categorical.rs: CategoryIndex::index, CategoryOption::add, contains"]}
{"id": "C20", "title": "Orders are permutations that sort the catalogue", "statement": "Each stored order assigns distinct ranks 0..n-1 to the products; ranks follow title order for Alphabetical, ascending price for Price low to high and descending price for Price high to low (no NaN price), equal keys ranked by position. Exactly these three orders are offered.", "quantifier": "all catalogues", "why_tests_cant": "all catalogues with ties", "anchors": ["src/classic_indexes/order.rs: add, add_custom_cmp", "src/data/raw_parser.rs: optimize"]}
{"id": "C21", "title": "The n-gram tree counts substrings exactly", "statement": "In the built tree a path of at most N grams exists iff it occurs as consecutive grams inside one product's text, and its weight is the f32 quotient of its number of occurrences by its parent's (the total number of grams for roots).", "quantifier": "all feeds of texts, all N >= 1, all paths up to N", "why_tests_cant": "all texts; the sliding queue must neither miss nor double count", "anchors": ["src/ngram/indexer.rs: index_from, immutalize, occurances_to_weight"]}
{"id": "C22", "title": "Posting lists contain exactly the products with that n-gram", "statement": "The posting list of an n-gram is, when kept, the products in ascending position, each repeated once per occurrence of the n-gram in its front-padded text; it is kept iff its length is below the cut-off computed from the product count.", "quantifier": "all feeds, all N >= 1, all n-grams", "why_tests_cant": "all texts and lengths around the cut-off", "anchors": ["src/ngram/indexer.rs: index_from (lookback, data_map, retain, sort)"]}
{"id": "C23", "title": "Tree weights are sane and popularity-sorted", "statement": "Every weight in a built tree is a finite f32 in (0,1], children are listed by non-increasing weight, and no two siblings carry the same gram.", "quantifier": "all feeds with fewer than 2^32 grams, all hash orders", "why_tests_cant": "float rounding over all count pairs", "anchors": ["src/ngram/indexer.rs: immutalize", "src/ngram/index.rs: GramNode"]}
{"id": "C24", "title": "Indexing panics only for an unparsable price", "statement": "Optimising a catalogue panics iff some product's minimum price amount does not parse as a float; no other input makes it panic.", "quantifier": "all input lists", "why_tests_cant": "all inputs", "anchors": ["src/data/raw_parser.rs: optimize, to_intermediate"]}
{"id": "C25", "title": "Search results are duplicate-free and best first", "statement": "A search returns no two products with the same id, and results come in non-increasing confidence.", "quantifier": "all built indexes, all queries, all hash orders", "why_tests_cant": "ordering of floats under all inputs and random hash iteration", "anchors": ["src/ngram/result_ranker.rs: ResultRanker", "src/ngram/index.rs: search"]}
{"id": "C26", "title": "Every search hit is justified by the text", "statement": "Every returned product contains N consecutive (lower-cased) characters of description+title+vendor that are within N/3 single-character edits of a prefix of some N consecutive query characters and start with the same character.", "quantifier": "all catalogues without NUL characters, all queries, all N", "why_tests_cant": "all texts, queries and fuzzy paths", "anchors": ["src/ngram/index.rs: search, search_gram, recursive_search", "src/ngram/indexer.rs: index_from"]}
{"id": "C27", "title": "A present n-gram is never answered worse than by itself", "statement": "If the exact query n-gram occurs in some product's text, the fuzzy lookup answers, and its confidence is at least that of the exact path.", "quantifier": "all indexes, all query n-grams, all N >= 1", "why_tests_cant": "all branchings of the fuzzy search", "anchors": ["src/ngram/index.rs: search_gram, recursive_search"]}
{"id": "C28", "title": "A product containing the query text is found", "statement": "If a product's text contains an n-gram of the query, whose posting list is kept, that product is among the results.", "quantifier": "all catalogues and queries", "why_tests_cant": "depends on competing n-grams elsewhere in the catalogue", "anchors": ["src/ngram/index.rs: recursive_search, search"]}
{"id": "C29", "title": "Queries shorter than N find nothing", "statement": "For a catalogue without NUL characters any query of fewer than N characters returns no results.", "quantifier": "all such catalogues and queries", "why_tests_cant": "all catalogues", "anchors": ["src/ngram/index.rs: search, search_gram"]}
{"id": "C30", "title": "Catalogues of at most two products are unsearchable", "statement": "With at most two products every posting list is cut off, so every query returns no results.", "quantifier": "all catalogues of at most two products, all queries", "why_tests_cant": "all texts; float cut-off boundary", "anchors": ["src/ngram/indexer.rs: DATA_CUTOFF_PERCENTAGE, index_from"]}
{"id": "C31", "title": "Search ignores letter case", "statement": "Two queries with the same per-character lower-casing give identical answers.", "quantifier": "all queries and states", "why_tests_cant": "all query pairs", "anchors": ["src/lib.rs: search"]}
{"id": "C32", "title": "Confidences are positive numbers", "statement": "In a built index with N <= 5 and fewer than 2^32 grams every n-gram confidence is a finite float in (0,1], and every reported result confidence is positive and not NaN.", "quantifier": "all such catalogues and queries", "why_tests_cant": "float underflow over all products of weights", "anchors": ["src/ngram/index.rs: recursive_search", "src/ngram/result_ranker.rs: add"]}
{"id": "C33", "title": "Filters are exact conjunctions and only remove", "statement": "The products of a filtered search are exactly the products of the unfiltered search, in the same order, that satisfy every active category option, every active tag and every feature filter; activating more filters never adds a product.", "quantifier": "all states, queries, selections", "why_tests_cant": "all selections and catalogues", "anchors": ["src/lib.rs: search", "src/js_interactable/category_handler.rs: is_valid", "src/js_interactable/tag_handler.rs: is_valid"]}
{"id": "C34", "title": "Ordering a search permutes it", "statement": "Asking for an existing order returns the same products arranged by that order's rank (so by title or price); an unknown order yields no producer.", "quantifier": "all states loaded from a written index, queries, orders", "why_tests_cant": "all catalogues and result subsets", "anchors": ["src/lib.rs: search", "src/classic_indexes/order.rs: get_orders"]}
{"id": "C35", "title": "An exact feature filter keeps only equal products", "statement": "A feature filter given as {exact: v} keeps exactly the products whose feature equals v.", "quantifier": "all filters and products", "why_tests_cant": "all filter values", "anchors": ["src/js_interactable/feature_filter.rs: parse, filter"]}
{"id": "C36", "title": "Range filters are inclusive on the given bounds", "statement": "A filter {from, to} keeps exactly the products having that feature as a number f with from <= f (if from is a number) and f <= to (if to is a number); if neither is a number it keeps everything.", "quantifier": "all bound values of any JS type, all features", "why_tests_cant": "all value combinations including NaN", "anchors": ["src/js_interactable/feature_filter.rs: parse, filter"]}
{"id": "C37", "title": "A selection is the parity of its toggles", "statement": "After any sequence of toggles on a handler an option (tag) is active iff it was toggled an odd number of times, independently of all other operations.", "quantifier": "all operation sequences on category and tag handlers", "why_tests_cant": "all histories", "anchors": ["src/js_interactable/category_handler.rs: toggle, get_status", "src/js_interactable/tag_handler.rs: toggle, get_status"]}
{"id": "C38", "title": "Observers hear every toggle exactly once", "statement": "Each toggle calls each currently registered observer of that option once per registration, then each general observer once per registration, all with the new state, even if some throw; removing a listener removes one registration.", "quantifier": "all operation sequences", "why_tests_cant": "all histories of registrations, removals and toggles", "anchors": ["src/js_interactable/category_handler.rs: toggle, add_option_lister, remove_option_listener", "src/js_interactable/tag_handler.rs: same"]}
{"id": "C39", "title": "Iterators enumerate everything once", "statement": "The category, option and tag iterators hand out every category, option and tag once in index order and then return nothing forever.", "quantifier": "all indexes, all numbers of calls", "why_tests_cant": "all lengths and call counts", "anchors": ["src/js_interactable/category_handler.rs: CategoryIter, CategoryOptionIter", "src/js_interactable/tag_handler.rs: TagIter"]}
{"id": "C40", "title": "A suggested tag really resembles the query", "statement": "A suggestion names an existing tag and a space-separated word of the query whose similarity exceeds 0.8 and is maximal over all word/tag pairs (first pair in case of ties); none is given iff no pair exceeds 0.8.", "quantifier": "all tag sets and queries", "why_tests_cant": "all pairs; float threshold", "anchors": ["src/lib.rs: tag_suggestion"]}
{"id": "C41", "title": "Typing a tag name suggests a tag", "statement": "If a word of the query is exactly a tag's name and has at least 3 characters, a suggestion with full similarity is given.", "quantifier": "all tag sets and queries", "why_tests_cant": "all names, including non-ASCII", "anchors": ["src/lib.rs: tag_suggestion overlap"]}
{"id": "C42", "title": "The engine serves the last successful load", "statement": "Before a successful initialise every query function returns nothing; afterwards they serve the most recently successfully initialised file; a failing initialise leaves the previous one in place.", "quantifier": "all call histories (single thread)", "why_tests_cant": "all histories", "anchors": ["src/lib.rs: initialize, search, get_categories, get_tags, get_orders, tag_suggestion"]}
{"id": "C43", "title": "Concurrent initialise and search see one index", "statement": "With calls from several threads a search never mixes the n-gram index of one file with the orders of another, and no deadlock occurs.", "quantifier": "all interleavings of any number of calls", "why_tests_cant": "all schedules", "anchors": ["src/lib.rs: SHARED_INDEX, SHARED_CLASSIC_INDEX, initialize, search"]}
{"id": "C44", "title": "A result producer yields each result once, in order", "statement": "Successive next_product calls yield the found products in order, each once, then nothing forever; each yielded product reports its own title, description, id and features.", "quantifier": "all searches and call counts", "why_tests_cant": "all lengths and call counts", "anchors": ["src/js_interactable/product_producer.rs"]}
{"id": "C45", "title": "Numeric id is the trailing number of the id", "statement": "Product::get_id returns the number written by the id's trailing decimal digits (0 when none).", "quantifier": "all ids", "why_tests_cant": "ids with 20 or more digits overflow", "anchors": ["src/data/product.rs: Product::get_id"]}
{"id": "C46", "title": "Product equality is an equivalence", "statement": "Equality of products is reflexive, symmetric and transitive, as Eq promises.", "quantifier": "all products", "why_tests_cant": "all triples", "anchors": ["src/data/product.rs: impl PartialEq, impl Eq"]}
{"id": "C47", "title": "The popular chain follows the most frequent continuation", "statement": "most_popular_chain starts with the given gram when it is indexed, follows at each step a child of maximal weight until a leaf, and has at most N grams; it is empty for an unknown gram.", "quantifier": "all indexes and grams", "why_tests_cant": "all trees", "anchors": ["src/ngram/index.rs: most_popular_chain"]}
{"id": "C48", "title": "Search terminates without arithmetic or index panics", "statement": "For 1 <= N <= 764 the n-gram search on any tree, whatever its shape or weights, terminates without overflow or out-of-range access.", "quantifier": "all trees, queries, 1 <= N <= 764", "why_tests_cant": "all trees", "anchors": ["src/ngram/index.rs: search_gram, recursive_search"]}
{"id": "C49", "title": "Indexing is deterministic", "statement": "Indexing the same catalogue twice yields the same search results for every query.", "quantifier": "all catalogues, queries and pairs of hash orders", "why_tests_cant": "depends on random hash seeds", "anchors": ["src/ngram/indexer.rs: immutalize", "src/ngram/index.rs: best_result"]}
{"id": "C50", "title": "Handlers keep filtering correctly after a re-load", "statement": "Filters chosen with handlers obtained before a second initialise apply correctly to searches after it.", "quantifier": "all histories with more than one load", "why_tests_cant": "history-dependent", "anchors": ["src/lib.rs: search", "src/js_interactable/category_handler.rs: handle"]}
{"id": "C51", "title": "The padded query gram is the first N-1 grams", "statement": "n_gram_with_1_padding returns the next N-1 grams followed by the default gram, or nothing when fewer are left.", "quantifier": "all N >= 1, all inputs", "why_tests_cant": "all lengths", "anchors": ["src/ngram/index.rs: n_gram_with_1_padding"]}
{"id": "C52", "title": "Feature columns are typed append-only lists", "statement": "Adding values under a key appends to that key's column only; reading position i returns the i-th added value with its type; adding a value of another type panics and never changes the column.", "quantifier": "all operation sequences", "why_tests_cant": "all histories", "anchors": ["src/data/features.rs: FeatureSet, Feature"]}
{"id": "C53", "title": "One bad call does not kill the engine", "statement": "After a panicking call later calls still work.", "quantifier": "all call histories", "why_tests_cant": "depends on lock poisoning history", "anchors": ["src/lib.rs: SHARED_INDEX.lock(), initialize, search"]}
{"id": "C54", "title": "Exactly which products a search finds", "statement": "A product id is among the results iff some window of the NUL-padded query is looked up as an n-gram whose posting list is below the cut-off and a product with that id has that n-gram in its NUL-padded text.", "quantifier": "all catalogues, all queries, 1 <= N <= 764, all hash orders", "why_tests_cant": "all catalogues and queries", "anchors": ["src/ngram/index.rs: search, search_gram", "src/ngram/result_ranker.rs: add, export", "src/ngram/indexer.rs: index_from"]}
{"id": "C55", "title": "A truncated file is never accepted", "statement": "No proper prefix of a written index file loads.", "quantifier": "all catalogues, all truncation points", "why_tests_cant": "all catalogues and cut points; depends on where multi-byte numbers end", "anchors": ["src/serialize/primitives.rs: u64 deserialize", "src/serialize/all_indexes.rs: deserialize_all"]}
{"id": "C56", "title": "Loading bytes can only fail in known ways", "statement": "Loading any bytes gives an index, or None, or a panic that is a string slice past the end, the array length assertion (with overflow checks) an overflowing product number, or a length for which no memory can be reserved.", "quantifier": "all byte strings, both word sizes, with and without overflow checks", "why_tests_cant": "all byte strings", "anchors": ["src/serialize/collections.rs", "src/serialize/all_indexes.rs: deserialize_all"]}
{"id": "C57", "title": "Exactly when a reloaded index equals the original", "statement": "The reloaded indexes equal the originals under the crate's own equality iff no description is cut to nothing, no price is NaN and the options were numbered category by category.", "quantifier": "all catalogues", "why_tests_cant": "all catalogues", "anchors": ["src/serialize/all_indexes.rs", "src/data/product.rs: PartialEq", "src/classic_indexes/categorical.rs"]}
{"id": "C58", "title": "The order of the catalogue does not matter", "statement": "Indexing the same products in another order, as the hash table the catalogue is read into may hand them out, gives trees with the same paths and bit-identical weights, posting lists with the same ids, and for every query whose windows are looked up alike (always when N <= 2) the same ids with bit-identical confidences, also after writing and loading the files.", "quantifier": "all catalogues, all reorderings, all hash orders, all queries, 1 <= N <= 764", "why_tests_cant": "depends on the random iteration order of a hash table over every catalogue", "anchors": ["src/main.rs: main", "src/lib.rs: index_and_serialize", "src/ngram/indexer.rs: index_from"]}
{"id": "C59", "title": "Typing more never loses a result", "statement": "Appending characters to a query keeps every id found before, at a confidence that is not lower.", "quantifier": "all catalogues, queries, continuations, hash orders, 1 <= N <= 764", "why_tests_cant": "all queries and continuations; depends on float rounding", "anchors": ["src/ngram/index.rs: search", "src/ngram/result_ranker.rs: add, export"]}
{"id": "C60", "title": "The confidence of a result, exactly", "statement": "The confidence of an id is the f32 sum, taken left to right in window order, of one term per window of the NUL-padded query and per occurrence of the looked-up n-gram in the product's NUL-padded text; an id without any term is not returned.", "quantifier": "all catalogues, queries, hash orders, 1 <= N <= 764", "why_tests_cant": "float summation order for every catalogue and query", "anchors": ["src/ngram/index.rs: search", "src/ngram/result_ranker.rs: add, export"]}
{"id": "C61", "title": "Letter case of the catalogue does not matter", "statement": "Catalogues that differ only in the letter case of titles, descriptions and vendors give every n-gram the same confidence, and the same ids and confidences for every query whose windows are looked up alike (always when N <= 2).", "quantifier": "all pairs of such catalogues, all queries and hash orders, 1 <= N <= 764", "why_tests_cant": "all catalogues", "anchors": ["src/ngram/indexer.rs: index_from", "src/lib.rs: index_and_serialize"]}
{"id": "C62", "title": "A loaded index is no larger than its file", "statement": "Whatever the bytes, the index loaded from them has together no more text bytes, products, options, nodes, ranks and posting entries than the file has bytes, so a short file can never fill the memory.", "quantifier": "all byte strings, both word sizes, all N", "why_tests_cant": "all byte strings; a nested or repeated length could expand without bound", "anchors": ["src/serialize/all_indexes.rs: deserialize_all", "src/serialize/collections.rs", "src/serialize/primitives.rs"]}
{"id": "C63", "title": "Which catalogue texts are read, and as what", "statement": "A text is read as a catalogue iff it is a JSON object (by the JSON grammar) whose values are products: each field exactly once (or all in order in an array), unknown fields skipped, titles, vendors, ids, tags, options and urls written without escapes; the hash table then holds for every key the last entry with that key.", "quantifier": "all texts", "why_tests_cant": "all texts, escapes, field orders and repetitions", "anchors": ["src/lib.rs: index", "src/main.rs: main", "src/data/raw_parser.rs: RawProduct, RawProductOption, ProductPrice, CurrencyAmount, MediaItem"]}
{"id": "C64", "title": "Which catalogues can be written at all", "statement": "Some text is read as a given list of entries iff no title, vendor, id, tag, option name or value, or image url of them contains a quotation mark, a backslash or a control character; otherwise no text is (the fields are borrowed string slices, which serde refuses to make from escaped literals).", "quantifier": "all lists of entries", "why_tests_cant": "all catalogues and all texts", "anchors": ["src/data/raw_parser.rs: RawProduct<'a> (&'a str fields), RawProductOption, MediaItem"]}
{"id": "C65", "title": "From the catalogue text to the loaded file", "statement": "The file indexed from a text loads and holds exactly the entries of the text that no later entry with the same key replaces, each with its id, title, vendor, lowest price and the beginning of its description. Indexing answers nothing iff the text is no catalogue, and panics iff the lowest price of an entry that is not replaced is no number.", "quantifier": "all texts, hash orders, 1 <= N <= 764, both word sizes", "why_tests_cant": "all texts; depends on the hash order", "anchors": ["src/lib.rs: index, index_and_serialize_with_n", "src/data/raw_parser.rs: optimize, to_intermediate"]}
{"id": "C66", "title": "Which texts are prices, and which number they become", "statement": "A price text is accepted iff it is an optional sign followed by a decimal number (digits with at most one point, at least one digit, optional power of ten) or by inf, infinity or nan in any letter case; a decimal number becomes the f32 nearest to the number written, ties to even, infinite from the midpoint above the largest f32 on. Every other text makes indexing panic (C24, C65).", "quantifier": "all texts", "why_tests_cant": "all texts and all roundings", "anchors": ["src/data/raw_parser.rs: to_intermediate (price.min.amount.parse().unwrap())"]}
{"id": "C67", "title": "Price orders are those of the written prices", "statement": "If every lowest price of the catalogue is written in whole cents up to 131072.00, the catalogue is indexed and both price orders rank the products exactly by these cents, equal prices by position; the bound is sharp (131072.01 and 131072.02 are stored alike). Whatever the prices, one written as at least another is never ordered before it.", "quantifier": "all catalogues, all prices, all hash orders", "why_tests_cant": "depends on f32 rounding of every pair of prices", "anchors": ["src/data/raw_parser.rs: optimize, to_intermediate", "src/classic_indexes/order.rs: add_custom_cmp"]}
{"id": "C68", "title": "Price ranges are those of the written prices", "statement": "A price filter keeps exactly the products whose written lowest price lies within the bounds.", "quantifier": "all catalogues, prices, bounds, queries and handlers", "why_tests_cant": "depends on f32 and f64 rounding of every price and bound", "anchors": ["src/js_interactable/feature_filter.rs", "src/data/features.rs", "src/data/raw_parser.rs: to_intermediate"]}
{"id": "C69", "title": "Exactly which truncated files load, and what is damaged", "statement": "A written file without its last bytes loads iff the cut falls between the base-128 digits of the last rank of the order written last, or between the digits of the number of its ranks where all digits left are zero. Everything but that order is then loaded as from the whole file; the order has its last rank reduced modulo a power of 128, or no ranks. Some truncation loads iff the number of products is a positive multiple of 128 or the last product ranks 128th or later in that order.", "quantifier": "all catalogues, hash orders, truncation points, both word sizes, 1 <= N <= 764", "why_tests_cant": "all catalogues and cut points; depends on where multi-byte numbers end", "anchors": ["src/serialize/primitives.rs: u64 deserialize", "src/serialize/collections.rs", "src/classic_indexes/order.rs", "src/serialize/all_indexes.rs: deserialize_all"]}
{"id": "C70", "title": "Exactly which numbers survive the codec", "statement": "A u64 written and read back in front of any bytes is the same number with the same bytes left iff it is below 2^56 or at least 2^63. In between the reader also takes the byte behind the number, fails if there is none, and sets the top bit if that byte is 1.", "quantifier": "all u64 values, all following bytes", "why_tests_cant": "2^64 values times all continuations; only nine-byte encodings are affected", "anchors": ["src/serialize/primitives.rs: impl Serializable for u64"]}
{"id": "C71", "title": "What number any id is read as", "statement": "Product::get_id is the number written by the trailing decimal digits of the id for up to 19 of them; from 20 on it panics in a build with overflow checks and is that number modulo 2^64 in one without.", "quantifier": "all ids, builds with and without overflow checks", "why_tests_cant": "all ids; unit tests run in only one kind of build", "anchors": ["src/data/product.rs: Product::get_id"]}
{"id": "C72", "title": "Which image a product reports", "statement": "Product number i reports as image_url the first url of the i-th product among those that have media, and nothing if there are not that many.", "quantifier": "all catalogues, all positions", "why_tests_cant": "depends on every earlier product", "anchors": ["src/data/raw_parser.rs: optimize", "src/data/features.rs: FeatureSet::get"]}
{"id": "C73", "title": "Exactly when a typed tag name counts as similar", "statement": "A word that is a tag's own name passes the similarity test iff it has at least 3 bytes and its characters number more than four fifths of its bytes.", "quantifier": "all tag names", "why_tests_cant": "all texts; depends on UTF-8 lengths and f32 rounding", "anchors": ["src/lib.rs: tag_suggestion", "src/classic_indexes/tag.rs"]}
{"id": "C74", "title": "Exactly when a search panics, and what is left then", "statement": "On a loaded engine with free locks and handlers whose selections exist, a search panics iff an existing order is asked for whose ranks do not cover the two or more products found. After any panicking search every later initialize and search, whatever its arguments, leaves the engine as it is and panics or answers nothing.", "quantifier": "all loaded indexes, also from foreign files, all queries, filters, handlers and later calls", "why_tests_cant": "all indexes and call histories; depends on lock poisoning", "anchors": ["src/lib.rs: search, initialize", "src/classic_indexes/order.rs: OrderIndex"]}
{"id": "C75", "title": "Calls from several threads take effect one after the other", "statement": "In every interleaving every search, suggestion and getter acts as the sequential function at one moment between its start and its end and initialize as its two halves, each thread getting exactly the answers of its own effects in order; some thread can always go on; every schedule ends after a bounded number of steps with all calls finished; and a search without an order never mixes two files.", "quantifier": "all interleavings of any number of threads and calls", "why_tests_cant": "all schedules", "anchors": ["src/lib.rs: SHARED_INDEX, SHARED_CLASSIC_INDEX, initialize, search"]}
{"id": "C76", "title": "Filter objects are always ranges", "statement": "Whatever JavaScript value is given as a filter, no exact filter is ever made from it; an object with only an exact entry keeps every product.", "quantifier": "all JavaScript values, features and products", "why_tests_cant": "all values", "anchors": ["src/js_interactable/feature_filter.rs: FeatureFilter"]}
{"id": "C77", "title": "Exactly which products are equal", "statement": "Two products are equal under the crate's own equality iff title, vendor, id and position are the same and the descriptions are the same or both not empty and one begins with the other; so equality is reflexive and symmetric.", "quantifier": "all pairs of products", "why_tests_cant": "all pairs", "anchors": ["src/data/product.rs: impl PartialEq"]}
{"id": "C78", "title": "How many nested calls loading needs", "statement": "On any bytes a call stack with room for one node call per six bytes is enough. Loading a written file, followed by anything, needs exactly as many nested node calls as the longest text has characters, at most N; with less the stack overflows. For every bound on the stack there is a file of 6 * bound + 15 bytes without any product that loads, and also with room for one more call, but overflows that stack.", "quantifier": "all byte strings, all catalogues and hash orders, all stack bounds, both word sizes", "why_tests_cant": "all byte strings and stack bounds; overflow aborts the process", "anchors": ["src/serialize/nodes.rs: GramNode::deserialize_arena", "src/serialize/collections.rs: Vec<&T>::deserialize_arena"]}
{"id": "C79", "title": "Writing a loaded index again loses nothing", "statement": "Loading a written file and writing it again with hash tables iterating in the order they were read gives the same file byte by byte. However often a loaded file is written and loaded again, with whatever hash orders and whatever bytes after the file, it always loads, has the same length, and the index is the one loaded first except for the order inside hash tables.", "quantifier": "all catalogues, all hash orders, any number of rounds, both word sizes", "why_tests_cant": "all catalogues and all sequences of rounds; the first round does lose text", "anchors": ["src/serialize/all_indexes.rs", "src/serialize/nodes.rs", "src/data/product.rs", "src/classic_indexes/categorical.rs", "src/serialize/collections.rs: limit_string_len"]}
{"id": "C80", "title": "How large an index becomes", "statement": "The trees of a built index have exactly one node for every text of one to N characters that occurs inside a product's text, so at most N per character of the catalogue; all posting lists together have at most one entry per character, and none is empty.", "quantifier": "all catalogues, hash orders and N >= 1", "why_tests_cant": "all catalogues", "anchors": ["src/ngram/indexer.rs: index_from, immutalize", "src/ngram/index.rs: GramNode"]}
{"id": "C81", "title": "How much work a search is", "statement": "Searching for q characters in an index in which no node has more than w children makes at most q * N * (N (2w + 2)) ^ (N/3) calls of recursive_search, also in loaded files; in a built index w is at most the number a of different characters in the catalogue, so with N = 5 at most 50 (a + 1) per character searched for, however many products there are. Looking up a window whose first character has f different followers in the catalogue does make at least 2 f - 1 calls. Exactly, the calls are those of the windows of the query, and for each the sum over the children tried.", "quantifier": "all indexes, catalogues, queries, hash orders and 1 <= N <= 764", "why_tests_cant": "all queries on all indexes; a test cannot bound the running time over inputs", "anchors": ["src/ngram/index.rs: recursive_search, search_gram, search"]}
{"id": "C82", "title": "How large a written file becomes", "statement": "The file written for a catalogue has at most 50 bytes per byte or text of the catalogue, (80 N + 30) per lower-cased character, and 1000 more. So the file written for a catalogue text has at most (50 + (80 N + 30) k) bytes per byte of the text and 1000 more, where k bounds how many characters one character's lower case has; and a text of up to three million bytes always gives a file that loads with all its products, also where usize has 32 bits, if the reader has the memory.", "quantifier": "all catalogue texts, hash orders and N >= 1, both word sizes", "why_tests_cant": "all catalogues; the trees, tags, categories, orders and features all have to be counted", "anchors": ["src/serialize/all_indexes.rs", "src/lib.rs: index, index_and_serialize_with_n", "src/data/raw_parser.rs: optimize"]}
{"id": "C83", "title": "Which n-gram a lookup finds, and what is found then, for N from 3 to 5", "statement": "For N = 3, 4, 5 (the crate uses 5) looking up a window finds an n-gram that occurs in the text of a product, has the same first character and otherwise differs in at most one character mistyped or left out, and has the highest confidence of all these; nothing is found iff there is none. So a product whose text contains N consecutive characters of the query is found if these are kept as not too common and every other such n-gram has lower confidence. Where no two best matches tie, the ids found are determined by the catalogue and the query alone: whatever the catalogue order and hash orders, the same ids with bit-identical confidences.", "quantifier": "all catalogues, windows, queries, hash orders, 3 <= N <= 5", "why_tests_cant": "the recursion tries every single change at every position of every window in every tree", "anchors": ["src/ngram/index.rs: search, search_gram, recursive_search"]}
{"id": "C84", "title": "Written files are told apart", "statement": "Two index files that load to the same index are the same file, whatever follows them; where bytes begin with a written file no other written file begins, so no file is the beginning of another and files written one after the other can be separated in one way only. Texts that give the same file have, in some order, the same ids, titles, vendors and lowest prices, and descriptions that agree in what is kept of them.", "quantifier": "all pairs of catalogue texts, hash orders, N >= 1, both word sizes", "why_tests_cant": "all pairs of texts", "anchors": ["src/serialize/all_indexes.rs: serialize_all, deserialize_all", "src/lib.rs: index"]}
{"id": "C85", "title": "From the catalogue text to what a page shows", "statement": "When a catalogue text has been indexed, its file loaded (perhaps after other files and searches) and the ids of its entries differ, then a search with selections made in that file's handlers and price ranges hands out exactly the entries of the text that no later entry replaces, that have every selected option and tag and a price in the ranges, and that count for the query; each once, with its title, id, price and the beginning of its description; by descending confidence, or by title or price if such an order is asked for. What counts is said in terms of the text alone: every window of five characters is taken for a best match (C83), the same one in every search. For texts of up to three million bytes nothing need be assumed about the file.", "quantifier": "all texts, call histories, queries, selections, price ranges, orders, hash orders, both word sizes", "why_tests_cant": "composes parsing, indexing, writing, loading, searching, filtering and paging for every text and query", "anchors": ["src/lib.rs: index, initialize, search", "src/js_interactable/product_producer.rs", "src/ngram/index.rs: search", "src/serialize/all_indexes.rs"]}
{"id": "C86", "title": "Building with shared nodes is building a tree", "statement": "The index builder links its nodes through reference-counted cells that are borrowed dynamically and count in 32 bits. It never borrows a cell twice, never closes a cycle and never follows a wrong reference, and for texts of fewer than 2^32 characters together it gives exactly the index of the plain tree model. With more characters it stops at a counter where overflow is checked; where it is not, it finishes with the right posting lists and with counters cut to 32 bits, and for exactly 2^32 characters every first-level weight is infinite or not a number.", "quantifier": "all lists of texts, hash orders and N >= 1, both kinds of build", "why_tests_cant": "all sequences of updates to shared cells; 2^32 characters are out of reach of tests", "anchors": ["src/ngram/indexer.rs: index_from, immutalize, MutableGramNode"]}
{"id": "C87", "title": "Observers that call back into the crate", "statement": "Observers are JavaScript functions that run inside toggle and may call anything, other toggles included. While a handler is inside a call, every call that names it is refused and it does not change. Whatever observers do, a handler not in use is a fresh one after the accepted calls on it in the order they returned: an entry is selected iff it was toggled an odd number of times, and each accepted toggle itself calls exactly the registered observers, once per registration, with the new state. Unless something trapped or a search was refused, all handlers are usable afterwards; a search from an observer of the tag handler leaves the category handler unusable for good. Observers that ask for no new handlers nest at most as deep as there are free handlers; with new handlers they can exhaust any stack.", "quantifier": "all programs and observers, all call histories and nestings, all engines", "why_tests_cant": "all programs, adaptive and re-entrant", "anchors": ["src/js_interactable/category_handler.rs: toggle", "src/js_interactable/tag_handler.rs: toggle", "src/lib.rs: search, get_categories, get_tags"]}
{"id": "C88", "title": "Loading into the arenas is loading values, and nothing is given back", "statement": "Loaded indexes refer to nodes, vendors, products and containers in two arenas that live as long as the process. Whatever was loaded or refused before, loading a file has the outcome of decoding it by value, the references handed out mean exactly the decoded indexes and go on doing so after any further loads, and no node dangles or is part of a cycle. No load gives anything back: each takes one or two boxes even if the file is refused, and at most one node per six bytes; a written file takes exactly one node per text of up to N characters in the catalogue, every time it is loaded.", "quantifier": "all byte strings and all sequences of loads, good or bad, all N, both word sizes", "why_tests_cant": "all sequences of files; a leak and a reference to the wrong load show only over the life of a process", "anchors": ["src/lib.rs: NODE_ARENA, SUPER_ARENA, initialize", "src/data/container.rs: SuperAlloc, ProductContainer::deserialize", "src/data/vendor.rs: deserialize_arena", "src/serialize/nodes.rs", "src/serialize/collections.rs"]}
{"id": "C89", "title": "What JavaScript holds keeps meaning the same", "statement": "The engine keeps references into arenas and hands JavaScript objects (handlers, iterators, tags, producers, products, suggestions) that are references too. Whatever calls JavaScript makes, in whatever order and on whatever objects, also on objects from files loaded earlier, after refused files and after panics: the answers are exactly those the engine on values can give, no object and no global ever dangles, and a product or tag once handed out gives the same texts and numbers for good.", "quantifier": "all sequences of calls and objects, all files, all hash orders, both word sizes, both panic modes", "why_tests_cant": "all histories of loads and all objects kept across them", "anchors": ["src/lib.rs: initialize, search, tag_suggestion, categories, tags", "src/js_interactable/*.rs", "src/ngram/index.rs: search, recursive_search", "src/ngram/result_ranker.rs"]}
{"id": "C90", "title": "Price ranges with bounds in cents", "statement": "Prices written in whole cents up to 131072.00 are stored as f32 and compared with bounds that JavaScript has as f64. A range whose bounds are written in cents keeps exactly the products found that lie strictly between the bounds, or at a bound and not stored on its other side. A price that is a multiple of 25 cents is stored exactly; every other one is stored either too low or too high, so that the product is lost at one of its two bounds, and asking from and to the product's own price finds it iff it is a multiple of 25 cents.", "quantifier": "all catalogues priced in whole cents, all bounds in cents, queries, handlers, hash orders", "why_tests_cant": "depends on f32 and f64 rounding of every price and bound", "anchors": ["src/js_interactable/feature_filter.rs", "src/data/features.rs", "src/data/raw_parser.rs: to_intermediate"]}
{"id": "C91", "title": "Handlers kept over a re-load, exactly", "statement": "A search with handlers of earlier files returns exactly those products of the unfiltered search, in the same order, for which the entry at the same position of the handler's own catalogue has every selected option and tag, and whose own price is within the ranges. So kept selections stay right if both files were written for the same list of products, and with anything selected a newer file's products beyond the length of the old catalogue are never shown. Files indexed from the same text need not have the same list: a page that selects an option, loads a second file of the same text and repeats the search can be shown the product without the option in place of the one with it.", "quantifier": "all pairs of files, selections, price ranges, queries, hash orders", "why_tests_cant": "depends on the hash orders of two indexing runs and a history of loads", "anchors": ["src/lib.rs: initialize, search, index", "src/js_interactable/category_handler.rs", "src/js_interactable/tag_handler.rs"]}
{"id": "C92", "title": "JavaScript that runs while a filter is read, and objects freed by hand", "statement": "Besides observers, getters and proxy traps of the filter object run inside search; all of them can call the crate again and free objects at any moment. Whatever they do, no memory is used after it was given back, an object borrowed by a call is neither changed nor freed, and a handler not in use is a fresh one after the accepted calls on it. A search reads from, to and exact of each entry in order and then answers for the index loaded when reading is over, with the selections as they were when it was called and the filters as read; on plain data this is the search of the other claims. A getter that throws in from makes the exact filter that plain objects never give. An exception while entries are listed leaves both handlers borrowed for good; a freed option or tag leaves its handler unusable; a filter object that searches with itself exhausts any stack.", "quantifier": "all programs, getters, observers, call histories and moments of freeing", "why_tests_cant": "all programs and all interleavings of nested calls", "anchors": ["src/js_interactable/feature_filter.rs: FeatureFilter::parse", "src/lib.rs: search", "src/js_interactable/category_handler.rs", "src/js_interactable/tag_handler.rs"]}
{"id": "C93", "title": "What works after a panic", "statement": "After every history of calls, panicking or not, the engine is untouched or holds the two indexes of the last file that was loaded, and there are exactly three states: both locks free, which holds iff no search has panicked; only the lock of the n-gram index lost; both lost. A search whose selections exist can panic only while sorting by an order of the file and then both locks are lost; a search without an order loses only the first. With one lock lost the categories, tags, orders and tag suggestions go on answering from the loaded file exactly as before, while no file can be loaded and no search answers; with both lost nothing answers. The state never changes again.", "quantifier": "all histories of calls, all files, selections, filters, orders and hash orders, panics that unwind and panics that trap", "why_tests_cant": "all histories; unit tests do not go on after a panic", "anchors": ["src/lib.rs: initialize, search, get_categories, get_tags, get_orders, tag_suggestion"]}
{"id": "C94", "title": "Indexes that compare equal cannot be told apart", "statement": "If the indexes of two engines, each built from a catalogue or read from bytes, compare equal under the crate's own equality, then every search with the same selections and filters, whatever the hash orders, returns on both nothing, the same panic, or the same product numbers equally often; in the same order if the order asked for ranks the products differently. Results can be paired so that the products compare equal and the confidences are the same number, and the confidences agree position by position. Titles, ids, vendors, features, orders, tags, categories and tag suggestions are the same (vendors compare equal exactly when the same names are listed in the same order); descriptions may differ, but one begins with the other. The bytes written for categories and tags are the same.", "quantifier": "all pairs of indexes that compare equal, queries, selections, filters, hash orders", "why_tests_cant": "relates every pair of equal indexes over every query; equality ignores ends of descriptions and the order inside hash tables and identifies 0 and -0", "anchors": ["src/ngram/index.rs: PartialEq, search", "src/classic_indexes/*.rs: PartialEq", "src/data/product.rs: impl PartialEq", "src/data/container.rs: PartialEq"]}
{"id": "C95", "title": "Arrays of a fixed length in JSON", "statement": "The array code of the crate reads exactly the JSON arrays of N elements all of which are read, never more or fewer, whatever the kind of element. An array of bytes written as JSON is read back as the same array, for every N, and as none of any other length; the texts read are exactly the JSON texts of an object whose one member arr (or of an array whose one element) is an array of N integers from 0 to 255 written in digits only.", "quantifier": "all texts, all arrays, all N, all kinds of elements", "why_tests_cant": "all texts and lengths", "anchors": ["src/serde_array.rs: arrays::serialize, arrays::deserialize, TypeWithArray"]}
{"id": "C96", "title": "Which n-gram a lookup finds, for every N", "statement": "For every N the n-grams of the catalogue a lookup chooses between are exactly those read off what was typed with the first character right and at most N / 3 changes: a mistyped character counts one, a character left out two, a surplus character one; the confidence is the product of the shares with which each beginning is continued in the catalogue, except that a character put in the place of a surplus one keeps the surplus character's share. The lookup finds one of highest confidence, or nothing if there is none. Hence, where no window of the query has best guesses at two n-grams, exactly which ids a search returns follows from the catalogue alone, and results depend neither on hash orders nor on the order of the catalogue. For N of 3 to 5 this is C83, for N up to 2 only exact n-grams are found; with N = 6 a surplus character can raise the confidence above the one of the n-gram itself.", "quantifier": "all catalogues, N, n-grams looked up, queries, hash orders", "why_tests_cant": "all catalogues, N and queries; the recursion explores every combination of changes", "anchors": ["src/ngram/index.rs: search_gram, recursive_search, search"]}
{"id": "C97", "title": "Strings between JavaScript and Rust", "statement": "What the crate gets of a JavaScript string is valid UTF-8, whatever was in the memory allocated for it, and is the text of that string with U+FFFD in the place of every half of a surrogate pair that stands alone; the buffer of three bytes per unit always suffices. A text shown to JavaScript has no lone halves and arrives unchanged when passed back, so every order, category, tag or feature name shown can be used as an argument; the strings without lone halves are exactly those of texts. Two calls whose strings differ only in lone halves and U+FFFD cannot be told apart, and two that differ otherwise pass different texts. No answer throws while its strings are decoded. A search by an order gives nothing if the repaired name is not among those shown by get_orders, and gives results if it is and the search without an order does, unless sorting panics. The input of a tag suggestion is a piece between spaces of the repaired query.", "quantifier": "all strings of UTF-16 code units, memory contents, worlds of objects, calls and hash orders", "why_tests_cant": "all strings and all memory contents", "anchors": ["src/lib.rs: search, get_orders, tag_suggestion, TagSuggestionResult", "src/js_interactable/*.rs: functions with &str, String or Option<String>"]}
{"id": "C98", "title": "Adding products to the end of a catalogue", "statement": "Compare the indexes of a catalogue with those of the same catalogue and more products after it, built on whatever machines and in whatever hash orders. The earlier products come first, unchanged in every field including vendor numbers; vendors keep their numbers; features that were there keep their values. Categories and options keep their places, names and numbers, and only added products join them, at the end; so an option answers as before for earlier products. Every tag is still there, joined by added products only; a new tag has no earlier product. In each order the earlier products stand as before relative to each other (by price if no price is NaN). The tree gains exactly the paths of the added texts and never gets smaller; a posting list kept in both is longer by exactly the occurrences in the added texts, and one that no added text concerns is kept (up to 2^20 products). Selections made with the old file and used with the new one show exactly the earlier products that match them.", "quantifier": "all catalogues, additions, targets, hash orders, n-gram sizes >= 1, queries and selections", "why_tests_cant": "relates two runs over all catalogues and additions", "anchors": ["src/data/raw_parser.rs: optimize", "src/data/vendor.rs: insert", "src/classic_indexes/categorical.rs: index", "src/classic_indexes/tag.rs: index", "src/classic_indexes/order.rs: add_custom_cmp", "src/ngram/indexer.rs", "src/lib.rs: search"]}
{"id": "C99", "title": "Loading takes time linear in the file", "statement": "For every byte string, whether written by the indexer, damaged or made with intent, and whether the load succeeds, gives nothing or panics, deserialize_all takes at most four steps for each byte of it and one more, a step being a number read, a byte of a string copied, an element appended, a product looked up, an entry put into a table or a node put into an arena. So no file, whatever lengths it claims, makes a page hang. If the load succeeds the steps are at least a tenth and at most four times the bytes read. A file written by the indexer takes exactly the steps that are counted from what it holds. Four is the best constant: there are files of any length that load and take four steps for every byte but a few. The time of reserving and growing memory is not counted.", "quantifier": "all byte strings, targets and n-gram sizes", "why_tests_cant": "all byte strings, including those that claim lengths no test would wait for", "anchors": ["src/serialize/*.rs: deserialize, deserialize_arena", "src/data/*.rs: deserialize, deserialize_arena", "src/classic_indexes/*.rs: deserialize, deserialize_many"]}
{"id": "C100", "title": "What depends on which fields", "statement": "Compare two catalogues that agree in some fields. The largest price, the currencies and all media after the first change nothing: the same file is written, byte for byte, or the same panic happens. Products, vendors, tree, posting lists and every search depend only on description, title, vendor and id. The names of tags and the products under each depend only on the tags; categories, options, their numbers and the products under each only on the options; the alphabetical order only on the titles; the price column and both orders by price only on the numbers the smallest prices parse to; the image column only on the first media of the products that have some. There are no other columns and orders. On a page, which products a search shows and in which order, or that it shows nothing or panics, depends on the text and only on what it uses besides: options and tags if some are selected, prices if it filters or sorts by price, pictures if it filters by them.", "quantifier": "all pairs of catalogues, targets, hash orders, n-gram sizes, price parsers, queries, selections, orders and filters", "why_tests_cant": "relates two runs over all pairs of catalogues; tests look at one catalogue at a time", "anchors": ["src/data/raw_parser.rs: optimize, to_intermediate", "src/classic_indexes/*.rs: index, add_custom_cmp", "src/ngram/indexer.rs", "src/lib.rs: search, index_and_serialize_with_n"]}
{"id": "C101", "title": "Whatever sorting algorithm the standard library uses", "statement": "The standard library promises a stably sorted slice only for comparisons that are total orders; otherwise sort_by may panic or return any order. Floats compared by partial_cmp(..).unwrap_or(Equal) are ordered consistently exactly if none is NaN or all others are equal. Building the n-gram index, writing the file and ordering found products by a stored order never depend on the algorithm, whatever the input. Searching an index that was built (or built, written and loaded) from up to 2^32 characters does not depend on it either. Indexing depends on it exactly if the prices are not comparable: then some algorithm panics, and one that does not gives the same products, tags, categories and alphabetical order and two price orders that number the products in some order. Searching any loaded file depends on it exactly if the confidences found are not comparable: some algorithm panics, and one that does not returns the same results in some order; a panic leaves the lock of the index unusable. Such a file and such a catalogue exist.", "quantifier": "all sorting algorithms that keep the documented promise, catalogues, hash orders, price parsers, sizes up to 764, indexes (also from crafted files), queries, handlers and filters", "why_tests_cant": "whether a sort panics depends on the version of the standard library, on the length of the slice and on where the NaN stands in it", "anchors": ["src/ngram/indexer.rs:51", "src/ngram/indexer.rs:155-157", "src/ngram/result_ranker.rs:45-53", "src/classic_indexes/order.rs:45", "src/data/raw_parser.rs:162-186", "src/lib.rs:96", "src/serialize/sequential_array.rs:9", "src/data/vendor.rs:82"]}
{"id": "C102", "title": "The index file for different n-gram sizes", "statement": "For the same catalogue and n-gram sizes m < n: the tree for m is the tree for n cut off below m characters, with the same weights; each posting list for m is dealt out over the posting lists for n, and a posting list kept for n is part of the one for m, kept or not; the file for n has at least six more bytes for each further node and n - m more for each posting list it keeps, so it is never smaller, whatever the orders of the hash tables, and it is as large exactly if no text is longer than m characters and no posting list is kept for n. So the table that tests/index_size_by_ngram.rs writes never goes down, also after the division in f32. The table of tests/index_size_pr_product.rs can: a catalogue and one more product exist whose file together is smaller.", "quantifier": "all catalogues, all pairs of n-gram sizes, all hash orders, all hash orders while writing, all targets", "why_tests_cant": "The tests only write the sizes down for one catalogue and eight n-gram sizes and compare nothing.", "anchors": ["src/ngram/indexer.rs", "src/serialize/nodes.rs", "src/serialize/all_indexes.rs", "tests/index_size_by_ngram.rs", "tests/index_size_pr_product.rs"]}
{"id": "C103", "title": "How much work indexing is", "statement": "Indexing a catalogue takes a number of steps that is linear in the size of the catalogue and in its lower-cased text (7 N + 4 per character), plus the comparisons made while sorting, plus two searches in lists: every category name of a product is compared with the categories so far, and every option with the options of its category so far. The steps of both parts are given exactly. So the bound is the size of the catalogue, once the number of categories and of options in a category is bounded; without such a bound it is not: if every product has an option of its own in one category the steps grow with the square of the number of products, and there are such catalogues of 2^k products whose size is only 2^k (k + 6).", "quantifier": "all catalogues, n-gram sizes >= 1, hash orders, targets, price parsers and sorting algorithms", "why_tests_cant": "No test bounds the running time over all catalogues; the test catalogues have few options.", "anchors": ["src/data/raw_parser.rs", "src/classic_indexes/categorical.rs", "src/classic_indexes/tag.rs", "src/classic_indexes/order.rs", "src/ngram/indexer.rs"]}
{"id": "C104", "title": "How much work a search call is", "statement": "The steps of a call of search are given exactly: N characters moved for each lower-cased character of the query, the calls of recursive_search for each window, a table access and an addition for each product of the posting list found, one step and the selections and filters looked at until one fails for each product found, and the comparisons of the sortings. Whatever file of B bytes was loaded, this is at most (9 B + 56) for each character of the query and at most (3 + selections + filters) for each product, plus two sortings of the products; for a file written by this library from P products with a different characters it is at most 56 + 50 a + 4 P / 5 for each character of the query.", "quantifier": "for all engines, loaded files, queries, selections, filters, orders, hash orders and numbers of comparisons of the sorting algorithm", "why_tests_cant": "A test measures some queries on some files; the bound has to hold for files made by anyone and for the worst query.", "anchors": ["src/lib.rs:63-100", "src/ngram/index.rs:82-231", "src/ngram/result_ranker.rs:1-53", "src/js_interactable/category_handler.rs:101-110", "src/js_interactable/tag_handler.rs:97-105", "src/js_interactable/feature_filter.rs"]}
{"id": "C105", "title": "The table of n-gram popularity", "statement": "The ignored test that writes products_for_ngram.csv says for each number m below the cut-off how many different n-grams occur m times in the catalogue, in ascending order, each m once, without empty lines; the two printed numbers are the n-grams that occur once, and those of them with a space. It runs through for catalogues of less than 2^31 characters and its numbers do not depend on hash orders. The column headed product_amount counts products if no text has an n-gram twice, and is wrong otherwise.", "quantifier": "for all catalogues, n-gram sizes >= 1, hash orders of building and of listing, and all tables of spaces", "why_tests_cant": "It is itself a test, with no assertion: it prints whatever it counts.", "anchors": ["src/ngram/index.rs:316-354", "src/ngram/indexer.rs:56-100"]}
{"id": "C106", "title": "A file means the same on every machine", "statement": "What a build with overflow checks loads is loaded as the same index by every build on every machine that can hold the file (its bytes can be numbered, and room for that many elements is granted), whatever the word size, except that machines with smaller words may refuse it, because of the ranks of an order; it never panics there. A build without overflow checks does the same as one with them, whatever the bytes, unless that one stops at an overflow. Otherwise files can differ between machines: the page loads a file that is refused natively, and the other way round.", "quantifier": "for all byte strings, n-gram sizes, word sizes, overflow settings and memory limits", "why_tests_cant": "Tests run on one machine in one build; the files are written natively and read by wasm32 in release mode.", "anchors": ["src/serialize/sequential_array.rs:25-47", "src/serialize/primitives.rs:124-130", "src/serialize/all_indexes.rs:22-34", "Cargo.toml:24-30"]}
{"id": "C107", "title": "More of the text never ranks lower", "statement": "If the texts with one id contain everything the query finds at least as often as the texts with another id, then whenever the other is found it is found too, with a confidence that is not smaller, however many scores are added and rounded; with the same counts the confidences are the same bits. So a product whose text contains the whole text of another is never listed below it, except with the same confidence. The tempting stronger claim, that a product containing what was typed is listed before products not containing it, is false: \"kunsta\" is listed after \"kunst kunst kunst\".", "quantifier": "every catalogue, query, pair of products, target and hash order", "why_tests_cant": "It compares sums of arbitrarily many rounded numbers over all catalogues and queries; a test compares the results of one query.", "anchors": ["src/ngram/index.rs:82-103", "src/ngram/result_ranker.rs:34-53"]}
{"id": "C108", "title": "Whatever contains a query finds what it finds", "statement": "If no text of the catalogue contains a NUL character, every product found by a query is found by every longer query that contains it, with more typed before it, after it, or both, and no confidence gets smaller, rounding included. It holds of every loaded file in which nothing begins with the padding, and as seen from JavaScript with any selections and filters (if no two products have the same id). With NUL characters in the catalogue it is false.", "quantifier": "every index, query, text before and after it, selection and filter", "why_tests_cant": "Queries, catalogues and what is typed around a query are unbounded; a test tries some words.", "anchors": ["src/ngram/index.rs:26-36", "src/ngram/index.rs:82-103", "src/ngram/result_ranker.rs:34-53", "src/lib.rs:63-100"]}
{"id": "C109", "title": "The texts of a product run together", "statement": "A product is indexed under the n-grams of its description, title and vendor name, each as often as it occurs there, and under at most 2(N-1) occurrences more of n-grams that begin in one text and end in a later one. So every result is justified by one of its texts or by an n-gram across them. That every result is justified by one of its texts alone is false: \"kunst\" finds a product described as \"kun\" and named \"st\".", "quantifier": "every product, catalogue, n-gram size and query", "why_tests_cant": "The texts are unbounded and the n-grams at their seams depend on all of them; a test with texts separated by chance would not see it.", "anchors": ["src/lib.rs:210-225", "src/ngram/indexer.rs:70-166", "src/ngram/index.rs:82-103"]}
{"id": "C110", "title": "No confidence exceeds 2^24", "statement": "In an index built from any catalogue, the confidence of a result is a finite number, at most the number of occurrences that were scored for it (for each character of the query fewer than the cut-off of posting lists), and at most 16777216 = 2^24, however long the query and the texts. The bounds are met by scores of 1. A sum that has reached 2^24 does not grow any more, so that from there on more hits do not rank a product higher.", "quantifier": "every catalogue, n-gram size, query and result; every number of scores", "why_tests_cant": "The number of f32 additions is unbounded and each one rounds; the limit is only reached after 2^24 additions.", "anchors": ["src/ngram/result_ranker.rs:34-53", "src/ngram/index.rs:82-103", "src/ngram/indexer.rs:26-68"]}
{"id": "C111", "title": "One product can make a catalogue unsearchable", "statement": "N-grams that occur too often are dropped, and occurrences are counted, not products. So for every catalogue there is a product, with any id, tags, options, images and readable price, such that the catalogue with that product added is still built, and no query whatsoever finds anything in it, nor in the file written from it once loaded. More generally, nothing is found by any query if every n-gram of the catalogue occurs at least as often as the cut-off.", "quantifier": "every catalogue, n-gram size, query and added product data", "why_tests_cant": "It is about all catalogues and all queries at once; a test would have to guess the offending product and then try every query.", "anchors": ["src/ngram/indexer.rs:26-68", "src/ngram/index.rs:82-103", "src/lib.rs:204-229"]}
{"id": "C112", "title": "What a tag suggestion depends on", "statement": "More words in the query or more tags never lose a suggestion nor lower its similarity. With the same words and the same names of tags, in whatever order and however often, there is a suggestion on both sides or on neither, of bit-identical similarity; so the hash order, the machine and the order of the catalogue do not matter for it. If only one pair of a word and a name is most similar, the word and the name suggested are the same, as JavaScript sees them. With a tie it is the hash order of the build that decides: the same catalogue can give a file that suggests abc for abc, and one that suggests abcd.", "quantifier": "all queries, lists of tags, catalogues and hash orders", "why_tests_cant": "Queries, tags and hash orders are unbounded; the dependence on the hash order only shows in ties and changes from build to build.", "anchors": ["src/lib.rs:148-191", "src/classic_indexes/tag.rs:1-115"]}
{"id": "C113", "title": "How much work a tag suggestion is", "statement": "A call of tag_suggestion takes exactly: a step for each byte of the query, one for each word, one for each pair of a word and a tag, one for each pair of characters compared (as many as the shorter of the two has, none if it has less than three bytes), and one for each byte of the word returned. Words and characters of words together are no more than the characters of the query and one, so all this is at most twice the bytes of the query and the product of its characters plus one and the number of tags plus one; and on a page that loaded a file of b bytes, whatever they are, the number of tags is at most b/2. The bound is met up to a constant: with k tags of the queried name the steps grow with k times its length.", "quantifier": "all queries, tag lists, engine states and files, hostile files included", "why_tests_cant": "a bound over all queries and all files; a test times one", "anchors": ["src/lib.rs: tag_suggestion", "src/serialize/all_indexes.rs: deserialize_all"]}
{"id": "C114", "title": "Which laws the equalities and orders obey", "statement": "Equality of indexes built from a catalogue or read from bytes is symmetric. An index equals itself exactly if no weight in its trees and no number among its features is NaN; tags, categories and orders always equal themselves. If one index equals a second and the second a third, the first equals the third exactly if their products are equal one by one, and then the tags, categories and orders are equal too; without that it can fail, so equality is not transitive. Equal products, and equal nodes, are neither before nor after each other; among the products of one index, the same place in the order, equality and being identical are the same, but products of two indexes may have the same place without being equal.", "quantifier": "all indexes built or loaded, hostile files included; all products and nodes", "why_tests_cant": "laws over all pairs and triples of values; the traits Eq and Ord promise them, the compiler does not check them", "anchors": ["src/data/product.rs: impl PartialEq, impl Ord", "src/ngram/index.rs: impl Eq, impl Ord for GramNode", "src/data/features.rs: impl Eq for Feature", "src/classic_indexes/*.rs: derive(PartialEq, Eq)"]}
{"id": "C115", "title": "Products no query can find", "statement": "For N = 3, 4, 5 call an n-gram masked if at each place after the first some other character makes it an n-gram of the catalogue with more confidence. No n-gram typed is ever looked up as a masked one, not even itself. So a product all of whose n-grams are masked, too common or absent from the tree is found by no query whatever, and there is such a product whose only n-gram is kept. A product may be found only when misspelt: if at one place other than the first and last its n-gram is strictly the best, typing there a character that no product uses finds it, and there is a catalogue where the name itself finds nothing.", "quantifier": "all catalogues, all queries, 3 <= N <= 5, all hash orders", "why_tests_cant": "speaks of every possible query", "anchors": ["src/ngram/index.rs: recursive_search, search, search_gram", "src/ngram/indexer.rs: index_from"]}
{"id": "C116", "title": "Several products with the same id", "statement": "A catalogue is keyed by something else than the ids in it, so several products may have one id; a search shows one of them. It is exactly this one: of the first n-gram of the query that finds any product with the id, the first product of the catalogue that has it and the n-gram. So a product all of whose n-grams occur in an earlier one with the same id is shown for no query, by no page, whatever is selected and however ordered, and if all products with a tag are such, no search shows a product with that tag; there is a catalogue with such a tag, though the text of the product is found.", "quantifier": "all catalogues, all queries, 1 <= N <= 764, all hash orders, all selections", "why_tests_cant": "speaks of every query and every selection", "anchors": ["src/ngram/result_ranker.rs: add", "src/ngram/index.rs: search", "src/ngram/indexer.rs: index_from", "src/lib.rs: search"]}
{"id": "C117", "title": "Hash tables only shuffle the bytes of a file", "statement": "Hash tables are iterated in an order that differs from run to run, both while the catalogue is built and while it is written. The two files of one list of products are permutations of one another as lists of bytes, so in particular of the same length, whatever the orders and also when one is written by a 32 bit and the other by a 64 bit program. This does not extend to the order of the products: reversing a catalogue of 129 products makes its file a byte shorter, so files of one JSON text (whose products come out of a hash table) may differ in length.", "quantifier": "all catalogues of up to 2^20 products, all pairs of hash orders of building and of writing, both word sizes", "why_tests_cant": "speaks of every pair of hash orders, which a test does not choose", "anchors": ["src/serialize/nodes.rs", "src/serialize/collections.rs", "src/serialize/all_indexes.rs", "src/ngram/indexer.rs: index_from", "src/data/raw_parser.rs: optimize", "src/lib.rs: index_and_serialize"]}
{"id": "C118", "title": "Exactly which answers a search can give", "statement": "The table of results is iterated in a random order and then sorted by confidence. The possible answers to a query on a given index are exactly the arrangements of its results in which none has less confidence than a later one. So the confidence at each place is fixed; a product has a fixed place iff no other result has its confidence; which products are the first k is fixed iff the next one has less confidence than the k-th. What a page shows are exactly these arrangements without the products that are not selected. With an order asked for, the outcome of the call does not depend on any hash order. There is an index of four products that lists two of them either way round.", "quantifier": "all built (or reloaded) indexes with at most 2^32 characters, all queries, all places and numbers k, all hash orders, all selections", "why_tests_cant": "the possible answers are a set over all hash orders; a test sees one", "anchors": ["src/ngram/result_ranker.rs: export_data_by_confidence", "src/ngram/index.rs: search", "src/lib.rs: search"]}
{"id": "C119", "title": "Selections are sets", "statement": "What a search call does, whether it returns or panics, with or without an order, depends on the selected options, the selected tags and the entries of the filter object only as sets: not on the order in which they were clicked or written down, nor on how often, up to an even number, nor on the order in which the tables of selections are iterated. What two selections together show is what both of them show, in the same order. This needs the selected options and tags to exist in the handler's own tables: with an option object of another file clicked besides, whether a product is left out or the check panics depends on the order of iteration.", "quantifier": "all states, queries, histories of clicks, filter objects and hash orders", "why_tests_cant": "all orders of clicking and all hash orders", "anchors": ["src/lib.rs: search", "src/js_interactable/category_handler.rs: toggle, is_valid", "src/js_interactable/tag_handler.rs: toggle, is_valid", "src/js_interactable/feature_filter.rs: parse, filter"]}
{"id": "C120", "title": "What a file tells about its catalogue", "statement": "Two catalogues from which the same index is loaded agree, whatever machines, hash orders, lower-casing and price parsers they were indexed with: they have equally many products, and position by position the same id, title, vendor, number the smallest price parses to, kept part of the description, set of tags, and set of values given for each category. The first pictures of those products that have one are the same in the same order, but the file does not tell which product each belongs to. Every character sequence that has a posting list occurs equally often in the padded text at each position, also in parts of descriptions that are not kept.", "quantifier": "all pairs of catalogues behind one loaded index, all lower-casings and parsers", "why_tests_cant": "relates all pairs of catalogues that could have produced one file", "anchors": ["src/data/raw_parser.rs: optimize", "src/lib.rs: index_and_serialize_with_n, deserialize_all", "src/classic_indexes/*.rs"]}
{"id": "C121", "title": "Writing what any accepted bytes were loaded into", "statement": "Take any bytes that load, written by this program or not. If in the loaded index vendors have different names, product numbers ascend in every list and no rank exceeds the number of products, then the file it is written as loads, on every machine that can hold it, with any hash order and with anything after it, to the same data with descriptions cut, every search finds the same products with the same confidences, and further writing and loading changes nothing but orders inside hash tables. All files of this program satisfy the conditions, and in builds that check additions product numbers always ascend. What a 32-bit machine loaded needs no condition on ranks, so with checked additions only the names of vendors matter there. Without the conditions it is false: with two vendors of one name the written file can not be loaded, or loads with a product under another vendor, and where additions wrap around a descending list is sorted.", "quantifier": "all byte strings that load, targets, n-gram sizes, hash orders, numbers of rounds", "why_tests_cant": "all byte strings and all numbers of rounds; tests only have files written by the program", "anchors": ["src/lib.rs: deserialize_all, index_and_serialize_with_n", "src/data/vendor.rs: serialize, deserialize_arena", "src/serialize/sequential_array.rs", "src/data/product.rs: deserialize_from_sequential_ids"]}
{"id": "C122", "title": "Editing the texts of a product inside a written file", "statement": "In a written file, replace the bytes of one product by those of the same product with any other title and description, of any lengths that still fit, and let anything follow. The file loads without an error; the product has the new title and the new description cut to 100 bytes; all other products, vendors, features, the trie, the positions in every posting list, tag and option, and all orders are exactly as before. Every search finds the same positions with the same confidences: the product is found by its old words and not by its new ones. In particular one byte of a title can be changed to any ASCII character and nobody notices; the claim that a changed byte is noticed is false.", "quantifier": "all catalogues, products, new texts, targets, n-gram sizes, hash orders, queries, trailing bytes", "why_tests_cant": "all texts, all positions in the file and all queries", "anchors": ["src/data/product.rs: serialize, deserialize", "src/data/container.rs: serialize, deserialize", "src/serialize/all_indexes.rs", "src/ngram/index.rs"]}
{"id": "C123", "title": "Editing names of tags, categories and options inside a written file", "statement": "In a written file, replace the name of one tag, of one category or of one option by any other name of any length that still fits, also by the name of another one, and let anything follow. The file loads without an error to exactly what the original loads to, with that name replaced and nothing else changed: no field is found through a name, and no check ties names together.", "quantifier": "all catalogues, tags, categories, options, new names, targets, n-gram sizes, hash orders, trailing bytes", "why_tests_cant": "all names and all positions in the file", "anchors": ["src/classic_indexes/tag.rs: serialize, deserialize", "src/classic_indexes/categorical.rs: serialize, deserialize", "src/serialize/all_indexes.rs"]}
{"id": "C124", "title": "Editing a price inside a written file", "statement": "In a written file, replace the four bytes of one number of a number column, such as the price of a product, by any other four bytes, also those of a negative number, an infinity or a NaN, and let anything follow. The file loads to exactly what the original loads to with that one number replaced. Every search answers exactly the same, and the stored orders remain those of the old price: on a page, whatever is searched, selected and sorted by, the same products come in the same order unless a filter uses that column.", "quantifier": "all catalogues, number columns, products, 32-bit patterns, targets, n-gram sizes, hash orders, queries, trailing bytes", "why_tests_cant": "all bit patterns and all positions in the file", "anchors": ["src/data/features.rs: serialize, deserialize", "src/serialize/primitives.rs: f32", "src/classic_indexes/order.rs", "src/data/container.rs: serialize, deserialize"]}
{"id": "C125", "title": "Editing the name of a vendor inside a written file", "statement": "In a written file, replace the name of one vendor by any name of any length that still fits, also by the name of another vendor, and let anything follow. The file loads without an error; exactly the products of that vendor show the new name, the table of vendors by name is that of the new names (of two vendors with one name it keeps the last), every other field of the index is unchanged, and every search finds the same products with the same confidences: products refer to their vendor by number and no index depends on the name.", "quantifier": "all catalogues, vendors, new names, targets, n-gram sizes, hash orders, queries, trailing bytes", "why_tests_cant": "all names and all positions in the file", "anchors": ["src/data/vendor.rs: serialize, deserialize", "src/data/product.rs: serialize, deserialize", "src/data/container.rs: serialize, deserialize", "src/ngram/index.rs: search"]}
