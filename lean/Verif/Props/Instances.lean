import Verif.Props.Catalogue
import Verif.Props.Codec
import Verif.Props.Concurrent
import Verif.Props.Data
import Verif.Props.Depth
import Verif.Props.Determinism
import Verif.Props.EndToEnd
import Verif.Props.Engine
import Verif.Props.Equality
import Verif.Props.Extent
import Verif.Props.Cost
import Verif.Props.Failures
import Verif.Props.File
import Verif.Props.Filters
import Verif.Props.Found
import Verif.Props.Handlers
import Verif.Props.Index
import Verif.Props.Json
import Verif.Props.Mixing
import Verif.Props.MixingWitness
import Verif.Props.Optimize
import Verif.Props.Ordering
import Verif.Props.Reload
import Verif.Props.Rewrite
import Verif.Props.Scores
import Verif.Props.Search
import Verif.Props.Suggest
import Verif.Props.Size
import Verif.Props.Price
import Verif.Props.Text
import Verif.Props.Truncate
import Verif.Props.FileSize
import Verif.Props.TextSize
import Verif.Props.Lookup
import Verif.Props.Distinct
import Verif.Props.Story
import Verif.Props.Heap
import Verif.Props.Reentrant
import Verif.Props.Arena
import Verif.Props.RefEngine
import Verif.Props.Cents
import Verif.Props.Kept
import Verif.Props.Callbacks
import Verif.Props.Locks
import Verif.Props.Alike
import Verif.Props.SerdeArray
import Verif.Props.Guesses
import Verif.Props.Glue
import Verif.Props.Extend
import Verif.Props.LoadCost
import Verif.Props.Depends
import Verif.Props.Sorting
import Verif.Props.Sizes
import Verif.Props.IndexCost
import Verif.Props.SearchCost
import Verif.Props.LoadLeast
import Verif.Props.Popularity
import Verif.Props.Portable
import Verif.Props.Rank
import Verif.Props.Inside
import Verif.Props.Joined
import Verif.Props.Bounded
import Verif.Props.Hidden
import Verif.Props.Suggestions
import Verif.Props.SuggestCost
import Verif.Props.Laws
import Verif.Props.Masked
import Verif.Props.Twins
import Verif.Props.Shuffle
import Verif.Props.Answers
import Verif.Props.LoadExact
import Verif.Props.Selections
import Verif.Props.Tells
import Verif.Props.AnyFile
import Verif.Props.Patch
import Verif.Props.AnyRanks
import Verif.Props.Rename
import Verif.Props.Reprice
import Verif.Props.Loose
import Verif.Props.Rebrand
import Verif.Props.Shop
/-! # The theorems applied to concrete data

Each example applies one theorem, so all its hypotheses are met at once. `Shop` (Props/Shop.lean) is a catalogue of five products that is
indexed, written, loaded and searched. -/
namespace Idx
open Shop

/-! ## C01 – C06 -/

example : deU64 (serU64 0xfedcba9876543210 ++ [7]) = .ok ([7], 0xfedcba9876543210) := C01_partial _ _ (.inr (by decide))
example : deU64 (serU64 0x0123456789abcdef ++ [1, 7]) = .ok ([7], 0x8123456789abcdef) := C01_band _ _ (by decide) (by decide)
example : deVec .wasm32 deU8 (serVec serU8 [3, 200, 0] ++ [7]) = .ok ([7], [3, 200, 0]) :=
  C04_vec .wasm32 serU8 deU8 _ _ (.of_carried (by decide) fun _ _ => rfl) fun a _ r => deU8_rt a r
example : deArray .wasm32 3 deChar (serArray serChar ['æ', '€', 'a'] ++ [7]) = .ok ([7], ['æ', '€', 'a']) :=
  C04_array .wasm32 3 serChar deChar _ _ rfl (by decide) fun a _ r => deChar_rt a r
example := C05 .wasm32 [700, 3, 3, 90000] [7] (.of_carried (by decide) fun _ _ => rfl) (by decide)
example := C06_space "kunst og musik".toList 8 (by decide) "kunst".toList "og musik".toList rfl (by decide)
example := C06_nospace "kunsthal".toList 3 (by decide) fun pre post h => by
  have h' : ' ' ∈ "kunsthal".toList := h ▸ by simp
  exact absurd h' (by decide)

/-! ## C07 – C13, C55, C62, C69: the file -/

example := C07_partial .wasm32 5 [1, 5] .sliceOutOfRange (C07_false_slice 5 .wasm32 (.inl rfl) fun _ _ _ => rfl)
example := C07_false_assert 5 .wasm32 (.inl rfl) fun _ _ _ => rfl
example := C07_false_overflow 5 .debug64 (.inr rfl) (fun _ _ _ => rfl) rfl
example (extra : Bytes) := C08_trailing (by decide) build .ident .wasm32 fits extra
example := C10_exact (by decide) build size .ident .wasm32 fits
example := C11 (by decide) (by decide) build .ident .wasm32 fits
example := C11_sorted searchable .ident .wasm32 fits
example : deserializeAll .wasm32 4 (bytes ++ [1]) = .panic .assertFailed :=
  serialized ▸ C13 (by decide) build (by intro h; have := data_some; rw [h] at this; cases this) 4 (by decide) .ident .wasm32 fits [1]
example := C16_reload (by decide) build .ident .wasm32 fits
example := C55_partial (by decide) build (by decide) .ident .wasm32 fits (.of_carried (by decide) fun _ _ => rfl)
  (bytes.take 949) (bytes.drop 949) (by rw [List.take_append_drop, serialized])
  (by intro h; have := congrArg List.length h; rw [List.length_drop, bytes_length] at this; cases this)
example := C69 (by decide) build .ident .wasm32 fits
example := C62 load

/-! ## C14 – C24: the catalogue -/

example := C15 [.getOrInsert "v".toList, .insert "w".toList, .getOrInsert "v".toList] _ rfl
example := C18 (buildAll_container build)
example := C19 (buildAll_container build)
example := C20 (buildAll_container build)
/-- The third product reports its own price, but as its image that of the fifth: the second has none. -/
example : ∃ p x, ix.container.products[2]? = some p ∧ parseF32 "7.50".toList = some x ∧
    ix.container.extra.get p "price".toList = some (.float x) ∧ ix.container.extra.get p "image_url".toList = some (.string "z".toList) := by
  obtain ⟨_, h14⟩ := C14 (buildAll_container build)
  obtain ⟨p, hp, _⟩ := h14 2 _ rfl
  obtain ⟨x, hx, hg⟩ := C16 (buildAll_container build) 2 _ rfl p hp
  exact ⟨p, x, hp, hx, hg, C17_exact (buildAll_container build) 2 p hp⟩
/-- The first is not behind one without images. -/
example : ∃ p, ix.container.products[0]? = some p ∧ ix.container.extra.get p "image_url".toList = some (.string "x".toList) := by
  obtain ⟨_, h14⟩ := C14 (buildAll_container build)
  obtain ⟨p, hp, _⟩ := h14 0 _ rfl
  refine ⟨p, hp, C17_partial (buildAll_container build) 0 _ p rfl hp fun j r hj hr => ?_⟩
  obtain rfl : j = 0 := by omega
  cases hr
  exact List.cons_ne_nil _ _
theorem Shop.has : ∃ node, ix.Has kunst node :=
  (C21_path_iff_substring (by decide) build kunst (by decide)).2 ⟨by decide, _, List.mem_cons_self, ⟨[], "bv".toList, rfl⟩⟩
example : ∃ node : GramNode Char, node.item = 't' := by
  obtain ⟨node, h⟩ := Shop.has
  exact ⟨node, by simpa [kunst] using (C21_weight (by decide) build kunst node h).1.symm⟩
/-- "kunst" is in the first two products, fewer than four. -/
example : ∃ l, ix.data.get kunst = some l ∧ l.length = 2 ∧ l.Pairwise (fun p q => p.sid ≤ q.sid) := by
  have h := C22_postings (by decide) build kunst
  have hc : maximumProductAmount .wasm32 items.length = 4 := C22_cutoff .wasm32 (.inl rfl) 5 (by decide)
  have hl := congrArg List.length (expected_ids build kunst)
  rw [List.length_map] at hl
  have h2 : (expectedPostings keep 5 ix.container.products items kunst).length = 2 := by rw [hl]; decide +kernel
  simp only [hc] at h
  rw [if_pos ⟨of_length h2, by rw [h2]; decide⟩] at h
  exact ⟨_, h, h2, C22_ascending (by decide) build kunst _ h⟩
example : ∃ node, ix.Has kunst node ∧ ∃ m, node.weight.val = .fin false m ∧ 2 ^ 117 ≤ m := by
  obtain ⟨node, h⟩ := Shop.has
  obtain ⟨⟨m, hm, h1, _⟩, _⟩ := C23_weights (by decide) build size kunst node h
  exact ⟨node, h, m, hm, h1⟩
example := C23_roots (by decide) build

/-! ## C25 – C32: searching -/

example := C25_distinct .ident ix (by decide) (by decide) kunst results search
example := C25_best_first searchable .ident kunst results search

theorem Shop.of_infix {α : Type} {v text : List α} (h : v <:+: text) :
    v ∈ (List.range (text.length + 1)).map fun i => (text.drop i).take v.length := by
  obtain ⟨a, b, rfl⟩ := h
  refine List.mem_map.2 ⟨a.length, List.mem_range.2 (by simp; omega), ?_⟩
  rw [List.append_assoc, List.drop_left, List.take_left]

theorem Shop.only {v : List Char} (hv : v.length = 5) (hk : v.head? = some 'k') (ho : ∃ raw ∈ items, v <:+: textOf keep raw) : v = kunst := by
  obtain ⟨raw, hr, h⟩ := ho
  have hm := of_infix h
  rw [hv] at hm
  have : ∀ raw ∈ items, ∀ v ∈ (List.range ((textOf keep raw).length + 1)).map fun i => ((textOf keep raw).drop i).take 5,
      v.length = 5 → v.head? = some 'k' → v = kunst := by decide +kernel
  exact this raw hr v hm hv hk

theorem Shop.onlyMatch : OnlyMatch keep 5 items kunst := fun q rest f seen e hw hf ho _ _ _ => by
  have hq : q = 'k' := (List.cons.inj hw).1.symm
  exact Shop.only hf (congrArg some hq) ho

theorem Shop.few : (expectedPostings keep 5 ix.container.products items kunst).length < maximumProductAmount .wasm32 items.length := by
  have hl := congrArg List.length (expected_ids build kunst)
  rw [List.length_map] at hl
  rw [hl]
  decide +kernel

theorem Shop.first : items[0]? = some (item "kunst" "b" "p1" "19.90" ["art"] ["S", "M"] ["x"]) := rfl
theorem Shop.first_text : kunst <:+: textOf keep (item "kunst" "b" "p1" "19.90" ["art"] ["S", "M"] ["x"]) := ⟨[], "bv".toList, rfl⟩

example := one_result.imp fun p h => h.imp fun c h => C26_justified (by decide) (by decide) build noNul .ident kunst results search p c h.1
example := one_result.imp fun p h => h.imp fun c h => C26_padded (by decide) (by decide) build .ident kunst results search p c h.1
example := C27_exact searchable kunst rfl _ (List.mem_of_getElem? first) first_text
example : ∃ p c, (p, c) ∈ results ∧ p.id = "p1".toList :=
  C28_partial searchable .ident kunst results search kunst rfl (List.infix_refl _) 0 _ first first_text few onlyMatch
example : pix.search .ident 5 kunst = .ok presults := psearch
example : ix.search .rev 5 "kuns".toList = .ok [] := C29_short_query (by decide) (by decide) build noNul .rev _ (by decide)
example (mode : PanicMode) := C31_case mode .ident (fun c => [c.toLower]) ⟨⟨.free, some pix⟩, ⟨.free, some pcl⟩⟩ "KUNST".toList kunst
  (by decide) (.new pcl) (.new pcl) none []
example := (C27_exact searchable kunst rfl _ (List.mem_of_getElem? first) first_text).imp fun w h => h.imp fun c h =>
  C32_gram searchable (by decide) kunst w c h.1
example := one_result.imp fun p h => h.imp fun c h => C32_results searchable (by decide) .ident kunst results search p c h.1
example := C54_found_iff (by decide) (by decide) build .ident kunst results search "p1".toList
example := C48_gram_total pix (n := 5) (by decide) (by decide) kunst

/-! ## The shop's page -/

def Shop.page : Engine := ⟨⟨.free, some pix⟩, ⟨.free, some pcl⟩⟩

theorem Shop.loaded : LoadedFrom keep parseF32 items pix pcl :=
  ⟨.wasm32, .wasm32, .ident, bytes, written, by rw [bytes_length]; exact .of_carried (by decide) fun _ _ => rfl, load⟩

def Shop.whole : ProductProducer := ⟨pix.container, [0, 1], 0⟩

theorem Shop.plain_search (mode : PanicMode) (o : HashOrd) {ix : GramIndex Char} (classic : Slot Classic) (c₁ c₂ : Classic) (input : Str)
    {results : List (Product × F32)} {ids : List Nat} (h : ix.search o 5 input = .ok results) (hids : results.map (·.1.sid) = ids) :
    Engine.search mode o keep ⟨⟨.free, some ix⟩, classic⟩ input (.new c₁) (.new c₂) none [] =
      (⟨⟨.free, some ix⟩, classic⟩, .ok (some ⟨ix.container, ids, 0⟩)) := by
  classical
  obtain ⟨r, h1, h2⟩ := searchIds_spec o keep ix input (.new c₁) (.new c₂) (inRange_new_categories _) (inRange_new_tags _) []
  rw [List.flatMap_singleton', show ngramIndexSize = 5 from rfl, h] at h1
  cases h1
  simp only [Engine.search, parseFilters, Slot.lockOk, h2]
  rw [hids, List.filter_eq_self.2 fun sid _ => by simp [wanted_new]]
  rfl

theorem Shop.searched (mode : PanicMode) : page.search mode .ident keep kunst (.new pcl) (.new pcl) none [] = (page, .ok (some whole)) :=
  plain_search mode .ident _ _ _ _ psearch presult_ids

/-- "M" is toggled, "S" twice; the first tag is toggled. -/
def Shop.clicks : List CatOp := [.toggle ⟨"M".toList, 0, 1⟩, .toggle ⟨"S".toList, 0, 0⟩, .addGeneral 4, .toggle ⟨"S".toList, 0, 0⟩]
def Shop.tagClicks : List TagOp := [.addGeneral 3, .toggle ⟨pcl, 0⟩]

theorem Shop.option_exists {i : Nat} (h : i < 2) (name : Str) : ExportOption.Exists pcl ⟨name, 0, i⟩ := by
  obtain ⟨cat, s, m, hc, ho, _⟩ := only_category
  match i, h with
  | 0, _ => exact ⟨cat, s, by simp [hc], by simp [ho]⟩
  | 1, _ => exact ⟨cat, m, by simp [hc], by simp [ho]⟩

theorem Shop.clicks_exist : ∀ item, CatOp.toggle item ∈ clicks → ExportOption.Exists pcl item := by
  intro item h
  simp only [clicks, List.mem_cons, CatOp.toggle.injEq, List.not_mem_nil, or_false, reduceCtorEq, false_or] at h
  rcases h with rfl | rfl | rfl
  · exact option_exists (by decide) _
  · exact option_exists (by decide) _
  · exact option_exists (by decide) _

theorem Shop.tagClicks_ok : ∀ op ∈ tagClicks, op.Ok := by
  intro op h
  simp only [tagClicks, List.mem_cons, List.not_mem_nil, or_false] at h
  rcases h with rfl | rfl
  · trivial
  · exact tag_ok 0 (by decide)

theorem Shop.tagClicks_own : ∀ tag, TagOp.toggle tag ∈ tagClicks → tag.handle = pcl := by
  intro tag h
  simp only [tagClicks, List.mem_cons, TagOp.toggle.injEq, List.not_mem_nil, or_false, reduceCtorEq, false_or] at h
  rw [h]

def Shop.cats : CategoryHandler := clicks.foldl CatOp.run (.new pcl)
theorem Shop.cats_inRange : cats.InRange := C33_inRange_categories pcl clicks clicks_exist

theorem Shop.tags_exist : ∃ tags, tagClicks.foldlM TagOp.run (.new pcl) = .ok tags := (C37_tags pcl tagClicks tagClicks_ok).imp fun _ h => h.1
theorem Shop.tags_inRange {tags} (h : tagClicks.foldlM TagOp.run (.new pcl) = .ok tags) : tags.InRange :=
  C33_inRange_tags pcl tagClicks tags tagClicks_ok tagClicks_own h

def Shop.upTo20 : List (JsValue × JsValue) := [(.num (.fin false 0), .num (F32.one.val))]

theorem Shop.objects (l : List (JsValue × JsValue)) : ∀ entry ∈ l.map priceFilter, ∃ id props, entry.2 = .obj id props := by
  intro entry h
  obtain ⟨f, _, rfl⟩ := List.mem_map.1 h
  exact ⟨_, _, rfl⟩

example (mode : PanicMode) := tags_exist.imp fun tags h => C33 mode .ident keep page kunst cats tags cats_inRange (tags_inRange h)
  (upTo20.map priceFilter) (objects _) pcl pcl page whole (searched mode)
example (mode : PanicMode) := C33_history mode .ident keep page kunst pcl clicks clicks_exist tagClicks tagClicks_ok tagClicks_own
  (upTo20.map priceFilter) (objects _) pcl pcl page whole (searched mode)
example (mode : PanicMode) := C33_more mode .ident keep page kunst (.new pcl) ((CategoryHandler.new pcl).toggle ⟨"M".toList, 0, 1⟩).1
  (.new pcl) (.new pcl) (inRange_new_categories _) (inRange_new_tags _)
  (C33_inRange_categories pcl [.toggle ⟨"M".toList, 0, 1⟩] fun item h => by
    simp only [List.mem_singleton, CatOp.toggle.injEq] at h
    exact h ▸ option_exists (by decide) _)
  (inRange_new_tags _) rfl rfl (fun _ h => absurd h (by simp [CategoryHandler.new])) (fun _ h => h)
  [] (upTo20.map priceFilter) (objects _) (fun _ h => absurd h List.not_mem_nil) page whole (searched mode)

theorem Shop.self_ranking {n : Nat} {ranks : List Nat} (h : ranks.Perm (List.range n)) :
    IsRanking n (fun i j => ∀ a b, ranks[i]? = some a → ranks[j]? = some b → a < b) ranks :=
  ⟨h, fun i j ri rj hi hj => ⟨fun hlt ri' rj' hi' hj' => by rw [hi] at hi'; rw [hj] at hj'; cases hi'; cases hj'; exact hlt,
    fun hall => hall ri rj hi hj⟩⟩

/-- Both are found; in alphabetical order the second comes first. -/
example (mode : PanicMode) : ∃ pp, page.search mode .ident keep kunst (.new pcl) (.new pcl) (some "Alphabetical".toList) [] =
    (page, .ok (some pp)) ∧ pp.toExport.Perm [0, 1] ∧
    pp.toExport.Pairwise (Before (fun a b => CodeLt a.title b.title) items) := by
  obtain ⟨pp, h, _, _, hp, ha, _⟩ := (C34 mode .ident keep keep parseF32 items pix pcl loaded page page rfl rfl kunst (.new pcl) (.new pcl) [] whole
    (searched mode) "Alphabetical".toList).2 (by decide)
  exact ⟨pp, h, hp, ha rfl⟩
example (mode : PanicMode) := C34_any mode .ident keep page page kunst (.new pcl) (.new pcl) [] whole (searched mode) pcl rfl rfl
  "Alphabetical".toList _ pcl_alphabetical (by decide)
example (mode : PanicMode) : page.search mode .ident keep kunst (.new pcl) (.new pcl) (some "alphabetical".toList) [] = (page, .ok none) :=
  C34_unknown mode .ident keep page page kunst (.new pcl) (.new pcl) [] _ (searched mode) pcl rfl rfl _ pcl_unknown
example (mode : PanicMode) := C34_ranked mode .ident keep keep parseF32 items pix pcl loaded page page rfl rfl kunst (.new pcl) (.new pcl) [] whole
  (searched mode) "Alphabetical".toList _ pcl_alphabetical _
  (self_ranking (by decide))

example := C35_never "price".toList (.obj 0 [("from".toList, .str []), ("to".toList, .undefined)]) _ rfl
example := C37_tags pcl tagClicks tagClicks_ok
example := only_category.imp fun cat h => h.imp fun _ h => h.imp fun _ h => And.intro
  (C39_options pcl 0 cat (by rw [h.1]; rfl) 3) (C39_name pcl 0 2 cat (by rw [h.1]; rfl))
example := C40_engine page "arts and".toList pcl rfl rfl tagsNumbered

/-! ## Indexing small catalogues again -/

def Shop.duo : List RawProduct := items.take 2

set_option maxRecDepth 20000 in
theorem Shop.duo_built : ∃ r, runBuild .wasm32 .ident parseF32 5 duo = some r :=
  Option.isSome_iff_exists.1 (by decide +kernel)

example : ∃ ix cl, buildAll .wasm32 .ident keep parseF32 5 duo = .ok (ix, cl) ∧ (∀ k, ix.data.get k = none) ∧
    ∀ o query, ix.search o 5 query = .ok [] := by
  obtain ⟨⟨ix, cl⟩, h⟩ := duo_built
  have hb := runBuild_sound h
  exact ⟨ix, cl, hb, C30_no_postings (.inl rfl) (by decide) hb (by decide),
    C30_two_products (.inl rfl) (by decide) (by decide) hb (by decide)⟩

/-- The shop indexed with another order of the hash maps, and with its products in another order; also by pairs of characters. -/
def Shop.again (o : HashOrd) (n : Nat) (l : List RawProduct) : Option (GramIndex Char × Classic) := runBuild .wasm32 o parseF32 n l

set_option maxRecDepth 20000 in
theorem Shop.again_built : (again .rev 5 items).isSome = true ∧ (again .rev 5 items.reverse).isSome = true ∧
    (again .ident 2 items).isSome = true ∧ (again .rev 2 items).isSome = true ∧ (again .rev 2 items.reverse).isSome = true := by decide +kernel

theorem Shop.again_searchable {o : HashOrd} {n : Nat} {l : List RawProduct} (h1 : 1 ≤ n) (h2 : n ≤ 764) (hl : totalChars keep l ≤ 2 ^ 32)
    (h : (again o n l).isSome = true) : ∃ ix cl, Searchable .wasm32 o keep parseF32 n l ix cl := by
  obtain ⟨⟨ix, cl⟩, h⟩ := Option.isSome_iff_exists.1 h
  exact ⟨ix, cl, h1, h2, runBuild_sound h, hl⟩

theorem Shop.reordered : (items.map (searchedOf keep)).Perm (items.reverse.map (searchedOf keep)) := (List.reverse_perm _).symm.map _

theorem Shop.found_somehow {t o parse n l ix cl} (h : Searchable t o keep parse n l ix cl) (o' : HashOrd) (query : List Char) :
    ∃ r, ix.search o' n query = .ok r := C48_search_total o' ix h.pos h.le query

example : ∃ ix₂ cl₂, TwoBuilds .wasm32 .ident .rev keep parseF32 5 items ix ix₂ cl cl₂ ∧ ix.container = ix₂.container ∧
    (∀ k, ix.data.get k = ix₂.data.get k) ∧ Twin ix ix₂ ∧ ∃ res₁ res₂, ix.searchGram 5 kunst = .ok res₁ ∧ ix₂.searchGram 5 kunst = .ok res₂ ∧
      res₁.map (·.2) = res₂.map (·.2) := by
  obtain ⟨ix₂, cl₂, h⟩ := again_searchable (by decide) (by decide) size again_built.1
  exact ⟨ix₂, cl₂, ⟨searchable, h⟩, C49_container ⟨searchable, h⟩, C49_postings ⟨searchable, h⟩, C49_trees ⟨searchable, h⟩,
    C49_partial ⟨searchable, h⟩ kunst⟩
example : ∃ ix₂ cl₂, SameTexts .wasm32 .ident .rev keep parseF32 5 items items.reverse ix ix₂ cl cl₂ ∧ Twin ix ix₂ ∧
    (∀ k, (ix.data.get k = none ∧ ix₂.data.get k = none) ∨ ∃ l₁ l₂, ix.data.get k = some l₁ ∧ ix₂.data.get k = some l₂ ∧
      (l₁.map (·.id)).Perm (l₂.map (·.id))) ∧ ∃ res₁ res₂, ix.searchGram 5 kunst = .ok res₁ ∧ ix₂.searchGram 5 kunst = .ok res₂ ∧
      res₁.map (·.2) = res₂.map (·.2) := by
  obtain ⟨ix₂, cl₂, h⟩ := again_searchable (l := items.reverse) (by decide) (by decide) (by decide) again_built.2.1
  exact ⟨ix₂, cl₂, ⟨reordered, searchable, h⟩, C58_trees ⟨reordered, searchable, h⟩, C58_postings ⟨reordered, searchable, h⟩,
    C58_lookups ⟨reordered, searchable, h⟩ kunst⟩

/-- Only one window of the catalogue resembles "kunst", so every index of it finds that one. -/
theorem Shop.lookup {t o parse l ix cl} (h : Searchable t o keep parse 5 l ix cl) (hl : ∀ raw ∈ l, raw ∈ items)
    (hf : ∃ raw ∈ l, kunst <:+: textOf keep raw) : ix.searchGram 5 kunst = .ok (some (kunst, exactConfidence keep l kunst)) := by
  rcases C83_lookup h (by decide) (by decide) kunst rfl with ⟨_, hn⟩ | ⟨v, hv, hr, ho, _⟩
  · obtain ⟨raw, hm, hi⟩ := hf
    exact absurd ⟨raw, hm, hi⟩ (hn kunst (.refl (by decide)))
  · obtain ⟨raw, hm, hi⟩ := ho
    have : v = kunst := only (hr.length ▸ rfl) (by obtain ⟨q, _, _, h, rfl, _⟩ := hr; exact congrArg some (List.cons.inj h).1.symm) ⟨raw, hl raw hm, hi⟩
    rw [hv, this]

example : ∃ rest ix, deGramIndex .wasm32 5 bytes = .ok (rest, ix) ∧ ∃ used, bytes = used ++ rest := by
  have h := load
  unfold deserializeAll at h
  cases hg : deGramIndex .wasm32 5 bytes with
  | ok r =>
    obtain ⟨rest, ix⟩ := r
    exact ⟨rest, ix, rfl, (C08_suffix .wasm32 5 bytes rest ix hg).1⟩
  | none => rw [hg] at h; cases h
  | panic w => rw [hg] at h; cases h

/-! ### Indexed by pairs of characters -/

example : ∃ ix₁ ix₂ cl₁ cl₂ r₁ r₂, TwoBuilds .wasm32 .ident .rev keep parseF32 2 items ix₁ ix₂ cl₁ cl₂ ∧
    ix₁.search .ident 2 kunst = .ok r₁ ∧ ix₂.search .rev 2 kunst = .ok r₂ ∧ r₁.Perm r₂ ∧
    ∃ p c, (p, c) ∈ r₁ ∧ p.id = "p1".toList := by
  obtain ⟨ix₁, cl₁, h₁⟩ := again_searchable (by decide) (by decide) size again_built.2.2.1
  obtain ⟨ix₂, cl₂, h₂⟩ := again_searchable (by decide) (by decide) size again_built.2.2.2.1
  obtain ⟨r₁, s₁⟩ := found_somehow h₁ .ident kunst
  obtain ⟨r₂, s₂⟩ := found_somehow h₂ .rev kunst
  refine ⟨ix₁, ix₂, cl₁, cl₂, r₁, r₂, ⟨h₁, h₂⟩, s₁, s₂, C49_small_n ⟨h₁, h₂⟩ (by decide) kunst .ident .rev r₁ r₂ s₁ s₂,
    C28_small_n h₁ (by decide) .ident kunst r₁ s₁ "ku".toList rfl ⟨[], "nst".toList, rfl⟩ 0 _ first ⟨[], "nstbv".toList, rfl⟩ ?_⟩
  have hl := congrArg List.length (expected_ids h₁.built "ku".toList)
  rw [List.length_map] at hl
  rw [hl]
  decide +kernel
example : ∃ ix₁ ix₂ cl₁ cl₂ r₁ r₂, SameTexts .wasm32 .ident .rev keep parseF32 2 items items.reverse ix₁ ix₂ cl₁ cl₂ ∧
    ix₁.search .ident 2 kunst = .ok r₁ ∧ ix₂.search .rev 2 kunst = .ok r₂ ∧
    (r₁.map fun e => (e.1.id, e.2)).Perm (r₂.map fun e => (e.1.id, e.2)) := by
  obtain ⟨ix₁, cl₁, h₁⟩ := again_searchable (by decide) (by decide) size again_built.2.2.1
  obtain ⟨ix₂, cl₂, h₂⟩ := again_searchable (l := items.reverse) (by decide) (by decide) (by decide) again_built.2.2.2.2
  obtain ⟨r₁, s₁⟩ := found_somehow h₁ .ident kunst
  obtain ⟨r₂, s₂⟩ := found_somehow h₂ .rev kunst
  exact ⟨ix₁, ix₂, cl₁, cl₂, r₁, r₂, ⟨reordered, h₁, h₂⟩, s₁, s₂,
    C58_small_n ⟨reordered, h₁, h₂⟩ (by decide) kunst .ident .rev r₁ r₂ s₁ s₂⟩

/-! ### "water" is looked up alike in all indexes -/

def Shop.water : List Char := "water".toList

set_option synthInstance.maxSize 1000 in
theorem Shop.unrivalled : ∀ w ∈ paddedWindows 5 water, ∀ v v', v.length = 5 → v'.length = 5 → v.head? = w.head? → v'.head? = w.head? →
    (∃ raw ∈ items, v <:+: textOf keep raw) → (∃ raw ∈ items, v' <:+: textOf keep raw) → v = v' := by
  intro w hw v v' hl hl' hh hh' ⟨raw, hr, hi⟩ ⟨raw', hr', hi'⟩
  have hm := of_infix hi
  have hm' := of_infix hi'
  rw [hl] at hm
  rw [hl'] at hm'
  have : ∀ w ∈ paddedWindows 5 water, ∀ raw ∈ items, ∀ raw' ∈ items,
      ∀ v ∈ (List.range ((textOf keep raw).length + 1)).map fun i => ((textOf keep raw).drop i).take 5,
      ∀ v' ∈ (List.range ((textOf keep raw').length + 1)).map fun i => ((textOf keep raw').drop i).take 5,
      v.length = 5 → v'.length = 5 → v.head? = w.head? → v'.head? = w.head? → v = v' := by decide +kernel
  exact this w hw raw hr raw' hr' v hm v' hm' hl hl' hh hh'

theorem Shop.resembles_head {w v : List Char} (h : Resembles w v) : v.head? = w.head? := by
  obtain ⟨q, _, _, rfl, rfl, _⟩ := h
  rfl

theorem Shop.noTies : NoTies keep 5 items water := fun w hw v v' hv hv' => by
  have hl := paddedWindows_length (by decide) hw
  exact unrivalled w hw v v' (hv.1.length ▸ hl) (hv'.1.length ▸ hl) (resembles_head hv.1) (resembles_head hv'.1) hv.2.1 hv'.2.1

theorem Shop.same_lookup {t o₁ o₂ parse₁ parse₂ l₁ l₂ ix₁ ix₂ cl₁ cl₂} (h₁ : Searchable t o₁ keep parse₁ 5 l₁ ix₁ cl₁)
    (h₂ : Searchable t o₂ keep parse₂ 5 l₂ ix₂ cl₂) (e₁ : ∀ raw, raw ∈ l₁ ↔ raw ∈ items) (e₂ : ∀ raw, raw ∈ l₂ ↔ raw ∈ items)
    (hc : ∀ v, exactConfidence keep l₁ v = exactConfidence keep l₂ v) (w : List Char)
    (hw : w ∈ paddedWindows 5 water) : ix₁.searchGram 5 w = ix₂.searchGram 5 w := by
  have hl := paddedWindows_length (by decide) hw
  have o12 : ∀ v, Occurs keep l₁ v → Occurs keep l₂ v := fun v ⟨raw, hm, hi⟩ => ⟨raw, (e₂ raw).2 ((e₁ raw).1 hm), hi⟩
  have o21 : ∀ v, Occurs keep l₂ v → Occurs keep l₁ v := fun v ⟨raw, hm, hi⟩ => ⟨raw, (e₁ raw).2 ((e₂ raw).1 hm), hi⟩
  rcases C83_lookup h₁ (by decide) (by decide) w hl with ⟨r₁, n₁⟩ | ⟨v₁, r₁, s₁, c₁, _⟩ <;>
    rcases C83_lookup h₂ (by decide) (by decide) w hl with ⟨r₂, n₂⟩ | ⟨v₂, r₂, s₂, c₂, _⟩
  · rw [r₁, r₂]
  · exact absurd (o21 _ c₂) (n₁ _ s₂)
  · exact absurd (o12 _ c₁) (n₂ _ s₁)
  · have : v₁ = v₂ := unrivalled w hw v₁ v₂ (s₁.length ▸ hl) (s₂.length ▸ hl) (resembles_head s₁) (resembles_head s₂)
      (c₁.imp fun raw h => ⟨(e₁ raw).1 h.1, h.2⟩) (c₂.imp fun raw h => ⟨(e₂ raw).1 h.1, h.2⟩)
    rw [r₁, r₂, this, hc]

theorem Shop.confidence_reverse (v : List Char) : exactConfidence keep items v = exactConfidence keep items.reverse v := by
  unfold exactConfidence
  simp only [occurrencesIn_perm _ ((List.reverse_perm items).map (textOf keep))]

example : ∃ ix₂ cl₂ r₁ r₂, TwoBuilds .wasm32 .ident .rev keep parseF32 5 items ix ix₂ cl cl₂ ∧ ix.search .rev 5 water = .ok r₁ ∧
    ix₂.search .ident 5 water = .ok r₂ ∧ r₁.Perm r₂ := by
  obtain ⟨ix₂, cl₂, h⟩ := again_searchable (by decide) (by decide) size again_built.1
  obtain ⟨r₁, s₁⟩ := found_somehow searchable .rev water
  obtain ⟨r₂, s₂⟩ := found_somehow h .ident water
  exact ⟨ix₂, cl₂, r₁, r₂, ⟨searchable, h⟩, s₁, s₂, C49_same_lookups ⟨searchable, h⟩ water
    (same_lookup searchable h (fun _ => .rfl) (fun _ => .rfl) fun _ => rfl) .rev .ident r₁ r₂ s₁ s₂⟩
example : ∃ ix₂ cl₂ r₁ r₂, SameTexts .wasm32 .ident .rev keep parseF32 5 items items.reverse ix ix₂ cl cl₂ ∧ ix.search .rev 5 water = .ok r₁ ∧
    ix₂.search .ident 5 water = .ok r₂ ∧ (r₁.map fun e => (e.1.id, e.2)).Perm (r₂.map fun e => (e.1.id, e.2)) := by
  obtain ⟨ix₂, cl₂, h⟩ := again_searchable (l := items.reverse) (by decide) (by decide) (by decide) again_built.2.1
  obtain ⟨r₁, s₁⟩ := found_somehow searchable .rev water
  obtain ⟨r₂, s₂⟩ := found_somehow h .ident water
  exact ⟨ix₂, cl₂, r₁, r₂, ⟨reordered, searchable, h⟩, s₁, s₂, C58_results ⟨reordered, searchable, h⟩ water
    (same_lookup searchable h (fun _ => .rfl) (fun _ => List.mem_reverse) confidence_reverse) .rev .ident r₁ r₂ s₁ s₂⟩
example : ∃ ix₂ cl₂ r₁ r₂, SameTexts .wasm32 .ident .rev keep parseF32 5 items items.reverse ix ix₂ cl cl₂ ∧ ix.search .rev 5 water = .ok r₁ ∧
    ix₂.search .ident 5 water = .ok r₂ ∧ (r₁.map fun e => (e.1.id, e.2)).Perm (r₂.map fun e => (e.1.id, e.2)) := by
  obtain ⟨ix₂, cl₂, h⟩ := again_searchable (l := items.reverse) (by decide) (by decide) (by decide) again_built.2.1
  obtain ⟨r₁, s₁⟩ := found_somehow searchable .rev water
  obtain ⟨r₂, s₂⟩ := found_somehow h .ident water
  exact ⟨ix₂, cl₂, r₁, r₂, ⟨reordered, searchable, h⟩, s₁, s₂,
    C83_deterministic ⟨reordered, searchable, h⟩ (by decide) (by decide) water noTies .rev .ident r₁ r₂ s₁ s₂⟩
example := (found_somehow searchable .rev water).imp fun r h =>
  C83_found_iff searchable (by decide) (by decide) .rev water noTies r h "p5".toList
example : ∃ p c, (p, c) ∈ results ∧ p.id = "p1".toList :=
  C83_found searchable (by decide) (by decide) .ident kunst results search kunst rfl (List.infix_refl _) _ (List.mem_of_getElem? first) first_text few
    fun v hv ho hne => absurd (only (hv.length ▸ rfl) (resembles_head hv) ho) hne

/-! ### A longer query -/

example : ∃ r', pix.search .rev 5 (kunst ++ "hal".toList) = .ok r' ∧ ∀ p ∈ presults.map (·.1), p ∈ r'.map (·.1) := by
  obtain ⟨r', h⟩ := C48_search_total .rev pix (n := 5) (by decide) (by decide) (kunst ++ "hal".toList)
  exact ⟨r', h, C59_kept pix (by decide) (by decide) kunst "hal".toList .ident .rev presults r' psearch h⟩
example (mode : PanicMode) : ∃ found', page.search mode .rev keep (kunst ++ "hal".toList) (.new pcl) (.new pcl) none [] =
    (page, .ok (some found')) ∧ ∀ sid ∈ [0, 1], sid ∈ found'.toExport := by
  obtain ⟨r', h⟩ := C48_search_total .rev pix (n := 5) (by decide) (by decide) (kunst ++ "hal".toList)
  have h' := plain_search mode .rev ⟨.free, some pcl⟩ pcl pcl _ h rfl
  exact ⟨_, h', C59_engine mode .ident .rev keep page pix rfl kunst "hal".toList (.new pcl) (.new pcl) (inRange_new_categories _)
    (inRange_new_tags _) [] page _ whole _ (searched mode) h'⟩

/-! ## C40 – C53: suggestions, the engine over time, threads -/

example := C40 [⟨"art".toList, [], [], 0⟩, ⟨"sale".toList, [], [], 1⟩] "arts and sales".toList (by decide)
example := C41_partial [⟨"art".toList, [], [], 0⟩, ⟨"sale".toList, [], [], 1⟩] "old art".toList (by decide) ⟨"art".toList, [], [], 0⟩ (by simp)
  (by decide) (by decide) (by decide)
example := C44 pix.container [1, 0, 1] (by rw [pix_products]; decide) 5
example := C45_partial .wasm32 ⟨[], [], ⟨[], 0⟩, "gid://shopify/Product/6590".toList, 0⟩ (by decide)

def Shop.ware (description id : String) : Product := ⟨description.toList, "t".toList, ⟨"v".toList, 0⟩, id.toList, 0⟩
example : (ware "old" "1").eqv (ware "olderen" "1") = true ∧ (ware "olderen" "1").eqv (ware "old" "1") = true :=
  ⟨by decide, C46_symm _ _ (by decide)⟩
example := C46_trans_partial (ware "old" "1") (ware "old" "1") (ware "older" "1") (by decide) (by decide) rfl
example := C52_read [("a".toList, .string "x".toList), ("b".toList, .float F32.one), ("a".toList, .string "y".toList)] _ rfl
  ⟨[], [], ⟨[], 0⟩, [], 1⟩ "a".toList
example := C52_other [("a".toList, .string "x".toList), ("b".toList, .float F32.one)] ("a".toList, .string "y".toList) _ _ rfl rfl
  "b".toList (by decide) ⟨[], [], ⟨[], 0⟩, [], 0⟩

/-- A file that is not one; the page is searched before and after loading the shop. -/
def Shop.day : List ApiCall :=
  [.init [1, 5], .search .ident kunst (.new pcl) (.new pcl) none [], .init bytes, .search .ident kunst (.new pcl) (.new pcl) none [], .init [1, 5]]

theorem Shop.bad : deserializeAll .wasm32 5 [1, 5] = .panic .sliceOutOfRange := C07_false_slice 5 .wasm32 (.inl rfl) fun _ _ _ => rfl

theorem Shop.bad_init (e : Engine) : e.initialize .wasm32 [1, 5] = (e, .error .sliceOutOfRange) := by
  unfold Engine.initialize
  rw [show ngramIndexSize = 5 from rfl, bad]

theorem Shop.init : Engine.start.initialize .wasm32 bytes = (page, .ok true) := Witness.initialize_ok rfl rfl load

theorem Shop.morning (mode : PanicMode) : play .wasm32 mode keep Engine.start (day.take 2) =
    (Engine.start, [(.init [1, 5], .panicked .sliceOutOfRange), (.search .ident kunst (.new pcl) (.new pcl) none [], .answered none)]) := by
  simp only [day, List.take, play, ApiCall.run, bad_init]
  rfl

theorem Shop.evening (mode : PanicMode) : play .wasm32 mode keep Engine.start day =
    (page, [(.init [1, 5], .panicked .sliceOutOfRange), (.search .ident kunst (.new pcl) (.new pcl) none [], .answered none),
      (.init bytes, .loaded), (.search .ident kunst (.new pcl) (.new pcl) none [], .answered (some whole)),
      (.init [1, 5], .panicked .sliceOutOfRange)]) := by
  have h : Engine.start.search mode .ident keep kunst (.new pcl) (.new pcl) none [] = (Engine.start, .ok none) := rfl
  simp only [day, play, ApiCall.run, bad_init, init, h, searched mode]

theorem Shop.no_panic (mode : PanicMode) : NoSearchPanicked (play .wasm32 mode keep Engine.start day).2 := by
  rw [evening]
  intro x hx o input cats tags order filter w he
  subst he
  simp at hx

theorem Shop.last (mode : PanicMode) : lastLoaded (play .wasm32 mode keep Engine.start day).2 none = some bytes := by
  rw [evening]
  rfl

example (mode : PanicMode) := C42_before .wasm32 mode keep (day.take 2) (by rw [morning]; rfl)
example (mode : PanicMode) := C42_failed .wasm32 mode keep day [1, 5] page .sliceOutOfRange (by rw [evening]; exact bad_init page)
example (mode : PanicMode) := C42_serves_partial .wasm32 mode keep day bytes (last mode) (no_panic mode)

theorem Shop.good_file : GoodFile .wasm32 bytes := fun ix cl h => by
  rw [show ngramIndexSize = 5 from rfl, load] at h
  cases h
  exact ⟨_, _, _, loaded⟩
theorem Shop.good_bad : GoodFile .wasm32 [1, 5] := fun ix cl h => by
  rw [show ngramIndexSize = 5 from rfl, bad] at h
  cases h
theorem Shop.good_day : ∀ c ∈ day, c.Good .wasm32 := by
  intro c h
  simp only [day, List.mem_cons, List.not_mem_nil, or_false] at h
  rcases h with rfl | rfl | rfl | rfl | rfl
  · exact good_bad
  · exact ⟨inRange_new_categories _, inRange_new_tags _⟩
  · exact good_file
  · exact ⟨inRange_new_categories _, inRange_new_tags _⟩
  · exact good_bad
example (mode : PanicMode) := C53_partial .wasm32 mode keep day good_day
example (mode : PanicMode) := C53_dead .wasm32 mode keep ⟨⟨mode.lost, some pix⟩, ⟨.free, some pcl⟩⟩ (by cases mode <;> simp [PanicMode.lost]) day

theorem Shop.init_free {t : Target} {e e' : Engine} {file : Bytes} (h : e.initialize t file = (e', .ok true)) : e'.index.state = .free := by
  unfold Engine.initialize at h
  split at h
  · cases (Prod.mk.inj h).2
  · cases (Prod.mk.inj h).2
  · cases hs : e.index.state with
    | free =>
      simp only [Slot.lockUnwrap, hs] at h
      split at h
      · cases (Prod.mk.inj h).2
      · rw [← (Prod.mk.inj h).1]
    | _ => simp only [Slot.lockUnwrap, hs] at h; cases (Prod.mk.inj h).2

theorem Shop.trapped {t : Target} {mode : PanicMode} {f₁ f₂ : Bytes} {e₁ e₂ e₃ : Engine} {input : Str} {cats : CategoryHandler}
    {tags : TagHandler} {w : Panic} (h₁ : Engine.start.initialize t f₁ = (e₁, .ok true)) (h₂ : e₁.initialize t f₂ = (e₂, .ok true))
    (hs : e₂.search mode .ident keep input cats tags none [] = (e₃, .error w)) :
    ¬NoSearchPanicked (play t mode keep Engine.start [.init f₁, .init f₂, .search .ident input cats tags none []]).2 := by
  intro h
  refine h (.search .ident input cats tags none [], .panicked w) ?_ _ _ _ _ _ _ _ rfl
  simp only [play, ApiCall.run, h₁, h₂, hs, List.mem_cons, true_or, or_true]

open Witness in
example (mode : PanicMode) (calls : List ApiCall) : ∃ e₃ before, (play target mode keep Engine.start before).1 = e₃ ∧
    (play target mode keep e₃ calls).1 = e₃ ∧ (play target mode keep Engine.start (before ++ calls)).1 = e₃ := by
  obtain ⟨e₁, e₂, e₃, h₁, h₂, tags, it, item, w, hi₁, _, _, _, hi₂, _, _, hs, _⟩ := C53_false mode
  have hp : (play target mode keep Engine.start [.init (file catalogueA), .init (file catalogueC),
      .search .ident Witness.kunst (h₂.toggle item).1 tags none []]).1 = e₃ := by
    simp only [play, ApiCall.run, hi₁, hi₂, hs]
  exact ⟨e₃, _, hp, (C53_fatal target mode .ident keep e₂ e₃ _ _ tags none [] w (init_free hi₂) hs calls).1,
    (C93_forever target mode keep _ calls (trapped hi₁ hi₂ hs)).1.trans hp⟩

/-- One thread loads a file, then another searches. -/
theorem Shop.two_threads {t : Target} {lower : Char → List Char} {file : Bytes} {ix : GramIndex Char} {cl : Classic} {a : SearchArgs}
    {filters : List FeatureFilter} {ids : List Nat} (hd : deserializeAll t ngramIndexSize file = .ok (ix, cl))
    (hf : parseFilters a.filter = some filters) (hs : searchIds a.o lower ix a.input a.cats a.tags filters = .ok ids) (ho : a.order = none) :
    ∃ s, Conc.Reach t lower s ∧ s.log = [(0, .init file, .setIndex ix, .half), (0, .init file, .setClassic cl, .loaded),
      (1, .search a, .search a, .produced (some (ProductProducer.new ix.container ids)))] ∧ ∃ x ∈ s.threads, x ≠ none := by
  have r1 : Conc.Reach t lower ⟨.start, none, none, [some (.init file, .initParse), none], [], []⟩ :=
    .call (s := .start 2) 0 (.init file) (.start 2) rfl
  have r2 : Conc.Reach t lower ⟨.start, none, none, [some (.init file, .initWaitIndex ix cl), none], [], []⟩ :=
    .go 0 r1 (by simp [Conc.go, hd, Conc.goto])
  have r3 : Conc.Reach t lower ⟨.start, some 0, none, [some (.init file, .initHoldIndex ix cl), none], [], []⟩ := .go 0 r2 rfl
  have r4 : Conc.Reach t lower ⟨⟨⟨.free, some ix⟩, Engine.start.classic⟩, none, none, [some (.init file, .initWaitClassic cl), none],
      [(0, .init file, .setIndex ix, .half)], []⟩ := .go 0 r3 rfl
  have r5 : Conc.Reach t lower ⟨⟨⟨.free, some ix⟩, Engine.start.classic⟩, none, some 0, [some (.init file, .initHoldClassic cl), none],
      [(0, .init file, .setIndex ix, .half)], []⟩ := .go 0 r4 rfl
  have r6 : Conc.Reach t lower ⟨⟨⟨.free, some ix⟩, ⟨.free, some cl⟩⟩, none, none, [none, none],
      [(0, .init file, .setIndex ix, .half), (0, .init file, .setClassic cl, .loaded)], [(0, .init file, .loaded)]⟩ := .go 0 r5 rfl
  have r7 : Conc.Reach t lower ⟨⟨⟨.free, some ix⟩, ⟨.free, some cl⟩⟩, none, none, [none, some (.search a, .searchParse)],
      [(0, .init file, .setIndex ix, .half), (0, .init file, .setClassic cl, .loaded)], [(0, .init file, .loaded)]⟩ := .call 1 (.search a) r6 rfl
  have r8 : Conc.Reach t lower ⟨⟨⟨.free, some ix⟩, ⟨.free, some cl⟩⟩, none, none, [none, some (.search a, .searchWaitIndex filters)],
      [(0, .init file, .setIndex ix, .half), (0, .init file, .setClassic cl, .loaded)], [(0, .init file, .loaded)]⟩ :=
    .go 1 r7 (by simp [Conc.go, hf, Conc.goto])
  have r9 : Conc.Reach t lower ⟨⟨⟨.free, some ix⟩, ⟨.free, some cl⟩⟩, some 1, none, [none, some (.search a, .searchHoldIndex filters)],
      [(0, .init file, .setIndex ix, .half), (0, .init file, .setClassic cl, .loaded)], [(0, .init file, .loaded)]⟩ := .go 1 r8 rfl
  have r10 : Conc.Reach t lower ⟨⟨⟨.free, some ix⟩, ⟨.free, some cl⟩⟩, some 1, none,
      [none, some (.search a, .searchReturn (some (ProductProducer.new ix.container ids)))],
      [(0, .init file, .setIndex ix, .half), (0, .init file, .setClassic cl, .loaded),
        (1, .search a, .search a, .produced (some (ProductProducer.new ix.container ids)))], [(0, .init file, .loaded)]⟩ :=
    .go 1 r9 (by simp [Conc.go, Slot.lockOk, hs, ho, Conc.goto, Conc.note])
  exact ⟨_, r10, rfl, some (.search a, .searchReturn (some (ProductProducer.new ix.container ids))), by simp, nofun⟩

def Shop.args : SearchArgs := ⟨.ident, kunst, .new pcl, .new pcl, none, []⟩

theorem Shop.args_ids : ∃ ids, searchIds args.o keep pix args.input args.cats args.tags [] = .ok ids := by
  obtain ⟨r, _, h⟩ := searchIds_spec .ident keep pix kunst (.new pcl) (.new pcl) (inRange_new_categories _) (inRange_new_tags _) []
  exact ⟨_, h⟩

theorem Shop.shop_threads : ∃ s a, Conc.Reach .wasm32 keep s ∧ (1, .search args, .search args, a) ∈ s.log ∧ Tidy s.log none ∧
    ∃ x ∈ s.threads, x ≠ none := by
  obtain ⟨ids, hi⟩ := args_ids
  obtain ⟨s, h, hl, hx⟩ := two_threads load (a := args) rfl hi rfl
  refine ⟨s, .produced (some (ProductProducer.new pix.container ids)), h, by rw [hl]; simp, ?_, hx⟩
  rw [hl]
  exact .other (log := [_, _]) 1 _ _ _ (.whole (log := [_]) 0 bytes pcl (.half (log := []) 0 bytes pix .nil)) nofun nofun fun _ _ _ => rfl

example := shop_threads.imp fun s h => h.imp fun a h => And.intro (C43_partial .wasm32 keep s h.1 none h.2.2.1 1 args a h.2.1)
  (C43_unordered .wasm32 keep s h.1 1 args a h.2.1 rfl)
example := shop_threads.imp fun s h => h.imp fun _ h => And.intro (C43_atomic .wasm32 keep s h.1)
  (And.intro (C43_no_deadlock .wasm32 keep s h.1 h.2.2.2) (C43_finishes .wasm32 keep s h.1))

/-! ## C63 – C86: texts, prices, sizes -/

def Shop.entries (more : String) : List (Str × RawProduct) := (["1", "2", "3", "4", "5"].map fun k => k.toList ++ more.toList).zip items

theorem Shop.text (more : String) (h : AMap.collect (entries more) = entries more) : ∃ text, readCatalogue text = some (entries more) := by
  obtain ⟨text, h1⟩ := (C64 (entries more)).2 (by
    intro e he
    have he : e.2 ∈ items := (List.of_mem_zip (a := e.1) (b := e.2) he).2
    have : ∀ raw ∈ items, raw.Unescaped := by
      intro raw hr
      simp only [items, List.mem_cons, List.not_mem_nil, or_false] at hr
      rcases hr with rfl | rfl | rfl | rfl | rfl <;> (constructor <;> unfold Unescaped <;> decide)
    exact this _ he)
  exact ⟨text, by unfold readCatalogue; rw [h1]; exact congrArg some h⟩

theorem Shop.indexed {more : String} {text : Str} (ht : readCatalogue text = some (entries more)) :
    indexText .wasm32 .ident keep parseF32 5 text = .ok bytes := by
  unfold indexText indexCatalogue
  rw [ht]
  show indexAndSerialize .wasm32 .ident keep parseF32 5 ((entries more).map (·.2)) = _
  rw [show (entries more).map (·.2) = items from rfl]
  exact written

theorem Shop.a_text : ∃ text, readCatalogue text = some (entries "a") := text "a" (by decide)
theorem Shop.b_text : ∃ text, readCatalogue text = some (entries "b") := text "b" (by decide)
theorem Shop.fit : Fits .wasm32 bytes.length := serialized ▸ fits

example := a_text.imp fun text h => C63_table text (entries "a") h
example := a_text.imp fun _ h => C65 (t' := .wasm32) (by decide) (indexed h) fit
example := a_text.imp fun _ h => C82_text (k := 1) (by decide) (fun _ => Nat.le_refl _) (indexed h)
example := a_text.imp fun _ h => b_text.imp fun _ h' => C84 (by decide) (indexed h) (indexed h') fit fit [1] [1] rfl
example := a_text.imp fun _ h => b_text.imp fun _ h' => C84_loaded (by decide) (indexed h) (indexed h') fit fit [1] [1] rfl
/-- By `a_text` and `b_text` there are such texts. -/
example (a b : Str) (ha : readCatalogue a = some (entries "a")) (hb : readCatalogue b = some (entries "b")) :=
  C84_same (t' := .wasm32) (by decide) (indexed ha) (indexed hb) fit
example (mode : PanicMode) := a_text.imp fun _ h => C85 (indexed h) fit mode day good_day (last mode)

/-- A title with a line break in it. -/
def Shop.broken : Str := "{\"k\":{\"title\":\"\\n\"}}".toList
def Shop.isBroken : Option Json → Bool
  | some (.obj [(k, .obj [(t, .str s)])]) => k = [.plain 'k'] && t = "title".toList.map .plain && s = [.esc 'n']
  | _ => false
theorem Shop.isBroken_sound {j : Option Json} (h : isBroken j = true) :
    j = some (.obj [([.plain 'k'], .obj [("title".toList.map .plain, .str [.esc 'n'])])]) := by
  unfold isBroken at h
  split at h
  · simp only [Bool.and_eq_true, decide_eq_true_eq] at h
    rw [h.1.1, h.1.2, h.2]
  · cases h
example : readEntries broken = none :=
  C64_escaped broken _ ((parseJson_iff _ _).1 (isBroken_sound (by decide +kernel)))
    _ _ List.mem_cons_self _ rfl [.esc 'n'] ⟨[], "title".toList.map .plain, [], rfl, by repeat constructor, nofun⟩ (.esc 'n') List.mem_cons_self nofun
example := (nearest_iff false 1 (b := 10) (by decide) (F32.ofRatio false 1 10)).2 rfl

def Shop.cents (raw : RawProduct) : Nat :=
  if raw.id = "p1".toList then 1990 else if raw.id = "p2".toList then 500 else if raw.id = "p3".toList then 750 else
    if raw.id = "p4".toList then 100 else 225

theorem Shop.worth_whole {text : Str} {n : Nat} (hn : text ≠ []) (h : Numeral text n) : Worth text (100 * n) 100 := by
  refine ⟨[], text, n, 0, rfl, .none, ?_, by show n * 10 ^ 0 * 100 = 100 * n * 10 ^ 0; simp [Nat.mul_comm]⟩
  have := Written.whole (exp := []) hn h .none
  rwa [List.append_nil] at this

theorem Shop.cents_ok : ∀ raw ∈ items, Worth raw.price.min.amount (cents raw) 100 ∧ cents raw ≤ 13107200 := by
  intro raw hr
  simp only [items, List.mem_cons, List.not_mem_nil, or_false] at hr
  rcases hr with rfl | rfl | rfl | rfl | rfl
  · exact ⟨worth_cents (int := "19".toList) (a := '9') (b := '0') ((numeral_iff _ _).2 (by decide)), by decide⟩
  · exact ⟨worth_whole (text := "5".toList) (n := 5) (by decide) ((numeral_iff _ _).2 (by decide)), by decide⟩
  · exact ⟨worth_cents (int := "7".toList) (a := '5') (b := '0') ((numeral_iff _ _).2 (by decide)), by decide⟩
  · exact ⟨worth_whole (text := "1".toList) (n := 1) (by decide) ((numeral_iff _ _).2 (by decide)), by decide⟩
  · exact ⟨worth_cents (int := "2".toList) (a := '2') (b := '5') ((numeral_iff _ _).2 (by decide)), by decide⟩

example := C67 .rev items cents cents_ok
theorem Shop.w1990 : Worth "19.90".toList 1990 100 := worth_cents (int := "19".toList) (a := '9') (b := '0') ((numeral_iff _ _).2 (by decide))
theorem Shop.w1991 : Worth "19.91".toList 1991 100 := worth_cents (int := "19".toList) (a := '9') (b := '1') ((numeral_iff _ _).2 (by decide))
example := C67_weak (by decide) (by decide) w1990 w1991 (by decide)
example := C67_strict w1990 w1991 (by decide) (by decide)
example := C90_exact w1990 (by decide) literal_1990

example := C78_enough .wasm32 5 159 bytes (by rw [bytes_length]; decide)
example := C78_window (by decide) build fits [1]
example (ix' cl') := C79_bytes (ix' := ix') (cl' := cl') (by decide) build fits []
example := C79_bytes (by decide) build fits [] (by rw [serialized, List.append_nil]; exact load)
example := C80_nodes_le (by decide) build
example := C80_postings (by decide) build
example := C81_built (by decide) (by decide) build (o' := .rev) "kunstbvamidcwaterp".toList (by decide) kunst
example := C86 .wasm32 .ident (n := 3) (by decide) heapFeeds ix.container (by decide)
example := C86_safe .wasm32 .rev (n := 3) (by decide) heapFeeds ix.container
example := C86_wrap .wasm32 .rev (n := 3) (by decide) heapFeeds ix.container rfl
/-- A text of 2^32 characters. -/
def Shop.vast : List (List Char × Product) := [(List.replicate (2 ^ 32) 'a', heapProduct 0)]
theorem Shop.vast_sum : (vast.map fun feed => feed.1.length).sum = 2 ^ 32 := by
  rw [vast, List.map_cons, List.length_replicate]
  rfl
attribute [irreducible] vast
example := C86_overflow .debug64 .ident (n := 3) (by decide) vast ix.container (Nat.le_of_eq vast_sum.symm) rfl
example := C86_lost .wasm32 .ident (n := 3) (by decide) vast ix.container vast_sum rfl

/-- No node of the index has more than 18 nodes below it, one for each character. -/
example (o' : HashOrd) (input : List Char) := C81_any (o := o') (ix := ix) (n := 5) (w := 18) (by decide) (by decide)
  (fun path nd hnd => by
    have hk : ix.Keyed := by rw [(builtAll_of_ok build).index]; exact indexFrom_keyed _ _ (by decide) _ _
    have hs := hk.siblings path nd ((hk.has_iff _ _).1 hnd)
    rw [← List.length_map (f := GramNode.item)]
    refine hs.length_le_of_subset (l₂ := "kunstbvamidcwaterp".toList) fun c hc => ?_
    obtain ⟨u, hu, rfl⟩ := List.mem_map.1 hc
    obtain ⟨_, raw, hraw, hin⟩ := (C21_path_iff_substring (by decide) build (path ++ [u.item]) (by simp)).1 ⟨u, hnd.child hu⟩
    have : ∀ raw ∈ items, ∀ c ∈ textOf keep raw, c ∈ "kunstbvamidcwaterp".toList := by decide
    exact this raw hraw _ (hin.subset (by simp))) input

/-! ## C87 -/

theorem Shop.small_tag : (⟨smallClassic, 0⟩ : JsTag).Ok := by
  refine ⟨?_, by decide⟩
  intro i tag h
  match i, h with
  | 0, h => cases h; rfl

theorem Shop.tagCallsOk {h : Nat} {es : List Event} (he : editsOn h es = [.toggle (.tag ⟨smallClassic, 0⟩)] ∨ editsOn h es = [.addGeneral 1]) :
    TagCallsOk h es := by
  intro e hm
  rcases he with he | he <;> rw [he, List.mem_singleton] at hm <;> subst hm
  · exact small_tag
  · trivial

def Shop.polite : List Event → Bool
  | [] => true
  | .returned _ .trapped :: _ => false
  | .returned (.search _ _ _ _ _) .refused :: _ => false
  | _ :: es => polite es

theorem Shop.polite_sound : ∀ {es : List Event}, polite es = true → Polite es
  | [], _ => fun _ _ h => absurd h List.not_mem_nil
  | e :: es, h => by
    intro c r hm
    rcases List.mem_cons.1 hm with rfl | hm
    · constructor
      · rintro rfl
        cases c <;> cases h
      · rintro rfl a b d e f rfl
        cases h
    · refine polite_sound (es := es) ?_ c r hm
      cases e with
      | returned c' r' => cases r' <;> cases c' <;> first | exact h | cases h
      | _ => exact h

def Shop.click : JsItem := .option ⟨['o'], 0, 0⟩
def Shop.run1 : Option JsWorld := runJs smallEnv 1 smallWorld (program 2 0 click .finish)
theorem Shop.ran1 : ∃ w ch th, Reach smallEnv w ∧ w.objs = [⟨.cats ch, some 0⟩, ⟨.tags th, some 0⟩] ∧
    optionToggles 0 (0, 0) w.trace = 1 ∧ TagCallsOk 1 w.trace :=
  ⟨_, _, _, .ran (s := program 2 0 click .finish) 1 (.start _) (show runJs smallEnv 1 smallWorld _ = _ from rfl), rfl, rfl, tagCallsOk (.inl rfl)⟩

theorem Shop.run_some {α : Type} {o : Option α} (h : o.isSome = true) : ∃ a, o = some a := Option.isSome_iff_exists.1 h

/-- The handlers while an observer of the second one runs. -/
def Shop.inside : JsWorld := { smallWorld with objs := [⟨.cats (.new smallClassic), some 0⟩, ⟨.tags (.new smallClassic), none⟩] }
def Shop.script : Script := .call (.search [] 0 1 none []) fun _ => .call (.edit 0 (.toggle click)) fun _ => .finish

example : ∃ w', runJs smallEnv 2 inside script = some w' ∧ w'.objs[1]? = some ⟨.tags (.new smallClassic), none⟩ := by
  obtain ⟨w', h⟩ := run_some (o := runJs smallEnv 2 inside script) rfl
  exact ⟨w', h, (C87_busy (h := 1) rfl h).1⟩
example := C87_inside (env := smallEnv) (h := 0) (v := .cats ((CategoryHandler.new smallClassic).addGeneral 1)) (e := .toggle click) (pre := []) (post := [])
  (w := { smallWorld with objs := [⟨.cats ((CategoryHandler.new smallClassic).addGeneral 1), some 0⟩] }) 1 rfl rfl rfl
example := ran1.imp fun _ h => h.imp fun _ h => h.imp fun _ h => C87_categories h.1 (h := 0) (by rw [h.2.1]; rfl)
example := ran1.imp fun _ h => h.imp fun _ h => h.imp fun _ h => C87_tags h.1 (h := 1) (by rw [h.2.1]; rfl)
example := ran1.imp fun _ h => h.imp fun _ h => h.imp fun _ h => C87_status h.1 (h := 0) (by rw [h.2.1]; rfl) ⟨['o'], 0, 0⟩
example := ran1.imp fun _ h => h.imp fun _ h => h.imp fun _ h => C87_tag_status h.1 (h := 1) (by rw [h.2.1]; rfl) h.2.2.2 ⟨smallClassic, 0⟩

/-- The first steps of the program, and the toggling. -/
theorem Shop.steps : ∃ w, Reach smallEnv w ∧ w.objs[0]? = some ⟨.cats ((CategoryHandler.new smallClassic).addGeneral 2), some 0⟩ ∧
    w.objs[1]? = some ⟨.tags ((TagHandler.new smallClassic).addGeneral 1), some 0⟩ ∧ TagCallsOk 1 w.trace ∧
    (∃ r, w.perform smallEnv (observe smallEnv 3) (.edit 0 (.toggle click)) = some r) ∧
    (∃ r, w.perform smallEnv (observe smallEnv 3) (.edit 1 (.toggle (.tag ⟨smallClassic, 0⟩))) = some r) ∧
    ∃ w', w.perform smallEnv (observe smallEnv 3) (.edit 0 (.addGeneral 3)) = some (w', .done) :=
  ⟨_, .ran (s := .call .getCategories fun _ => .call .getTags fun _ => .call (.edit 0 (.addGeneral 2)) fun _ => .call (.edit 1 (.addGeneral 1)) fun _ =>
    .finish) 1 (.start _) (show runJs smallEnv 1 smallWorld _ = _ from rfl), rfl, rfl, tagCallsOk (.inr rfl), run_some rfl, run_some rfl, ⟨_, rfl⟩⟩

example := steps.imp fun _ h => h.2.2.2.2.1.imp fun _ hr => C87_notified h.1 h.2.1 hr
example := steps.imp fun _ h => h.2.2.2.2.2.1.imp fun _ hr => C87_tag_notified h.1 h.2.2.1 h.2.2.2.1 small_tag hr
example := steps.imp fun _ h => h.2.2.2.2.2.2.imp fun _ hr => C87_silent (e := .addGeneral 3) hr nofun

/-- A polite program leaves both free. -/
theorem Shop.polite_run : ∃ w, runJs smallEnv 1 smallWorld (program 5 0 click .finish) = some w ∧ polite w.trace = true := ⟨_, rfl, rfl⟩
example := polite_run.imp fun _ h => fun g => C87_clean h.1 (polite_sound h.2) (h := 1) (g := g)

example : ∃ w' r, inside.perform smallEnv (observe smallEnv 1) (.search [] 0 1 none []) = some (w', r) ∧ r = .refused := by
  obtain ⟨⟨w', r⟩, h⟩ := run_some (o := inside.perform smallEnv (observe smallEnv 1) (.search [] 0 1 none [])) rfl
  exact ⟨w', r, h, (C87_leak (h := 0) (k := 1) rfl rfl h).1⟩

theorem Shop.static_fns : ∀ f b es, (smallEnv.fns f b es).Static := by
  intro f b es
  show Script.Static (if f = 1 then _ else _)
  split
  · exact ⟨nofun, nofun, fun _ => trivial⟩
  · exact ⟨nofun, nofun, fun _ => ⟨nofun, nofun, fun _ => trivial⟩⟩
example : ∃ w', runJs smallEnv 1 inside script = some w' :=
  C87_depth static_fns (by unfold script; exact ⟨nofun, nofun, fun _ => ⟨nofun, nofun, fun _ => trivial⟩⟩) inside (by decide)
example := (run_some (o := runJs smallEnv 1 inside script) rfl).imp fun _ h => C87_stack (more := 5) h

/-! ## C88, C91 -/

theorem Shop.memory : ∃ ix cl, ((Memory.empty.loads .wasm32 5 [[], bytes]).load .wasm32 5 bytes).2 = .ok (ix, cl) := by
  have h := C88_load .wasm32 5 [[], bytes] bytes
  rw [load] at h
  match hx : ((Memory.empty.loads .wasm32 5 [[], bytes]).load .wasm32 5 bytes).2 with
  | .ok r => exact ⟨r.1, r.2, rfl⟩
  | .none => rw [hx] at h; exact h.elim
  | .panic _ => rw [hx] at h; exact h.elim

set_option maxRecDepth 20000 in
theorem Shop.in_memory : (∃ p, (Memory.empty.loads .wasm32 5 [bytes, [], bytes]).product ⟨1, 4⟩ = some p) ∧
    ∃ c, (Memory.empty.loads .wasm32 5 [bytes, [], bytes]).nodes[3]? = some c :=
  ⟨run_some (by decide +kernel), run_some (by decide +kernel)⟩
example := in_memory.1.imp fun _ h => C88_product h [bytes]
example := in_memory.2.imp fun _ h => C88_nodes _ _ _ _ _ h
example : ∃ file, indexAndSerialize .debug64 .ident (fun c => [c]) parseOne 2 aba = .ok file ∧
    (Memory.empty.loads .wasm32 2 [[], file]).nodes.length = (Memory.empty.loads .wasm32 2 [[]]).nodes.length + 4 := by
  have h : ((runFile .debug64 parseOne 2 aba).map fun b => decide (b.length < 1000)) = some true := by decide +kernel
  obtain ⟨file, h1, h2⟩ := Option.map_eq_some_iff.1 h
  obtain ⟨_, _, _, _, hw⟩ := runFile_sound (by decide) (by decide) h1
  have hl : file.length < 1000 := of_decide_eq_true h2
  have hf : Fits .wasm32 file.length := .of_carried (by simp only [Carried]; omega) fun _ _ => rfl
  exact ⟨file, hw, (C88_written (by decide) hw _ (by decide) aba_substrings .wasm32 hf [[]]).1⟩
example := memory.imp fun _ h => h.imp fun _ h => C88_kept h [[], bytes]
theorem Shop.tags_handle {tags : TagHandler} (h : tagClicks.foldlM TagOp.run (.new pcl) = .ok tags) : tags.handle = pcl := by
  obtain ⟨tags', h', inv⟩ := tagInv_run (.new pcl) AMap.Wf.nil tagClicks tagClicks_ok
  rw [h] at h'
  cases h'
  exact inv.handle
theorem Shop.selects : cats.Selected "size".toList "M".toList := by
  obtain ⟨cat, s, m, hc, ho, hn, _, hm⟩ := only_category
  have hh : cats.handle = pcl := rfl
  exact ⟨0, 1, cat, m, rfl, by rw [hh, hc]; rfl, by rw [ho]; rfl, hn, hm⟩
example (mode : PanicMode) := tags_exist.imp fun _ h => C91 mode .ident keep keep keep keep parseF32 parseF32 parseF32 items items items pix pix pix pcl pcl pcl
  loaded loaded loaded page page rfl kunst cats _ cats_inRange (tags_inRange h) rfl (tags_handle h) upTo20 pcl pcl whole (searched mode)
example (mode : PanicMode) := tags_exist.imp fun _ h => C91_again mode .ident keep keep keep parseF32 items pix pix pcl pcl
  loaded loaded page page rfl kunst cats _ cats_inRange (tags_inRange h) rfl (tags_handle h) upTo20 pcl pcl whole (searched mode)
example (mode : PanicMode) := tags_exist.imp fun _ h => C91_newer mode .ident keep keep keep parseF32 parseF32 items items pix pix pcl pcl
  loaded loaded page rfl kunst cats _ cats_inRange (tags_inRange h) rfl (tags_handle h) upTo20 (.inl ⟨_, _, selects⟩) pcl pcl page whole (searched mode)

/-! ## C92 -/

def Shop.cbInside : CbWorld := { cbWorld with objs := [⟨.cats (.new smallClassic), none, false, false⟩, ⟨.tags (.new smallClassic), some 1, false, false⟩,
  ⟨.tags (.new smallClassic), some 0, true, true⟩] }
def Shop.cbScript : CbScript := .call (.search [] 0 1 none 7) fun _ => .call (.edit 1 (.toggle (.tag ⟨smallClassic, 0⟩))) fun _ =>
  .call (.free 2) fun _ => .finish .threw
theorem Shop.run_ok {ε α : Type} {x : Except ε α} (h : x.toBool = true) : ∃ a, x = .ok a :=
  match x, h with
  | .ok a, _ => ⟨a, rfl⟩
theorem Shop.cbRan : ∃ r, runCode cbEnv (runJob cbEnv 3) cbInside cbScript = .ok r := run_ok (by decide +kernel)
theorem Shop.cbRan' : ∃ r, runCode cbEnv (runJob cbEnv 3) cbWorld (.call (.search [] 0 1 none 7) fun _ => .call (.free 1) fun _ => .finish .threw) = .ok r :=
  run_ok (by decide +kernel)

example := cbRan.imp fun _ h => C92_busy (h := 0) rfl rfl h
example := cbRan.imp fun _ h => C92_shared (h := 1) rfl rfl h
example := cbRan.imp fun _ h => C92_freed (h := 2) rfl rfl h
example := C92_free (env := cbEnv) (run := runJob cbEnv 1) (w := cbInside) (h := 1) rfl
example := C92_history cbWorld_reach (h := 0) rfl nofun
example := C92_categories cbWorld_reach (h := 0) rfl
example := C92_tags cbWorld_reach (h := 1) rfl
example := cbRan'.imp fun _ h => C92_clean h
example := cbRan'.imp fun _ h => C92_engine h
example := C92_refused (env := cbEnv) (run := runJob cbEnv 1) (w := cbInside) (input := []) (cats := 0) (tags := 1) (order := none) (filter := 7)
  fun h => h.1.elim fun _ h => h.elim fun _ h => h.elim fun _ h => nomatch h
theorem Shop.cbSearched : ∃ r, cbWorld.perform cbEnv (runJob cbEnv 3) (.search [] 0 1 none 7) = .ok r := ⟨_, rfl⟩
example := cbSearched.imp fun _ h => C92_search cbWorld_reach.inv.sound rfl rfl h
example := cbSearched.imp fun _ h => C92_values cbWorld_reach.inv.sound rfl rfl h
example := (show ∃ w', cbWorld.perform cbEnv (runJob cbEnv 3) (.search [] 0 1 none 9) = .ok (w', .threw) from ⟨_, rfl⟩).imp fun _ h =>
  C92_threw h cbWorld_reach.inv.sound
example := C92_status (env := cbEnv) (run := runJob cbEnv 1) cbWorld_reach.inv.sound (h := 0) rfl (i := click) rfl
def Shop.fromTo : List (Job × JobEnd) := [(.entries 7, .entries [(['k'], 8)]), (.get 8 "from".toList, .value (.str ['x'])), (.get 8 "to".toList, .value (.str ['y']))]
example := C92_plain (vals := fun _ => .obj 0 [("from".toList, .str ['x']), ("to".toList, .str ['y'])]) (filter := 7) (l := [(['k'], 8)]) (js := fromTo)
  (.entries (.cons (feature := ['k']) (o := 8) (js' := []) (.range (.str ['x']) (.str ['y'])) .nil))
  (by
    intro o key out h
    simp only [fromTo, List.mem_cons, Prod.mk.injEq, Job.get.injEq, reduceCtorEq, false_and, false_or, List.not_mem_nil, or_false] at h
    rcases h with ⟨⟨rfl, rfl⟩, rfl⟩ | ⟨⟨rfl, rfl⟩, rfl⟩ <;> rfl)
  (by
    intro out h
    simp only [fromTo, List.mem_cons, Prod.mk.injEq, reduceCtorEq, false_and, or_false, List.not_mem_nil] at h
    exact h.2)

/-! ## C97: strings of the page -/

def Shop.desk : World Engine Thing := ⟨page, [.cats (.new pcl), .tags (.new pcl)]⟩

/-- "Alphabetical" is among the names shown; a search by it gives results. -/
example (mode : PanicMode) : ∃ l, pageStep zeroed (Engine.step .wasm32 mode keep .rev) desk (.other .getOrders) = (desk, .strs l) ∧
    utf16 "Alphabetical".toList ∈ l ∧ (pageStep zeroed (Engine.step .wasm32 mode keep .ident) desk
      (.search (utf16 kunst) 0 1 (some (utf16 "Alphabetical".toList)) [])).2 ≠ .other .none := by
  have h : pageStep zeroed (Engine.step .wasm32 mode keep .rev) desk (.other .getOrders) = (desk, .strs ((pcl.order.options .rev).map utf16)) := by
    show (desk, JsAnswer.shown (.strs (pcl.order.options .rev))) = _
    rw [JsAnswer.shown_cases]
  have hm : utf16 "Alphabetical".toList ∈ (pcl.order.options .rev).map utf16 := by
    refine List.mem_map_of_mem ?_
    have : (AMap.get pcl.order "Alphabetical".toList).isSome = true := by
      have := pcl_alphabetical
      unfold OrderIndex.getOrders at this
      rw [this]; rfl
    rw [AMap.get_isSome_iff] at this
    exact ((HashOrd.rev.perm "order keys" pcl.order).map _).mem_iff.2 this
  refine ⟨_, h, hm, ?_⟩
  have hs : (pageStep zeroed (Engine.step .wasm32 mode keep .ident) desk (.search (utf16 kunst) 0 1 none [])).2 = .other (.made 2) := by
    have : received zeroed (utf16 kunst) = kunst := by rw [received_eq zeroed_sound, scalars_utf16]
    simp only [pageStep, PageAsk.received, this, Engine.step, desk, Option.map_none, List.map_nil, List.getElem?_cons_zero,
      List.getElem?_cons_succ, searched mode]
    rfl
  have := (C97_orders zeroed_sound h (utf16 kunst) 0 1 [] (.refl ((C97_wellFormed _).2 ⟨_, shown_eq "Alphabetical".toList⟩))
    (o' := .ident)).2 hm 2 hs
  rcases this with h | ⟨p, h⟩ <;> rw [h] <;> simp

theorem Shop.suggests : (suggestLoop pcl.tags "old art".toList).isSome = true := by decide +kernel

/-- "art" is suggested for "old art". -/
example (mode : PanicMode) : ∃ w' tag piece, pageStep zeroed (Engine.step .wasm32 mode keep .ident) desk (.suggest (utf16 "old art".toList)) =
    (w', .suggestion tag piece) ∧ PieceOf piece (utf16 "old art".toList) := by
  obtain ⟨l, hl⟩ := Option.isSome_iff_exists.1 Shop.suggests
  have hs : page.tagSuggestion "old art".toList = .ok (some ⟨⟨pcl, l.2.1⟩, l.2.2⟩) := by
    show Except.ok ((suggestLoop pcl.tags "old art".toList).map _) = _
    rw [hl]
    rfl
  have h : pageStep zeroed (Engine.step .wasm32 mode keep .ident) desk (.suggest (utf16 "old art".toList)) =
      ((desk.hand (.tag ⟨pcl, l.2.1⟩)).1, .suggestion 2 (utf16 l.2.2)) := by
    have : received zeroed (utf16 "old art".toList) = "old art".toList := by rw [received_eq zeroed_sound, scalars_utf16]
    simp only [pageStep, PageAsk.received, this, Engine.step]
    rw [show desk.engine = page from rfl, hs]
    simp only [JsAnswer.shown_cases]
    rfl
  exact ⟨_, _, _, h, C97_suggest zeroed_sound (.refl ((C97_wellFormed _).2 ⟨_, shown_eq _⟩)) h⟩

/-! ## C98 -/

/-- A sixth product, with a new tag and a new size. -/
def Shop.added : List RawProduct := [item "kunst" "f" "p6" "3" ["new", "art"] ["L", "S"] ["w"]]
def Shop.gbuilt : Option (GramIndex Char × Classic) := runBuild .wasm32 .rev parseF32 5 (items ++ added)
theorem Shop.gbuilt_eq : runBuild .wasm32 .rev parseF32 5 (items ++ added) = gbuilt := rfl
attribute [irreducible] Shop.gbuilt
set_option maxRecDepth 20000 in
theorem Shop.gbuilt_some : gbuilt.isSome = true := by decide +kernel
def Shop.gix : GramIndex Char := (gbuilt.get gbuilt_some).1
def Shop.gcl : Classic := (gbuilt.get gbuilt_some).2
theorem Shop.gbuild : buildAll .wasm32 .rev keep parseF32 5 (items ++ added) = .ok (gix, gcl) :=
  runBuild_sound (gbuilt_eq.trans (get_pair gbuilt_some))
attribute [irreducible] Shop.gix Shop.gcl
def Shop.gbytes : Bytes := (serializeAllF .rev 6 gix gcl).getD []
theorem Shop.gbytes_eq : (serializeAllF .rev 6 gix gcl).getD [] = gbytes := rfl
attribute [irreducible] Shop.gbytes
set_option maxRecDepth 20000 in
theorem Shop.gbytes_length : decide (gbytes.length < 2000) && !gbytes.isEmpty = true := by decide +kernel
theorem Shop.gbytes_ne : gbytes ≠ [] := by have := gbytes_length; rintro h; rw [h] at this; cases this
theorem Shop.gserialized : serializeAll .rev gix gcl = gbytes :=
  serializeAllF_eq ((getD_some (gbytes_eq ▸ gbytes_ne)).trans (congrArg some gbytes_eq))
theorem Shop.gwritten : indexAndSerialize .wasm32 .rev keep parseF32 5 (items ++ added) = .ok gbytes := by
  rw [indexAndSerialize_eq _ _ _ _ (by decide) (by decide), gbuild, ← gserialized]
  rfl
def Shop.gread : Option (GramIndex Char × Classic) := resOption (deserializeAll .wasm32 5 gbytes)
theorem Shop.gread_eq : resOption (deserializeAll .wasm32 5 gbytes) = gread := rfl
attribute [irreducible] Shop.gread
set_option maxRecDepth 20000 in
theorem Shop.gread_some : gread.isSome = true := by decide +kernel
def Shop.gpix : GramIndex Char := (gread.get gread_some).1
def Shop.gpcl : Classic := (gread.get gread_some).2
theorem Shop.gload : deserializeAll .wasm32 5 gbytes = .ok (gpix, gpcl) := resOption_ok (gread_eq.trans (get_pair gread_some))
attribute [irreducible] Shop.gpix Shop.gpcl
theorem Shop.gloaded : LoadedFrom keep parseF32 (items ++ added) gpix gpcl :=
  ⟨.wasm32, .wasm32, .rev, gbytes, gwritten, .of_carried (by
    have := gbytes_length
    rw [Bool.and_eq_true] at this
    have := of_decide_eq_true this.1
    simp only [Carried]; omega) fun _ _ => rfl, gload⟩
def Shop.gfound : Option (List (Product × F32)) := (gpix.searchF .ident 5 kunst).toOption
theorem Shop.gfound_eq : (gpix.searchF .ident 5 kunst).toOption = gfound := rfl
attribute [irreducible] Shop.gfound
def Shop.gresults : List (Product × F32) := gfound.getD []
theorem Shop.gresults_eq : gfound.getD [] = gresults := rfl
attribute [irreducible] Shop.gresults
set_option maxRecDepth 20000 in
theorem Shop.gresult_ids : gresults.map (·.1.sid) = [0, 1, 5] := by decide +kernel
theorem Shop.gsearch : gpix.search .ident 5 kunst = .ok gresults := by
  rw [← searchF_eq]
  exact toOption_ok (gfound_eq.trans ((getD_some (gresults_eq ▸ of_map gresult_ids)).trans (congrArg some gresults_eq)))
def Shop.gpage : Engine := ⟨⟨.free, some gpix⟩, ⟨.free, some gpcl⟩⟩

set_option maxRecDepth 20000 in
theorem Shop.postings_kunst : (AMap.get ix.data kunst).map (·.map (·.sid)) = some [0, 1] ∧
    (AMap.get gix.data kunst).map (·.map (·.sid)) = some [0, 1, 5] ∧
    (AMap.get ix.data "musik".toList).map (·.map (·.sid)) = some [2, 3] := by decide +kernel
set_option maxRecDepth 20000 in
set_option synthInstance.maxSize 1000 in
theorem Shop.grown_facts : cl.categories.map (fun c => (c.name, c.options.map fun o => (o.name, o.sid, o.ids))) =
      [("size".toList, [("S".toList, 0, [0, 4]), ("M".toList, 1, [0, 1])])] ∧
    gcl.categories.map (fun c => (c.name, c.options.map fun o => (o.name, o.sid, o.ids))) =
      [("size".toList, [("S".toList, 0, [0, 4, 5]), ("M".toList, 1, [0, 1]), ("L".toList, 2, [5])])] ∧
    gcl.tags.map (fun t => (t.name, t.ids)) = [("new".toList, [5]), ("sale".toList, [1, 2]), ("art".toList, [0, 1, 5])] ∧
    cl.order.getOrders "Alphabetical".toList = some [1, 0, 3, 2, 4] ∧
    gcl.order.getOrders "Alphabetical".toList = some [1, 0, 3, 2, 4, 5] ∧
    cl.order.getOrders "Price low to high".toList = some [4, 2, 3, 0, 1] ∧
    gcl.order.getOrders "Price low to high".toList = some [5, 3, 4, 0, 1, 2] := by decide +kernel
theorem Shop.prices_numbers : ∀ raw ∈ items ++ added, ∀ x, parseF32 raw.price.min.amount = some x → x.val ≠ .nan := by
  have : ∀ raw ∈ items ++ added, (parseF32 raw.price.min.amount).all (fun x => decide (x.val ≠ .nan)) = true := by decide +kernel
  intro raw hr x hx
  have := this raw hr
  rw [hx] at this
  exact of_decide_eq_true this

example := C98_products build gbuild
example := C98_categories build gbuild
example : ∃ cat op, cl.categories[0]? = some cat ∧ cat.options[1]? = some op := by
  have h := grown_facts.1
  match hc : cl.categories with
  | [] => rw [hc] at h; cases h
  | cat :: _ =>
    rw [hc] at h
    have h1 := (Prod.mk.inj (List.cons.inj h).1).2
    match ho : cat.options with
    | [] => rw [ho] at h1; cases h1
    | [_] => rw [ho] at h1; cases (List.cons.inj h1).2
    | _ :: m :: _ => exact ⟨cat, m, rfl, by rw [ho]; rfl⟩
example (i j : Nat) (cat : Category) (op : CatOption) (hc : cl.categories[i]? = some cat) (ho : cat.options[j]? = some op) :=
  C98_selections build gbuild i j cat op hc ho
example := C98_tags build gbuild
/-- By price the first product stays behind the second; the added one moves both one place back. -/
example : (4 : Nat) < 2 ↔ 5 < 3 :=
  C98_orders build gbuild "Price low to high".toList _ _ grown_facts.2.2.2.2.2.1 grown_facts.2.2.2.2.2.2 (.inr prices_numbers) 0 1 4 2 5 3 rfl rfl rfl rfl
example := C98_paths (by decide) build gbuild "kunst".toList (by decide)
example := C98_nodes (by decide) build gbuild
example : ∃ l l' new, AMap.get ix.data kunst = some l ∧ AMap.get gix.data kunst = some l' ∧ l' = l ++ new ∧ new.length = 1 := by
  obtain ⟨l, hl, _⟩ := Option.map_eq_some_iff.1 postings_kunst.1
  obtain ⟨l', hl', _⟩ := Option.map_eq_some_iff.1 postings_kunst.2.1
  obtain ⟨new, h1, _, h3⟩ := C98_postings (by decide) build gbuild kunst l l' hl hl'
  exact ⟨l, l', new, hl, hl', h1, h3.trans (by decide)⟩
example : ∃ l, AMap.get ix.data "musik".toList = some l ∧ AMap.get gix.data "musik".toList = some l := by
  obtain ⟨l, hl, _⟩ := Option.map_eq_some_iff.1 postings_kunst.2.2
  exact ⟨l, hl, C98_untouched (by decide) (.inl rfl) (.inl rfl) build gbuild (by decide) _ (by decide) l hl⟩
example (mode : PanicMode) := tags_exist.imp fun _ h => C98_kept mode .ident keep keep keep parseF32 items added pix gpix pcl gpcl
  loaded gloaded gpage gpage rfl kunst cats _ cats_inRange (tags_inRange h) rfl (tags_handle h) upTo20 (.inl ⟨_, _, selects⟩) pcl pcl
  ⟨gpix.container, [0, 1, 5], 0⟩ (Shop.plain_search mode .ident _ _ _ _ gsearch gresult_ids)

/-! ## C99 -/

/-- The file of 950 bytes is loaded in 1210 steps. -/
theorem Shop.load_steps : (deserializeAllN .wasm32 5 bytes).2 = 1210 := by decide +kernel

/-- Five bytes that claim 2^32 - 1 vendors are given up after two steps. -/
example : (deserializeAllN .wasm32 5 [255, 255, 255, 255, 15]).2 = 2 := by decide +kernel

example : ∃ rest r, deserializeAllN .wasm32 5 bytes = (.ok (rest, r), 1210) ∧
    ∃ used, 950 = used + rest.length ∧ used ≤ 10 * 1210 ∧ 1210 ≤ 4 * used := by
  have h := C99_erase .wasm32 5 bytes
  rw [load] at h
  have h2 := Shop.load_steps
  rcases hd : deserializeAllN .wasm32 5 bytes with ⟨r, k⟩
  rw [hd] at h h2
  simp only at h2
  subst h2
  cases r with
  | none => cases h
  | panic w => cases h
  | ok p => exact ⟨p.1, p.2, rfl, bytes_length ▸ C99_loaded hd⟩
example : pix.loadSteps + pcl.loadSteps ≤ 1210 := by
  have h := C99_erase .wasm32 5 bytes
  rw [load] at h
  have h2 := Shop.load_steps
  rcases hd : deserializeAllN .wasm32 5 bytes with ⟨r, k⟩
  rw [hd] at h h2
  simp only at h2
  subst h2
  cases r with
  | none => cases h
  | panic w => cases h
  | ok p =>
    obtain ⟨rest, ix', cl'⟩ := p
    cases h
    exact C99_least hd

/-- Written files take no more. -/
example : pix.loadSteps + pcl.loadSteps = 1210 := by
  obtain ⟨ix', cl', h1, h2⟩ := indexAndSerialize_ok written
  obtain ⟨ix1, cl1, h3, h4⟩ := C99_exact (by decide) h1 .ident .wasm32 (h2 ▸ bytes_length ▸ .of_carried (by decide) fun _ _ => rfl) []
  rw [List.append_nil, ← h2] at h3 h4
  rw [load] at h3
  cases h3
  have h5 := Shop.load_steps
  rw [h4] at h5
  exact h5

/-- A million nameless vendors: about a million bytes, four million steps. -/
example := C99_tight (t := .wasm32) (n := 5) (m := 1000000) (.of_carried (by decide) fun _ _ => rfl)

/-! ## C100 -/

/-- The same texts and sizes, other tags, prices and pictures. -/
def Shop.restocked : List RawProduct :=
  [item "kunst" "b" "p1" "3" [] ["S", "M"] [], item "kunst" "a" "p2" "50" ["sale"] ["M"] ["q"],
   item "musik" "d" "p3" "9" ["new"] [] [], item "musik" "c" "p4" "2" ["new"] [] ["y"], item "water" "e" "p5" "2" ["art"] ["S"] []]
def Shop.rbuilt : Option (GramIndex Char × Classic) := runBuild .wasm32 .ident parseF32 5 restocked
theorem Shop.rbuilt_eq : runBuild .wasm32 .ident parseF32 5 restocked = rbuilt := rfl
attribute [irreducible] Shop.rbuilt
set_option maxRecDepth 20000 in
theorem Shop.rbuilt_some : rbuilt.isSome = true := by decide +kernel
def Shop.rix : GramIndex Char := (rbuilt.get rbuilt_some).1
def Shop.rcl : Classic := (rbuilt.get rbuilt_some).2
theorem Shop.rbuild : buildAll .wasm32 .ident keep parseF32 5 restocked = .ok (rix, rcl) :=
  runBuild_sound (rbuilt_eq.trans (get_pair rbuilt_some))
attribute [irreducible] Shop.rix Shop.rcl
def Shop.rbytes : Bytes := (serializeAllF .ident 6 rix rcl).getD []
theorem Shop.rbytes_eq : (serializeAllF .ident 6 rix rcl).getD [] = rbytes := rfl
attribute [irreducible] Shop.rbytes
set_option maxRecDepth 20000 in
theorem Shop.rbytes_length : decide (rbytes.length < 2000) && !rbytes.isEmpty = true := by decide +kernel
theorem Shop.rbytes_ne : rbytes ≠ [] := by have := rbytes_length; rintro h; rw [h] at this; cases this
theorem Shop.rserialized : serializeAll .ident rix rcl = rbytes :=
  serializeAllF_eq ((getD_some (rbytes_eq ▸ rbytes_ne)).trans (congrArg some rbytes_eq))
theorem Shop.rfits : Fits .wasm32 (serializeAll .ident rix rcl).length := by
  rw [rserialized]
  exact .of_carried (by
    have := rbytes_length
    rw [Bool.and_eq_true] at this
    have := of_decide_eq_true this.1
    simp only [Carried]; omega) fun _ _ => rfl
def Shop.rread : Option (GramIndex Char × Classic) := resOption (deserializeAll .wasm32 5 rbytes)
theorem Shop.rread_eq : resOption (deserializeAll .wasm32 5 rbytes) = rread := rfl
attribute [irreducible] Shop.rread
set_option maxRecDepth 20000 in
theorem Shop.rread_some : rread.isSome = true := by decide +kernel
def Shop.rpix : GramIndex Char := (rread.get rread_some).1
def Shop.rpcl : Classic := (rread.get rread_some).2
theorem Shop.rload : deserializeAll .wasm32 5 rbytes = .ok (rpix, rpcl) := resOption_ok (rread_eq.trans (get_pair rread_some))
attribute [irreducible] Shop.rpix Shop.rpcl
def Shop.rpage : Engine := ⟨⟨.free, some rpix⟩, ⟨.free, some rpcl⟩⟩
theorem Shop.same_text : items.map textFields = restocked.map textFields := by decide
theorem Shop.same_options : items.map (·.options) = restocked.map (·.options) := by decide

set_option synthInstance.maxSize 1000 in
/-- Other highest prices, currencies and further pictures: the same file. -/
example := C100_ignored .wasm32 .ident keep parseF32 5 items (items.map fun raw => { raw with
  price := { raw.price with max := ⟨"99".toList, "EUR".toList⟩ }, media := if raw.media = [] then [] else raw.media ++ ["w".toList] }) (by decide)
example := C100_text build rbuild same_text
example := C100_options build rbuild same_options
example := (C100_orders build rbuild).1 (by decide)
/-- Other titles and no sizes: the same names and products of tags, whatever the hash orders. -/
example : ∃ ix' cl', buildAll .debug64 .rev keep parseF32 3 (items.map fun raw => { raw with title := "T".toList, options := [] }) = .ok (ix', cl') ∧
    (cl.tags.map fun tag => (tag.name, tag.ids)).Perm (cl'.tags.map fun tag => (tag.name, tag.ids)) := by
  obtain ⟨_, b⟩ := built_of_ok (optimize_of_buildAll build)
  obtain ⟨ix', cl', h⟩ := buildAll_ok .debug64 .rev keep parseF32 3 (items.map fun raw => { raw with title := "T".toList, options := [] }) _
    (by rw [List.map_map]; exact b.parsed)
  exact ⟨ix', cl', h, C100_tags build h (by rw [List.map_map]; rfl)⟩
example := (C100_features build gbuild).2.2 "colour".toList (by decide) (by decide)
/-- With a size selected and in alphabetical order both files give the same products. -/
example (mode : PanicMode) : ((page.search mode .ident keep kunst cats (.new pcl) (some "Alphabetical".toList) []).2.map (·.map (·.toExport))) =
    ((rpage.search mode .ident keep kunst { cats with handle := rpcl } (.new rpcl) (some "Alphabetical".toList) []).2.map (·.map (·.toExport))) :=
  C100_page mode .wasm32 .wasm32 .ident .ident keep keep parseF32 parseF32 items restocked ix rix pix rpix cl rcl pcl rpcl build rbuild
    fits rfits (serialized ▸ load) (rserialized ▸ rload) page rpage rfl rfl rfl rfl same_text cats (.new pcl) rfl rfl
    (some "Alphabetical".toList) [] (fun _ => same_options) (fun h => absurd rfl h) (by simp) (by simp) kunst

/-! C101 -/
theorem Shop.item_prices : ∀ prices : List F32, items.map (fun raw => parseF32 raw.price.min.amount) = prices.map some → Comparable prices := by
  intro prices h
  refine .inl fun x hx => ?_
  have hm : some x ∈ items.map (fun raw => parseF32 raw.price.min.amount) := h ▸ List.mem_map.2 ⟨x, hx, rfl⟩
  obtain ⟨raw, hr, e⟩ := List.mem_map.1 hm
  exact prices_numbers raw (by simp [hr]) x e
/-- Whatever the sorting algorithm: the file of the shop, and what the page finds in it. -/
example (s : SortAlg) : indexAndSerializeS s .wasm32 .ident keep parseF32 5 items = .ok bytes :=
  (C101_file s .wasm32 .ident keep parseF32 5 items (by decide) (by decide) size item_prices).trans written
example (s : SortAlg) : ix.searchS s .ident 5 kunst = .ok results := (C101_built searchable s .ident kunst).trans search
example (s : SortAlg) : pix.searchS s .ident 5 kunst = .ok presults :=
  (C101_reloaded searchable .ident .wasm32 fits (serialized ▸ load) s .ident kunst).trans psearch
example (s : SortAlg) (mode : PanicMode) : page.searchS s mode .ident keep kunst cats (.new pcl) (some "Alphabetical".toList) [] =
    page.search mode .ident keep kunst cats (.new pcl) (some "Alphabetical".toList) [] :=
  C101_engine s mode .ident keep page kunst cats (.new pcl) (some "Alphabetical".toList) [] fun ix h => by
    cases h
    exact C101_reloaded searchable .ident .wasm32 fits (serialized ▸ load) s .ident _
example := (C101_search_iff .ident ix 5 kunst results search).2 (.inl fun x hx => by
  obtain ⟨r, hr, rfl⟩ := List.mem_map.1 hx
  exact (searchable.result_nonNeg search (p := r.1) (c := r.2) hr).notNan)
example := C101_unparsable .tolerant .ident parseF32 [{ mkRaw [] [] ['1'] with price := ⟨⟨['x'], []⟩, ⟨[], []⟩⟩ }] ⟨_, List.mem_cons_self, by decide +kernel⟩

/-! C102 -/
theorem Shop.pairs : ∃ ix₁ cl₁, TwoTables .wasm32 .rev .ident keep parseF32 2 5 items ix₁ ix cl₁ cl := by
  obtain ⟨_, b⟩ := built_of_ok (optimize_of_buildAll build)
  obtain ⟨ix₁, cl₁, h⟩ := buildAll_ok .wasm32 .rev keep parseF32 2 items _ b.parsed
  exact ⟨ix₁, cl₁, by decide, by decide, h, build⟩
theorem Shop.modest : items.length < 2 ^ 64 ∧ totalChars keep items < 2 ^ 64 := by decide
/-- The file with pairs of characters is strictly smaller. -/
example : ∃ ix₁ cl₁, buildAll .wasm32 .rev keep parseF32 2 items = .ok (ix₁, cl₁) ∧
    (serializeAll .rev ix₁ cl₁).length < (serializeAll .ident ix cl).length := by
  obtain ⟨ix₁, cl₁, h⟩ := pairs
  refine ⟨ix₁, cl₁, h.one, Nat.lt_of_le_of_ne (C102_size h (by decide) modest.1 modest.2) fun he => ?_⟩
  have := ((C102_equal h (by decide) (by decide) modest.1 modest.2).1 he).1
  exact absurd this (by decide)
example : ∃ ix₁ cl₁, buildAll .wasm32 .rev keep parseF32 2 items = .ok (ix₁, cl₁) ∧ ix₁.nodeCount ≤ ix.nodeCount := by
  obtain ⟨ix₁, cl₁, h⟩ := pairs
  exact ⟨ix₁, cl₁, h.one, (C102_growth (o₃ := .ident) (o₄ := .rev) h (by decide) modest.1 modest.2).1⟩
example : ∃ ix₁ cl₁, buildAll .wasm32 .rev keep parseF32 2 items = .ok (ix₁, cl₁) ∧ ∀ path, (∃ a, ix₁.Has path a) → ∃ b, ix.Has path b := by
  obtain ⟨ix₁, cl₁, h⟩ := pairs
  exact ⟨ix₁, cl₁, h.one, fun path hp => (((C102_trees h path).1).1 hp).2⟩
example : ∃ ix₁ cl₁, buildAll .wasm32 .rev keep parseF32 2 items = .ok (ix₁, cl₁) ∧
    ∀ k l, AMap.get ix₁.data k = some l → l.Perm ((ix.data.filter fun e => e.1.drop 3 == k).flatMap (·.2)) := by
  obtain ⟨ix₁, cl₁, h⟩ := pairs
  exact ⟨ix₁, cl₁, h.one, (C102_postings h).1⟩
example : (serializeAll .ident ix cl).length = (serializeAll .rev ix cl).length :=
  C102_order (by decide) build build (by decide) modest.1 modest.2
/-- The tables of both tests for the shop. -/
example : ∃ lines, sizeByNgram .wasm32 (fun n => if n = 2 then .rev else .ident) keep parseF32 items testedSizes = .ok lines ∧
    lines.map (·.1) = [2, 3, 4, 5, 6, 7, 8, 9] ∧ lines.Pairwise fun a b => F32.lt b.2 a.2 = false := by
  obtain ⟨_, b⟩ := built_of_ok (optimize_of_buildAll build)
  obtain ⟨lines, h⟩ := sizeByNgram_total .wasm32 (fun n => if n = 2 then .rev else .ident) keep parseF32 items _ b.parsed testedSizes
  exact ⟨lines, h, (C102_table modest.1 (by decide) h).1, (C102_table modest.1 (by decide) h).2.1⟩
example : ∃ lines, sizePrProduct .wasm32 (fun _ => .ident) keep parseF32 (fun k => if k = 1 then items.reverse else items) testedAmounts = .ok lines ∧
    lines.length = 8 ∧ ∀ line, lines[2]? = some line → line.1 = 5 := by
  obtain ⟨_, b⟩ := built_of_ok (optimize_of_buildAll build)
  have hp : ∀ k, (if k = 1 then items.reverse else items).Perm items := fun k => by
    by_cases e : k = 1
    · rw [if_pos e]; exact List.reverse_perm _
    · rw [if_neg e]
  obtain ⟨lines, h⟩ := sizePrProduct_total .wasm32 (fun _ => .ident) keep parseF32 items _ b.parsed _ hp testedAmounts
  exact ⟨lines, h, (C102_amounts hp h).1, fun line hl => ((C102_amounts hp h).2 2 10 line rfl hl).1⟩
/-- The calls of the search of the shop for "kunst". -/
example : ∃ calls, ix.searchN .ident 5 kunst = .ok (results, calls) ∧ calls = ((paddedWindows 5 kunst).map (windowCalls ix 5)).sum := by
  have h := C81_counts .ident ix 5 kunst
  rw [search] at h
  cases e : ix.searchN .ident 5 kunst with
  | error w => rw [e] at h; cases h
  | ok x =>
    obtain ⟨out, calls⟩ := x
    rw [e] at h
    cases h
    exact ⟨calls, rfl, C81_exact (by decide) e⟩

/-! C103 -/
theorem Shop.counted (cmps : Nat → Nat) : ∃ k, buildAllN cmps .wasm32 .ident keep parseF32 5 items = .ok ((ix, cl), k) :=
  CountedRes.ok_of (C103_counts cmps .wasm32 .ident keep parseF32 5 items) build
theorem Shop.two_options : ∀ cat ∈ cl.categories, cat.options.length ≤ 2 := by decide +kernel
/-- Indexing the shop, with a sorting algorithm that makes at most 2 k (log k + 1) comparisons. -/
example : ∃ k, buildAllN (fun k => 2 * k * (Nat.log2 k + 1)) .wasm32 .ident keep parseF32 5 items = .ok ((ix, cl), k) ∧
    k ≤ 4 * catalogueSize items + 39 * totalChars keep items + (items.flatMap (·.options)).length * cl.categories.length +
      (pairsOf (items.flatMap (·.options))).length * 2 + (3 * (2 * items.length * (Nat.log2 items.length + 1)) +
      2 * (5 * totalChars keep items) * (Nat.log2 (5 * totalChars keep items) + 1) +
      2 * totalChars keep items * (Nat.log2 (totalChars keep items) + 1)) + 3 := by
  obtain ⟨k, h⟩ := counted fun k => 2 * k * (Nat.log2 k + 1)
  exact ⟨k, h, C103_bound (C103_sorting 2) (by decide) h two_options⟩
/-- The exact count of the part without n-grams. -/
example : ∃ c k, optimizeN id .ident parseF32 items = .ok ((c, cl), k) ∧
    k = 15 * items.length + 3 + 2 * (items.filter fun raw => !raw.media.isEmpty).length + 3 * items.length +
      2 * (items.flatMap (·.tags)).length + (cl.tags.map fun t => 1 + t.products.length).sum +
      (items.flatMap (·.options)).length + 3 * (pairsOf (items.flatMap (·.options))).length +
      scanNames [] ((items.flatMap (·.options)).map (·.name)) + scanValues (fun _ => []) (pairsOf (items.flatMap (·.options))) := by
  obtain ⟨k, h⟩ := CountedRes.ok_of (optimizeN_counts id .ident parseF32 items) (optimize_of_buildAll build)
  exact ⟨_, k, h, C103_classic h⟩
example (p : Product) (t : Target) (o : HashOrd) (c : Container) : (indexFromN id t o 2 [("abab".toList, p)] c).2 =
    textSteps 2 4 + ((indexFrom t o 2 [("abab".toList, p)] c).roots.map fun e => 2 + e.2.steps id).sum + 3 +
      ((indexFrom t o 2 [("abab".toList, p)] c).data.map fun e => e.2.length).sum := by
  have e : paddedWindows 2 "abab".toList = [[dflt, 'a'], ['a', 'b'], ['b', 'a'], ['a', 'b']] := by decide
  exact C103_index id t o (n := 2) (by decide) [("abab".toList, p)] c [[dflt, 'a'], ['a', 'b'], ['b', 'a']] (by decide) (fun k => by
    simp only [List.mem_singleton, exists_eq_left, e, List.mem_cons, List.not_mem_nil, or_false]
    constructor
    · rintro (h | h | h) <;> simp [h]
    · rintro (h | h | h | h) <;> simp [h])
example (k : Nat) := C103_family (fun _ => 0) .wasm32 .ident keep parseF32 5 k (by decide +kernel)

/-! C104 -/
/-- If a call returns, so does the counted one. -/
theorem Shop.counted_search {cmps : Nat → Nat} {mode : PanicMode} {o : HashOrd} {lower : Char → List Char} {e e' : Engine} {input : Str}
    {cats : CategoryHandler} {tags : TagHandler} {order : Option Str} {filter : List (Str × JsValue)} {r : Option ProductProducer}
    (h : e.search mode o lower input cats tags order filter = (e', .ok r)) :
    ∃ k, e.searchW cmps mode o lower input cats tags order filter = (e', .ok (r, k)) := by
  obtain ⟨h1, h2⟩ := C104_counts cmps mode o lower e input cats tags order filter
  rw [h] at h1 h2
  cases hw : e.searchW cmps mode o lower input cats tags order filter with
  | mk e'' x =>
    rw [hw] at h1 h2
    cases h1
    cases x with
    | error w => cases h2
    | ok x =>
      obtain ⟨r', k⟩ := x
      cases h2
      exact ⟨k, rfl⟩
/-- "kunst" on the shop's page, with a sorting algorithm that makes at most k² comparisons. -/
example (mode : PanicMode) := (counted_search (cmps := fun k => k * k) (searched mode)).imp fun _ h =>
  And.intro h (C104_file (fun h => Nat.mul_le_mul h h) load rfl h)
example (mode : PanicMode) : ∃ k, page.searchW id mode .ident keep kunst (.new pcl) (.new pcl) none [] = (page, .ok (some whole, k)) ∧
    ∃ filters ids k', parseFilters [] = some filters ∧ searchIdsW id .ident keep pix kunst (.new pcl) (.new pcl) filters = .ok (ids, k') ∧ k = 0 + k' + 0 := by
  obtain ⟨k, h⟩ := counted_search (cmps := id) (searched mode)
  exact ⟨k, h, C104_call rfl h⟩
/-- Before anything is loaded, and with a poisoned index. -/
example (mode : PanicMode) (cats : CategoryHandler) (tags : TagHandler) (order : Option Str) :=
  And.intro (C104_nothing (cmps := id) (mode := mode) (o := .ident) (lower := keep) (e := ⟨⟨.free, none⟩, ⟨.free, none⟩⟩) (input := kunst)
    (cats := cats) (tags := tags) (order := order) (filter := []) rfl)
  (C104_nothing (cmps := id) (mode := mode) (o := .ident) (lower := keep) (e := ⟨⟨.poisoned, some pix⟩, ⟨.free, none⟩⟩) (input := kunst)
    (cats := cats) (tags := tags) (order := order) (filter := []) rfl)
example : ∃ ids k, searchIdsW id .ident keep pix kunst (.new pcl) (.new pcl) [] = .ok (ids, k) := by
  obtain ⟨k, h⟩ := counted_search (cmps := id) (searched .unwind)
  obtain ⟨fs, ids, k', e, h, _⟩ := C104_call rfl h
  cases e
  exact ⟨ids, k', h⟩
/-- With the characters of the shop's titles. -/
example (mode : PanicMode) := (counted_search (cmps := fun k => k * k) (searched mode)).imp fun _ h =>
  And.intro h (C104_built (fun h => Nat.mul_le_mul h h) (.inl rfl) (by decide) build "kunstbvamidcwaterp".toList (by decide) fits
    (by rw [serialized]; exact load) rfl h)
example (k : Nat) (h : (ix.searchW id .ident 5 kunst) = .ok (results, k)) :
    k = 25 + ((paddedWindows 5 kunst).map fun w => windowCalls ix 5 w + windowAdds ix 5 w).sum + results.length + results.length :=
  C104_exact (by decide) h
example : ∃ k, ix.searchW id .ident 5 kunst = .ok (results, k) := by
  have h := searchW_fst id .ident ix 5 kunst
  rw [search] at h
  cases e : ix.searchW id .ident 5 kunst with
  | error w => rw [e] at h; cases h
  | ok x =>
    obtain ⟨out, k⟩ := x
    rw [e] at h
    cases h
    exact ⟨k, rfl⟩
example {ids : List Nat} {k : Nat} (h : searchIdsW id .ident keep pix kunst (.new pcl) (.new pcl) [] = .ok (ids, k)) := C104_ids h
example : looks [true, false, true] = 2 ∧ looks [true, true] = 2 ∧ looks [false, false] = 1 := by decide

/-! C105 -/
/-- The shop's table, whatever characters are spaces. -/
example (isSpace : Char → Bool) := (C105_total .rev (by decide) build (by decide +kernel) isSpace).imp fun _ h => And.intro h (C105_index h)
example (isSpace : Char → Bool) {r r' : (Nat × Nat) × List (Nat × Nat)} (h : popularity .ident isSpace ix = .ok r)
    (h' : popularity .rev isSpace ix = .ok r') : r = r' := C105_order (by decide) build build h h'
/-- In the text "b" no 2-gram is twice. -/
example (k : List Char) : windowsOf (fun c => [c]) 2 [mkRaw [] "b".toList "2".toList, mkRaw [] "b".toList "3".toList] k =
    [mkRaw [] "b".toList "2".toList, mkRaw [] "b".toList "3".toList].countP fun raw => (paddedWindows 2 (textOf (fun c => [c]) raw)).contains k := by
  have e : ∀ raw ∈ [mkRaw [] "b".toList "2".toList, mkRaw [] "b".toList "3".toList], paddedWindows 2 (textOf (fun c => [c]) raw) = [[dflt, 'b']] := by
    decide
  exact C105_products fun raw hr => by rw [e raw hr]; exact List.count_le_length
example : ∃ ix cl r, buildAll .debug64 .ident (fun c => [c]) parseOne 2 stutter = .ok (ix, cl) ∧ popularity .rev (· == 'a') ix = .ok r ∧
    r.1.1 = 1 := by
  obtain ⟨ix, cl, h⟩ := buildAll_ok .debug64 .ident (fun c => [c]) parseOne 2 stutter [F32.one, F32.one, F32.one, F32.one] rfl
  obtain ⟨⟨⟨ones, singles⟩, table⟩, h'⟩ := C105_total .rev (by decide) h (by decide) (· == 'a')
  obtain ⟨_, _, _, h4⟩ := C105_table (by decide) h h' _ (by decide) stutter_grams
  refine ⟨ix, cl, _, h, h', ?_⟩
  change ones = 1
  rw [h4, C22_cutoff .debug64 (.inr rfl) _ (by decide)]
  decide

/-! C106 -/
example : ∃ ix cl, deserializeAll .debug64 5 rankFile = .ok (ix, cl) ∧ deserializeAll Target.debug64.unchecked 5 rankFile = .ok (ix, cl) := by
  obtain ⟨ix, cl, h, _⟩ := (C106_false 5 true).2.2.2.1
  refine ⟨ix, cl, h, ?_⟩
  rw [C106_checks rfl 5 rankFile (by rw [show deserializeAll .debug64 5 rankFile = .ok (ix, cl) from h]; exact nofun)]
  exact h
example : ∃ ix cl, deserializeAll .debug64 5 rankFile = .ok (ix, cl) ∧ (deserializeAll .wasm32 5 rankFile = .ok (ix, cl) ∨
    32 < 64 ∧ deserializeAll .wasm32 5 rankFile = .none) := by
  obtain ⟨ix, cl, h, _⟩ := (C106_false 5 true).2.2.2.1
  exact ⟨ix, cl, h, C106_moves (t := .debug64) (t' := .wasm32) rfl ⟨by decide, fun _ _ _ => rfl⟩ h⟩
/-- What a checked build loads of the shop's file is what the page loads. -/
example {r : GramIndex Char × Classic} (h : deserializeAll .debug64 5 bytes = .ok r) : r = (pix, pcl) :=
  C106_same (t := .debug64) (t' := .wasm32) rfl ⟨by rw [bytes_length]; decide, fun _ _ _ => rfl⟩ h load

/-! C108 -/
theorem pix_roots : (pix.roots.map (·.1)).contains dflt = false := by decide +kernel
theorem pix_padding : NoPadding pix := by
  intro r hr
  have h := pix_roots
  rw [Bool.eq_false_iff, ne_eq, List.contains_iff_mem] at h
  exact h (List.mem_map.2 ⟨_, hr, rfl⟩)
theorem pix_ids : (pix.container.products.map (·.id)).Nodup := by decide +kernel
/-- Typing "ny kunsthal" on the shop's page keeps what "kunst" found. -/
example (mode : PanicMode) : ∃ found', page.search mode .rev keep ("ny ".toList ++ kunst ++ "hal".toList) (.new pcl) (.new pcl) none [] =
    (page, .ok (some found')) ∧ ∀ sid ∈ [0, 1], sid ∈ found'.toExport := by
  obtain ⟨r', h⟩ := C48_search_total .rev pix (n := 5) (by decide) (by decide) ("ny ".toList ++ kunst ++ "hal".toList)
  have h' := plain_search mode .rev ⟨.free, some pcl⟩ pcl pcl _ h rfl
  exact ⟨_, h', C108_engine mode .ident .rev keep page pix rfl pix_padding pix_ids
    (fun k l hm => ((C12 _ _ _ _ _ load).2.1 k l hm).2) "ny ".toList kunst "hal".toList (.new pcl) (.new pcl) (inRange_new_categories _)
    (inRange_new_tags _) [] page _ whole _ (searched mode) h'⟩

/-! C109 -/
example : ∃ p c, (p, c) ∈ results ∧ ∃ raw, items[p.sid]? = some raw ∧ ∃ q w f seen e,
    (q :: w) <:+: kunst ∧ (q :: w).length = 5 ∧ (q :: f).length = 5 ∧
    ((∃ field ∈ fieldsOf keep raw, (q :: f) <:+: field) ∨ Across keep raw (q :: f)) ∧ seen <+: w ∧ e ≤ 1 ∧ Edits e seen f := by
  obtain ⟨p, c, h, _⟩ := one_result
  exact ⟨p, c, h, C109_hit (by decide) (by decide) build noNul .ident kunst results search p c h⟩
example (raw : RawProduct) := C109_counts keep (n := 5) (by decide) raw 'k' ['u', 'n', 's', 't'] (by decide) rfl

/-! C110 -/
example : ∃ p c, (p, c) ∈ results ∧ F32.UpTo (scoreCount .debug64 keep 5 items ix kunst p.id) c ∧ ∃ m, c.val = .fin false m ∧ 1 ≤ m ∧ m ≤ 2 ^ 24 * 2 ^ 149 := by
  obtain ⟨p, c, h, _⟩ := one_result
  exact ⟨p, c, h, C110_bound searchable .ident kunst results search p c h, C32_finite searchable (by decide) .ident kunst results search p c h⟩
/-- 17 million perfect n-grams score the same as 2^24 of them. -/
example := C110_ones F32.one F32.val_one 17000000 1 F32.one (by rw [F32.min_one, Nat.one_mul]; exact F32.val_one)
example (x y : F32) (hx : x.val = .fin false (2 ^ 24 * 2 ^ 149)) := C110_stays x F32.one hx ⟨_, F32.val_one, Nat.le_refl _⟩

/-! C111 -/
/-- The shop finds two products by "kunst", until a sixth product is added. -/
example (raw : RawProduct) (x : F32) (hp : parseF32 raw.price.min.amount = some x) : (∃ p c, (p, c) ∈ results ∧ ix.search .ident 5 kunst = .ok results) ∧
    ∃ ix' cl', buildAll .wasm32 .ident keep parseF32 5 (items ++ [flood .wasm32 5 items raw]) = .ok (ix', cl') ∧
      ix'.search .ident 5 kunst = .ok [] := by
  obtain ⟨p, c, h, _⟩ := one_result
  refine ⟨⟨p, c, h, search⟩, ?_⟩
  exact (C111_builds build raw x hp).imp fun _ h => h.imp fun _ h => And.intro h (C111_flood (by decide) (by decide) raw h .ident kunst)
example (raw : RawProduct) {ix' : GramIndex Char} {cl' : Classic}
    (h : buildAll .wasm32 .ident keep parseF32 5 (items ++ [flood .wasm32 5 items raw]) = .ok (ix', cl'))
    (hf : Fits .wasm32 (serializeAll .ident ix' cl').length) := C111_page (by decide) (by decide) raw h .ident .wasm32 hf

/-! C112 -/
def someTags : List Tag := [⟨"kunst".toList, [], [], 0⟩, ⟨"musik".toList, [], [], 1⟩]
theorem some_suggested : suggestLoop someTags "musik".toList = some (F32.one, 1, "musik".toList) := by decide +kernel
example : ∃ ov' id' w', suggestLoop someTags "god musik".toList = some (ov', id', w') ∧ F32.lt ov' F32.one = false :=
  C112_more (fun t h => List.mem_map.2 ⟨t, h, rfl⟩) (by decide +kernel) some_suggested
theorem same_words : ∀ w, w ∈ splitSpaces "god musik".toList ↔ w ∈ splitSpaces "musik god musik".toList := by
  have e : splitSpaces "god musik".toList = ["god".toList, "musik".toList] := by decide +kernel
  have e' : splitSpaces "musik god musik".toList = ["musik".toList, "god".toList, "musik".toList] := by decide +kernel
  intro w
  rw [e, e']
  simp only [List.mem_cons, List.not_mem_nil, or_false]
  exact ⟨fun h => h.elim (fun h => .inr (.inl h)) .inl, fun h => h.elim .inr fun h => h.elim .inl .inr⟩
example := C112_same (tags := someTags) (tags' := someTags.reverse) (fun name => by simp [someTags, or_comm]) same_words
theorem some_only : ∀ t ∈ someTags, ∀ v ∈ splitSpaces "musik".toList, overlap t.name v 3 = F32.one → t.name = "musik".toList ∧ v = "musik".toList := by
  decide +kernel
example := C112_unique (tags := someTags) (tags' := someTags.reverse) (fun name => by simp [someTags, or_comm]) (fun _ => Iff.rfl)
  some_suggested "musik".toList some_only
example {ix' : GramIndex Char} {cl' : Classic} (h : buildAll .debug64 .rev keep parseF32 4 items.reverse = .ok (ix', cl')) (query : Str) :=
  C112_built build h items.reverse_perm.symm query
example (query : Str) := C112_engine page page pcl pcl rfl rfl rfl rfl tagsNumbered tagsNumbered (fun _ => Iff.rfl) query query (fun _ => Iff.rfl)

/-! C113 and vendors of C94 -/
example := C94_vendors (.built (by decide) build) (.loaded load)
example (h : ix.eqv pix = true) := C94_vendor (.built (by decide) build) (.loaded load) h
example (query : Str) := C113_exact page query pcl rfl rfl
example (query : Str) := C113_file load page rfl rfl query
example (query : Str) : ((⟨⟨.free, none⟩, ⟨.free, none⟩⟩ : Engine).tagSuggestion query).map (·, 0) =
    (⟨⟨.free, none⟩, ⟨.free, none⟩⟩ : Engine).tagSuggestionN query := C113_nothing _ query fun c h => by cases h
example (k : Nat) : suggestWork (List.replicate k ⟨"kunst".toList, [], [], 0⟩) "kunst".toList = 6 + k * 6 :=
  C113_tight k "kunst".toList (by decide +kernel) (by decide +kernel)
example : suggestWork someTags "god musik".toList = byteLen "god musik".toList + 22 := by decide +kernel

/-! C114 -/
example := C114_symm (.built (by decide) build) (.loaded load)
example := C114_self (.built (by decide) build)
example (h1 : ix.eqv pix = true) (h2 : pix.eqv ix = true) (h3 : cl.eqv pcl = true) (h4 : pcl.eqv cl = true) :=
  C114_trans (.built (by decide) build) (.loaded load) (.built (by decide) build) h1 h2 h3 h4
example : ∃ (ix : GramIndex Char) (cl : Classic) (ix' : GramIndex Char) (cl' : Classic), Made ix cl ∧ Made ix' cl' ∧ ix.eqv ix' = true ∧
    ix'.eqv ix = true := by
  obtain ⟨ix, cl, ix', cl', _, _, hm, hm', _, h, _⟩ := C114_false
  exact ⟨ix, cl, ix', cl', hm, hm', h.1, (C114_symm hm hm').1 ▸ h.1⟩
example {p q : Product} (hp : p ∈ ix.container.products) (hq : q ∈ ix.container.products) := C114_products (.built (by decide) build) hp hq

/-! C115 -/
example {ix : GramIndex Char} {cl : Classic} (h : Searchable .debug64 .ident (fun c => [c]) parseOne 5 outshone ix cl) (w : List Char) (hl : w.length = 5) (conf : F32) :
    ix.searchGram 5 w ≠ .ok (some (['a', 'b', 'c', 'd', 'e'], conf)) := C115_masked h (by decide) (by decide) _ outshone_masked w hl conf

/-! C116 -/
example (p : Product) := C116_shown (by decide) (by decide) build .ident kunst results search p
example (o : HashOrd) (query : List Char) : ∃ (ix : GramIndex Char) (cl : Classic), buildAll .debug64 .ident (fun c => [c]) parseOne 5 twins = .ok (ix, cl) ∧
    ∀ results, ix.search o 5 query = .ok results → ∀ p c, (p, c) ∈ results → p.sid ≠ 1 := by
  obtain ⟨ix, cl, hb, _⟩ := C116_lost
  exact ⟨ix, cl, hb, fun results hs p c hp => C116_hidden (by decide) (by decide) hb 0 1 (by decide) _ onSale rfl rfl rfl (fun k hk => hk) o query results hs p c hp⟩
theorem twins_loaded : ∃ ix cl, LoadedFrom (fun c => [c]) parseOne twins ix cl := by
  obtain ⟨ix, cl, hb, _⟩ := C116_lost
  have hfile : indexAndSerialize .debug64 .ident (fun c => [c]) parseOne ngramIndexSize twins = .ok (serializeAll .ident ix cl) := by
    obtain ⟨r, hr⟩ := C48_search_total .ident ix (n := ngramIndexSize) (by decide) (by decide) (trialQuery.flatMap fun c => [c])
    unfold indexAndSerialize
    rw [show ngramIndexSize = 5 from rfl] at hr ⊢
    rw [hb]
    simp only [bind, Res.bind]
    rw [hr]
    rfl
  have hlen := C82 (o' := .ident) (by decide) hb
  have hsize : 50 * catalogueSize twins + (80 * 5 + 30) * totalChars (fun c => [c]) twins + 1000 < 2 ^ 20 := by decide +kernel
  have hfits : Fits .debug64 (serializeAll .ident ix cl).length := by
    refine .of_carried ⟨?_, ?_⟩ fun _ _ => rfl
    · exact Nat.lt_of_le_of_lt hlen (Nat.lt_trans hsize (by decide))
    · exact Nat.lt_of_le_of_lt hlen (Nat.lt_trans hsize (by decide))
  obtain ⟨_, _, ix', cl', _, hd, _⟩ := C09_file (by decide) hfile .debug64 hfits
  exact ⟨ix', cl', ⟨⟨_, _, _, _, hfile, hfits, hd⟩⟩⟩
example (mode : PanicMode) (o : HashOrd) (lower : Char → List Char) (query : Str) (order : Option Str) (filter : List (Str × JsValue)) (e' : Engine)
    (found : ProductProducer) : ∃ ix cl, LoadedFrom (fun c => [c]) parseOne twins ix cl ∧
    (Engine.search mode o lower ⟨⟨.free, some ix⟩, ⟨.free, some cl⟩⟩ query (.new cl) (.new cl) order filter = (e', .ok (some found)) → 1 ∉ found.toExport) := by
  obtain ⟨ix, cl, h⟩ := twins_loaded
  exact ⟨ix, cl, h, C116_page h 0 1 (by decide) _ onSale rfl rfl rfl (fun k hk => hk) mode o lower ⟨⟨.free, some ix⟩, ⟨.free, some cl⟩⟩ e' rfl query
    (.new cl) (.new cl) (inRange_new_categories _) (inRange_new_tags _) order filter found⟩

/-! C117 -/
example (w w' : HashOrd) := C117 build build rfl w w'
example := C117_length (.inl rfl) (.inl rfl) (by decide) written written

/-! C118 -/
example (answer : List (Product × F32)) := C118 searchable .ident kunst results search answer
example (i : Nat) (x : Product × F32) := C118_place searchable .ident kunst results search i x
example (k : Nat) := C118_top searchable .ident kunst results search k
example (mode : PanicMode) (ids : List Nat) := C118_page loaded size mode keep page rfl kunst cats (.new pcl) cats_inRange (inRange_new_tags _) []
  (by simp) .ident presults psearch ids
example (mode : PanicMode) (o o' : HashOrd) (name : Str) := C118_ordered loaded mode keep page rfl rfl kunst cats (.new pcl) cats_inRange
  (inRange_new_tags _) [] name o o'

/-! ## C119 -/

theorem Shop.thrice (k : Nat × Nat) : togglesOf k (clicks ++ clicks ++ clicks) % 2 = togglesOf k clicks % 2 := by
  rw [togglesOf_append, togglesOf_append]; omega
theorem Shop.tag_thrice (i : Nat) : tagTogglesOf i (tagClicks ++ tagClicks ++ tagClicks) % 2 = tagTogglesOf i tagClicks % 2 := by
  rw [tagTogglesOf_append, tagTogglesOf_append]; omega
example (mode : PanicMode) (order : Option Str) := tags_exist.imp fun tags h => C119 mode .ident keep page kunst cats cats tags tags cats_inRange
  (tags_inRange h) ⟨rfl, fun _ => rfl⟩ ⟨rfl, fun _ => rfl⟩ order (upTo20.map priceFilter) (upTo20.map priceFilter ++ upTo20.map priceFilter)
  fun x => by simp
example (mode : PanicMode) (order : Option Str) := C119_history mode .ident keep page kunst pcl clicks (clicks ++ clicks ++ clicks) clicks_exist
  thrice tagClicks (tagClicks ++ tagClicks ++ tagClicks) tagClicks_ok
  (fun op h => tagClicks_ok op (by simpa using h)) tagClicks_own tag_thrice order (upTo20.map priceFilter) (upTo20.map priceFilter) fun _ => Iff.rfl

/-- Nothing selected and the clicked option selected. -/
theorem Shop.cats_join : cats.Joins (.new pcl) cats :=
  ⟨(catInv_run (.new pcl) AMap.Wf.nil clicks).handle.symm, rfl, fun k => by simp [CategoryHandler.new, AMap.get]⟩
example (mode : PanicMode) := C119_join mode .ident keep page kunst cats (.new pcl) cats (.new pcl) (.new pcl) (.new pcl) cats_inRange
  (inRange_new_tags _) cats_join ⟨rfl, rfl, fun k => by simp⟩ (upTo20.map priceFilter) [] (upTo20.map priceFilter) (fun x => by simp) page page whole _
  (searched mode) (C33 mode .ident keep page kunst cats (.new pcl) cats_inRange (inRange_new_tags _)
  (upTo20.map priceFilter) (objects _) pcl pcl page whole (searched mode))

/-! ## C120 -/

theorem Shop.pkunst : (AMap.get pix.data kunst).map (·.map (·.sid)) = some [0, 1] := by decide +kernel
theorem Shop.pkunst_kept : AMap.get pix.data kunst ≠ none := by
  intro h
  have := pkunst
  rw [h] at this
  cases this
example (lower : Char → List Char) (parse : Str → Option F32) (other : List RawProduct) (h : LoadedFrom lower parse other pix pcl) :
    other.length = 5 := (C120 h loaded).1
example := both_loaded.imp fun _ h => h.imp fun _ h => C120 h.1 h.2
example := both_loaded.imp fun _ h => h.imp fun _ h => C120_pictures h.1 h.2
example (lower : Char → List Char) (parse : Str → Option F32) (other : List RawProduct) (h : LoadedFrom lower parse other pix pcl) (raw : RawProduct)
    (hr : other[1]? = some raw) : (paddedWindows 5 (textOf lower raw)).count kunst = 1 := by
  have := C120_texts h loaded kunst pkunst_kept 1 raw _ hr (List.getElem?_eq_getElem (by decide))
  exact this.trans (by decide +kernel)

/-! ## C121 -/

theorem Shop.load_nil : deserializeAll .wasm32 5 (serializeAll .ident ix cl ++ []) = .ok (pix, pcl) := by
  rw [List.append_nil, serialized]; exact load
theorem Shop.regular : Regular pix pcl := C121_written (by decide) build fits [] load_nil
theorem Shop.rewritten_fits : Fits .wasm32 (serializeAll .ident pix pcl).length := by
  rw [C79_bytes (by decide) build fits [] load_nil]; exact fits
example (rest : Bytes) := C121 load regular .ident rewritten_fits rest
example (rest : Bytes) := C121_search (by decide) (by decide) load regular .ident rewritten_fits rest
example : ∃ ix cl, deserializeAll .debug64 5 regularBytes = .ok (ix, cl) ∧ Regular ix cl :=
  ⟨_, _, rfl, (C121_ascending (t := .debug64) (n := 5) (bytes := regularBytes) rfl rfl).2 ⟨by decide, by decide⟩⟩

/-! ## C122 -/

theorem Shop.load_written : deserializeAll .wasm32 5 (serializeAll .ident ix cl) = .ok (pix, pcl) := by
  rw [serialized]; exact load
example := firstStored.imp fun _ h => C122 (by decide) build load_written fits h.1
example := firstStored.imp fun _ h => C122_search (by decide) (by decide) build load_written fits h.1
example := firstStored.imp fun _ h => C122_byte (by decide) build load_written fits h.1 (a := []) (b := []) (c := 'b') h.2 (by decide)

/-! ## C121, ranks -/

example (rest : Bytes) : ∃ ix cl ix' cl', deserializeAll .wasm32 5 strangeRanks = .ok (ix, cl) ∧
    deserializeAll .debug64 5 (serializeAll .rev ix cl ++ rest) = .ok (ix', cl') ∧ SameData ix ix' cl cl' := by
  obtain ⟨ix', cl', e, hs, _⟩ := C121_ranks (t := .wasm32) (t' := .debug64) (n := 5) (bytes := strangeRanks) rfl (.inr rfl) rfl
    ⟨by decide, by decide, by decide, by decide⟩ .rev (.of_carried (by decide +kernel) fun _ _ => rfl) rest
  exact ⟨_, _, ix', cl', rfl, e, hs⟩
example (rest : Bytes) : ∃ ix cl ix' cl', deserializeAll { Target.wasm32 with overflowChecks := true } 5 strangeRanks = .ok (ix, cl) ∧
    deserializeAll .wasm32 5 (serializeAll .ident ix cl ++ rest) = .ok (ix', cl') ∧ SameData ix ix' cl cl' := by
  obtain ⟨ix', cl', e, hs⟩ := C121_checked (t := { Target.wasm32 with overflowChecks := true }) (t' := .wasm32) (n := 5)
    (bytes := strangeRanks) rfl rfl (.inl rfl) rfl (by decide) .ident (.of_carried (by decide +kernel) fun _ _ => rfl) rest
  exact ⟨_, _, ix', cl', rfl, e, hs⟩

/-! ## C123 -/

theorem Shop.tag_split : ∃ (tag : Tag) (after : List Tag), pcl.tags = [] ++ tag :: after := by
  have h : pcl.tags.length = 2 := by decide +kernel
  cases ht : pcl.tags with
  | nil => rw [ht] at h; cases h
  | cons a l => exact ⟨a, l, rfl⟩
theorem Shop.category_split : ∃ (cat : Category) (after : List Category) (op : CatOption) (last : List CatOption),
    pcl.categories = [] ++ cat :: after ∧ cat.options = [] ++ op :: last := by
  have h : pcl.categories.map (·.options.length) = [2] := by decide +kernel
  cases ht : pcl.categories with
  | nil => rw [ht] at h; cases h
  | cons c l =>
    rw [ht] at h
    cases ho : c.options with
    | nil => simp [ho] at h
    | cons op last => exact ⟨c, l, op, last, rfl, ho⟩
example := tag_split.imp fun _ h => h.imp fun _ h => C123_tag (by decide) build load_written fits h
example := category_split.imp fun _ h => h.imp fun _ h => h.imp fun _ h => h.imp fun _ h => C123_category (by decide) build load_written fits h.1
example := category_split.imp fun _ h => h.imp fun _ h => h.imp fun _ h => h.imp fun _ h =>
  C123_option (by decide) build load_written fits h.1 h.2

/-! ## C124 -/

theorem Shop.price_split : ∃ (before after : FeatureSet) (left right : List F32) (x : F32),
    pix.container.extra = before ++ ("price".toList, .float (left ++ x :: right)) :: after := by
  have h : ((AMap.get pix.container.extra "price".toList).map fun f => match f with | .float l => l.length | _ => 0) = some 5 := by decide +kernel
  obtain ⟨f, h1, h2⟩ := Option.map_eq_some_iff.1 h
  cases f with
  | string l => cases h2
  | integer l => cases h2
  | float l =>
    cases l with
    | nil => cases h2
    | cons x l =>
      obtain ⟨b, a, e⟩ := List.append_of_mem (AMap.mem_of_get h1)
      exact ⟨b, a, [], l, x, e⟩
example := price_split.imp fun _ h => h.imp fun _ h => h.imp fun _ h => h.imp fun _ h => h.imp fun _ h => C124 (by decide) build load_written fits h
example := price_split.imp fun _ h => h.imp fun _ h => h.imp fun _ h => h.imp fun _ h => h.imp fun _ h =>
  C124_search (by decide) (by decide) build load_written fits h
example := price_split.imp fun _ h => h.imp fun _ h => h.imp fun _ h => h.imp fun _ h => h.imp fun _ h => C124_page build load_written fits h

/-! ## C125 -/

theorem Shop.vendor_split : ∃ (w : Vendor) (after : List Vendor), pix.container.vendors.byId = [] ++ w :: after := by
  have h0 : (pix.container.vendors.byId.length == 0) = false := by decide +kernel
  cases ht : pix.container.vendors.byId with
  | nil => rw [ht] at h0; cases h0
  | cons a l => exact ⟨a, l, rfl⟩
example := vendor_split.imp fun _ h => h.imp fun _ h => C125 (by decide) (by decide) build load_written fits h
example (name : Str) (rest : Bytes) : ∃ (w : Vendor) (pre post : Bytes), serializeAll .ident ix cl = pre ++ serStr w.name ++ post ∧
    (Fits .wasm32 (pre ++ serStr name ++ post).length → ∃ ix₂ cl₂,
      deserializeAll .wasm32 5 (pre ++ serStr name ++ post ++ rest) = .ok (ix₂, cl₂) ∧ Rebranded w.id name (pix, pcl) (ix₂, cl₂)) := by
  obtain ⟨w, after, hs⟩ := vendor_split
  obtain ⟨pre, post, h1, h2⟩ := C125 (by decide) (by decide) build load_written fits hs
  refine ⟨w, pre, post, h1, fun hf => ?_⟩
  obtain ⟨ix₂, cl₂, h3, h4, _⟩ := h2 _ hf rest
  exact ⟨ix₂, cl₂, h3, h4⟩

end Idx
