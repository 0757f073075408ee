import Verif.Model.Engine
/-
The crate on top of any sorting algorithm. The rest of the model sorts with `stableSort`, which never panics. The
standard library promises less: `sort_by` returns the stably sorted slice if the comparison is a total order, and
otherwise "may panic" or leave the elements in an unspecified order. Here every sort of the crate goes through such an
algorithm. The comparisons that can be inconsistent are those of `f32`s by `partial_cmp(..).unwrap_or(Equal)`.
-/
namespace Idx

/-- `cmp` is a total order up to ties on the elements of `l`: what `slice::sort_by` asks for. -/
def Consistent (cmp : α → α → Ordering) (l : List α) : Prop :=
  (∀ a ∈ l, ∀ b ∈ l, cmp b a = (cmp a b).swap) ∧
  ∀ a ∈ l, ∀ b ∈ l, ∀ c ∈ l, cmp a b ≠ .gt → cmp b c ≠ .gt → cmp a c ≠ .gt

/-- `slice::sort_by`, `slice::sort` and `slice::sort_by_cached_key` as documented (std): the elements are kept; a
consistent comparison gives a sorted slice in which ties keep their order; the only panic is that of the algorithm
noticing an inconsistent comparison. -/
structure SortAlg where
  sort : {α : Type} → (cmp : α → α → Ordering) → List α → Except Panic (List α)
  perm : ∀ {α : Type} (cmp : α → α → Ordering) (l r : List α), sort cmp l = .ok r → r.Perm l
  why : ∀ {α : Type} (cmp : α → α → Ordering) (l : List α) (w : Panic), sort cmp l = .error w → w = .explicit
  sorts : ∀ {α : Type} (cmp : α → α → Ordering) (l : List α), Consistent cmp l →
    ∃ r, sort cmp l = .ok r ∧ r.Pairwise (fun a b => cmp a b ≠ .gt) ∧
      ∀ a ∈ l, r.filter (fun b => cmp a b == .eq) = l.filter (fun b => cmp a b == .eq)

/-- `iter.map(f).collect()` with an `f` that may panic. -/
def mapE (f : α → Except Panic β) : List α → Except Panic (List β)
  | [] => .ok []
  | a :: as => do
    let b ← f a
    let bs ← mapE f as
    .ok (b :: bs)

/-! ## Building -/

section Build
variable {G : Type} [DecidableEq G] [RDefault G]

/-- `immutalize` (src/ngram/indexer.rs:36-67); the sort is at line 51. -/
def immutalizeS (s : SortAlg) (o : HashOrd) (path : List G) (parentOcc : Nat) : MNode G → Except Panic (GramNode G)
  | .mk item occ items => do
    let children ← mapE (fun ⟨c, _⟩ => immutalizeS s o (path ++ [item]) occ c) items.attach
    let byOcc ← s.sort (fun a b => (GramNode.cmp a b).swap) (o.order (path ++ [item]) children)
    .ok (.mk item (occurancesToWeight parentOcc occ) byOcc)

/-- `GramIndex::index_from` (src/ngram/indexer.rs:71-164); the posting lists are sorted at lines 155-157, by
`Product::cmp` (src/data/product.rs:72-77). -/
def indexFromS (s : SortAlg) (t : Target) (o : HashOrd) (n : Nat) (feeds : List (List G × Product)) (c : Container) :
    Except Panic (GramIndex G) := do
  let (root, data) := feeds.foldl (buildFeed n) ([], [])
  let total := (root.map (·.occ)).sum
  let roots ← mapE (fun m => do
    let node ← immutalizeS s o [] total m
    .ok (m.item, node)) root
  let limit := maximumProductAmount t c.products.length
  let data ← mapE (fun e => do
    let l ← s.sort (fun a b : Product => compare a.sid b.sid) e.2
    .ok (e.1, l)) (data.filter fun e => decide (e.2.length < limit))
  .ok { roots := o.order "roots" roots, data, container := c }

end Build

/-- `OrderIndex::add_custom_cmp` (src/classic_indexes/order.rs:28-56); the sort is at line 45. -/
def OrderIndex.addCustomCmpS (s : SortAlg) (ix : OrderIndex) (c : Container)
    (maker : Product → Res T) (cmp : T → T → Ordering) (key : Str) : Res OrderIndex := do
  let data ← makeAll maker c.products
  let sorted ← Res.ofExcept (s.sort (fun a b => cmp a.1 b.1) data)
  let order ← fillOrder (sorted.map (·.2)) 0 (List.replicate data.length 0)
  pure (AMap.insert ix key order)

/-- The three orders of `optimize` (src/data/raw_parser.rs:162-186). -/
def buildOrdersS (s : SortAlg) (c : Container) : Res OrderIndex := do
  let order : OrderIndex := []
  let order ← order.addCustomCmpS s c (fun p => .ok p.title) strCmp alphabeticalKey
  let order ← order.addCustomCmpS s c (priceMaker c.extra) F32.cmpOrEq priceLowKey
  order.addCustomCmpS s c (priceMaker c.extra) (fun a b => (F32.cmpOrEq a b).swap) priceHighKey

/-- `optimize` (src/data/raw_parser.rs:97-191). -/
def optimizeS (s : SortAlg) (o : HashOrd) (parse : Str → Option F32) (input : List RawProduct) :
    Res (Container × Classic) := do
  let vendors := input.foldl (fun m raw => m.insert raw.vendor) VendorManager.new
  let (products, extra) ← productsLoop parse vendors 0 input ([], [])
  let c : Container := { products, vendors, extra }
  let tags ← tagIndex o (input.map (·.tags)) c
  let order ← buildOrdersS s c
  let categories ← categoryIndex (input.map (·.options)) c
  pure (c, { categories, tags, order })

/-- The two indexes built by `index_and_serialize_with_n` (src/lib.rs:204-229). -/
def buildAllS (s : SortAlg) (t : Target) (o : HashOrd) (lower : Char → List Char) (parse : Str → Option F32) (n : Nat)
    (input : List RawProduct) : Res (GramIndex Char × Classic) := do
  let (c, classic) ← optimizeS s o parse input
  let ix ← Res.ofExcept (indexFromS s t o n (c.products.map (feedOf lower)) c)
  pure (ix, classic)

/-! ## Searching -/

/-- `ResultRanker::export_data_by_confidence` (src/ngram/result_ranker.rs:45-53). -/
def Ranker.exportS (s : SortAlg) (o : HashOrd) (r : Ranker) : Except Panic (List (Product × F32)) :=
  s.sort (fun a b => (F32.cmpOrEq a.2 b.2).swap) ((o.order "results" r).map (·.2))

/-- `search` (src/ngram/index.rs:82-103). -/
def GramIndex.searchS {G : Type} [DecidableEq G] [RDefault G] (s : SortAlg) (o : HashOrd) (ix : GramIndex G) (n : Nat)
    (input : List G) : Except Panic (List (Product × F32)) := do
  let st ← input.foldlM (ix.searchStep n) (([] : Ranker), List.replicate n dflt)
  st.1.exportS s o

/-- The ids found and filtered (src/lib.rs:76-90). -/
def searchIdsS (s : SortAlg) (o : HashOrd) (lower : Char → List Char) (index : GramIndex Char) (input : Str)
    (cats : CategoryHandler) (tags : TagHandler) (filters : List FeatureFilter) : Except Panic (List Nat) := do
  let results ← index.searchS s o ngramIndexSize (input.flatMap lower)
  let kept ← filterE (keepProduct o cats tags filters index.container.extra) (results.map (·.1))
  .ok (kept.map (·.sid))

/-- `results.sort_by_cached_key(|v| order[*v])` (src/lib.rs:96). -/
def sortByOrderS (s : SortAlg) (order : List Nat) (results : List Nat) : Except Panic (List Nat) :=
  if results.length < 2 then .ok results
  else do
    let keyed ← orderKeys order results
    let sorted ← s.sort (fun a b => compare a.1 b.1) keyed
    .ok (sorted.map (·.2))

/-- `search` (src/lib.rs:63-100). -/
def Engine.searchS (s : SortAlg) (mode : PanicMode) (o : HashOrd) (lower : Char → List Char) (e : Engine)
    (input : Str) (cats : CategoryHandler) (tags : TagHandler) (order : Option Str)
    (filter : List (Str × JsValue)) : Engine × Except Panic (Option ProductProducer) :=
  match parseFilters filter with
  | none => (e, .ok none)
  | some filters =>
    match e.index.lockOk with
    | .error w => (e, .error w)
    | .ok none => (e, .ok none)
    | .ok (some index) =>
      match searchIdsS s o lower index input cats tags filters with
      | .error w => ({ e with index := e.index.panicked mode }, .error w)
      | .ok ids =>
        match order with
        | none => (e, .ok (some (ProductProducer.new index.container ids)))
        | some name =>
          match e.classic.lockOk with
          | .error w => ({ e with index := e.index.panicked mode }, .error w)
          | .ok none => (e, .ok none)
          | .ok (some classic) =>
            match classic.order.getOrders name with
            | none => (e, .ok none)
            | some ranks =>
              match sortByOrderS s ranks ids with
              | .error w =>
                ({ index := e.index.panicked mode, classic := e.classic.panicked mode }, .error w)
              | .ok ids => (e, .ok (some (ProductProducer.new index.container ids)))

/-! ## Writing -/

/-- `sequential_array::serialize` (src/serialize/sequential_array.rs:3-23); the sort is at line 9. -/
def serSeqS (s : SortAlg) (input : List Nat) : Except Panic Bytes := do
  let content ← s.sort compare input
  .ok (serUsize content.length ++ serDeltas none content)

/-- `VendorManager::serialize` (src/data/vendor.rs:78-89); the sort is at line 82. -/
def serVendorsS (s : SortAlg) (o : HashOrd) (m : VendorManager) : Except Panic Bytes := do
  let all ← s.sort (fun a b : Vendor => compare a.id b.id) ((o.order "vendors" m.tags).map (·.2))
  .ok (serUsize all.length ++ all.flatMap serVendor)

/-- `ProductContainer::serialize` (src/data/container.rs:64-76). -/
def serContainerS (s : SortAlg) (o : HashOrd) (c : Container) : Except Panic Bytes := do
  let vendors ← serVendorsS s o c.vendors
  .ok (vendors ++ serVec serProduct c.products ++ serFeatureSet o c.extra)

/-- `Tag::serialize` (src/classic_indexes/tag.rs:19-26). -/
def serTagS (s : SortAlg) (t : Tag) : Except Panic Bytes := do
  let ids ← serSeqS s (t.products.map (·.sid))
  .ok (serStr t.name ++ ids)

/-- `TagIndex::serialize` (src/classic_indexes/tag.rs:49-54). -/
def serTagsS (s : SortAlg) (l : List Tag) : Except Panic Bytes := do
  let tags ← mapE (serTagS s) l
  .ok (serUsize l.length ++ tags.flatten)

/-- One option of `Category::serialize` (src/classic_indexes/categorical.rs:36-40). -/
def serCatOptionS (s : SortAlg) (c : CatOption) : Except Panic Bytes := do
  let ids ← serSeqS s (c.content.map (·.sid))
  .ok (serStr c.name ++ ids)

/-- `Category::serialize` (src/classic_indexes/categorical.rs:26-42). -/
def serCategoryS (s : SortAlg) (c : Category) : Except Panic Bytes := do
  let options ← mapE (serCatOptionS s) c.options
  .ok (serBool c.exclusive ++ serStr c.name ++ serUsize c.options.length ++ options.flatten)

/-- `CategoryIndex::serialize` (src/classic_indexes/categorical.rs:181-188). -/
def serCategoriesS (s : SortAlg) (l : List Category) : Except Panic Bytes := do
  let cats ← mapE (serCategoryS s) l
  .ok (serUsize l.length ++ cats.flatten)

/-- `ClassicIndexes::serialize` (src/classic_indexes/mod.rs:53-59). -/
def serClassicS (s : SortAlg) (o : HashOrd) (c : Classic) : Except Panic Bytes := do
  let categories ← serCategoriesS s c.categories
  let tags ← serTagsS s c.tags
  .ok (categories ++ tags ++ serOrders o c.order)

/-- One entry of the posting table (src/serialize/nodes.rs:63-66). -/
def serPostingS (s : SortAlg) (e : List Char × List Product) : Except Panic Bytes := do
  let ids ← serSeqS s (e.2.map (·.sid))
  .ok (serArray serChar e.1 ++ ids)

/-- `GramIndex::serialize` (src/serialize/nodes.rs:56-68). -/
def serGramIndexS (s : SortAlg) (o : HashOrd) (ix : GramIndex Char) : Except Panic Bytes := do
  let container ← serContainerS s o ix.container
  let postings ← mapE (serPostingS s) (o.order "data" ix.data)
  .ok (container ++ serMap o "roots" serChar serNode ix.roots ++ (serUsize ix.data.length ++ postings.flatten))

/-- `serialize_all` (src/serialize/all_indexes.rs:11-20). -/
def serializeAllS (s : SortAlg) (o : HashOrd) (ix : GramIndex Char) (c : Classic) : Except Panic Bytes := do
  let ngram ← serGramIndexS s o ix
  let classic ← serClassicS s o c
  .ok (ngram ++ classic)

/-- `index_and_serialize_with_n` (src/lib.rs:204-239). -/
def indexAndSerializeS (s : SortAlg) (t : Target) (o : HashOrd) (lower : Char → List Char)
    (parse : Str → Option F32) (n : Nat) (input : List RawProduct) : Res Bytes := do
  let (ix, classic) ← buildAllS s t o lower parse n input
  let _results ← Res.ofExcept (ix.searchS s o n (trialQuery.flatMap lower))
  Res.ofExcept (serializeAllS s o ix classic)

end Idx
