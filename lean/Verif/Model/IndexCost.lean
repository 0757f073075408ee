import Verif.Model.Nodes

/-! Building the indexes again, counting steps. `Props/IndexCost.lean` shows that without the count this is `buildAll`.

One step is: one operation on a hash table or set; comparing one name with another while looking for a category or option;
appending one element to a vector or queue; moving one cell of the last `N` characters; putting one node into an arena; making or
storing one entry of an order; one comparison while sorting. How many comparisons sorting `k` elements takes is a parameter `cmps`.
The steps of an operation that is not needed every time are counted every time: pushing a new category or option, adding a product
to an option that has it, or a vendor that is known. Not counted: copying strings, the time of the allocator and the re-hashing of
tables that grow. -/

namespace Idx
variable {G : Type} [DecidableEq G] [RDefault G]

/-! ## Categories -/

/-- `iter_mut().find(..)` (src/classic_indexes/categorical.rs:129, 140): how many elements are looked at. -/
def findSteps (p : α → Bool) : List α → Nat
  | [] => 0
  | a :: as => if p a then 1 else 1 + findSteps p as

/-- `addValues` (src/classic_indexes/categorical.rs:139-153) with the number of steps: for each value the search for its option,
pushing the option, inserting the id and pushing the product. -/
def addValuesN (p : Product) (values : List Str) (st : (List CatOption × Nat) × Nat) : (List CatOption × Nat) × Nat :=
  values.foldl (fun st v =>
    let isNew := !st.1.1.any (fun o => o.name == v)
    ((findOrPush st.1.1 (fun o => o.name == v) (CatOption.new v st.1.2) (fun o => o.add p),
      if isNew then st.1.2 + 1 else st.1.2), st.2 + (findSteps (fun o => o.name == v) st.1.1 + 3))) st

/-- `addOption` (src/classic_indexes/categorical.rs:128-154) with the number of steps: the search for the category, pushing it, and
its values. -/
def addOptionN (p : Product) (st : (List Category × Nat) × Nat) (raw : RawOption) : (List Category × Nat) × Nat :=
  let r := addValuesN p raw.values ((currentOptions st.1.1 raw.name, st.1.2), 0)
  ((findOrPush st.1.1 (fun c => c.name == raw.name) (Category.new raw.name) (fun c => { c with options := r.1.1 }), r.1.2),
    st.2 + (findSteps (fun c => c.name == raw.name) st.1.1 + 1 + r.2))

/-- `categoriesLoop` (src/classic_indexes/categorical.rs:127-155) with the number of steps. -/
def categoriesLoopN (c : Container) : Nat → List (List RawOption) → (List Category × Nat) × Nat → Res (List Category × Nat)
  | _, [], st => .ok (st.1.1, st.2)
  | i, options :: rest, st => do
    let p ← Res.index c.products i
    categoriesLoopN c (i + 1) rest (options.foldl (addOptionN p) st)

/-- `CategoryIndex::index` (src/classic_indexes/categorical.rs:120-158) with the number of steps. -/
def categoryIndexN (optionsList : List (List RawOption)) (c : Container) : Res (List Category × Nat) :=
  categoriesLoopN c 0 optionsList (([], 0), 0)

/-! ## Tags and orders -/

/-- `tagsLoop` (src/classic_indexes/tag.rs:92-101) with the number of steps: one operation and one push for each tag. -/
def tagsLoopN (c : Container) : Nat → List (List Str) → AMap Str (List Product) × Nat → Res (AMap Str (List Product) × Nat)
  | _, [], st => .ok st
  | id, tags :: rest, st => do
    let p ← Res.index c.products id
    tagsLoopN c (id + 1) rest (tagsOfProduct st.1 p tags, st.2 + 2 * tags.length)

/-- `TagIndex::index` (src/classic_indexes/tag.rs:88-110) with the number of steps: besides those of the loop one for each tag and
one for each id inserted. -/
def tagIndexN (o : HashOrd) (tagsForProduct : List (List Str)) (c : Container) : Res (List Tag × Nat) := do
  let (m, k) ← tagsLoopN c 0 tagsForProduct ([], 0)
  pure ((o.order "tags" m).mapIdx fun id e => Tag.new e.1 e.2 id, k + (m.map fun e => 1 + e.2.length).sum)

/-- `OrderIndex::add_custom_cmp` (src/classic_indexes/order.rs:28-56) with the number of steps: making one entry for each product,
sorting, storing one position for each product, and the insertion. -/
def OrderIndex.addCustomCmpN (cmps : Nat → Nat) (ix : OrderIndex) (c : Container) (maker : Product → Res T)
    (cmp : T → T → Ordering) (key : Str) : Res (OrderIndex × Nat) := do
  let ix ← ix.addCustomCmp c maker cmp key
  pure (ix, c.products.length + cmps c.products.length + c.products.length + 1)

/-- `buildOrders` (src/data/raw_parser.rs:162-186) with the number of steps. -/
def buildOrdersN (cmps : Nat → Nat) (c : Container) : Res (OrderIndex × Nat) := do
  let order : OrderIndex := []
  let (order, k₁) ← order.addCustomCmpN cmps c (fun p => .ok p.title) strCmp alphabeticalKey
  let (order, k₂) ← order.addCustomCmpN cmps c (priceMaker c.extra) F32.cmpOrEq priceLowKey
  let (order, k₃) ← order.addCustomCmpN cmps c (priceMaker c.extra) (fun a b => (F32.cmpOrEq a b).swap) priceHighKey
  pure (order, k₁ + k₂ + k₃)

/-! ## Products -/

/-- `productsLoop` (src/data/raw_parser.rs:115-154) with the number of steps: the vendor, the pushes of tags, options and product,
and for each feature one operation and one push. -/
def productsLoopN (parse : Str → Option F32) (vendors : VendorManager) :
    Nat → List RawProduct → (List Product × FeatureSet) × Nat → Res ((List Product × FeatureSet) × Nat)
  | _, [], st => .ok st
  | i, raw :: rest, ((products, extra), k) => do
    let others ← toIntermediate parse raw
    let vendor ← Res.unwrapOption (vendors.get raw.vendor)
    let p : Product :=
      { description := raw.description, title := raw.title, vendor, id := raw.id, sid := i }
    let extra ← addStrings extra others.strings
    let extra ← addFloats extra others.numerics
    productsLoopN parse vendors (i + 1) rest
      ((products ++ [p], extra), k + (4 + 2 * others.strings.length + 2 * others.numerics.length))

/-- `optimize` (src/data/raw_parser.rs:97-191) with the number of steps; three for each call of `VendorManager::insert`
(src/data/vendor.rs:47-58). -/
def optimizeN (cmps : Nat → Nat) (o : HashOrd) (parse : Str → Option F32) (input : List RawProduct) :
    Res ((Container × Classic) × Nat) := do
  let vendors := input.foldl (fun m raw => m.insert raw.vendor) VendorManager.new
  let ((products, extra), k₁) ← productsLoopN parse vendors 0 input (([], []), 3 * input.length)
  let c : Container := { products, vendors, extra }
  let (tags, k₂) ← tagIndexN o (input.map (·.tags)) c
  let (order, k₃) ← buildOrdersN cmps c
  let (categories, k₄) ← categoryIndexN (input.map (·.options)) c
  pure ((c, { categories, tags, order }), k₁ + k₂ + k₃ + k₄)

/-! ## The n-gram index -/

/-- `buildGram` (src/ngram/indexer.rs:87-131) with the number of steps: one operation on the roots, one on the children of every
queued node, the queue, `N` cells and one operation and one push for the posting list. -/
def buildGramN (n : Nat) (p : Product) (st : BuildState G × Nat) (gram : G) : BuildState G × Nat :=
  (buildGram n p st.1 gram, st.2 + (1 + st.1.queue.length + 1 + n + 2))

/-- `buildFeed` (src/ngram/indexer.rs:82-132) with the number of steps. -/
def buildFeedN (n : Nat) (acc : (List (MNode G) × AMap (List G) (List Product)) × Nat) (feed : List G × Product) :
    (List (MNode G) × AMap (List G) (List Product)) × Nat :=
  let st := feed.1.foldl (buildGramN n feed.2)
    ({ root := acc.1.1, data := acc.1.2, queue := [], lookback := List.replicate n dflt }, acc.2)
  ((st.1.root, st.1.data), st.2)

/-- The steps of `immutalize` (src/ngram/indexer.rs:36-67): the node itself, pushing and inserting each child, sorting them, and the
steps of the children. -/
def immutalizeSteps (cmps : Nat → Nat) : MNode G → Nat
  | .mk _ _ items => 1 + 2 * items.length + cmps items.length + (items.attach.map fun ⟨c, _⟩ => immutalizeSteps cmps c).sum

/-- `index_from` (src/ngram/indexer.rs:71-164) with the number of steps: besides the loops, adding up and inserting every root, its
`immutalize`, looking at every posting list, and sorting those that are kept. -/
def indexFromN (cmps : Nat → Nat) (t : Target) (o : HashOrd) (n : Nat) (feeds : List (List G × Product)) (c : Container) :
    GramIndex G × Nat :=
  let ((root, data), k) := feeds.foldl (buildFeedN n) (([], []), 0)
  let total := (root.map (·.occ)).sum
  let roots := o.order "roots" (root.map fun m => (m.item, immutalize o [] total m))
  let limit := maximumProductAmount t c.products.length
  let kept := data.filter fun e => decide (e.2.length < limit)
  let sorted := kept.map fun e => (e.1, stableSort (fun a b : Product => decide (a.sid ≤ b.sid)) e.2)
  ({ roots, data := sorted, container := c },
    k + 2 * root.length + (root.map (immutalizeSteps cmps)).sum + data.length + (kept.map fun e => cmps e.2.length).sum)

/-- `buildAll` (src/lib.rs:204-229) with the number of steps. -/
def buildAllN (cmps : Nat → Nat) (t : Target) (o : HashOrd) (lower : Char → List Char) (parse : Str → Option F32) (n : Nat)
    (input : List RawProduct) : Res ((GramIndex Char × Classic) × Nat) := do
  let ((c, classic), k) ← optimizeN cmps o parse input
  let r := indexFromN cmps t o n (c.products.map (feedOf lower)) c
  pure ((r.1, classic), k + r.2)

end Idx
