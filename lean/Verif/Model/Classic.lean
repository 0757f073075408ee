import Verif.Model.Data
/-
Model of src/classic_indexes/*.rs: tags, categories, orders.
-/
namespace Idx

/-! ## Tags (src/classic_indexes/tag.rs) -/

/-- `Tag` (src/classic_indexes/tag.rs:8-14). `ids` is `products_by_serialization_id`. -/
structure Tag where
  name : Str
  products : List Product
  ids : List Nat
  id : Nat
  deriving DecidableEq, Repr

/-- `Tag::new` (src/classic_indexes/tag.rs:29-37). -/
def Tag.new (name : Str) (products : List Product) (id : Nat) : Tag :=
  { name, products, ids := setCollect (products.map (·.sid)), id }

/-- `Tag::contains` (src/classic_indexes/tag.rs:43-46). -/
def Tag.contains (t : Tag) (p : Product) : Bool := decide (p.sid ∈ t.ids)

/-- `Tag::serialize` (src/classic_indexes/tag.rs:19-26). -/
def serTag (t : Tag) : Bytes := serStr t.name ++ serProductSeq t.products

/-- `TagIndex::serialize` (src/classic_indexes/tag.rs:49-54). -/
def serTags (l : List Tag) : Bytes := serVec serTag l

/-- `TagIndex::deserialize` (src/classic_indexes/tag.rs:57-81). -/
def deTags (t : Target) (existing : List Product) : De (List Tag) := do
  let len ← deLen t "tags"
  De.timesFrom len 0 (fun id => do
    let name ← deStr t
    let r ← deProductSeq t existing
    pure { name, products := r.1, ids := setCollect r.2, id })

/-- Inner loop of `TagIndex::index` (src/classic_indexes/tag.rs:95-100). -/
def tagsOfProduct (m : AMap Str (List Product)) (p : Product) (tags : List Str) :
    AMap Str (List Product) :=
  tags.foldl (fun m tag => AMap.upsert m tag (· ++ [p]) [p]) m

/-- Outer loop of `TagIndex::index` (src/classic_indexes/tag.rs:92-101); `container.products[id]`. -/
def tagsLoop (c : Container) : Nat → List (List Str) → AMap Str (List Product) →
    Res (AMap Str (List Product))
  | _, [], m => .ok m
  | id, tags :: rest, m => do
    let p ← Res.index c.products id
    tagsLoop c (id + 1) rest (tagsOfProduct m p tags)

/-- `TagIndex::index` (src/classic_indexes/tag.rs:88-110): one tag per map entry, numbered in hash
order. -/
def tagIndex (o : HashOrd) (tagsForProduct : List (List Str)) (c : Container) : Res (List Tag) := do
  let m ← tagsLoop c 0 tagsForProduct []
  pure ((o.order "tags" m).mapIdx fun id e => Tag.new e.1 e.2 id)

/-! ## Categories (src/classic_indexes/categorical.rs) -/

/-- `CategoryOption` (src/classic_indexes/categorical.rs:18-24). -/
structure CatOption where
  name : Str
  sid : Nat
  content : List Product
  ids : List Nat
  deriving DecidableEq, Repr

/-- `Category` (src/classic_indexes/categorical.rs:11-16). -/
structure Category where
  name : Str
  options : List CatOption
  exclusive : Bool
  deriving DecidableEq, Repr

/-- `Category::new` (src/classic_indexes/categorical.rs:84-90). -/
def Category.new (name : Str) : Category := { name, options := [], exclusive := false }

/-- `CategoryOption::new` (src/classic_indexes/categorical.rs:94-101). -/
def CatOption.new (name : Str) (sid : Nat) : CatOption := { name, sid, content := [], ids := [] }

/-- `CategoryOption::add` (src/classic_indexes/categorical.rs:103-111). -/
def CatOption.add (c : CatOption) (p : Product) : CatOption :=
  if p.sid ∈ c.ids then c else { c with ids := c.ids ++ [p.sid], content := c.content ++ [p] }

/-- `CategoryOption::contains` (src/classic_indexes/categorical.rs:113-116). -/
def CatOption.contains (c : CatOption) (p : Product) : Bool := decide (p.sid ∈ c.ids)

/-- One option of `Category::serialize` (src/classic_indexes/categorical.rs:36-40). -/
def serCatOption (c : CatOption) : Bytes := serStr c.name ++ serProductSeq c.content

/-- `Category::serialize` (src/classic_indexes/categorical.rs:26-42). -/
def serCategory (c : Category) : Bytes :=
  serBool c.exclusive ++ serStr c.name ++ serUsize c.options.length ++ c.options.flatMap serCatOption

/-- One option of `Category::deserialize` (src/classic_indexes/categorical.rs:55-72). -/
def deCatOption (t : Target) (existing : List Product) (sid : Nat) : De CatOption := do
  let name ← deStr t
  let r ← deProductSeq t existing
  pure { name, content := r.1, sid, ids := setCollect r.2 }

/-- `Category::deserialize` (src/classic_indexes/categorical.rs:45-82); `next` is
`*next_serialization_id` on entry, on exit it is `next` plus the number of options. -/
def deCategory (t : Target) (existing : List Product) (next : Nat) : De Category := do
  let exclusive ← deBool
  let name ← deStr t
  let len ← deLen t "options"
  let options ← De.timesFrom len next (deCatOption t existing)
  pure { name, options, exclusive }

/-- Loop of `CategoryIndex::deserialize_many` (src/classic_indexes/categorical.rs:165-172). -/
def deCategoriesLoop (t : Target) (existing : List Product) : Nat → Nat → De (List Category)
  | 0, _ => pure []
  | n + 1, next => do
    let cat ← deCategory t existing next
    let cats ← deCategoriesLoop t existing n (next + cat.options.length)
    pure (cat :: cats)

/-- `CategoryIndex::deserialize_many` (src/classic_indexes/categorical.rs:160-174). -/
def deCategories (t : Target) (existing : List Product) : De (List Category) := do
  let len ← deLen t "categories"
  deCategoriesLoop t existing len 0

/-- `CategoryIndex::serialize` (src/classic_indexes/categorical.rs:181-188). -/
def serCategories (l : List Category) : Bytes := serUsize l.length ++ l.flatMap serCategory

/-- `RawProductOption` (src/data/raw_parser.rs:44-48). -/
structure RawOption where
  name : Str
  values : List Str
  deriving DecidableEq, Repr

/-- `iter_mut().find(..)` or push a new element, then update it: the pattern of
src/classic_indexes/categorical.rs:129-137 and 140-150. -/
def findOrPush (l : List α) (p : α → Bool) (new : α) (f : α → α) : List α :=
  match l with
  | [] => [f new]
  | a :: as => if p a then f a :: as else a :: findOrPush as p new f

/-- Loop over `raw_option.values` (src/classic_indexes/categorical.rs:139-153) on one category's
options; state: the options and `next_serialization_id`. -/
def addValues (p : Product) (values : List Str) (st : List CatOption × Nat) : List CatOption × Nat :=
  values.foldl (fun st v =>
    let isNew := !st.1.any (fun o => o.name == v)
    (findOrPush st.1 (fun o => o.name == v) (CatOption.new v st.2) (fun o => o.add p),
     if isNew then st.2 + 1 else st.2)) st

/-- The options of the category with that name, none if it is new
(src/classic_indexes/categorical.rs:129-137). -/
def currentOptions (cats : List Category) (name : Str) : List CatOption :=
  match cats.find? (fun c => c.name == name) with
  | some c => c.options
  | none => []

/-- One raw option of one product (src/classic_indexes/categorical.rs:128-154); state: categories
and `next_serialization_id`. -/
def addOption (p : Product) (st : List Category × Nat) (raw : RawOption) : List Category × Nat :=
  let r := addValues p raw.values (currentOptions st.1 raw.name, st.2)
  (findOrPush st.1 (fun c => c.name == raw.name) (Category.new raw.name)
    (fun c => { c with options := r.1 }), r.2)

/-- Loop over products of `CategoryIndex::index` (src/classic_indexes/categorical.rs:127-155).
Simplification: `container.products[i]` is evaluated once per product instead of once per value,
so the (impossible, see `C24`) index panic would also happen for a product without values. -/
def categoriesLoop (c : Container) : Nat → List (List RawOption) → List Category × Nat →
    Res (List Category)
  | _, [], st => .ok st.1
  | i, options :: rest, st => do
    let p ← Res.index c.products i
    categoriesLoop c (i + 1) rest (options.foldl (addOption p) st)

/-- `CategoryIndex::index` (src/classic_indexes/categorical.rs:120-158). -/
def categoryIndex (optionsList : List (List RawOption)) (c : Container) : Res (List Category) :=
  categoriesLoop c 0 optionsList ([], 0)

/-! ## Orders (src/classic_indexes/order.rs) -/

/-- `OrderIndex` (src/classic_indexes/order.rs:8-11). -/
abbrev OrderIndex := AMap Str (List Nat)

/-- `order[serialization_id] = order_position` for all sorted items
(src/classic_indexes/order.rs:51-53). -/
def fillOrder : List Nat → Nat → List Nat → Res (List Nat)
  | [], _, order => .ok order
  | sid :: rest, pos, order =>
    if sid < order.length then fillOrder rest (pos + 1) (order.set sid pos)
    else .panic .indexOutOfBounds

/-- `maker(prod, features)` for every product, paired with its id
(src/classic_indexes/order.rs:36-44). -/
def makeAll (maker : Product → Res T) : List Product → Res (List (T × Nat))
  | [] => .ok []
  | p :: ps => do
    let v ← maker p
    let rest ← makeAll maker ps
    pure ((v, p.sid) :: rest)

/-- `OrderIndex::add_custom_cmp` (src/classic_indexes/order.rs:28-56). -/
def OrderIndex.addCustomCmp (ix : OrderIndex) (c : Container)
    (maker : Product → Res T) (cmp : T → T → Ordering) (key : Str) : Res OrderIndex := do
  let data ← makeAll maker c.products
  let sorted := stableSort (fun a b => cmp a.1 b.1 != .gt) data
  let order ← fillOrder (sorted.map (·.2)) 0 (List.replicate data.length 0)
  pure (AMap.insert ix key order)

/-- `<[u8]>::cmp`, hence `String::partial_cmp`: lexicographic on bytes (std). -/
def bytesCmp : Bytes → Bytes → Ordering
  | [], [] => .eq
  | [], _ :: _ => .lt
  | _ :: _, [] => .gt
  | a :: as, b :: bs => if a < b then .lt else if b < a then .gt else bytesCmp as bs

/-- `str::cmp` (std): by bytes. -/
def strCmp (a b : Str) : Ordering := bytesCmp (utf8 a) (utf8 b)

/-- `OrderIndex::get_orders` (src/classic_indexes/order.rs:64-66). -/
def OrderIndex.getOrders (ix : OrderIndex) (feature : Str) : Option (List Nat) := AMap.get ix feature

/-- `OrderIndex::options` (src/classic_indexes/order.rs:68-70): keys in hash order. -/
def OrderIndex.options (o : HashOrd) (ix : OrderIndex) : List Str := (o.order "order keys" ix).map (·.1)

/-- `OrderIndex::serialize` (src/classic_indexes/order.rs:86-90). -/
def serOrders (o : HashOrd) (ix : OrderIndex) : Bytes := serMap o "orders" serStr (serVec serUsize) ix

/-- `OrderIndex::deserialize` (src/classic_indexes/order.rs:79-84). -/
def deOrders (t : Target) : De OrderIndex := deMap t (deStr t) (deVec t (deUsize t))

/-! ## All of them (src/classic_indexes/mod.rs) -/

/-- `ClassicIndexes` (src/classic_indexes/mod.rs:15-20). -/
structure Classic where
  categories : List Category
  tags : List Tag
  order : OrderIndex
  deriving DecidableEq, Repr

/-- `ClassicIndexes::serialize` (src/classic_indexes/mod.rs:53-59). -/
def serClassic (o : HashOrd) (c : Classic) : Bytes :=
  serCategories c.categories ++ serTags c.tags ++ serOrders o c.order

/-- `ClassicIndexes::deserialize` (src/classic_indexes/mod.rs:23-38). -/
def deClassic (t : Target) (c : Container) : De Classic := do
  let categories ← deCategories t c.products
  let tags ← deTags t c.products
  let order ← deOrders t
  pure { categories, tags, order }

/-- `#[derive(PartialEq)] Tag` (src/classic_indexes/tag.rs:8-14). -/
def Tag.eqv (a b : Tag) : Bool :=
  a.name == b.name && listEqv Product.eqv a.products b.products && setEqv a.ids b.ids && a.id == b.id

/-- `#[derive(PartialEq)] CategoryOption` (src/classic_indexes/categorical.rs:18-24). -/
def CatOption.eqv (a b : CatOption) : Bool :=
  a.name == b.name && a.sid == b.sid && listEqv Product.eqv a.content b.content && setEqv a.ids b.ids

/-- `#[derive(PartialEq)] Category` (src/classic_indexes/categorical.rs:11-16). -/
def Category.eqv (a b : Category) : Bool :=
  a.name == b.name && listEqv CatOption.eqv a.options b.options && a.exclusive == b.exclusive

/-- `#[derive(PartialEq)] ClassicIndexes` (src/classic_indexes/mod.rs:15-20). -/
def Classic.eqv (a b : Classic) : Bool :=
  listEqv Category.eqv a.categories b.categories && listEqv Tag.eqv a.tags b.tags
    && mapEqv (· == ·) a.order b.order

end Idx
