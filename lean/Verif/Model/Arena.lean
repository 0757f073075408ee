import Verif.Model.Engine
/-
Loading and searching with the references the crate uses: nodes live in `NODE_ARENA` (src/lib.rs:32), vendors and
containers in `SUPER_ARENA` (src/lib.rs:33), and what is loaded refers to them. The arenas only ever grow. The rest of the
model has values in place of references; C88 says that this is the same, and what stays in memory.
Simplifications: two threads that load at the same time mix their cells, here loads come one after the other; tables keyed
by borrowed texts have the texts as keys.
-/
namespace Idx

/-- `&'a Vendor`: the vendor arena (position in `Memory.boxes`) and the position in it. -/
structure VendorRef where
  box : Nat
  pos : Nat
  deriving DecidableEq, Repr

/-- `&'a Product`: the container (position in `Memory.boxes`) and the position in its `products`. -/
structure ProductRef where
  box : Nat
  pos : Nat
  deriving DecidableEq, Repr

/-- `GramNode` (src/ngram/index.rs:37-43) with its references as positions in the node arena. -/
structure NodeCell where
  item : Char
  weight : F32
  byOcc : List Nat
  items : AMap Char Nat

/-- `Product` (src/data/product.rs:10-17). -/
structure ProductCell where
  description : Str
  title : Str
  vendor : VendorRef
  id : Str
  sid : Nat

/-- `ProductContainer` (src/data/container.rs:8-13) with its `VendorManager` (src/data/vendor.rs:14-18). -/
structure ContainerCell where
  products : List ProductCell
  tags : AMap Str VendorRef
  byId : List VendorRef
  extra : FeatureSet

/-- `Box<dyn Any + Send>` (src/data/container.rs:81): an `Arena<Vendor>` or a `ProductContainer`. -/
inductive Boxed where
  | vendors (l : List Vendor)
  | container (c : ContainerCell)

/-- What `TypeId` tells apart. -/
def Boxed.isContainer : Boxed → Bool
  | .vendors _ => false
  | .container _ => true

/-- `NODE_ARENA` and `SUPER_ARENA` (src/lib.rs:32-33). -/
structure Memory where
  nodes : List NodeCell
  boxes : List Boxed

/-- Both arenas at start-up. -/
def Memory.empty : Memory := ⟨[], []⟩

/-- A deserialiser that allocates: what it allocated stays when it fails or panics. -/
def Ld (α : Type) := Memory → Bytes → Memory × Res (Bytes × α)

namespace Ld

/-- `let (input, x) = x::deserialize_arena(input, arena)?; ...` -/
def bind (l : Ld α) (f : α → Ld β) : Ld β := fun m input =>
  match l m input with
  | (m, .ok (rest, a)) => f a m rest
  | (m, .none) => (m, .none)
  | (m, .panic w) => (m, .panic w)

instance : Monad Ld where
  pure a := fun m input => (m, .ok (input, a))
  bind := Ld.bind

/-- A deserialiser that does not allocate. -/
def of (d : De α) : Ld α := fun m input => (m, d input)

/-- `for _ in 0..n { item = l()?; out.push(item) }` -/
def times : Nat → Ld α → Ld (List α)
  | 0, _ => pure []
  | n + 1, l => do
    let a ← l
    let as ← times n l
    pure (a :: as)

end Ld

/-- `arena.alloc(node)` (src/serialize/nodes.rs:46-51). -/
def allocNode (c : NodeCell) : Ld Nat := fun m input =>
  ({ m with nodes := m.nodes ++ [c] }, .ok (input, m.nodes.length))

/-- Following a `&GramNode`; a reference to nothing would be a panic here. -/
def cellOf (a : Nat) : Ld NodeCell := fun m input =>
  match m.nodes[a]? with
  | some c => (m, .ok (input, c))
  | none => (m, .panic .explicit)

/-- `SuperAlloc::alloc` (src/data/container.rs:84-90): `downcast_ref().unwrap()` on the box just stored. -/
def superAlloc (b : Boxed) : Ld Nat := fun m input =>
  let boxes := m.boxes ++ [b]
  let m' := { m with boxes }
  match boxes[m.boxes.length]? with
  | some b' => if b'.isContainer = b.isContainer then (m', .ok (input, m.boxes.length)) else (m', .panic .unwrapNone)
  | none => (m', .panic .unwrapNone)

/-- `arena.alloc(Vendor { .. })` (src/data/vendor.rs:106) on the vendor arena in a box. -/
def vendorAlloc (box : Nat) (v : Vendor) : Ld VendorRef := fun m input =>
  match m.boxes[box]? with
  | some (.vendors l) => ({ m with boxes := m.boxes.set box (.vendors (l ++ [v])) }, .ok (input, ⟨box, l.length⟩))
  | _ => (m, .panic .explicit)

/-- Following a `&ProductContainer`. -/
def containerOf (box : Nat) : Ld ContainerCell := fun m input =>
  match m.boxes[box]? with
  | some (.container c) => (m, .ok (input, c))
  | _ => (m, .panic .explicit)

/-! ## Nodes (src/serialize/nodes.rs) -/

/-- The fold that fills `items` (src/serialize/nodes.rs:41-44); `item.item` follows the reference. -/
def itemsFrom : AMap Char Nat → List Nat → Ld (AMap Char Nat)
  | items, [] => pure items
  | items, a :: rest => do
    let c ← cellOf a
    itemsFrom (AMap.insert items c.item a) rest

/-- `GramNode::deserialize_arena` (src/serialize/nodes.rs:30-54) and `Vec::deserialize_arena`
(src/serialize/collections.rs:51-70). -/
def ldNode (t : Target) : Nat → Ld Nat
  | 0 => Ld.of De.fail
  | fuel + 1 => do
    let item ← Ld.of deChar
    let weight ← Ld.of deF32
    let len ← Ld.of (deLen t "vec")
    let byOcc ← Ld.times len (ldNode t fuel)
    let items ← itemsFrom [] byOcc
    allocNode { item, weight, byOcc, items }

/-- `GramNode::deserialize_arena` with enough fuel. -/
def ldNodeTop (t : Target) : Ld Nat := fun m input => ldNode t (input.length + 1) m input

/-- `AHashMap::deserialize_arena` (src/serialize/collections.rs:140-163): the entries in the order of the file. -/
def ldRoots (t : Target) : Ld (List (Char × Nat)) := do
  let len ← Ld.of (deLen t "map")
  Ld.times len (do
    let k ← Ld.of deChar
    let a ← ldNodeTop t
    pure (k, a))

/-! ## Containers (src/data/{vendor,product,container}.rs) -/

/-- Loop of `VendorManager::deserialize_arena` (src/data/vendor.rs:103-109). -/
def ldVendorsLoop (t : Target) (box : Nat) :
    Nat → Nat → AMap Str VendorRef → List VendorRef → Ld (AMap Str VendorRef × List VendorRef)
  | 0, _, tags, byId => pure (tags, byId)
  | len + 1, id, tags, byId => do
    let name ← Ld.of (deStr t)
    let tag ← vendorAlloc box { name, id }
    ldVendorsLoop t box len (id + 1) (AMap.insert tags name tag) (byId ++ [tag])

/-- `VendorManager::deserialize_arena` (src/data/vendor.rs:91-119) on a new arena (src/data/container.rs:36-37). -/
def ldVendors (t : Target) : Ld (AMap Str VendorRef × List VendorRef) := do
  let box ← superAlloc (.vendors [])
  let len ← Ld.of (deLen t "vendors")
  ldVendorsLoop t box len 0 [] []

/-- `Product::deserialize` (src/data/product.rs:107-130). -/
def deProductCell (t : Target) (sid : Nat) (byId : List VendorRef) : De ProductCell := do
  let description ← deStr t
  let title ← deStr t
  let id ← deStr t
  let vendorId ← deUsize t
  let vendor ← De.lift (Res.ofOption (byId[vendorId]?))
  pure { description, title, vendor, id, sid }

/-- `ProductContainer::deserialize` (src/data/container.rs:28-61). -/
def ldContainer (t : Target) : Ld ContainerCell := do
  let (tags, byId) ← ldVendors t
  let count ← Ld.of (deUsize t)
  let products ← Ld.of (De.timesFrom count 0 (fun id => deProductCell t id byId))
  let extra ← Ld.of (deFeatureSet t)
  pure { products, tags, byId, extra }

/-! ## Indexes -/

/-- `existing_products.get(*id)?` for every id (src/data/product.rs:142-146), `count` products at `box`. -/
def lookupRefs (box count : Nat) : List Nat → Option (List ProductRef)
  | [] => some []
  | id :: ids => if id < count then (lookupRefs box count ids).map (⟨box, id⟩ :: ·) else none

/-- `Product::deserialize_from_sequential_ids` (src/data/product.rs:136-149). -/
def deRefSeq (t : Target) (box count : Nat) : De (List ProductRef × List Nat) := do
  let ids ← deSeq t
  let products ← De.lift (Res.ofOption (lookupRefs box count ids))
  pure (products, ids)

/-- `GramIndex` (src/ngram/index.rs:61-67). -/
structure IndexRef where
  roots : AMap Char Nat
  data : AMap (List Char) (List ProductRef)
  container : Nat

/-- One entry of the posting table (src/serialize/nodes.rs:87-91). -/
def deRefPosting (t : Target) (n box count : Nat) : De (List Char × List ProductRef) := do
  let gram ← deArray t n deChar
  let r ← deRefSeq t box count
  pure (gram, r.1)

/-- `GramIndex::deserialize` (src/serialize/nodes.rs:70-103). -/
def ldGramIndex (t : Target) (n : Nat) : Ld IndexRef := do
  let container ← ldContainer t
  let box ← superAlloc (.container container)
  let roots ← ldRoots t
  let len ← Ld.of (deLen t "data")
  let c ← containerOf box
  let entries ← Ld.of (De.times len (deRefPosting t n box c.products.length))
  pure { container := box, roots := AMap.collect roots, data := AMap.collect entries }

/-- `Tag` (src/classic_indexes/tag.rs:8-14). -/
structure TagRef where
  name : Str
  products : List ProductRef
  ids : List Nat
  id : Nat

/-- `CategoryOption` (src/classic_indexes/categorical.rs:18-24). -/
structure OptionRef where
  name : Str
  sid : Nat
  content : List ProductRef
  ids : List Nat

/-- `Category` (src/classic_indexes/categorical.rs:11-16). -/
structure CategoryRef where
  name : Str
  options : List OptionRef
  exclusive : Bool

/-- `ClassicIndexes` (src/classic_indexes/mod.rs:15-20). -/
structure ClassicRef where
  categories : List CategoryRef
  tags : List TagRef
  order : OrderIndex

/-- One option of `Category::deserialize` (src/classic_indexes/categorical.rs:55-72). -/
def deOptionRef (t : Target) (box count sid : Nat) : De OptionRef := do
  let name ← deStr t
  let r ← deRefSeq t box count
  pure { name, content := r.1, sid, ids := setCollect r.2 }

/-- `Category::deserialize` (src/classic_indexes/categorical.rs:45-82). -/
def deCategoryRef (t : Target) (box count next : Nat) : De CategoryRef := do
  let exclusive ← deBool
  let name ← deStr t
  let len ← deLen t "options"
  let options ← De.timesFrom len next (deOptionRef t box count)
  pure { name, options, exclusive }

/-- Loop of `CategoryIndex::deserialize_many` (src/classic_indexes/categorical.rs:165-172). -/
def deCategoryRefs (t : Target) (box count : Nat) : Nat → Nat → De (List CategoryRef)
  | 0, _ => pure []
  | n + 1, next => do
    let cat ← deCategoryRef t box count next
    let cats ← deCategoryRefs t box count n (next + cat.options.length)
    pure (cat :: cats)

/-- `TagIndex::deserialize` (src/classic_indexes/tag.rs:57-81). -/
def deTagRefs (t : Target) (box count : Nat) : De (List TagRef) := do
  let len ← deLen t "tags"
  De.timesFrom len 0 (fun id => do
    let name ← deStr t
    let r ← deRefSeq t box count
    pure { name, products := r.1, ids := setCollect r.2, id })

/-- `ClassicIndexes::deserialize` (src/classic_indexes/mod.rs:23-38). -/
def deClassicRef (t : Target) (box count : Nat) : De ClassicRef := do
  let len ← deLen t "categories"
  let categories ← deCategoryRefs t box count len 0
  let tags ← deTagRefs t box count
  let order ← deOrders t
  pure { categories, tags, order }

/-- `deserialize_all` (src/serialize/all_indexes.rs:22-34). -/
def ldAll (t : Target) (n : Nat) : Ld (IndexRef × ClassicRef) := do
  let ngram ← ldGramIndex t n
  let c ← containerOf ngram.container
  let classic ← Ld.of (deClassicRef t ngram.container c.products.length)
  pure (ngram, classic)

/-- One call of `deserialize_all`: what is left of the input is dropped. -/
def Memory.load (t : Target) (n : Nat) (m : Memory) (file : Bytes) : Memory × Res (IndexRef × ClassicRef) :=
  let r := ldAll t n m file
  (r.1, r.2 >>= fun x => .ok x.2)

/-- `initialize` (src/lib.rs:48-61) called with one file after the other, whatever comes of each call. -/
def Memory.loads (t : Target) (n : Nat) (m : Memory) (files : List Bytes) : Memory :=
  files.foldl (fun m file => (m.load t n file).1) m

/-! ## What references mean -/

/-- The vendor behind a `&Vendor`. -/
def Memory.vendor (m : Memory) (r : VendorRef) : Option Vendor :=
  match m.boxes[r.box]? with
  | some (.vendors l) => l[r.pos]?
  | _ => none

/-- A product with its vendor. -/
def Memory.cellProduct (m : Memory) (c : ProductCell) : Option Product :=
  (m.vendor c.vendor).map fun vendor =>
    { description := c.description, title := c.title, vendor, id := c.id, sid := c.sid }

/-- A container with its vendors. -/
def Memory.cellContainer (m : Memory) (c : ContainerCell) : Option Container := do
  let products ← c.products.mapM m.cellProduct
  let tags ← c.tags.mapM fun e => (m.vendor e.2).map fun v => (e.1, v)
  let byId ← c.byId.mapM m.vendor
  some { products, vendors := ⟨tags, byId⟩, extra := c.extra }

/-- The container behind a `&ProductContainer`. -/
def Memory.container (m : Memory) (box : Nat) : Option Container :=
  match m.boxes[box]? with
  | some (.container c) => m.cellContainer c
  | _ => none

/-- The product behind a `&Product`. -/
def Memory.product (m : Memory) (r : ProductRef) : Option Product :=
  match m.boxes[r.box]? with
  | some (.container c) => c.products[r.pos]?.bind m.cellProduct
  | _ => none

/-- The tree behind a `&GramNode`, if it is no deeper than `depth`. -/
def Memory.nodeWithin (m : Memory) : Nat → Nat → Option (GramNode Char)
  | 0, _ => none
  | depth + 1, a =>
    match m.nodes[a]? with
    | none => none
    | some c => (c.byOcc.mapM (m.nodeWithin depth)).map fun kids => .mk c.item c.weight kids

/-- The tree behind a `&GramNode`: a node only refers to nodes allocated before it. -/
def Memory.node (m : Memory) (a : Nat) : Option (GramNode Char) := m.nodeWithin (a + 1) a

/-- What a loaded n-gram index means. -/
def Memory.gramIndex (m : Memory) (r : IndexRef) : Option (GramIndex Char) := do
  let container ← m.container r.container
  let roots ← r.roots.mapM fun e => (m.node e.2).map fun v => (e.1, v)
  let data ← r.data.mapM fun e => (e.2.mapM m.product).map fun l => (e.1, l)
  some { roots, data, container }

/-- What a loaded tag means. -/
def Memory.tag (m : Memory) (r : TagRef) : Option Tag :=
  (r.products.mapM m.product).map fun products => { name := r.name, products, ids := r.ids, id := r.id }

/-- What a loaded option means. -/
def Memory.option (m : Memory) (r : OptionRef) : Option CatOption :=
  (r.content.mapM m.product).map fun content => { name := r.name, sid := r.sid, content, ids := r.ids }

/-- What a loaded category means. -/
def Memory.category (m : Memory) (r : CategoryRef) : Option Category :=
  (r.options.mapM m.option).map fun options => { name := r.name, options, exclusive := r.exclusive }

/-- What the loaded classic indexes mean. -/
def Memory.classic (m : Memory) (r : ClassicRef) : Option Classic := do
  let categories ← r.categories.mapM m.category
  let tags ← r.tags.mapM m.tag
  some { categories, tags, order := r.order }

end Idx
