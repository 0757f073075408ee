import Verif.Model.Nodes
/-
Model of src/js_interactable/*.rs. JavaScript values are an inductive type, JavaScript functions are
opaque identities (`Nat`), calls to them are recorded.
-/
namespace Idx

/-! ## JavaScript values -/

/-- JavaScript numbers, decoded: `fin neg n` is `± n * 2^-1074`. (Slightly more numbers than f64 has;
the theorems hold for all of them.) -/
abbrev JsNum := F32.Val

/-- `f64::from(f32)` (exact): from units of 2^-149 to units of 2^-1074. -/
def jsNumOfF32 (x : F32) : JsNum :=
  match x.val with
  | .nan => .nan
  | .inf s => .inf s
  | .fin s n => .fin s (n * 2 ^ (1074 - 149))

/-- `f64::from(u32)` (exact). -/
def jsNumOfNat (n : Nat) : JsNum := .fin false (n * 2 ^ 1074)

/-- `a <= b` on numbers: false if one is NaN. -/
def jsLe (a b : JsNum) : Bool :=
  match a, b with
  | .nan, _ => false
  | _, .nan => false
  | _, _ => !F32.Val.lt b a

/-- `JsValue`. Objects carry an identity and their properties; a missing property reads as
`undefined`. Prototype chains, getters and proxies are not modelled. -/
inductive JsValue where
  | undefined
  | null
  | bool (b : Bool)
  | num (n : JsNum)
  | str (s : Str)
  | obj (id : Nat) (props : List (Str × JsValue))

/-- `js_sys::Reflect::get(object, key).ok()`: throws (hence `None`) on non-objects, `undefined` for a
missing property. -/
def reflectGet (v : JsValue) (key : Str) : Option JsValue :=
  match v with
  | .obj _ props => some (((props.find? fun p => p.1 == key).map (·.2)).getD .undefined)
  | _ => none

/-- `JsValue::as_f64`: numbers only. -/
def JsValue.asF64 : JsValue → Option JsNum
  | .num n => some n
  | _ => none

/-- `JsValue == JsValue`: JavaScript `===`. -/
def JsValue.strictEq : JsValue → JsValue → Bool
  | .undefined, .undefined => true
  | .null, .null => true
  | .bool a, .bool b => a == b
  | .num a, .num b => jsLe a b && jsLe b a
  | .str a, .str b => a == b
  | .obj a _, .obj b _ => a == b
  | _, _ => false

/-- `FeatureSet::get_js` (src/data/features.rs:46-61). -/
def FeatureSet.getJs (s : FeatureSet) (p : Product) (key : Str) : Option JsValue :=
  match AMap.get s key with
  | none => none
  | some (.string l) => l[p.sid]?.map .str
  | some (.float l) => l[p.sid]?.map fun x => .num (jsNumOfF32 x)
  | some (.integer l) => l[p.sid]?.map fun x => .num (jsNumOfNat x.toNat)

/-! ## Feature filters (src/js_interactable/feature_filter.rs) -/

/-- `FilterData` (src/js_interactable/feature_filter.rs:10-14). -/
inductive FilterData where
  | range (lo hi : JsValue)
  | exact (v : JsValue)

/-- `FeatureFilter` (src/js_interactable/feature_filter.rs:5-8). -/
structure FeatureFilter where
  data : FilterData
  feature : Str

/-- One entry of `FeatureFilter::parse` (src/js_interactable/feature_filter.rs:37-56). -/
def parseFilter (feature : Str) (values : JsValue) : Option FeatureFilter :=
  match reflectGet values "from".toList, reflectGet values "to".toList with
  | some lo, some hi => some { data := .range lo hi, feature }
  | _, _ =>
    match reflectGet values "exact".toList with
    | some v => some { data := .exact v, feature }
    | none => none

/-- `FeatureFilter::parse` (src/js_interactable/feature_filter.rs:31-58) on the entries of the object
(`Object.entries`, so every key is a string). -/
def parseFilters : List (Str × JsValue) → Option (List FeatureFilter)
  | [] => some []
  | (k, v) :: rest =>
    match parseFilter k v with
    | none => none
    | some f => (parseFilters rest).map (f :: ·)

/-- The predicate of `FeatureFilter::filter` (src/js_interactable/feature_filter.rs:60-98). -/
def FeatureFilter.keeps (f : FeatureFilter) (features : FeatureSet) (p : Product) : Bool :=
  match f.data with
  | .range lo hi =>
    match lo.asF64, hi.asF64 with
    | some lo, some hi =>
      match (features.getJs p f.feature).bind JsValue.asF64 with
      | some found => jsLe lo found && jsLe found hi
      | none => false
    | some lo, none =>
      match (features.getJs p f.feature).bind JsValue.asF64 with
      | some found => jsLe lo found
      | none => false
    | none, some hi =>
      match (features.getJs p f.feature).bind JsValue.asF64 with
      | some found => jsLe found hi
      | none => false
    | none, none => true
  | .exact v =>
    match features.getJs p f.feature with
    | some data => data.strictEq v
    | none => false

/-! ## Category handler (src/js_interactable/category_handler.rs) -/

/-- A JavaScript function, up to `===`. -/
abbrev JsFn := Nat

/-- A call made to an observer: the function and the state passed to it. -/
abbrev Call := JsFn × Bool

/-- `CategoryHandler` (src/js_interactable/category_handler.rs:7-13). -/
structure CategoryHandler where
  handle : Classic
  active : AMap (Nat × Nat) Unit
  general : List JsFn
  observers : AMap (Nat × Nat) (List JsFn)

/-- `ExportCategoryOption` (src/js_interactable/category_handler.rs:162-167). -/
structure ExportOption where
  name : Str
  catId : Nat
  optionId : Nat
  deriving DecidableEq, Repr

/-- `ExportCategoryOption::keys` (src/js_interactable/category_handler.rs:177-182). -/
def ExportOption.keys (e : ExportOption) : Nat × Nat := (e.catId, e.optionId)

/-- `CategoryHandler::new` (src/js_interactable/category_handler.rs:92-99). -/
def CategoryHandler.new (handle : Classic) : CategoryHandler :=
  { handle, active := [], general := [], observers := [] }

/-- The shared part of both `toggle`s (src/js_interactable/category_handler.rs:19-28,
src/js_interactable/tag_handler.rs:27-36): flip an entry, return the new state. -/
def toggleEntry {K : Type} [DecidableEq K] (active : AMap K Unit) (k : K) : AMap K Unit × Bool :=
  match AMap.get active k with
  | some _ => (AMap.remove active k, false)
  | none => (AMap.insert active k (), true)

/-- Observers of a key, then the general ones (src/js_interactable/category_handler.rs:30-44); a
throwing observer is only logged, so every observer is called. -/
def notify {K : Type} [DecidableEq K] (observers : AMap K (List JsFn)) (general : List JsFn) (k : K)
    (state : Bool) : List Call :=
  ((AMap.get observers k).getD [] ++ general).map fun f => (f, state)

/-- `add_option_lister` / `add_tag_lister` (src/js_interactable/category_handler.rs:63-71). -/
def addObserver {K : Type} [DecidableEq K] (observers : AMap K (List JsFn)) (k : K) (f : JsFn) :
    AMap K (List JsFn) :=
  AMap.upsert observers k (· ++ [f]) [f]

/-- `Vec::swap_remove(index)` (std). -/
def swapRemove (l : List α) (i : Nat) : List α :=
  match l.getLast? with
  | none => l
  | some last => (l.set i last).dropLast

/-- `remove_option_listener` / `remove_tag_listener` (src/js_interactable/category_handler.rs:73-88):
remove the first registration of `f`. -/
def removeObserver {K : Type} [DecidableEq K] (observers : AMap K (List JsFn)) (k : K) (f : JsFn) :
    AMap K (List JsFn) :=
  match AMap.get observers k with
  | none => observers
  | some l =>
    match l.findIdx? (fun g => g == f) with
    | none => observers
    | some i => AMap.insert observers k (swapRemove l i)

/-- `CategoryHandler::toggle` (src/js_interactable/category_handler.rs:17-45). -/
def CategoryHandler.toggle (h : CategoryHandler) (item : ExportOption) : CategoryHandler × List Call :=
  let r := toggleEntry h.active item.keys
  ({ h with active := r.1 }, notify h.observers h.general item.keys r.2)

/-- `CategoryHandler::get_status` (src/js_interactable/category_handler.rs:47-49). -/
def CategoryHandler.getStatus (h : CategoryHandler) (item : ExportOption) : Bool :=
  (AMap.get h.active item.keys).isSome

/-- `CategoryHandler::add_general_observer` (src/js_interactable/category_handler.rs:59-61). -/
def CategoryHandler.addGeneral (h : CategoryHandler) (f : JsFn) : CategoryHandler :=
  { h with general := h.general ++ [f] }

/-- `CategoryHandler::add_option_lister` (src/js_interactable/category_handler.rs:63-71). -/
def CategoryHandler.addOptionListener (h : CategoryHandler) (item : ExportOption) (f : JsFn) :
    CategoryHandler :=
  { h with observers := addObserver h.observers item.keys f }

/-- `CategoryHandler::remove_option_listener` (src/js_interactable/category_handler.rs:73-88). -/
def CategoryHandler.removeOptionListener (h : CategoryHandler) (item : ExportOption) (f : JsFn) :
    CategoryHandler :=
  { h with observers := removeObserver h.observers item.keys f }

/-- `for .. in self.active.keys() { .. return false }` over keys in hash order, where looking a key
up may panic. -/
def allActive {K : Type} (contains : K → Except Panic Bool) : List K → Except Panic Bool
  | [] => .ok true
  | k :: ks => do
    let b ← contains k
    if b = false then .ok false else allActive contains ks

/-- `v[i]` with bounds check. -/
def indexChecked (l : List α) (i : Nat) : Except Panic α :=
  match l[i]? with
  | some a => .ok a
  | none => .error .indexOutOfBounds

/-- `CategoryHandler::is_valid` (src/js_interactable/category_handler.rs:101-110). -/
def CategoryHandler.isValid (o : HashOrd) (h : CategoryHandler) (p : Product) : Except Panic Bool :=
  allActive (fun k => do
    let category ← indexChecked h.handle.categories k.1
    let option ← indexChecked category.options k.2
    .ok (option.contains p)) ((o.order "active categories" h.active).map (·.1))

/-- `CategoryIter` (src/js_interactable/category_handler.rs:113-117). -/
structure CategoryIter where
  handle : Classic
  index : Nat

/-- `CategoryOptionIter` (src/js_interactable/category_handler.rs:132-137). -/
structure CategoryOptionIter where
  handle : Classic
  categoryIndex : Nat
  index : Nat

/-- `CategoryHandler::iter` (src/js_interactable/category_handler.rs:52-57). -/
def CategoryHandler.iter (h : CategoryHandler) : CategoryIter := { handle := h.handle, index := 0 }

/-- `CategoryIter::next_item` (src/js_interactable/category_handler.rs:121-129). -/
def CategoryIter.nextItem (it : CategoryIter) : CategoryIter × Option CategoryOptionIter :=
  match it.handle.categories[it.index]? with
  | none => (it, none)
  | some _ =>
    ({ it with index := it.index + 1 },
     some { handle := it.handle, index := 0, categoryIndex := it.index + 1 - 1 })

/-- `CategoryOptionIter::next_item` (src/js_interactable/category_handler.rs:141-155). -/
def CategoryOptionIter.nextItem (it : CategoryOptionIter) : CategoryOptionIter × Option ExportOption :=
  match it.handle.categories[it.categoryIndex]? with
  | none => (it, none)
  | some c =>
    match c.options[it.index]? with
    | none => (it, none)
    | some out =>
      ({ it with index := it.index + 1 },
       some { name := out.name, catId := it.categoryIndex, optionId := it.index })

/-- `CategoryOptionIter::name` (src/js_interactable/category_handler.rs:157-159). -/
def CategoryOptionIter.name (it : CategoryOptionIter) : Except Panic Str := do
  let c ← indexChecked it.handle.categories it.categoryIndex
  .ok c.name

/-! ## Tag handler (src/js_interactable/tag_handler.rs) -/

/-- `JSTag` (src/js_interactable/tag_handler.rs:127-132). -/
structure JsTag where
  handle : Classic
  index : Nat

/-- `self.handle.tags.get(self.index).unwrap()` -/
def JsTag.tag (t : JsTag) : Except Panic Tag :=
  match t.handle.tags[t.index]? with
  | some x => .ok x
  | none => .error .unwrapNone

/-- `JSTag::get_id` (src/js_interactable/tag_handler.rs:142-144). -/
def JsTag.getId (t : JsTag) : Except Panic Nat := do
  let x ← t.tag
  .ok x.id

/-- `JSTag::get_name` (src/js_interactable/tag_handler.rs:136-138). -/
def JsTag.getName (t : JsTag) : Except Panic Str := do
  let x ← t.tag
  .ok x.name

/-- `TagHandler` (src/js_interactable/tag_handler.rs:8-14). -/
structure TagHandler where
  handle : Classic
  active : AMap Nat Unit
  general : List JsFn
  observers : AMap Nat (List JsFn)

/-- `TagHandler::new` (src/js_interactable/tag_handler.rs:88-95). -/
def TagHandler.new (handle : Classic) : TagHandler :=
  { handle, active := [], general := [], observers := [] }

/-- `TagHandler::toggle` (src/js_interactable/tag_handler.rs:25-53). -/
def TagHandler.toggle (h : TagHandler) (tag : JsTag) : Except Panic (TagHandler × List Call) := do
  let id ← tag.getId
  let r := toggleEntry h.active id
  .ok ({ h with active := r.1 }, notify h.observers h.general id r.2)

/-- `TagHandler::get_status` (src/js_interactable/tag_handler.rs:55-57): by position, not by id. -/
def TagHandler.getStatus (h : TagHandler) (tag : JsTag) : Bool := (AMap.get h.active tag.index).isSome

/-- `TagHandler::add_general_observer` (src/js_interactable/tag_handler.rs:59-61). -/
def TagHandler.addGeneral (h : TagHandler) (f : JsFn) : TagHandler :=
  { h with general := h.general ++ [f] }

/-- `TagHandler::add_tag_lister` (src/js_interactable/tag_handler.rs:63-71). -/
def TagHandler.addTagListener (h : TagHandler) (tag : JsTag) (f : JsFn) : Except Panic TagHandler := do
  let id ← tag.getId
  .ok { h with observers := addObserver h.observers id f }

/-- `TagHandler::remove_tag_listener` (src/js_interactable/tag_handler.rs:73-84). -/
def TagHandler.removeTagListener (h : TagHandler) (tag : JsTag) (f : JsFn) :
    Except Panic TagHandler := do
  let id ← tag.getId
  .ok { h with observers := removeObserver h.observers id f }

/-- `TagHandler::is_valid` (src/js_interactable/tag_handler.rs:97-105). -/
def TagHandler.isValid (o : HashOrd) (h : TagHandler) (p : Product) : Except Panic Bool :=
  allActive (fun id =>
    match h.handle.tags[id]? with
    | some tag => .ok (tag.contains p)
    | none => .error .unwrapNone) ((o.order "active tags" h.active).map (·.1))

/-- `TagIter` (src/js_interactable/tag_handler.rs:108-112). -/
structure TagIter where
  handle : Classic
  index : Nat

/-- `TagHandler::tags` (src/js_interactable/tag_handler.rs:18-23). -/
def TagHandler.tags (h : TagHandler) : TagIter := { handle := h.handle, index := 0 }

/-- `TagIter::next_tag` (src/js_interactable/tag_handler.rs:116-124). -/
def TagIter.nextTag (it : TagIter) : TagIter × Option JsTag :=
  match it.handle.tags[it.index]? with
  | none => (it, none)
  | some _ => ({ it with index := it.index + 1 }, some { handle := it.handle, index := it.index })

/-! ## Product producer (src/js_interactable/product_producer.rs) -/

/-- `ProductProducer` (src/js_interactable/product_producer.rs:5-10). -/
structure ProductProducer where
  container : Container
  toExport : List Nat
  index : Nat

/-- `ProductProducer::new` (src/js_interactable/product_producer.rs:13-19). -/
def ProductProducer.new (container : Container) (toExport : List Nat) : ProductProducer :=
  { container, toExport, index := 0 }

/-- `JsProduct` (src/js_interactable/product_producer.rs:38-42). -/
structure JsProduct where
  container : Container
  sid : Nat

/-- `ProductProducer::next_product` (src/js_interactable/product_producer.rs:24-35). -/
def ProductProducer.nextProduct (pp : ProductProducer) : ProductProducer × Option JsProduct :=
  match pp.toExport[pp.index]? with
  | none => (pp, none)
  | some nextId =>
    match pp.container.products[nextId]? with
    | none => (pp, none)
    | some _ => ({ pp with index := pp.index + 1 }, some { container := pp.container, sid := nextId })

/-- `JsProduct::product` (src/js_interactable/product_producer.rs:46-48). -/
def JsProduct.product (j : JsProduct) : Except Panic Product := indexChecked j.container.products j.sid

/-- `JsProduct::numeric_feature` (src/js_interactable/product_producer.rs:50-57). -/
def JsProduct.numericFeature (j : JsProduct) (key : Str) : Except Panic (Option JsNum) := do
  let p ← j.product
  .ok (match FeatureSet.get j.container.extra p key with
    | some (.float f) => some (jsNumOfF32 f)
    | some (.integer i) => some (jsNumOfNat i.toNat)
    | some (.string _) => none
    | none => none)

/-- `JsProduct::string_feature` (src/js_interactable/product_producer.rs:59-66). -/
def JsProduct.stringFeature (j : JsProduct) (key : Str) : Except Panic (Option Str) := do
  let p ← j.product
  .ok (match FeatureSet.get j.container.extra p key with
    | some (.string s) => some s
    | _ => none)

/-- `JsProduct::get_title` (src/js_interactable/product_producer.rs:68-70). -/
def JsProduct.getTitle (j : JsProduct) : Except Panic Str := do
  let p ← j.product
  .ok p.title

/-- `JsProduct::get_description` (src/js_interactable/product_producer.rs:72-74). -/
def JsProduct.getDescription (j : JsProduct) : Except Panic Str := do
  let p ← j.product
  .ok p.description

/-- `JsProduct::get_id` (src/js_interactable/product_producer.rs:76-78). -/
def JsProduct.getId (j : JsProduct) : Except Panic Str := do
  let p ← j.product
  .ok p.id

end Idx
