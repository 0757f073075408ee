import Verif.Model.Collections
/-
Model of src/data/{vendor,product,features,container}.rs: in-memory data, its equality and its codecs.
Arena references are replaced by the values they point to (the arenas never move or drop a value).
-/
namespace Idx

/-! ## Vendors (src/data/vendor.rs) -/

/-- `Vendor` (src/data/vendor.rs:8-12). -/
structure Vendor where
  name : Str
  id : Nat
  deriving DecidableEq, Repr

/-- `VendorManager` (src/data/vendor.rs:14-18) without its arena. -/
structure VendorManager where
  tags : AMap Str Vendor
  byId : List Vendor
  deriving DecidableEq, Repr

/-- `VendorManager::new` (src/data/vendor.rs:61-68). -/
def VendorManager.new : VendorManager := ⟨[], []⟩

/-- `VendorManager::get` (src/data/vendor.rs:44-46). -/
def VendorManager.get (m : VendorManager) (name : Str) : Option Vendor := AMap.get m.tags name

/-- `VendorManager::insert` (src/data/vendor.rs:48-59). -/
def VendorManager.insert (m : VendorManager) (name : Str) : VendorManager :=
  match AMap.get m.tags name with
  | some _ => m
  | none =>
    let id := m.tags.length
    let newTag : Vendor := { name, id }
    { tags := AMap.insert m.tags newTag.name newTag, byId := m.byId ++ [newTag] }

/-- `VendorManager::get_or_insert` (src/data/vendor.rs:29-42). -/
def VendorManager.getOrInsert (m : VendorManager) (name : Str) : VendorManager × Vendor :=
  match AMap.get m.tags name with
  | some v => (m, v)
  | none =>
    let id := m.tags.length
    let newTag : Vendor := { name, id }
    ({ tags := AMap.insert m.tags newTag.name newTag, byId := m.byId ++ [newTag] }, newTag)

/-- `Vendor::serialize` (src/data/vendor.rs:71-76). -/
def serVendor (v : Vendor) : Bytes := serStr v.name

/-- `VendorManager::serialize` (src/data/vendor.rs:78-89): values in hash order, sorted by id. -/
def serVendors (o : HashOrd) (m : VendorManager) : Bytes :=
  let all := stableSort (fun a b => decide (a.id ≤ b.id)) ((o.order "vendors" m.tags).map (·.2))
  serUsize all.length ++ all.flatMap serVendor

/-- `VendorManager::deserialize_arena` (src/data/vendor.rs:91-119). -/
def deVendors (t : Target) : De VendorManager := do
  let len ← deLen t "vendors"
  let vs ← De.timesFrom len 0 (fun id => do
    let name ← deStr t
    pure ({ name, id } : Vendor))
  pure { tags := AMap.collect (vs.map fun v => (v.name, v)), byId := vs }

/-! ## Products (src/data/product.rs) -/

/-- `Product` (src/data/product.rs:10-17). `sid` is `serialization_id`. -/
structure Product where
  description : Str
  title : Str
  vendor : Vendor
  id : Str
  sid : Nat
  deriving DecidableEq, Repr

/-- `char::to_digit(10)` (std): ASCII digits only. -/
def toDigit (c : Char) : Option Nat :=
  if '0'.toNat ≤ c.toNat ∧ c.toNat ≤ '9'.toNat then some (c.toNat - '0'.toNat) else none

/-- A `u64` result: panics on overflow with overflow checks, wraps without. -/
def u64Arith (t : Target) (n : Nat) : Res Nat :=
  if n < 2 ^ 64 then .ok n else if t.overflowChecks then .panic .overflow else .ok (n % 2 ^ 64)

/-- Loop of `Product::get_id` (src/data/product.rs:20-32) over the reversed characters. -/
def getIdLoop (t : Target) : Str → Nat → Nat → Res Nat
  | [], out, _ => .ok out
  | c :: rest, out, multiplier =>
    match toDigit c with
    | none => .ok out
    | some n => do
      let prod ← u64Arith t (n * multiplier)
      let out ← u64Arith t (out + prod)
      let multiplier ← u64Arith t (multiplier * 10)
      getIdLoop t rest out multiplier

/-- `Product::get_id` (src/data/product.rs:20-32). -/
def Product.getId (t : Target) (p : Product) : Res Nat := getIdLoop t p.id.reverse 0 1

/-- Description part of `Product::eq` (src/data/product.rs:40-57). `str::starts_with` on valid
UTF-8 is the prefix relation on characters. -/
def descriptionEq (a b : Str) : Bool :=
  let (x, y) := (byteLen a, byteLen b)
  if (x = 0 ∧ 1 ≤ y) ∨ (1 ≤ x ∧ y = 0) then false
  else if x > y then b.isPrefixOf a
  else if x < y then a.isPrefixOf b
  else a == b

/-- `impl PartialEq for Product` (src/data/product.rs:37-64). -/
def Product.eqv (a b : Product) : Bool :=
  descriptionEq a.description b.description
    && a.title == b.title && a.vendor == b.vendor && a.id == b.id && a.sid == b.sid

/-- `Product::serialize` (src/data/product.rs:87-105). -/
def serProduct (p : Product) : Bytes :=
  serStrWithLimit p.description 100 ++ serStr p.title ++ serStr p.id ++ serUsize p.vendor.id

/-- `Product::deserialize` (src/data/product.rs:107-130). -/
def deProduct (t : Target) (sid : Nat) (vendors : VendorManager) : De Product := do
  let description ← deStr t
  let title ← deStr t
  let id ← deStr t
  let vendorId ← deUsize t
  let vendor ← De.lift (Res.ofOption (vendors.byId[vendorId]?))
  pure { description, title, vendor, id, sid }

/-- `Product::serialize_to_sequential_array` (src/data/product.rs:132-134). -/
def serProductSeq (l : List Product) : Bytes := serSeq (l.map (·.sid))

/-- The lookup loop of `deserialize_from_sequential_ids` (src/data/product.rs:142-146). -/
def lookupAll (existing : List Product) : List Nat → Option (List Product)
  | [] => some []
  | id :: ids =>
    match existing[id]? with
    | none => none
    | some p => (lookupAll existing ids).map (p :: ·)

/-- `Product::deserialize_from_sequential_ids` (src/data/product.rs:136-149). -/
def deProductSeq (t : Target) (existing : List Product) : De (List Product × List Nat) := do
  let ids ← deSeq t
  let products ← De.lift (Res.ofOption (lookupAll existing ids))
  pure (products, ids)

/-! ## Features (src/data/features.rs) -/

/-- `Feature` (src/data/features.rs:11-16). -/
inductive Feature where
  | string (l : List Str)
  | float (l : List F32)
  | integer (l : List UInt32)
  deriving DecidableEq, Repr

/-- `FeatureValue` (src/data/features.rs:37-41). -/
inductive FeatureValue where
  | string (s : Str)
  | float (x : F32)
  | integer (n : UInt32)
  deriving DecidableEq, Repr

/-- `FeatureSet` (src/data/features.rs:8-9). -/
abbrev FeatureSet := AMap Str Feature

/-- `Feature::get` (src/data/features.rs:18-35). -/
def Feature.get (f : Feature) (i : Nat) : Option FeatureValue :=
  match f with
  | .string l => l[i]?.map .string
  | .float l => l[i]?.map .float
  | .integer l => l[i]?.map .integer

/-- `FeatureSet::get` (src/data/features.rs:63-71). -/
def FeatureSet.get (s : FeatureSet) (p : Product) (key : Str) : Option FeatureValue :=
  match AMap.get s key with
  | none => none
  | some f => f.get p.sid

/-- `FeatureSet::add_int` (src/data/features.rs:77-88). -/
def FeatureSet.addInt (s : FeatureSet) (key : Str) (v : UInt32) : Res FeatureSet :=
  match AMap.get s key with
  | some (.integer l) => .ok (AMap.insert s key (.integer (l ++ [v])))
  | some _ => .panic .explicit
  | none => .ok (AMap.insert s key (.integer [v]))

/-- `FeatureSet::add_float` (src/data/features.rs:90-100). -/
def FeatureSet.addFloat (s : FeatureSet) (key : Str) (v : F32) : Res FeatureSet :=
  match AMap.get s key with
  | some (.float l) => .ok (AMap.insert s key (.float (l ++ [v])))
  | some _ => .panic .explicit
  | none => .ok (AMap.insert s key (.float [v]))

/-- `FeatureSet::add_string` (src/data/features.rs:102-112). -/
def FeatureSet.addString (s : FeatureSet) (key : Str) (v : Str) : Res FeatureSet :=
  match AMap.get s key with
  | some (.string l) => .ok (AMap.insert s key (.string (l ++ [v])))
  | some _ => .panic .explicit
  | none => .ok (AMap.insert s key (.string [v]))

/-- `Feature::serialize` (src/data/features.rs:119-136). -/
def serFeature (f : Feature) : Bytes :=
  match f with
  | .string l => serU8 0 ++ serVec serStr l
  | .float l => serU8 1 ++ serVec serF32 l
  | .integer l => serU8 2 ++ serVec serU32 l

/-- `Feature::deserialize` (src/data/features.rs:138-157). -/
def deFeature (t : Target) : De Feature := do
  let id ← deU8
  if id = 0 then do
    let data ← deVec t (deStr t)
    pure (.string data)
  else if id = 1 then do
    let data ← deVec t deF32
    pure (.float data)
  else if id = 2 then do
    let data ← deVec t deU32
    pure (.integer data)
  else De.fail

/-- `FeatureSet::serialize` (src/data/features.rs:159-163). -/
def serFeatureSet (o : HashOrd) (s : FeatureSet) : Bytes := serMap o "features" serStr serFeature s

/-- `FeatureSet::deserialize` (src/data/features.rs:165-170). -/
def deFeatureSet (t : Target) : De FeatureSet := deMap t (deStr t) (deFeature t)

/-! ## Container (src/data/container.rs) -/

/-- `ProductContainer` (src/data/container.rs:8-13). -/
structure Container where
  products : List Product
  vendors : VendorManager
  extra : FeatureSet
  deriving DecidableEq, Repr

/-- `ProductContainer::serialize` (src/data/container.rs:64-76). -/
def serContainer (o : HashOrd) (c : Container) : Bytes :=
  serVendors o c.vendors ++ serVec serProduct c.products ++ serFeatureSet o c.extra

/-- `ProductContainer::deserialize` (src/data/container.rs:28-61). -/
def deContainer (t : Target) : De Container := do
  let vendors ← deVendors t
  let count ← deUsize t
  let products ← De.timesFrom count 0 (fun id => deProduct t id vendors)
  let extra ← deFeatureSet t
  pure { products, vendors, extra }

/-! ## Derived equalities -/

/-- `Vec<T> == Vec<T>` with element equality `eq`. -/
def listEqv (eq : α → α → Bool) : List α → List α → Bool
  | [], [] => true
  | a :: as, b :: bs => eq a b && listEqv eq as bs
  | _, _ => false

/-- `AHashMap<K, V> == AHashMap<K, V>` (hashbrown): same length, every entry of the left found
equal on the right. -/
def mapEqv [DecidableEq K] (eq : V → V → Bool) (a b : AMap K V) : Bool :=
  a.length == b.length && a.all fun p =>
    match AMap.get b p.1 with
    | some v => eq p.2 v
    | none => false

/-- `AHashSet<T> == AHashSet<T>`. -/
def setEqv [DecidableEq α] (a b : List α) : Bool := a.length == b.length && a.all fun x => x ∈ b

/-- `#[derive(PartialEq)] Feature` (src/data/features.rs:11-16): floats by IEEE equality. -/
def Feature.eqv (a b : Feature) : Bool :=
  match a, b with
  | .string x, .string y => x == y
  | .float x, .float y => listEqv F32.feq x y
  | .integer x, .integer y => x == y
  | _, _ => false

/-- `impl PartialEq for VendorManager` (src/data/vendor.rs:20-24). -/
def VendorManager.eqv (a b : VendorManager) : Bool :=
  mapEqv (· == ·) a.tags b.tags && listEqv (· == ·) a.byId b.byId

/-- `#[derive(PartialEq)] ProductContainer` (src/data/container.rs:8-13). -/
def Container.eqv (a b : Container) : Bool :=
  listEqv Product.eqv a.products b.products && a.vendors.eqv b.vendors
    && mapEqv Feature.eqv a.extra b.extra

end Idx
