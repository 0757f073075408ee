import Verif.Model.Classic
/-
Model of src/data/raw_parser.rs. The input is the list of products read by serde (`Model/Json.lean`).
`str::parse::<f32>` is a parameter `parse`.
-/
namespace Idx

/-- `CurrencyAmount` (src/data/raw_parser.rs:14-19). -/
structure CurrencyAmount where
  amount : Str
  currencyCode : Str
  deriving DecidableEq, Repr

/-- `ProductPrice` (src/data/raw_parser.rs:21-25). -/
structure ProductPrice where
  min : CurrencyAmount
  max : CurrencyAmount
  deriving DecidableEq, Repr

/-- `RawProduct` (src/data/raw_parser.rs:32-42); `media` is the list of `MediaItem::url`s. -/
structure RawProduct where
  description : Str
  tags : List Str
  title : Str
  vendor : Str
  id : Str
  options : List RawOption
  price : ProductPrice
  media : List Str
  deriving DecidableEq, Repr

/-- The keys used by the crate. -/
def imageUrlKey : Str := "image_url".toList
@[inherit_doc imageUrlKey] def priceKey : Str := "price".toList
@[inherit_doc imageUrlKey] def alphabeticalKey : Str := "Alphabetical".toList
@[inherit_doc imageUrlKey] def priceLowKey : Str := "Price low to high".toList
@[inherit_doc imageUrlKey] def priceHighKey : Str := "Price high to low".toList

/-- The part of `IntermediateRawProduct` that differs from `RawProduct`
(src/data/raw_parser.rs:50-59): `other_string` and `other_numeric`. -/
structure Others where
  strings : AMap Str Str
  numerics : AMap Str F32

/-- `other_string` of one product (src/data/raw_parser.rs:74-78): `media.swap_remove(0).url` is the
first url, if any. -/
def mediaStrings (raw : RawProduct) : AMap Str Str :=
  match raw.media with
  | [] => []
  | url :: _ => AMap.insert [] imageUrlKey url

/-- `to_intermediate` on one product (src/data/raw_parser.rs:61-95);
`price.min.amount.parse().unwrap()`. -/
def toIntermediate (parse : Str → Option F32) (raw : RawProduct) : Res Others := do
  let price ← Res.unwrapOption (parse raw.price.min.amount)
  pure { strings := mediaStrings raw, numerics := AMap.insert [] priceKey price }

/-- `for (key, value) in other_string { add_string }` (src/data/raw_parser.rs:144-147). The map has at
most one entry, so its iteration order is irrelevant. -/
def addStrings : FeatureSet → List (Str × Str) → Res FeatureSet
  | s, [] => .ok s
  | s, (k, v) :: rest => do
    let s ← FeatureSet.addString s k v
    addStrings s rest

/-- `for (key, value) in other_numeric { add_float }` (src/data/raw_parser.rs:148-151). -/
def addFloats : FeatureSet → List (Str × F32) → Res FeatureSet
  | s, [] => .ok s
  | s, (k, v) :: rest => do
    let s ← FeatureSet.addFloat s k v
    addFloats s rest

/-- The product loop of `optimize` (src/data/raw_parser.rs:115-154). -/
def productsLoop (parse : Str → Option F32) (vendors : VendorManager) :
    Nat → List RawProduct → List Product × FeatureSet → Res (List Product × FeatureSet)
  | _, [], st => .ok st
  | i, raw :: rest, (products, extra) => do
    let others ← toIntermediate parse raw
    let vendor ← Res.unwrapOption (vendors.get raw.vendor)
    let p : Product :=
      { description := raw.description, title := raw.title, vendor, id := raw.id, sid := i }
    let extra ← addStrings extra others.strings
    let extra ← addFloats extra others.numerics
    productsLoop parse vendors (i + 1) rest (products ++ [p], extra)

/-- The price closure of `optimize` (src/data/raw_parser.rs:168-171, 176-179). -/
def priceMaker (extra : FeatureSet) (p : Product) : Res F32 :=
  match FeatureSet.get extra p priceKey with
  | some (.float v) => .ok v
  | _ => .panic .explicit

/-- The three orders of `optimize` (src/data/raw_parser.rs:162-186). -/
def buildOrders (c : Container) : Res OrderIndex := do
  let order : OrderIndex := []
  let order ← order.addCustomCmp c (fun p => .ok p.title) strCmp alphabeticalKey
  let order ← order.addCustomCmp c (priceMaker c.extra) F32.cmpOrEq priceLowKey
  order.addCustomCmp c (priceMaker c.extra) (fun a b => (F32.cmpOrEq a b).swap) priceHighKey

/-- `optimize` (src/data/raw_parser.rs:97-191). -/
def optimize (o : HashOrd) (parse : Str → Option F32) (input : List RawProduct) :
    Res (Container × Classic) := do
  let vendors := input.foldl (fun m raw => m.insert raw.vendor) VendorManager.new
  let (products, extra) ← productsLoop parse vendors 0 input ([], [])
  let c : Container := { products, vendors, extra }
  let tags ← tagIndex o (input.map (·.tags)) c
  let order ← buildOrders c
  let categories ← categoryIndex (input.map (·.options)) c
  pure (c, { categories, tags, order })

end Idx
