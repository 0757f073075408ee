import Verif.Model.Nodes

/-! The decoder again, counting steps. `Props/LoadCost.lean` shows that without the count this is `deserializeAll`.

One step is: reading one number, float, flag or tag byte (at most ten bytes of input); copying and checking one byte of a string;
appending one element to a vector; looking up one product; inserting one entry into a hash table or set; putting one node into an
arena. Not counted: the time the allocator takes, including the initialisation of the room that `with_capacity` reserves, and the
re-hashing of tables that grow. -/

namespace Idx

/-- A deserialiser that also says how many steps it took. -/
def DeN (α : Type) := Bytes → Res (Bytes × α) × Nat

namespace DeN

/-- `let (input, x) = x::deserialize(input)?; ...` -/
def bind (d : DeN α) (f : α → DeN β) : DeN β := fun input =>
  match d input with
  | (.ok (rest, a), k) => ((f a rest).1, k + (f a rest).2)
  | (.none, k) => (.none, k)
  | (.panic w, k) => (.panic w, k)

instance : Monad DeN where
  pure a := fun input => (.ok (input, a), 0)
  bind := DeN.bind

/-- One step: a number, a float, a flag. -/
def prim (d : De α) : DeN α := fun input => (d input, 1)

/-- Something computed from what was already read, in no counted step. -/
def free (d : De α) : DeN α := fun input => (d input, 0)

/-- Some steps that read nothing. -/
def tick (k : Nat) : DeN Unit := fun input => (.ok (input, ()), k)

/-- `De.times` (`for _ in 0..n`): one step for each element appended. -/
def times : Nat → DeN α → DeN (List α)
  | 0, _ => pure []
  | n + 1, d => do
    let a ← d
    tick 1
    let as ← times n d
    pure (a :: as)

/-- `De.timesFrom` (`for id in i..i+n`): one step for each element appended. -/
def timesFrom : Nat → Nat → (Nat → DeN α) → DeN (List α)
  | 0, _, _ => pure []
  | n + 1, i, d => do
    let a ← d i
    tick 1
    let as ← timesFrom n (i + 1) d
    pure (a :: as)

end DeN

/-- `deLen`: one number, and the reservation. -/
def deLenN (t : Target) (what : String) : DeN Nat := DeN.prim (deLen t what)

/-- `Vec<T>::deserialize` (src/serialize/collections.rs:38-70) with the number of steps. -/
def deVecN (t : Target) (de : DeN α) : DeN (List α) := do
  let len ← deLenN t "vec"
  DeN.times len de

/-- The bytes of a string (src/serialize/collections.rs:123-127): one step for each byte, copied by `to_vec` and checked by
`from_utf8`; none if the slice is out of range. -/
def deStrBody (len : Nat) : DeN Str := fun input =>
  if len ≤ input.length then
    match fromUtf8 (input.take len) with
    | some s => (.ok (input.drop len, s), len)
    | none => (.none, len)
  else (.panic .sliceOutOfRange, 0)

/-- `String::deserialize` (src/serialize/collections.rs:121-128) with the number of steps. -/
def deStrN (t : Target) : DeN Str := do
  let len ← DeN.prim (deUsize t)
  deStrBody len

/-- `AHashMap<K, V>::deserialize` (src/serialize/collections.rs:140-176) with the number of steps: the loop of `DeN.times` counts
one for the insertion. -/
def deMapN [DecidableEq K] (t : Target) (deK : DeN K) (deV : DeN V) : DeN (AMap K V) := do
  let len ← deLenN t "map"
  let entries ← DeN.times len (do
    let k ← deK
    let v ← deV
    pure (k, v))
  pure (AMap.collect entries)

/-- `[T; N]::deserialize` (src/serialize/collections.rs:187-213) with the number of steps. -/
def deArrayN (t : Target) (n : Nat) (de : DeN α) : DeN (List α) := do
  let len ← DeN.prim (deUsize t)
  if len = n then DeN.times n de else DeN.free (De.lift (.panic .assertFailed))

/-- Loop of `sequential_array::deserialize` (src/serialize/sequential_array.rs:31-44) with the number of steps. -/
def deDeltasN (t : Target) : Nat → Option Nat → DeN (List Nat)
  | 0, _ => pure []
  | n + 1, previous => do
    let parsed ← DeN.prim (deUsize t)
    let item ← DeN.free (match previous with
      | some p => De.lift (addUsize t parsed p)
      | none => pure parsed)
    DeN.tick 1
    let rest ← deDeltasN t n (some item)
    pure (item :: rest)

/-- `sequential_array::deserialize` (src/serialize/sequential_array.rs:25-47) with the number of steps. -/
def deSeqN (t : Target) : DeN (List Nat) := do
  let len ← deLenN t "sequence"
  deDeltasN t len none

/-- How many products the loop of src/data/product.rs:142-146 looks up before it is done or gives up. -/
def lookups (existing : List Product) : List Nat → Nat
  | [] => 0
  | id :: ids => if id < existing.length then 1 + lookups existing ids else 1

/-- `Product::deserialize_from_sequential_ids` (src/data/product.rs:136-149) with the number of steps. -/
def deProductSeqN (t : Target) (existing : List Product) : DeN (List Product × List Nat) := do
  let ids ← deSeqN t
  DeN.tick (lookups existing ids)
  let products ← DeN.free (De.lift (Res.ofOption (lookupAll existing ids)))
  pure (products, ids)

/-- `VendorManager::deserialize_arena` (src/data/vendor.rs:91-119) with the number of steps: for each vendor one for the arena, one
for the table and one (in the loop) for `by_id`. -/
def deVendorsN (t : Target) : DeN VendorManager := do
  let len ← deLenN t "vendors"
  let vs ← DeN.timesFrom len 0 (fun id => do
    let name ← deStrN t
    DeN.tick 2
    pure ({ name, id } : Vendor))
  pure { tags := AMap.collect (vs.map fun v => (v.name, v)), byId := vs }

/-- `Product::deserialize` (src/data/product.rs:107-130) with the number of steps. -/
def deProductN (t : Target) (sid : Nat) (vendors : VendorManager) : DeN Product := do
  let description ← deStrN t
  let title ← deStrN t
  let id ← deStrN t
  let vendorId ← DeN.prim (deUsize t)
  DeN.tick 1
  let vendor ← DeN.free (De.lift (Res.ofOption (vendors.byId[vendorId]?)))
  pure { description, title, vendor, id, sid }

/-- `Feature::deserialize` (src/data/features.rs:138-157) with the number of steps. -/
def deFeatureN (t : Target) : DeN Feature := do
  let id ← DeN.prim deU8
  if id = 0 then do
    let data ← deVecN t (deStrN t)
    pure (.string data)
  else if id = 1 then do
    let data ← deVecN t (DeN.prim deF32)
    pure (.float data)
  else if id = 2 then do
    let data ← deVecN t (DeN.prim deU32)
    pure (.integer data)
  else DeN.free De.fail

/-- `ProductContainer::deserialize` (src/data/container.rs:28-61) with the number of steps. -/
def deContainerN (t : Target) : DeN Container := do
  let vendors ← deVendorsN t
  let count ← DeN.prim (deUsize t)
  let products ← DeN.timesFrom count 0 (fun id => deProductN t id vendors)
  let extra ← deMapN t (deStrN t) (deFeatureN t)
  pure { products, vendors, extra }

/-- `TagIndex::deserialize` (src/classic_indexes/tag.rs:57-81) with the number of steps: the ids are collected into a set. -/
def deTagsN (t : Target) (existing : List Product) : DeN (List Tag) := do
  let len ← deLenN t "tags"
  DeN.timesFrom len 0 (fun id => do
    let name ← deStrN t
    let r ← deProductSeqN t existing
    DeN.tick r.2.length
    pure { name, products := r.1, ids := setCollect r.2, id })

/-- One option of `Category::deserialize` (src/classic_indexes/categorical.rs:55-72) with the number of steps. -/
def deCatOptionN (t : Target) (existing : List Product) (sid : Nat) : DeN CatOption := do
  let name ← deStrN t
  let r ← deProductSeqN t existing
  DeN.tick r.2.length
  pure { name, content := r.1, sid, ids := setCollect r.2 }

/-- `Category::deserialize` (src/classic_indexes/categorical.rs:45-82) with the number of steps. -/
def deCategoryN (t : Target) (existing : List Product) (next : Nat) : DeN Category := do
  let exclusive ← DeN.prim deBool
  let name ← deStrN t
  let len ← deLenN t "options"
  let options ← DeN.timesFrom len next (deCatOptionN t existing)
  pure { name, options, exclusive }

/-- Loop of `CategoryIndex::deserialize_many` (src/classic_indexes/categorical.rs:165-172) with the number of steps. -/
def deCategoriesLoopN (t : Target) (existing : List Product) : Nat → Nat → DeN (List Category)
  | 0, _ => pure []
  | n + 1, next => do
    let cat ← deCategoryN t existing next
    DeN.tick 1
    let cats ← deCategoriesLoopN t existing n (next + cat.options.length)
    pure (cat :: cats)

/-- `CategoryIndex::deserialize_many` (src/classic_indexes/categorical.rs:160-174) with the number of steps. -/
def deCategoriesN (t : Target) (existing : List Product) : DeN (List Category) := do
  let len ← deLenN t "categories"
  deCategoriesLoopN t existing len 0

/-- `ClassicIndexes::deserialize` (src/classic_indexes/mod.rs:23-38) with the number of steps. -/
def deClassicN (t : Target) (c : Container) : DeN Classic := do
  let categories ← deCategoriesN t c.products
  let tags ← deTagsN t c.products
  let order ← deMapN t (deStrN t) (deVecN t (DeN.prim (deUsize t)))
  pure { categories, tags, order }

/-- `GramNode::deserialize_arena` (src/serialize/nodes.rs:30-54) with the number of steps: one for each child inserted into
`items`, one for the arena. -/
def deNodeN (t : Target) : Nat → DeN (GramNode Char)
  | 0 => DeN.free De.fail
  | fuel + 1 => do
    let item ← DeN.prim deChar
    let weight ← DeN.prim deF32
    let byOcc ← deVecN t (deNodeN t fuel)
    DeN.tick (byOcc.length + 1)
    pure (.mk item weight byOcc)

/-- `deNodeN` with enough fuel. -/
def deNodeTopN (t : Target) : DeN (GramNode Char) := fun input => deNodeN t (input.length + 1) input

/-- One entry of the posting table (src/serialize/nodes.rs:87-91) with the number of steps. -/
def dePostingN (t : Target) (n : Nat) (c : Container) : DeN (List Char × List Product) := do
  let gram ← deArrayN t n (DeN.prim deChar)
  let r ← deProductSeqN t c.products
  pure (gram, r.1)

/-- `GramIndex::deserialize` (src/serialize/nodes.rs:70-103) with the number of steps. -/
def deGramIndexN (t : Target) (n : Nat) : DeN (GramIndex Char) := do
  let container ← deContainerN t
  let roots ← deMapN t (DeN.prim deChar) (deNodeTopN t)
  let len ← deLenN t "data"
  let entries ← DeN.times len (dePostingN t n container)
  pure { container, roots, data := AMap.collect entries }

/-- `deserialize_all` (src/serialize/all_indexes.rs:22-34) with the bytes left over and the number of steps. -/
def deserializeAllN (t : Target) (n : Nat) : DeN (GramIndex Char × Classic) := do
  let ngram ← deGramIndexN t n
  let classic ← deClassicN t ngram.container
  pure (ngram, classic)

end Idx
