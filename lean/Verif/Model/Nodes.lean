import Verif.Model.NGram
import Verif.Model.RawParser
/-
Model of src/serialize/nodes.rs, src/serialize/all_indexes.rs and the indexing entry points of
src/lib.rs. Grams are `char`s (the only instantiation in the crate).
-/
namespace Idx

/-- `serialize_node` (src/serialize/nodes.rs:12-28): item, weight, children. -/
def serNode : GramNode Char → Bytes
  | .mk item weight byOcc =>
    serChar item ++ serF32 weight ++ (serUsize byOcc.length ++
      (byOcc.attach.map fun ⟨c, _⟩ => serNode c).flatten)

/-- `GramNode::deserialize_arena` (src/serialize/nodes.rs:30-54). The recursion of the Rust function is
bounded by `fuel`; every nested call has consumed at least one byte, so `input.length + 1` is enough
and more fuel changes nothing (`deNode_fuel`). -/
def deNode (t : Target) : Nat → De (GramNode Char)
  | 0 => De.fail
  | fuel + 1 => do
    let item ← deChar
    let weight ← deF32
    let byOcc ← deVec t (deNode t fuel)
    pure (.mk item weight byOcc)

/-- `GramNode::deserialize_arena` with enough fuel. -/
def deNodeTop (t : Target) : De (GramNode Char) := fun input => deNode t (input.length + 1) input

/-- One entry of the posting table (src/serialize/nodes.rs:63-66). -/
def serPosting (e : List Char × List Product) : Bytes := serArray serChar e.1 ++ serProductSeq e.2

/-- `GramIndex::serialize` (src/serialize/nodes.rs:56-68). -/
def serGramIndex (o : HashOrd) (ix : GramIndex Char) : Bytes :=
  serContainer o ix.container ++ serMap o "roots" serChar serNode ix.roots ++
    (serUsize ix.data.length ++ (o.order "data" ix.data).flatMap serPosting)

/-- One entry of the posting table (src/serialize/nodes.rs:87-91). -/
def dePosting (t : Target) (n : Nat) (c : Container) : De (List Char × List Product) := do
  let gram ← deArray t n deChar
  let r ← deProductSeq t c.products
  pure (gram, r.1)

/-- `GramIndex::deserialize` (src/serialize/nodes.rs:70-103). -/
def deGramIndex (t : Target) (n : Nat) : De (GramIndex Char) := do
  let container ← deContainer t
  let roots ← deMap t deChar (deNodeTop t)
  let len ← deLen t "data"
  let entries ← De.times len (dePosting t n container)
  pure { container, roots, data := AMap.collect entries }

/-- `serialize_all` (src/serialize/all_indexes.rs:11-20). -/
def serializeAll (o : HashOrd) (ix : GramIndex Char) (c : Classic) : Bytes :=
  serGramIndex o ix ++ serClassic o c

/-- `deserialize_all` (src/serialize/all_indexes.rs:22-34): what is left of the input is dropped. -/
def deserializeAll (t : Target) (n : Nat) (input : Bytes) : Res (GramIndex Char × Classic) := do
  let (input, ngram) ← deGramIndex t n input
  let (_, classic) ← deClassic t ngram.container input
  pure (ngram, classic)

/-- The grams of a product: description, title, vendor name, lower-cased character by character
(src/lib.rs:210-225). `lower` is `char::to_lowercase`. -/
def feedOf (lower : Char → List Char) (p : Product) : List Char × Product :=
  ((p.description ++ p.title ++ p.vendor.name).flatMap lower, p)

/-- The two indexes built by `index_and_serialize_with_n` (src/lib.rs:204-229). -/
def buildAll (t : Target) (o : HashOrd) (lower : Char → List Char) (parse : Str → Option F32) (n : Nat)
    (input : List RawProduct) : Res (GramIndex Char × Classic) := do
  let (c, classic) ← optimize o parse input
  pure (indexFrom t o n (c.products.map (feedOf lower)) c, classic)

/-- The word of the trial search of `index_and_serialize_with_n` (src/lib.rs:231). -/
def trialQuery : Str := ['k', 'u', 'n', 's', 't']

/-- `index_and_serialize_with_n` (src/lib.rs:204-239). The trial search (lines 231-234) can only panic: its results
are counted, and the count is printed. -/
def indexAndSerialize (t : Target) (o : HashOrd) (lower : Char → List Char)
    (parse : Str → Option F32) (n : Nat) (input : List RawProduct) : Res Bytes := do
  let (ix, classic) ← buildAll t o lower parse n input
  let _results ← Res.ofExcept (ix.search o n (trialQuery.flatMap lower))
  pure (serializeAll o ix classic)

/-- `index` after JSON parsing (src/lib.rs:241-251), also `main` (src/main.rs:11-23): the catalogue is a hash table from
keys to products, and is indexed in the order that table iterates. -/
def indexCatalogue (t : Target) (o : HashOrd) (lower : Char → List Char) (parse : Str → Option F32)
    (n : Nat) (catalogue : AMap Str RawProduct) : Res Bytes :=
  indexAndSerialize t o lower parse n ((o.order "catalogue" catalogue).map (·.2))

/-! ## Equality of indexes (what the crate's serialisation test asserts) -/

/-- `#[derive(PartialEq)] GramNode` (src/ngram/index.rs:37-43): item, weight (IEEE equality),
`by_occurances`, `items`. `items` is a function of `by_occurances`, and the maps of equal lists
are equal, so comparing `by_occurances` decides both (`Verif.Props.Reload`). -/
def GramNode.eqv : GramNode Char → GramNode Char → Bool
  | .mk i w l, .mk i' w' l' => i == i' && F32.feq w w' && go l l'
where
  go : List (GramNode Char) → List (GramNode Char) → Bool
  | [], [] => true
  | a :: as, b :: bs => GramNode.eqv a b && go as bs
  | _, _ => false

/-- `#[derive(PartialEq)] GramIndex` (src/ngram/index.rs:61-67). -/
def GramIndex.eqv (a b : GramIndex Char) : Bool :=
  mapEqv GramNode.eqv a.roots b.roots && mapEqv (listEqv Product.eqv) a.data b.data
    && a.container.eqv b.container

end Idx
