import Verif.Model.Data
/-
Model of src/ngram/{index,indexer,result_ranker}.rs.
Generic in the gram type `G` (`GramAtom`); `dflt` is `G::default()`. Arrays `[G; N]` are lists of
length `N`. `Data` is always `Product` in the crate and here.
-/
namespace Idx
/-- The `Default` bound of `GramAtom` (src/ngram/index.rs:12), whose value pads the first n-grams. Lean's own
`Inhabited Char` is 'A' and must not be used. -/
class RDefault (G : Type) where
  /-- `G::default()`. -/
  dflt : G
export RDefault (dflt)

/-- `char::default()` is NUL. -/
instance : RDefault Char := ⟨'\x00'⟩

variable {G : Type} [DecidableEq G] [RDefault G]

/-! ## The tree -/

/-- `GramNode` (src/ngram/index.rs:37-43). The field `items` is not stored: both places that build a
node (src/ngram/indexer.rs:53-59, src/serialize/nodes.rs:41-44) compute it from `by_occurances`; see
`GramNode.items`. -/
inductive GramNode (G : Type) where
  | mk (item : G) (weight : F32) (byOcc : List (GramNode G))

namespace GramNode
def item : GramNode G → G
  | mk i _ _ => i
def weight : GramNode G → F32
  | mk _ w _ => w
/-- `by_occurances` -/
def byOcc : GramNode G → List (GramNode G)
  | mk _ _ l => l

/-- `items`: fold over `by_occurances` inserting `item.item ↦ item`
(src/ngram/indexer.rs:53-59, src/serialize/nodes.rs:41-44). -/
def items (n : GramNode G) : AMap G (GramNode G) := AMap.collect (n.byOcc.map fun c => (c.item, c))

/-- `GramNode::cmp` (src/ngram/index.rs:47-53). -/
def cmp (a b : GramNode G) : Ordering := F32.cmpOrEq a.weight b.weight
end GramNode

/-- `GramIndex` (src/ngram/index.rs:61-67). -/
structure GramIndex (G : Type) where
  roots : AMap G (GramNode G)
  data : AMap (List G) (List Product)
  container : Container

/-- The loop of `n_gram_with_1_padding` (src/ngram/index.rs:31-33): `remaining` cells to fill, the
next one at `pos`; also returns what is left of the iterator. -/
def fillGram : Nat → Nat → List G → List G → Option (List G) × List G
  | 0, _, base, iter => (some base, iter)
  | _ + 1, _, _, [] => (none, [])
  | remaining + 1, pos, base, g :: iter => fillGram remaining (pos + 1) (base.set pos g) iter

/-- `n_gram_with_1_padding` (src/ngram/index.rs:27-35), for `N ≥ 1` (`N - 1` does not compile to
anything useful for 0); the iterator is a list. -/
def nGramWith1Padding (n : Nat) (iter : List G) : Option (List G) × List G :=
  fillGram (n - 1) 0 (List.replicate n dflt) iter

/-- `for i in 1..N { a[i-1] = a[i] }; a[N-1] = gram` (src/ngram/index.rs:86-89,
src/ngram/indexer.rs:121-124). -/
def shiftIn (n : Nat) (a : List G) (gram : G) : List G :=
  ((List.range' 1 (n - 1)).foldl (fun a i => a.set (i - 1) (a[i]?.getD dflt)) a).set (n - 1) gram

/-! ## Building (src/ngram/indexer.rs) -/

/-- `InnerMutableGramNode` (src/ngram/indexer.rs:10-15); `items` maps each child's `item` to it.
Simplification: `occurances: u32` is a `Nat`; theorems that depend on it assume fewer than 2^32 grams,
otherwise debug builds panic at src/ngram/indexer.rs:92 or 137. -/
inductive MNode (G : Type) where
  | mk (item : G) (occ : Nat) (items : List (MNode G))

namespace MNode
def item : MNode G → G
  | mk i _ _ => i
def occ : MNode G → Nat
  | mk _ o _ => o
def items : MNode G → List (MNode G)
  | mk _ _ l => l
end MNode

/-- `entry(gram).and_modify(|node| occurances += 1).or_insert_with(|| MutableGramNode::new(gram, 1))`
(src/ngram/indexer.rs:89-95, 99-108) on one map. -/
def bumpHere (f : List (MNode G)) (g : G) : List (MNode G) :=
  match f with
  | [] => [.mk g 1 []]
  | n :: rest => if n.item = g then .mk n.item (n.occ + 1) n.items :: rest else n :: bumpHere rest g

/-- Apply `upd` to the child map of the node with item `g`. -/
def modifyChild (f : List (MNode G)) (g : G) (upd : List (MNode G) → List (MNode G)) :
    List (MNode G) :=
  match f with
  | [] => []
  | n :: rest =>
    if n.item = g then .mk n.item n.occ (upd n.items) :: rest else n :: modifyChild rest g upd

/-- The update of `bumpHere` on the child map of the node reached by `path` from the root map.
An `Rc<RefCell<node>>` held in the queue is the path of that node: nodes are only ever created
under a fresh key, never moved, removed or shared. -/
def bumpAt : List G → List (MNode G) → G → List (MNode G)
  | [], f, g => bumpHere f g
  | h :: path, f, g => modifyChild f h (fun items => bumpAt path items g)

/-- The loop over the queue (src/ngram/indexer.rs:98-112): bump the child `gram` of every queued node
and replace the node by that child. -/
def advanceQueue (gram : G) : List (List G) → List (MNode G) → List (List G) × List (MNode G)
  | [], f => ([], f)
  | path :: rest, f =>
    let f := bumpAt path f gram
    let (queue, f) := advanceQueue gram rest f
    ((path ++ [gram]) :: queue, f)

/-- State of the loops of `index_from` (src/ngram/indexer.rs:80-131). -/
structure BuildState (G : Type) where
  root : List (MNode G)
  data : AMap (List G) (List Product)
  queue : List (List G)
  lookback : List G

/-- Body of `for gram in grams` (src/ngram/indexer.rs:87-131). -/
def buildGram (n : Nat) (p : Product) (st : BuildState G) (gram : G) : BuildState G :=
  let root := bumpHere st.root gram
  let (queue, root) := advanceQueue gram st.queue root
  let queue := [gram] :: queue
  let queue := if queue.length = n then queue.dropLast else queue
  let lookback := shiftIn n st.lookback gram
  { root, data := AMap.upsert st.data lookback (· ++ [p]) [p], queue, lookback }

/-- Body of `for IndexFeed { grams, data } in source_iter` (src/ngram/indexer.rs:82-132). -/
def buildFeed (n : Nat) (acc : List (MNode G) × AMap (List G) (List Product))
    (feed : List G × Product) : List (MNode G) × AMap (List G) (List Product) :=
  let st := feed.1.foldl (buildGram n feed.2)
    { root := acc.1, data := acc.2, queue := [], lookback := List.replicate n dflt }
  (st.root, st.data)

/-- `occurances_to_weight` (src/ngram/indexer.rs:17-20). -/
def occurancesToWeight (total this : Nat) : F32 := F32.div (F32.ofNat this) (F32.ofNat total)

/-- `immutalize` (src/ngram/indexer.rs:36-67). `path ++ [item]` identifies the node's hash table. The hash order
is applied to the list of finished children rather than before finishing them; as the order is
arbitrary this is the same set of behaviours. -/
def immutalize (o : HashOrd) (path : List G) (parentOcc : Nat) : MNode G → GramNode G
  | .mk item occ items =>
    let children := o.order (path ++ [item]) (items.attach.map fun ⟨c, _⟩ => immutalize o (path ++ [item]) occ c)
    let byOcc := stableSort (fun a b => (GramNode.cmp a b).swap != .gt) children
    .mk item (occurancesToWeight parentOcc occ) byOcc

/-- `DATA_CUTOFF_PERCENTAGE` and the cut-off (src/ngram/indexer.rs:22, 146-151) on the indexing machine
`t`. -/
def maximumProductAmount (t : Target) (productsAmount : Nat) : Nat :=
  (F32.mul (F32.ofNat productsAmount) F32.zeroPointEight).toUsize t.usizeBits

/-- `GramIndex::index_from` (src/ngram/indexer.rs:71-164). As in `immutalize`, the order of the table of roots is
applied to the finished entries. Model/Heap.lean has the same function with shared mutable nodes and 32-bit counters;
C86 says that both agree. -/
def indexFrom (t : Target) (o : HashOrd) (n : Nat) (feeds : List (List G × Product)) (c : Container) :
    GramIndex G :=
  let (root, data) := feeds.foldl (buildFeed n) ([], [])
  let total := (root.map (·.occ)).sum
  let roots := o.order "roots" (root.map fun m => (m.item, immutalize o [] total m))
  let limit := maximumProductAmount t c.products.length
  let data := data.filter fun e => decide (e.2.length < limit)
  let data := data.map fun e => (e.1, stableSort (fun a b : Product => decide (a.sid ≤ b.sid)) e.2)
  { roots, data, container := c }

/-! ## Ranking (src/ngram/result_ranker.rs) -/

/-- `ResultRanker` (src/ngram/result_ranker.rs:29-31): keyed by the product id (lines 13-19). -/
abbrev Ranker := AMap Str (Product × F32)

/-- `ResultRanker::add` (src/ngram/result_ranker.rs:34-43). -/
def Ranker.add (r : Ranker) (p : Product) (confidence : F32) : Ranker :=
  AMap.upsert r p.id (fun e => (e.1, F32.add e.2 confidence)) (p, confidence)

/-- `ResultRanker::export_data_by_confidence` (src/ngram/result_ranker.rs:45-53). -/
def Ranker.export (o : HashOrd) (r : Ranker) : List (Product × F32) :=
  stableSort (fun a b => (F32.cmpOrEq a.2 b.2).swap != .gt) ((o.order "results" r).map (·.2))

/-! ## Searching (src/ngram/index.rs) -/

/-- `most_popular_chain` (src/ngram/index.rs:72-80), the loop from a node. -/
def popularFrom : GramNode G → List G
  | .mk item _ [] => [item]
  | .mk item _ (c :: _) => item :: popularFrom c

/-- `most_popular_chain` (src/ngram/index.rs:72-80). -/
def GramIndex.mostPopularChain (ix : GramIndex G) (input : G) : List G :=
  match AMap.get ix.roots input with
  | none => []
  | some n => popularFrom n

/-- A found gram with its confidence. -/
abbrev Found (G : Type) := Option (List G × F32)

/-- The closure `best_result` (src/ngram/index.rs:154-162). -/
def bestResult (a b : Found G) : Found G :=
  match a, b with
  | some v, none => some v
  | none, some v => some v
  | none, none => none
  | some a, some b => some (if F32.lt b.2 a.2 then a else b)

/-- `a[i] = x` with bounds check. -/
def setChecked (a : List G) (i : Nat) (x : G) : Except Panic (List G) :=
  if i < a.length then .ok (a.set i x) else .error .indexOutOfBounds

/-- `a + 1` on `u8`. (Release builds wrap instead of panicking; `C48` shows it never happens.) -/
def succU8 (a : Nat) : Except Panic Nat :=
  if a + 1 < 256 then .ok (a + 1) else .error .overflow

/-- `for next_node in most_popular { .. }` (src/ngram/index.rs:203-232) given the two recursive calls. -/
def popularLoop (step : GramNode G → Except Panic (Found G × Found G)) :
    List (GramNode G) → Found G → Except Panic (Found G)
  | [], best => .ok best
  | c :: rest, best => do
    let (found, repeatFound) ← step c
    popularLoop step rest (bestResult (bestResult found repeatFound) best)

/-- `if let Some(node) = node { .. }` around one recursive call (src/ngram/index.rs:171, 236): `otherwise` is
what `most_likely` stays when there is no such node. -/
def ifNode (node : Option (GramNode G)) (otherwise : Found G) (f : GramNode G → Except Panic (Found G)) :
    Except Panic (Found G) :=
  match node with
  | none => .ok otherwise
  | some u => f u

/-- `recursive_search` (src/ngram/index.rs:135-259). An index beyond `N` (never reached) would loop in
the model, so `index ≥ N` is tested first and separately. -/
def recursiveSearch (n : Nat) (input : List G) (node : GramNode G) (previousNode : Option (GramNode G))
    (changes changesLimit : Nat) (weight : F32) (previousInput : List G) (index : Nat) :
    Except Panic (Found G) :=
  if index = n then .ok (some (previousInput, weight))
  else if index > n then .error .indexOutOfBounds
  else do
    let userEntered := input.head?.bind fun gram => AMap.get node.items gram
    let userEnteredGram := userEntered.map (·.item)
    let nextInput := input.tail
    let mostLikely ← ifNode userEntered none (fun u => do
        let previousInput ← setChecked previousInput index u.item
        let found ← recursiveSearch n nextInput u (some node) changes changesLimit
          (F32.mul weight u.weight) previousInput (index + 1)
        .ok (bestResult found none))
    if _hlim : changes < changesLimit then do
      let changes1 ← succU8 changes
      let mostLikely ← popularLoop (fun c => do
          let previousInput ← setChecked previousInput index c.item
          let found ← recursiveSearch n nextInput c (some node) (changes + 1) changesLimit
            (F32.mul weight c.weight) previousInput (index + 1)
          let _changes2 ← succU8 changes1
          let repeatFound ← recursiveSearch n input c (some node) (changes + 2) changesLimit
            (F32.mul weight c.weight) previousInput (index + 1)
          .ok (found, repeatFound))
        (node.byOcc.filter fun c => decide (some c.item ≠ userEnteredGram)) mostLikely
      ifNode (input.head?.bind (fun gram => previousNode.bind fun p => AMap.get p.items gram)) mostLikely
        (fun last => do
          let previousInput ← setChecked previousInput (index - 1) last.item
          let found ← recursiveSearch n nextInput last none (changes + 1) changesLimit
            weight previousInput index
          .ok (bestResult found mostLikely))
    else .ok mostLikely
  termination_by (changesLimit - changes, n - index)
  decreasing_by all_goals (first | (apply Prod.Lex.left; omega) | (apply Prod.Lex.right; omega))

/-- `search_gram` (src/ngram/index.rs:118-133). -/
def GramIndex.searchGram (ix : GramIndex G) (n : Nat) (query : List G) : Except Panic (Found G) :=
  match query with
  | [] => .ok none
  | q :: rest =>
    match AMap.get ix.roots q with
    | none => .ok none
    | some root =>
      let previous := (List.replicate n dflt).set 0 q
      if n / 3 < 256 then recursiveSearch n rest root none 0 (n / 3) F32.one previous 1
      else .error .unwrapNone

/-- Body of `for gram in input` of `search` (src/ngram/index.rs:85-101); state: ranker and window. -/
def GramIndex.searchStep (ix : GramIndex G) (n : Nat) (st : Ranker × List G) (gram : G) :
    Except Panic (Ranker × List G) := do
  let ngram := shiftIn n st.2 gram
  let r ← ix.searchGram n ngram
  match r with
  | none => .ok (st.1, ngram)
  | some (found, confidence) =>
    match AMap.get ix.data found with
    | none => .ok (st.1, ngram)
    | some data => .ok (data.foldl (fun r p => r.add p confidence) st.1, ngram)

/-- `search` (src/ngram/index.rs:82-103). -/
def GramIndex.search (o : HashOrd) (ix : GramIndex G) (n : Nat) (input : List G) :
    Except Panic (List (Product × F32)) := do
  let st ← input.foldlM (ix.searchStep n) (([] : Ranker), List.replicate n dflt)
  .ok (st.1.export o)

end Idx
