import Verif.Model.NGram
/-
`GramIndex::index_from` (src/ngram/indexer.rs) as it is written: nodes are shared through `Rc<RefCell<..>>`, every
access goes through a dynamic borrow check, counters are `u32`. `Model/NGram.lean` has the same function on plain trees
with unbounded counters; C86 says when the two agree and what happens otherwise.
-/
namespace Idx
variable {G : Type} [DecidableEq G] [RDefault G]

/-- Why the builder stops. -/
inductive HeapPanic where
  /-- a `u32` addition overflows (builds with overflow checks) -/
  | overflow
  /-- `borrow_mut` of a cell that is mutably borrowed -/
  | borrowed
  /-- an address without a cell; no Rust program does this -/
  | dangling
  /-- more nested `immutalize` calls than there are cells, as on a cyclic structure -/
  | cyclic
  deriving DecidableEq, Repr

/-- `InnerMutableGramNode` (src/ngram/indexer.rs:10-15); children are addresses (`Rc`). -/
structure Cell (G : Type) where
  item : G
  occ : Nat
  items : AMap G Nat

/-- All cells allocated by `MutableGramNode::new` (src/ngram/indexer.rs:28-34); an `Rc` is the position of its cell. -/
abbrev Heap (G : Type) := List (Cell G)

/-- `a + b` on `u32`. -/
def addU32 (t : Target) (a b : Nat) : Except HeapPanic Nat :=
  if a + b < 2 ^ 32 then .ok (a + b)
  else if t.overflowChecks then .error .overflow
  else .ok ((a + b) % 2 ^ 32)

/-- `rc.0.borrow_mut()` while the cell `held` is mutably borrowed. -/
def borrowMut (held : Option Nat) (h : Heap G) (a : Nat) : Except HeapPanic (Cell G) :=
  if held = some a then .error .borrowed
  else
    match h[a]? with
    | some c => .ok c
    | none => .error .dangling

/-- `map.entry(gram).and_modify(|node| node.0.borrow_mut().occurances += 1).or_insert_with(|| new(gram, 1)).clone()`
(src/ngram/indexer.rs:89-95 with no other borrow, 99-108 while the owner of the map is borrowed): the cells, the map, and
the node. -/
def entryIn (t : Target) (held : Option Nat) (h : Heap G) (m : AMap G Nat) (gram : G) :
    Except HeapPanic (Heap G × AMap G Nat × Nat) :=
  match AMap.get m gram with
  | some a => do
    let c ← borrowMut held h a
    let occ ← addU32 t c.occ 1
    .ok (h.set a { c with occ }, m, a)
  | none => .ok (h ++ [{ item := gram, occ := 1, items := [] }], AMap.insert m gram h.length, h.length)

/-- Body of `for gram_node in &mut queue` (src/ngram/indexer.rs:98-112) on the node at `a`: the new node and the cells. The
map is part of the cell borrowed for the whole statement, and is written back. -/
def advanceCell (t : Target) (gram : G) (h : Heap G) (a : Nat) : Except HeapPanic (Nat × Heap G) := do
  let c ← borrowMut none h a
  let (h, items, child) ← entryIn t (some a) h c.items gram
  .ok (child, h.set a { c with items })

/-- `for gram_node in &mut queue` (src/ngram/indexer.rs:98-112). -/
def heapAdvance (t : Target) (gram : G) : List Nat → Heap G → Except HeapPanic (List Nat × Heap G)
  | [], h => .ok ([], h)
  | a :: rest, h => do
    let (child, h) ← advanceCell t gram h a
    let (queue, h) ← heapAdvance t gram rest h
    .ok (child :: queue, h)

/-- State of the loops of `index_from` (src/ngram/indexer.rs:80-131). -/
structure HeapState (G : Type) where
  heap : Heap G
  root : AMap G Nat
  data : AMap (List G) (List Product)
  queue : List Nat
  lookback : List G

/-- Body of `for gram in grams` (src/ngram/indexer.rs:87-131). -/
def heapGram (t : Target) (n : Nat) (p : Product) (st : HeapState G) (gram : G) : Except HeapPanic (HeapState G) := do
  let (heap, root, node) ← entryIn t none st.heap st.root gram
  let (queue, heap) ← heapAdvance t gram st.queue heap
  let queue := node :: queue
  let queue := if queue.length = n then queue.dropLast else queue
  let lookback := shiftIn n st.lookback gram
  .ok { heap, root, data := AMap.upsert st.data lookback (· ++ [p]) [p], queue, lookback }

/-- Body of `for IndexFeed { grams, data } in source_iter` (src/ngram/indexer.rs:82-132). -/
def heapFeed (t : Target) (n : Nat) (acc : Heap G × AMap G Nat × AMap (List G) (List Product))
    (feed : List G × Product) : Except HeapPanic (Heap G × AMap G Nat × AMap (List G) (List Product)) := do
  let st ← feed.1.foldlM (heapGram t n feed.2)
    { heap := acc.1, root := acc.2.1, data := acc.2.2, queue := [], lookback := List.replicate n dflt }
  .ok (st.heap, st.root, st.data)

/-- `v.0.borrow()` (nothing is mutably borrowed any more). -/
def cellAt (h : Heap G) (a : Nat) : Except HeapPanic (Cell G) :=
  match h[a]? with
  | some c => .ok c
  | none => .error .dangling

/-- `.reduce(|a, b| a + b).unwrap_or(0)` on `u32` (src/ngram/indexer.rs:137-138). -/
def sumU32 (t : Target) : List Nat → Except HeapPanic Nat
  | [] => .ok 0
  | a :: rest => rest.foldlM (addU32 t) a

/-- `immutalize` (src/ngram/indexer.rs:36-67) on the node at `a`, with room for `depth` nested calls; the hash order as in
Model/NGram.lean. -/
def immutalizeIn (o : HashOrd) (h : Heap G) (path : List G) (parentOcc : Nat) : Nat → Nat → Except HeapPanic (GramNode G)
  | 0, _ => .error .cyclic
  | depth + 1, a => do
    let me ← cellAt h a
    let children ← me.items.mapM fun e => immutalizeIn o h (path ++ [me.item]) me.occ depth e.2
    let children := o.order (path ++ [me.item]) children
    let byOcc := stableSort (fun a b => (GramNode.cmp a b).swap != .gt) children
    .ok (.mk me.item (occurancesToWeight parentOcc me.occ) byOcc)

/-- `GramIndex::index_from` (src/ngram/indexer.rs:71-164). -/
def heapIndexFrom (t : Target) (o : HashOrd) (n : Nat) (feeds : List (List G × Product)) (c : Container) :
    Except HeapPanic (GramIndex G) := do
  let (heap, root, data) ← feeds.foldlM (heapFeed t n) ([], [], [])
  let occs ← (o.order "occurances" root).mapM fun e => (cellAt heap e.2).map (·.occ)
  let total ← sumU32 t occs
  let roots ← root.mapM fun e => (immutalizeIn o heap [] total heap.length e.2).map fun node => (e.1, node)
  let roots := o.order "roots" roots
  let limit := maximumProductAmount t c.products.length
  let data := data.filter fun e => decide (e.2.length < limit)
  let data := data.map fun e => (e.1, stableSort (fun a b : Product => decide (a.sid ≤ b.sid)) e.2)
  .ok { roots, data, container := c }

end Idx
