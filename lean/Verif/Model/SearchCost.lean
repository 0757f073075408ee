import Verif.Model.Engine
import Verif.Model.Cost

/-! A call of `search` again, counting its steps: calls of `recursive_search`, characters moved in the window, table
accesses, ids added to the table of results, entries drained from it, selections and filters looked at, keys of the
order, and comparisons while sorting, of which `cmps k` are made for `k` entries. Copying the `N` characters of a call of
`recursive_search` belongs to that call. `Props/SearchCost.lean` shows that without the count this is `search`. -/

namespace Idx
variable {G : Type} [DecidableEq G] [RDefault G]

/-- Body of `for gram in input` of `search` (src/ngram/index.rs:85-101) with the steps so far: `N` characters moved, the calls, one access
to the posting lists if an n-gram is found and one step for each product added. -/
def GramIndex.searchStepW (ix : GramIndex G) (n : Nat) (st : (Ranker × List G) × Nat) (gram : G) :
    Except Panic ((Ranker × List G) × Nat) := do
  let ngram := shiftIn n st.1.2 gram
  let (r, k) ← ix.searchGramN n ngram
  match r with
  | none => .ok ((st.1.1, ngram), st.2 + n + k)
  | some (found, confidence) =>
    match AMap.get ix.data found with
    | none => .ok ((st.1.1, ngram), st.2 + n + k + 1)
    | some data => .ok ((data.foldl (fun r p => r.add p confidence) st.1.1, ngram), st.2 + n + k + 1 + data.length)

/-- `search` of the n-gram index (src/ngram/index.rs:82-103, src/ngram/result_ranker.rs:45-53) with its steps. -/
def GramIndex.searchW (cmps : Nat → Nat) (o : HashOrd) (ix : GramIndex G) (n : Nat) (input : List G) :
    Except Panic (List (Product × F32) × Nat) := do
  let st ← input.foldlM (ix.searchStepW n) ((([] : Ranker), List.replicate n dflt), 0)
  .ok (st.1.1.export o, st.2 + st.1.1.length + cmps st.1.1.length)

/-- `for .. in self.active.keys() { .. return false }` with the keys looked at. -/
def allActiveW {K : Type} (contains : K → Except Panic Bool) : List K → Except Panic (Bool × Nat)
  | [] => .ok (true, 0)
  | k :: ks => do
    let b ← contains k
    if b = false then .ok (false, 1) else do
      let (r, n) ← allActiveW contains ks
      .ok (r, n + 1)

/-- `CategoryHandler::is_valid` (src/js_interactable/category_handler.rs:101-110) with its steps. -/
def CategoryHandler.isValidW (o : HashOrd) (h : CategoryHandler) (p : Product) : Except Panic (Bool × Nat) :=
  allActiveW (fun k => do
    let category ← indexChecked h.handle.categories k.1
    let option ← indexChecked category.options k.2
    .ok (option.contains p)) ((o.order "active categories" h.active).map (·.1))

/-- `TagHandler::is_valid` (src/js_interactable/tag_handler.rs:97-105) with its steps. -/
def TagHandler.isValidW (o : HashOrd) (h : TagHandler) (p : Product) : Except Panic (Bool × Nat) :=
  allActiveW (fun id =>
    match h.handle.tags[id]? with
    | some tag => .ok (tag.contains p)
    | none => .error .unwrapNone) ((o.order "active tags" h.active).map (·.1))

/-- The chained filters of src/lib.rs:86-88 on one product with the filters that looked at it. -/
def keepsW (features : FeatureSet) (p : Product) : List FeatureFilter → Bool × Nat
  | [] => (true, 0)
  | f :: rest =>
    if f.keeps features p then
      let r := keepsW features p rest
      (r.1, r.2 + 1)
    else (false, 1)

/-- The chained filters of `search` (src/lib.rs:77-88) on one product with their steps. -/
def keepProductW (o : HashOrd) (cats : CategoryHandler) (tags : TagHandler)
    (filters : List FeatureFilter) (features : FeatureSet) (p : Product) : Except Panic (Bool × Nat) := do
  let (inCategories, k) ← cats.isValidW o p
  if inCategories = false then .ok (false, k)
  else do
    let (inTags, k') ← tags.isValidW o p
    if inTags = false then .ok (false, k + k')
    else
      let r := keepsW features p filters
      .ok (r.1, k + k' + r.2)

/-- `iter.filter(..).collect()` with the steps of the predicate and one for each item. -/
def filterW (p : α → Except Panic (Bool × Nat)) : List α → Except Panic (List α × Nat)
  | [] => .ok ([], 0)
  | a :: as => do
    let (keep, k) ← p a
    let (rest, k') ← filterW p as
    .ok (if keep then a :: rest else rest, 1 + k + k')

/-- The ids found and filtered (src/lib.rs:76-90) with their steps. -/
def searchIdsW (cmps : Nat → Nat) (o : HashOrd) (lower : Char → List Char) (index : GramIndex Char) (input : Str)
    (cats : CategoryHandler) (tags : TagHandler) (filters : List FeatureFilter) : Except Panic (List Nat × Nat) := do
  let (results, k) ← index.searchW cmps o ngramIndexSize (input.flatMap lower)
  let (kept, k') ← filterW (keepProductW o cats tags filters index.container.extra) (results.map (·.1))
  .ok (kept.map (·.sid), k + k')

/-- `results.sort_by_cached_key(|v| order[*v])` (src/lib.rs:96): a key for each id, and the comparisons. -/
def sortByOrderW (cmps : Nat → Nat) (order : List Nat) (results : List Nat) : Except Panic (List Nat × Nat) :=
  if results.length < 2 then .ok (results, 0)
  else do
    let keyed ← orderKeys order results
    .ok ((stableSort (fun a b => decide (a.1 ≤ b.1)) keyed).map (·.2), results.length + cmps results.length)

/-- `search` (src/lib.rs:63-100) with the steps of a call that returns: one for each entry of the filter object as well. -/
def Engine.searchW (cmps : Nat → Nat) (mode : PanicMode) (o : HashOrd) (lower : Char → List Char) (e : Engine)
    (input : Str) (cats : CategoryHandler) (tags : TagHandler) (order : Option Str)
    (filter : List (Str × JsValue)) : Engine × Except Panic (Option ProductProducer × Nat) :=
  match parseFilters filter with
  | none => (e, .ok (none, filter.length))
  | some filters =>
    match e.index.lockOk with
    | .error w => (e, .error w)
    | .ok none => (e, .ok (none, filter.length))
    | .ok (some index) =>
      match searchIdsW cmps o lower index input cats tags filters with
      | .error w => ({ e with index := e.index.panicked mode }, .error w)
      | .ok (ids, k) =>
        match order with
        | none => (e, .ok (some (ProductProducer.new index.container ids), filter.length + k))
        | some name =>
          match e.classic.lockOk with
          | .error w => ({ e with index := e.index.panicked mode }, .error w)
          | .ok none => (e, .ok (none, filter.length + k))
          | .ok (some classic) =>
            match classic.order.getOrders name with
            | none => (e, .ok (none, filter.length + k + 1))
            | some ranks =>
              match sortByOrderW cmps ranks ids with
              | .error w =>
                ({ index := e.index.panicked mode, classic := e.classic.panicked mode }, .error w)
              | .ok (ids, k') => (e, .ok (some (ProductProducer.new index.container ids), filter.length + k + 1 + k'))

end Idx
