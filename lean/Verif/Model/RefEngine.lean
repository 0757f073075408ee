import Verif.Model.Arena
/-
The engine on references: what src/lib.rs and src/js_interactable/*.rs do once an index is loaded into the arenas, with every
`&GramNode`, `&Product` and `&ProductContainer` followed through the memory of `Model/Arena.lean`. Following a reference to
nothing is a panic here (in Rust it cannot be written). Beside it, the objects that JavaScript can hold and the calls it can
make on them, once on references and once on the values of `Model/Js.lean` and `Model/Engine.lean`.
Simplifications: observers do not call back (C87 does that); `free()` on objects is left out; objects are numbered in the order
in which they were handed out, a call with an object of the wrong class is refused (wasm_bindgen throws).
-/
namespace Idx

/-! ## Following references -/

/-- Following a `&GramNode`. -/
def Memory.followNode (m : Memory) (a : Nat) : Except Panic NodeCell :=
  match m.nodes[a]? with
  | some c => .ok c
  | none => .error .explicit

/-- Following a `&ProductContainer`. -/
def Memory.followContainer (m : Memory) (box : Nat) : Except Panic ContainerCell :=
  match m.boxes[box]? with
  | some (.container c) => .ok c
  | _ => .error .explicit

/-- Following a `&Product`. -/
def Memory.followProduct (m : Memory) (r : ProductRef) : Except Panic ProductCell :=
  match m.boxes[r.box]? with
  | some (.container c) =>
    match c.products[r.pos]? with
    | some p => .ok p
    | none => .error .explicit
  | _ => .error .explicit

/-- A product with its vendor read as well. -/
def Memory.readCell (m : Memory) (c : ProductCell) : Except Panic Product :=
  match m.cellProduct c with
  | some p => .ok p
  | none => .error .explicit

/-! ## Searching (src/ngram/index.rs) -/

/-- `ifNode` (src/ngram/index.rs:171, 236) on an optional reference. -/
def Memory.ifRef (m : Memory) (node : Option Nat) (otherwise : Found Char) (f : Nat → NodeCell → Except Panic (Found Char)) :
    Except Panic (Found Char) :=
  match node with
  | none => .ok otherwise
  | some a => do
    let c ← m.followNode a
    f a c

/-- `node.by_occurances.iter().filter(|potential| Some(potential.item) != user_entered_gram)` (src/ngram/index.rs:196-201). -/
def Memory.others (m : Memory) (gram : Option Char) : List Nat → Except Panic (List Nat)
  | [] => .ok []
  | a :: rest => do
    let c ← m.followNode a
    let rest ← m.others gram rest
    .ok (if some c.item ≠ gram then a :: rest else rest)

/-- `popularLoop` (src/ngram/index.rs:203-232) over references. -/
def Memory.refLoop (m : Memory) (step : Nat → NodeCell → Except Panic (Found Char × Found Char)) :
    List Nat → Found Char → Except Panic (Found Char)
  | [], best => .ok best
  | a :: rest, best => do
    let c ← m.followNode a
    let (found, repeatFound) ← step a c
    m.refLoop step rest (bestResult (bestResult found repeatFound) best)

/-- The item of an optional node. -/
def Memory.itemOf (m : Memory) : Option Nat → Except Panic (Option Char)
  | none => .ok none
  | some a => do
    let c ← m.followNode a
    .ok (some c.item)

/-- `previous_node.map(|node| node.items.get(current_input))` (src/ngram/index.rs:235-236). -/
def Memory.fromPrevious (m : Memory) (previous : Option Nat) (gram : Option Char) : Except Panic (Option Nat) :=
  match gram, previous with
  | some g, some p => do
    let c ← m.followNode p
    .ok (AMap.get c.items g)
  | _, _ => .ok none

/-- `recursive_search` (src/ngram/index.rs:135-259) on references. -/
def Memory.refSearch (m : Memory) (n : Nat) (input : List Char) (node : Nat) (previousNode : Option Nat)
    (changes changesLimit : Nat) (weight : F32) (previousInput : List Char) (index : Nat) :
    Except Panic (Found Char) :=
  if index = n then .ok (some (previousInput, weight))
  else if index > n then .error .indexOutOfBounds
  else do
    let cell ← m.followNode node
    let userEntered := input.head?.bind fun gram => AMap.get cell.items gram
    let userEnteredGram ← m.itemOf userEntered
    let nextInput := input.tail
    let mostLikely ← m.ifRef userEntered none (fun a u => do
        let previousInput ← setChecked previousInput index u.item
        let found ← m.refSearch n nextInput a (some node) changes changesLimit
          (F32.mul weight u.weight) previousInput (index + 1)
        .ok (bestResult found none))
    if _hlim : changes < changesLimit then do
      let changes1 ← succU8 changes
      let popular ← m.others userEnteredGram cell.byOcc
      let mostLikely ← m.refLoop (fun a c => do
          let previousInput ← setChecked previousInput index c.item
          let found ← m.refSearch n nextInput a (some node) (changes + 1) changesLimit
            (F32.mul weight c.weight) previousInput (index + 1)
          let _changes2 ← succU8 changes1
          let repeatFound ← m.refSearch n input a (some node) (changes + 2) changesLimit
            (F32.mul weight c.weight) previousInput (index + 1)
          .ok (found, repeatFound)) popular mostLikely
      let last ← m.fromPrevious previousNode input.head?
      m.ifRef last mostLikely (fun a last => do
          let previousInput ← setChecked previousInput (index - 1) last.item
          let found ← m.refSearch n nextInput a none (changes + 1) changesLimit
            weight previousInput index
          .ok (bestResult found mostLikely))
    else .ok mostLikely
  termination_by (changesLimit - changes, n - index)
  decreasing_by all_goals (first | (apply Prod.Lex.left; omega) | (apply Prod.Lex.right; omega))

/-- `search_gram` (src/ngram/index.rs:118-133). -/
def Memory.refSearchGram (m : Memory) (ix : IndexRef) (n : Nat) (query : List Char) : Except Panic (Found Char) :=
  match query with
  | [] => .ok none
  | q :: rest =>
    match AMap.get ix.roots q with
    | none => .ok none
    | some root =>
      let previous := (List.replicate n dflt).set 0 q
      if n / 3 < 256 then m.refSearch n rest root none 0 (n / 3) F32.one previous 1
      else .error .unwrapNone

/-- `ResultRanker` (src/ngram/result_ranker.rs:29-31): references and confidences by product id. -/
abbrev RefRanker := AMap Str (ProductRef × F32)

/-- `ResultRanker::add` (src/ngram/result_ranker.rs:34-43) for all products of one posting. -/
def Memory.rank (m : Memory) (confidence : F32) : List ProductRef → RefRanker → Except Panic RefRanker
  | [], r => .ok r
  | p :: rest, r => do
    let c ← m.followProduct p
    m.rank confidence rest (AMap.upsert r c.id (fun e => (e.1, F32.add e.2 confidence)) (p, confidence))

/-- Body of `for gram in input` of `search` (src/ngram/index.rs:85-101). -/
def Memory.refSearchStep (m : Memory) (ix : IndexRef) (n : Nat) (st : RefRanker × List Char) (gram : Char) :
    Except Panic (RefRanker × List Char) := do
  let ngram := shiftIn n st.2 gram
  let r ← m.refSearchGram ix n ngram
  match r with
  | none => .ok (st.1, ngram)
  | some (found, confidence) =>
    match AMap.get ix.data found with
    | none => .ok (st.1, ngram)
    | some data => do
      let ranker ← m.rank confidence data st.1
      .ok (ranker, ngram)

/-- `ResultRanker::export_data_by_confidence` (src/ngram/result_ranker.rs:45-53). -/
def RefRanker.export (o : HashOrd) (r : RefRanker) : List (ProductRef × F32) :=
  stableSort (fun a b => (F32.cmpOrEq a.2 b.2).swap != .gt) ((o.order "results" r).map (·.2))

/-- `search` (src/ngram/index.rs:82-103). -/
def Memory.searchRefs (m : Memory) (o : HashOrd) (ix : IndexRef) (n : Nat) (input : List Char) :
    Except Panic (List (ProductRef × F32)) := do
  let st ← input.foldlM (m.refSearchStep ix n) (([] : RefRanker), List.replicate n dflt)
  .ok (RefRanker.export o st.1)

/-! ## What JavaScript holds -/

/-- `CategoryHandler` (src/js_interactable/category_handler.rs:7-13). -/
structure RefCatHandler where
  handle : ClassicRef
  active : AMap (Nat × Nat) Unit
  general : List JsFn
  observers : AMap (Nat × Nat) (List JsFn)

/-- `TagHandler` (src/js_interactable/tag_handler.rs:8-14). -/
structure RefTagHandler where
  handle : ClassicRef
  active : AMap Nat Unit
  general : List JsFn
  observers : AMap Nat (List JsFn)

/-- What JavaScript can hold, with references: both handlers, `CategoryIter` (src/js_interactable/category_handler.rs:113-117),
`CategoryOptionIter` (132-137), `TagIter` (src/js_interactable/tag_handler.rs:108-112), `JSTag` (127-132), `ProductProducer`
(src/js_interactable/product_producer.rs:5-10), `JsProduct` (38-42). -/
inductive RefThing where
  | cats (h : RefCatHandler)
  | catIter (handle : ClassicRef) (index : Nat)
  | optIter (handle : ClassicRef) (category index : Nat)
  | tags (h : RefTagHandler)
  | tagIter (handle : ClassicRef) (index : Nat)
  | tag (handle : ClassicRef) (index : Nat)
  | producer (container : Nat) (toExport : List Nat) (index : Nat)
  | product (container : Nat) (sid : Nat)

/-- The same with values. -/
inductive Thing where
  | cats (h : CategoryHandler)
  | catIter (it : CategoryIter)
  | optIter (it : CategoryOptionIter)
  | tags (h : TagHandler)
  | tagIter (it : TagIter)
  | tag (t : JsTag)
  | producer (p : ProductProducer)
  | product (p : JsProduct)

/-- A call from JavaScript; objects are numbers. -/
inductive Ask where
  | «initialize» (file : Bytes)
  | search (input : Str) (cats tags : Nat) (order : Option Str) (filter : List (Str × JsValue))
  | getCategories
  | getTags
  | getOrders
  | suggest (query : Str)
  | catToggle (h : Nat) (item : ExportOption)
  | catStatus (h : Nat) (item : ExportOption)
  | catObserve (h : Nat) (f : JsFn)
  | catListen (h : Nat) (item : ExportOption) (f : JsFn)
  | catUnlisten (h : Nat) (item : ExportOption) (f : JsFn)
  | catIter (h : Nat)
  | nextCategory (it : Nat)
  | nextOption (it : Nat)
  | categoryName (it : Nat)
  | tagToggle (h tag : Nat)
  | tagStatus (h tag : Nat)
  | tagObserve (h : Nat) (f : JsFn)
  | tagListen (h tag : Nat) (f : JsFn)
  | tagUnlisten (h tag : Nat) (f : JsFn)
  | tagIter (h : Nat)
  | nextTag (it : Nat)
  | tagName (tag : Nat)
  | nextProduct (p : Nat)
  | title (p : Nat)
  | description (p : Nat)
  | productId (p : Nat)
  | numeric (p : Nat) (key : Str)
  | text (p : Nat) (key : Str)

/-- What JavaScript sees of a call. New objects are the next numbers. -/
inductive JsAnswer where
  | panic (w : Panic)
  /-- no such object, or one of another class -/
  | refused
  | none
  | done
  | made (thing : Nat)
  | flag (b : Bool)
  | calls (l : List Call)
  | str (s : Str)
  | strs (l : List Str)
  | num (x : JsNum)
  | item (e : ExportOption)
  | suggestion (tag : Nat) (input : Str)

/-- `None` or a text. -/
def JsAnswer.ofText : Option Str → JsAnswer
  | .none => .none
  | some s => .str s

/-- `None` or a number. -/
def JsAnswer.ofNum : Option JsNum → JsAnswer
  | .none => .none
  | some x => .num x

/-- A panic, or the answer made from the result. -/
def JsAnswer.of (f : α → JsAnswer) : Except Panic α → JsAnswer
  | .ok a => f a
  | .error w => .panic w

/-- `ExportCategoryOption`s by hand (src/js_interactable/category_handler.rs:141-155) on references. -/
def optionAt (handle : ClassicRef) (category index : Nat) : Option ExportOption :=
  match handle.categories[category]? with
  | none => none
  | some c =>
    match c.options[index]? with
    | none => none
    | some out => some { name := out.name, catId := category, optionId := index }

/-- `self.handle.tags.get(self.index).unwrap()` (src/js_interactable/tag_handler.rs:137, 143) on references. -/
def tagAt (handle : ClassicRef) (index : Nat) : Except Panic TagRef :=
  match handle.tags[index]? with
  | some x => .ok x
  | none => .error .unwrapNone

/-- `CategoryHandler::is_valid` (src/js_interactable/category_handler.rs:101-110). -/
def RefCatHandler.isValid (o : HashOrd) (h : RefCatHandler) (sid : Nat) : Except Panic Bool :=
  allActive (fun k => do
    let category ← indexChecked h.handle.categories k.1
    let option ← indexChecked category.options k.2
    .ok (decide (sid ∈ option.ids))) ((o.order "active categories" h.active).map (·.1))

/-- `TagHandler::is_valid` (src/js_interactable/tag_handler.rs:97-105). -/
def RefTagHandler.isValid (o : HashOrd) (h : RefTagHandler) (sid : Nat) : Except Panic Bool :=
  allActive (fun id =>
    match h.handle.tags[id]? with
    | some tag => .ok (decide (sid ∈ tag.ids))
    | none => .error .unwrapNone) ((o.order "active tags" h.active).map (·.1))

/-! ## The engine (src/lib.rs) -/

/-- The globals (src/lib.rs:29-34). -/
structure RefEngine where
  memory : Memory
  index : Slot IndexRef
  classic : Slot ClassicRef

/-- The globals at start-up. -/
def RefEngine.start : RefEngine := { memory := Memory.empty, index := ⟨.free, none⟩, classic := ⟨.free, none⟩ }

/-- `initialize` (src/lib.rs:48-61). -/
def RefEngine.initialize (t : Target) (e : RefEngine) (input : Bytes) : RefEngine × Except Panic Bool :=
  let r := e.memory.load t ngramIndexSize input
  let e := { e with memory := r.1 }
  match r.2 with
  | .none => (e, .error .unwrapNone)
  | .panic w => (e, .error w)
  | .ok (index, classic) =>
    match e.index.lockUnwrap with
    | .error w => (e, .error w)
    | .ok _ =>
      let e := { e with index := { e.index with value := some index } }
      match e.classic.lockUnwrap with
      | .error w => (e, .error w)
      | .ok _ => ({ e with classic := { e.classic with value := some classic } }, .ok true)

/-- The chained filters of `search` (src/lib.rs:77-88) on one product. -/
def Memory.keepRef (m : Memory) (o : HashOrd) (cats : RefCatHandler) (tags : RefTagHandler)
    (filters : List FeatureFilter) (features : FeatureSet) (r : ProductRef) : Except Panic Bool := do
  let c ← m.followProduct r
  if (← cats.isValid o c.sid) = false then .ok false
  else if (← tags.isValid o c.sid) = false then .ok false
  else do
    let p ← m.readCell c
    .ok (filters.all fun f => f.keeps features p)

/-- `.map(|p| p.serialization_id)` (src/lib.rs:90). -/
def Memory.sidsOf (m : Memory) : List ProductRef → Except Panic (List Nat)
  | [] => .ok []
  | r :: rest => do
    let c ← m.followProduct r
    let rest ← m.sidsOf rest
    .ok (c.sid :: rest)

/-- The ids found and filtered (src/lib.rs:76-90). -/
def Memory.refSearchIds (m : Memory) (o : HashOrd) (lower : Char → List Char) (index : IndexRef) (input : Str)
    (cats : RefCatHandler) (tags : RefTagHandler) (filters : List FeatureFilter) : Except Panic (List Nat) := do
  let container ← m.followContainer index.container
  let results ← m.searchRefs o index ngramIndexSize (input.flatMap lower)
  let kept ← filterE (m.keepRef o cats tags filters container.extra) (results.map (·.1))
  m.sidsOf kept

/-- `search` (src/lib.rs:63-100): the container and the ids of the producer. -/
def RefEngine.search (mode : PanicMode) (o : HashOrd) (lower : Char → List Char) (e : RefEngine)
    (input : Str) (cats : RefCatHandler) (tags : RefTagHandler) (order : Option Str)
    (filter : List (Str × JsValue)) : RefEngine × Except Panic (Option (Nat × List Nat)) :=
  match parseFilters filter with
  | none => (e, .ok none)
  | some filters =>
    match e.index.lockOk with
    | .error w => (e, .error w)
    | .ok none => (e, .ok none)
    | .ok (some index) =>
      match e.memory.refSearchIds o lower index input cats tags filters with
      | .error w => ({ e with index := e.index.panicked mode }, .error w)
      | .ok ids =>
        match order with
        | none => (e, .ok (some (index.container, ids)))
        | some name =>
          match e.classic.lockOk with
          | .error w => ({ e with index := e.index.panicked mode }, .error w)
          | .ok none => (e, .ok none)
          | .ok (some classic) =>
            match classic.order.getOrders name with
            | none => (e, .ok none)
            | some ranks =>
              match sortByOrder ranks ids with
              | .error w =>
                ({ e with index := e.index.panicked mode, classic := e.classic.panicked mode }, .error w)
              | .ok ids => (e, .ok (some (index.container, ids)))

/-- Body of the inner loop of `tag_suggestion` (src/lib.rs:174-183). -/
def refSuggestStep (keyword : Str) (best : Likely) (tag : TagRef) : Likely :=
  let ov := overlap tag.name keyword 3
  if F32.lt F32.zeroPointEight ov then
    match best with
    | some (current, _, _) => if F32.lt current ov then some (ov, tag.id, keyword) else best
    | none => some (ov, tag.id, keyword)
  else best

/-- The double loop of `tag_suggestion` (src/lib.rs:171-185). -/
def refSuggestLoop (tags : List TagRef) (query : Str) : Likely :=
  (splitSpaces query).foldl (fun best keyword => tags.foldl (refSuggestStep keyword) best) none

/-! ## All calls -/

/-- The process: the globals and the objects handed out so far. -/
structure World (E O : Type) where
  engine : E
  things : List O

/-- One more object. -/
def World.hand {E O : Type} (w : World E O) (o : O) : World E O × JsAnswer :=
  ({ w with things := w.things ++ [o] }, .made w.things.length)

/-- An object changed by a method with `&mut self`. -/
def World.put {E O : Type} (w : World E O) (i : Nat) (o : O) : World E O := { w with things := w.things.set i o }

/-- An object made if there is one. -/
def World.handSome {E O : Type} (w : World E O) : Except Panic (Option O) → World E O × JsAnswer
  | .error p => (w, .panic p)
  | .ok none => (w, .none)
  | .ok (some o) => w.hand o

/-- `initialize` and what follows on references (src/lib.rs:48-191, src/js_interactable/*.rs). -/
def RefEngine.step (t : Target) (mode : PanicMode) (lower : Char → List Char) (o : HashOrd)
    (w : World RefEngine RefThing) (ask : Ask) : World RefEngine RefThing × JsAnswer :=
  match ask with
  | .initialize file =>
    let r := w.engine.initialize t file
    ({ w with engine := r.1 }, JsAnswer.of JsAnswer.flag r.2)
  | .search input cats tags order filter =>
    match w.things[cats]?, w.things[tags]? with
    | some (.cats c), some (.tags g) =>
      let r := w.engine.search mode o lower input c g order filter
      World.handSome { w with engine := r.1 } (r.2.map fun x => x.map fun x => .producer x.1 x.2 0)
    | _, _ => (w, .refused)
  | .getCategories => w.handSome (w.engine.classic.lockUnwrap.map fun c => c.map fun c => .cats ⟨c, [], [], []⟩)
  | .getTags => w.handSome (w.engine.classic.lockUnwrap.map fun c => c.map fun c => .tags ⟨c, [], [], []⟩)
  | .getOrders =>
    (w, JsAnswer.of (fun c => match c with
      | none => .none
      | some c => .strs (c.order.options o)) w.engine.classic.lockOk)
  | .suggest query =>
    match w.engine.classic.lockUnwrap with
    | .error p => (w, .panic p)
    | .ok none => (w, .none)
    | .ok (some c) =>
      match refSuggestLoop c.tags query with
      | none => (w, .none)
      | some l => ((w.hand (.tag c l.2.1)).1, .suggestion w.things.length l.2.2)
  | .catToggle h item =>
    match w.things[h]? with
    | some (.cats c) =>
      let r := toggleEntry c.active item.keys
      (w.put h (.cats { c with active := r.1 }), .calls (notify c.observers c.general item.keys r.2))
    | _ => (w, .refused)
  | .catStatus h item =>
    match w.things[h]? with
    | some (.cats c) => (w, .flag (AMap.get c.active item.keys).isSome)
    | _ => (w, .refused)
  | .catObserve h f =>
    match w.things[h]? with
    | some (.cats c) => (w.put h (.cats { c with general := c.general ++ [f] }), .done)
    | _ => (w, .refused)
  | .catListen h item f =>
    match w.things[h]? with
    | some (.cats c) => (w.put h (.cats { c with observers := addObserver c.observers item.keys f }), .done)
    | _ => (w, .refused)
  | .catUnlisten h item f =>
    match w.things[h]? with
    | some (.cats c) => (w.put h (.cats { c with observers := removeObserver c.observers item.keys f }), .done)
    | _ => (w, .refused)
  | .catIter h =>
    match w.things[h]? with
    | some (.cats c) => w.hand (.catIter c.handle 0)
    | _ => (w, .refused)
  | .nextCategory it =>
    match w.things[it]? with
    | some (.catIter handle index) =>
      match handle.categories[index]? with
      | none => (w, .none)
      | some _ => (w.put it (.catIter handle (index + 1))).hand (.optIter handle (index + 1 - 1) 0)
    | _ => (w, .refused)
  | .nextOption it =>
    match w.things[it]? with
    | some (.optIter handle category index) =>
      match optionAt handle category index with
      | none => (w, .none)
      | some e => (w.put it (.optIter handle category (index + 1)), .item e)
    | _ => (w, .refused)
  | .categoryName it =>
    match w.things[it]? with
    | some (.optIter handle category _) =>
      (w, JsAnswer.of (fun c : CategoryRef => .str c.name) (indexChecked handle.categories category))
    | _ => (w, .refused)
  | .tagToggle h tag =>
    match w.things[h]?, w.things[tag]? with
    | some (.tags g), some (.tag handle index) =>
      match tagAt handle index with
      | .error p => (w, .panic p)
      | .ok x =>
        let r := toggleEntry g.active x.id
        (w.put h (.tags { g with active := r.1 }), .calls (notify g.observers g.general x.id r.2))
    | _, _ => (w, .refused)
  | .tagStatus h tag =>
    match w.things[h]?, w.things[tag]? with
    | some (.tags g), some (.tag _ index) => (w, .flag (AMap.get g.active index).isSome)
    | _, _ => (w, .refused)
  | .tagObserve h f =>
    match w.things[h]? with
    | some (.tags g) => (w.put h (.tags { g with general := g.general ++ [f] }), .done)
    | _ => (w, .refused)
  | .tagListen h tag f =>
    match w.things[h]?, w.things[tag]? with
    | some (.tags g), some (.tag handle index) =>
      match tagAt handle index with
      | .error p => (w, .panic p)
      | .ok x => (w.put h (.tags { g with observers := addObserver g.observers x.id f }), .done)
    | _, _ => (w, .refused)
  | .tagUnlisten h tag f =>
    match w.things[h]?, w.things[tag]? with
    | some (.tags g), some (.tag handle index) =>
      match tagAt handle index with
      | .error p => (w, .panic p)
      | .ok x => (w.put h (.tags { g with observers := removeObserver g.observers x.id f }), .done)
    | _, _ => (w, .refused)
  | .tagIter h =>
    match w.things[h]? with
    | some (.tags g) => w.hand (.tagIter g.handle 0)
    | _ => (w, .refused)
  | .nextTag it =>
    match w.things[it]? with
    | some (.tagIter handle index) =>
      match handle.tags[index]? with
      | none => (w, .none)
      | some _ => (w.put it (.tagIter handle (index + 1))).hand (.tag handle index)
    | _ => (w, .refused)
  | .tagName tag =>
    match w.things[tag]? with
    | some (.tag handle index) => (w, JsAnswer.of (fun x : TagRef => .str x.name) (tagAt handle index))
    | _ => (w, .refused)
  | .nextProduct p =>
    match w.things[p]? with
    | some (.producer container toExport index) =>
      match toExport[index]? with
      | none => (w, .none)
      | some id =>
        match w.engine.memory.followContainer container with
        | .error x => (w, .panic x)
        | .ok c =>
          match c.products[id]? with
          | none => (w, .none)
          | some _ => (w.put p (.producer container toExport (index + 1))).hand (.product container id)
    | _ => (w, .refused)
  | .title p =>
    match w.things[p]? with
    | some (.product container sid) => (w, JsAnswer.of (fun c : ProductCell => .str c.title) (do
        indexChecked (← w.engine.memory.followContainer container).products sid))
    | _ => (w, .refused)
  | .description p =>
    match w.things[p]? with
    | some (.product container sid) => (w, JsAnswer.of (fun c : ProductCell => .str c.description) (do
        indexChecked (← w.engine.memory.followContainer container).products sid))
    | _ => (w, .refused)
  | .productId p =>
    match w.things[p]? with
    | some (.product container sid) => (w, JsAnswer.of (fun c : ProductCell => .str c.id) (do
        indexChecked (← w.engine.memory.followContainer container).products sid))
    | _ => (w, .refused)
  | .numeric p key =>
    match w.things[p]? with
    | some (.product container sid) => (w, JsAnswer.of JsAnswer.ofNum (do
        let c ← w.engine.memory.followContainer container
        let p ← w.engine.memory.readCell (← indexChecked c.products sid)
        .ok (match FeatureSet.get c.extra p key with
          | some (.float f) => some (jsNumOfF32 f)
          | some (.integer i) => some (jsNumOfNat i.toNat)
          | some (.string _) => none
          | none => none)))
    | _ => (w, .refused)
  | .text p key =>
    match w.things[p]? with
    | some (.product container sid) => (w, JsAnswer.of JsAnswer.ofText (do
        let c ← w.engine.memory.followContainer container
        let p ← w.engine.memory.readCell (← indexChecked c.products sid)
        .ok (match FeatureSet.get c.extra p key with
          | some (.string s) => some s
          | _ => none)))
    | _ => (w, .refused)

/-- The same calls on values: every call is the function of `Model/Js.lean` or `Model/Engine.lean`. -/
def Engine.step (t : Target) (mode : PanicMode) (lower : Char → List Char) (o : HashOrd)
    (w : World Engine Thing) (ask : Ask) : World Engine Thing × JsAnswer :=
  match ask with
  | .initialize file =>
    let r := w.engine.initialize t file
    ({ w with engine := r.1 }, JsAnswer.of JsAnswer.flag r.2)
  | .search input cats tags order filter =>
    match w.things[cats]?, w.things[tags]? with
    | some (.cats c), some (.tags g) =>
      let r := w.engine.search mode o lower input c g order filter
      World.handSome { w with engine := r.1 } (r.2.map fun x => x.map .producer)
    | _, _ => (w, .refused)
  | .getCategories => w.handSome (w.engine.getCategories.map fun c => c.map .cats)
  | .getTags => w.handSome (w.engine.getTags.map fun c => c.map .tags)
  | .getOrders => (w, JsAnswer.of (fun c => match c with
      | none => .none
      | some l => .strs l) (w.engine.getOrders o))
  | .suggest query =>
    match w.engine.tagSuggestion query with
    | .error p => (w, .panic p)
    | .ok none => (w, .none)
    | .ok (some s) => ((w.hand (.tag s.tag)).1, .suggestion w.things.length s.input)
  | .catToggle h item =>
    match w.things[h]? with
    | some (.cats c) => (w.put h (.cats (c.toggle item).1), .calls (c.toggle item).2)
    | _ => (w, .refused)
  | .catStatus h item =>
    match w.things[h]? with
    | some (.cats c) => (w, .flag (c.getStatus item))
    | _ => (w, .refused)
  | .catObserve h f =>
    match w.things[h]? with
    | some (.cats c) => (w.put h (.cats (c.addGeneral f)), .done)
    | _ => (w, .refused)
  | .catListen h item f =>
    match w.things[h]? with
    | some (.cats c) => (w.put h (.cats (c.addOptionListener item f)), .done)
    | _ => (w, .refused)
  | .catUnlisten h item f =>
    match w.things[h]? with
    | some (.cats c) => (w.put h (.cats (c.removeOptionListener item f)), .done)
    | _ => (w, .refused)
  | .catIter h =>
    match w.things[h]? with
    | some (.cats c) => w.hand (.catIter c.iter)
    | _ => (w, .refused)
  | .nextCategory it =>
    match w.things[it]? with
    | some (.catIter i) => (w.put it (.catIter i.nextItem.1)).handSome (.ok (i.nextItem.2.map .optIter))
    | _ => (w, .refused)
  | .nextOption it =>
    match w.things[it]? with
    | some (.optIter i) => (w.put it (.optIter i.nextItem.1),
        match i.nextItem.2 with
        | none => .none
        | some e => .item e)
    | _ => (w, .refused)
  | .categoryName it =>
    match w.things[it]? with
    | some (.optIter i) => (w, JsAnswer.of JsAnswer.str i.name)
    | _ => (w, .refused)
  | .tagToggle h tag =>
    match w.things[h]?, w.things[tag]? with
    | some (.tags g), some (.tag x) =>
      match g.toggle x with
      | .error p => (w, .panic p)
      | .ok r => (w.put h (.tags r.1), .calls r.2)
    | _, _ => (w, .refused)
  | .tagStatus h tag =>
    match w.things[h]?, w.things[tag]? with
    | some (.tags g), some (.tag x) => (w, .flag (g.getStatus x))
    | _, _ => (w, .refused)
  | .tagObserve h f =>
    match w.things[h]? with
    | some (.tags g) => (w.put h (.tags (g.addGeneral f)), .done)
    | _ => (w, .refused)
  | .tagListen h tag f =>
    match w.things[h]?, w.things[tag]? with
    | some (.tags g), some (.tag x) =>
      match g.addTagListener x f with
      | .error p => (w, .panic p)
      | .ok g => (w.put h (.tags g), .done)
    | _, _ => (w, .refused)
  | .tagUnlisten h tag f =>
    match w.things[h]?, w.things[tag]? with
    | some (.tags g), some (.tag x) =>
      match g.removeTagListener x f with
      | .error p => (w, .panic p)
      | .ok g => (w.put h (.tags g), .done)
    | _, _ => (w, .refused)
  | .tagIter h =>
    match w.things[h]? with
    | some (.tags g) => w.hand (.tagIter g.tags)
    | _ => (w, .refused)
  | .nextTag it =>
    match w.things[it]? with
    | some (.tagIter i) => (w.put it (.tagIter i.nextTag.1)).handSome (.ok (i.nextTag.2.map .tag))
    | _ => (w, .refused)
  | .tagName tag =>
    match w.things[tag]? with
    | some (.tag x) => (w, JsAnswer.of JsAnswer.str x.getName)
    | _ => (w, .refused)
  | .nextProduct p =>
    match w.things[p]? with
    | some (.producer i) => (w.put p (.producer i.nextProduct.1)).handSome (.ok (i.nextProduct.2.map .product))
    | _ => (w, .refused)
  | .title p =>
    match w.things[p]? with
    | some (.product j) => (w, JsAnswer.of JsAnswer.str j.getTitle)
    | _ => (w, .refused)
  | .description p =>
    match w.things[p]? with
    | some (.product j) => (w, JsAnswer.of JsAnswer.str j.getDescription)
    | _ => (w, .refused)
  | .productId p =>
    match w.things[p]? with
    | some (.product j) => (w, JsAnswer.of JsAnswer.str j.getId)
    | _ => (w, .refused)
  | .numeric p key =>
    match w.things[p]? with
    | some (.product j) => (w, JsAnswer.of JsAnswer.ofNum (j.numericFeature key))
    | _ => (w, .refused)
  | .text p key =>
    match w.things[p]? with
    | some (.product j) => (w, JsAnswer.of JsAnswer.ofText (j.stringFeature key))
    | _ => (w, .refused)

/-- One call after the other, each with its own iteration orders of the hash tables: the answers. -/
def runSteps {W : Type} (step : HashOrd → W → Ask → W × JsAnswer) : W → List (HashOrd × Ask) → W × List JsAnswer
  | w, [] => (w, [])
  | w, (o, a) :: rest =>
    let r := step o w a
    let s := runSteps step r.1 rest
    (s.1, r.2 :: s.2)

end Idx
