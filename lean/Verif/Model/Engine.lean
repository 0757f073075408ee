import Verif.Model.Js
/-
Model of src/lib.rs: the two global mutexes, initialise, search, suggestions.
`lower` is `char::to_lowercase`. Arcs are the values they point to.
-/
namespace Idx

/-- `NGRAM_INDEX_SIZE` (src/lib.rs:26). -/
def ngramIndexSize : Nat := 5

/-- What a panic does to a mutex held by the panicking call. -/
inductive PanicMode where
  /-- native build: unwinding drops the guard and poisons the mutex -/
  | unwind
  /-- wasm32-unknown-unknown: the instance traps, the guard is never dropped -/
  | trap
  deriving DecidableEq, Repr

/-- State of a mutex that no running call holds. -/
inductive MutexState where
  | free
  /-- `lock()` returns `Err` -/
  | poisoned
  /-- left locked by a trapped call; the wasm32 (single-threaded) `lock()` panics -/
  | stuck
  deriving DecidableEq, Repr

/-- `Mutex<Option<Arc<T>>>` (src/lib.rs:30-31) between calls. -/
structure Slot (α : Type) where
  state : MutexState
  value : Option α

/-- The globals (src/lib.rs:29-34) without the arenas. -/
structure Engine where
  index : Slot (GramIndex Char)
  classic : Slot Classic

/-- The globals at start-up (src/lib.rs:30-31). -/
def Engine.start : Engine := { index := ⟨.free, none⟩, classic := ⟨.free, none⟩ }

/-- `lock().unwrap()`, then the content. -/
def Slot.lockUnwrap (s : Slot α) : Except Panic (Option α) :=
  match s.state with
  | .free => .ok s.value
  | .poisoned => .error .unwrapNone
  | .stuck => .error .explicit

/-- `lock().ok()?`, then `as_ref()?`; `none` is the early return. -/
def Slot.lockOk (s : Slot α) : Except Panic (Option α) :=
  match s.state with
  | .free => .ok s.value
  | .poisoned => .ok none
  | .stuck => .error .explicit

/-- A panic while the mutex is held. -/
def Slot.panicked (mode : PanicMode) (s : Slot α) : Slot α :=
  { s with state := match mode with
      | .unwind => .poisoned
      | .trap => .stuck }

/-- `initialize` (src/lib.rs:48-61). -/
def Engine.initialize (t : Target) (e : Engine) (input : Bytes) : Engine × Except Panic Bool :=
  match deserializeAll t ngramIndexSize input with
  | .none => (e, .error .unwrapNone)
  | .panic w => (e, .error w)
  | .ok (index, classic) =>
    match e.index.lockUnwrap with
    | .error w => (e, .error w)
    | .ok _ =>
      let e := { e with index := { e.index with value := some index } }
      match e.classic.lockUnwrap with
      | .error w => (e, .error w)
      | .ok _ => ({ e with classic := { e.classic with value := some classic } }, .ok true)

/-- `iter.filter(..).collect()` with a predicate that may panic. -/
def filterE (p : α → Except Panic Bool) : List α → Except Panic (List α)
  | [] => .ok []
  | a :: as => do
    let keep ← p a
    let rest ← filterE p as
    .ok (if keep then a :: rest else rest)

/-- The chained filters of `search` (src/lib.rs:77-88) on one product. -/
def keepProduct (o : HashOrd) (cats : CategoryHandler) (tags : TagHandler)
    (filters : List FeatureFilter) (features : FeatureSet) (p : Product) : Except Panic Bool := do
  if (← cats.isValid o p) = false then .ok false
  else if (← tags.isValid o p) = false then .ok false
  else .ok (filters.all fun f => f.keeps features p)

/-- `order[*v]` for every id (the keys of `sort_by_cached_key`). -/
def orderKeys (order : List Nat) : List Nat → Except Panic (List (Nat × Nat))
  | [] => .ok []
  | v :: vs => do
    let k ← indexChecked order v
    let rest ← orderKeys order vs
    .ok ((k, v) :: rest)

/-- `results.sort_by_cached_key(|v| order[*v])` (src/lib.rs:96; std): slices of length below two are
left alone without computing keys; otherwise a stable sort by key. -/
def sortByOrder (order : List Nat) (results : List Nat) : Except Panic (List Nat) :=
  if results.length < 2 then .ok results
  else do
    let keyed ← orderKeys order results
    .ok ((stableSort (fun a b => decide (a.1 ≤ b.1)) keyed).map (·.2))

/-- The ids found and filtered (src/lib.rs:76-90), while only SHARED_INDEX is held. -/
def searchIds (o : HashOrd) (lower : Char → List Char) (index : GramIndex Char) (input : Str)
    (cats : CategoryHandler) (tags : TagHandler) (filters : List FeatureFilter) :
    Except Panic (List Nat) := do
  let results ← index.search o ngramIndexSize (input.flatMap lower)
  let kept ← filterE (keepProduct o cats tags filters index.container.extra) (results.map (·.1))
  .ok (kept.map (·.sid))

/-- `search` (src/lib.rs:63-100). `filter` is the entries of the JavaScript object. -/
def Engine.search (mode : PanicMode) (o : HashOrd) (lower : Char → List Char) (e : Engine)
    (input : Str) (cats : CategoryHandler) (tags : TagHandler) (order : Option Str)
    (filter : List (Str × JsValue)) : Engine × Except Panic (Option ProductProducer) :=
  match parseFilters filter with
  | none => (e, .ok none)
  | some filters =>
    match e.index.lockOk with
    | .error w => (e, .error w)
    | .ok none => (e, .ok none)
    | .ok (some index) =>
      match searchIds o lower index input cats tags filters with
      | .error w => ({ e with index := e.index.panicked mode }, .error w)
      | .ok ids =>
        match order with
        | none => (e, .ok (some (ProductProducer.new index.container ids)))
        | some name =>
          match e.classic.lockOk with
          | .error w => ({ e with index := e.index.panicked mode }, .error w)
          | .ok none => (e, .ok none)
          | .ok (some classic) =>
            match classic.order.getOrders name with
            | none => (e, .ok none)
            | some ranks =>
              match sortByOrder ranks ids with
              | .error w =>
                ({ index := e.index.panicked mode, classic := e.classic.panicked mode }, .error w)
              | .ok ids => (e, .ok (some (ProductProducer.new index.container ids)))

/-- `get_categories` (src/lib.rs:104-111). -/
def Engine.getCategories (e : Engine) : Except Panic (Option CategoryHandler) := do
  let index ← e.classic.lockUnwrap
  .ok (index.map CategoryHandler.new)

/-- `get_tags` (src/lib.rs:113-120). -/
def Engine.getTags (e : Engine) : Except Panic (Option TagHandler) := do
  let index ← e.classic.lockUnwrap
  .ok (index.map TagHandler.new)

/-- `get_orders` (src/lib.rs:122-129). -/
def Engine.getOrders (o : HashOrd) (e : Engine) : Except Panic (Option (List Str)) := do
  let index ← e.classic.lockOk
  .ok (index.map fun c => c.order.options o)

/-! ## Tag suggestions (src/lib.rs:148-191) -/

/-- `str::split(' ')` (std): the pieces between single spaces, empty ones included. -/
def splitSpaces : Str → List Str
  | [] => [[]]
  | c :: rest =>
    if c = ' ' then [] :: splitSpaces rest
    else
      match splitSpaces rest with
      | [] => [[c]]
      | w :: ws => (c :: w) :: ws

/-- `.map(..).reduce(|a, b| a + b).unwrap_or(0.0)` (src/lib.rs:158-163) on the matches/mismatches. -/
def sumFloats : List F32 → F32
  | [] => F32.zero
  | x :: xs => xs.foldl F32.add x

/-- `overlap` (src/lib.rs:151-165). -/
def overlap (original other : Str) (minLen : Nat) : F32 :=
  let found := min (byteLen original) (byteLen other)
  if found < minLen then F32.zero
  else
    let marks := (original.zip other).map fun (a, b) => if a = b then F32.one else F32.zero
    F32.div (sumFloats marks) (F32.ofNat found)

/-- The best candidate so far (src/lib.rs:171): overlap, tag id, keyword. -/
abbrev Likely := Option (F32 × Nat × Str)

/-- Body of the inner loop (src/lib.rs:174-183). -/
def suggestStep (keyword : Str) (best : Likely) (tag : Tag) : Likely :=
  let ov := overlap tag.name keyword 3
  if F32.lt F32.zeroPointEight ov then
    match best with
    | some (current, _, _) => if F32.lt current ov then some (ov, tag.id, keyword) else best
    | none => some (ov, tag.id, keyword)
  else best

/-- The double loop (src/lib.rs:171-185). -/
def suggestLoop (tags : List Tag) (query : Str) : Likely :=
  (splitSpaces query).foldl (fun best keyword => tags.foldl (suggestStep keyword) best) none

/-- `TagSuggestionResult` (src/lib.rs:131-135). -/
structure Suggestion where
  tag : JsTag
  input : Str

/-- `tag_suggestion` (src/lib.rs:148-191). -/
def Engine.tagSuggestion (e : Engine) (query : Str) : Except Panic (Option Suggestion) := do
  let index ← e.classic.lockUnwrap
  .ok (index.bind fun c =>
    (suggestLoop c.tags query).map fun l => { tag := { handle := c, index := l.2.1 }, input := l.2.2 })

end Idx
