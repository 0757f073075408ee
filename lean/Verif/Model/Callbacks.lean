import Verif.Model.Reentrant
/-
All the places where JavaScript code can run inside a call of the crate, and objects freed by hand. Besides observers
(Model/Reentrant.lean) these are the getters and proxy traps that run while `search` reads its filter object. As documented for
wasm-bindgen (0.2.80 in Cargo.lock, not in the repository) and js-sys: `free()` forgets the pointer on the JavaScript side first and
then drops the object, unless it is borrowed, in which case it throws; a forgotten pointer passed to the crate throws when its turn
to be borrowed comes; `Object.entries` is imported without `catch`, so an exception in it passes through the crate without running
destructors, while an exception in `Reflect.get` is an `Err`.
Options and tags have no `&mut self` methods; what matters of them is only whether they have been freed.
-/
namespace Idx

/-- A JavaScript object that is read: a filter object or a value in it. What reading does is in the environment. -/
abbrev JsRef := Nat

/-- JavaScript code run by the crate. -/
inductive Job where
  /-- `observer.call1` (src/js_interactable/category_handler.rs:40-43, tag_handler.rs:48-51) -/
  | observer (f : JsFn) (state : Bool)
  /-- `js_sys::Object::entries` (src/js_interactable/feature_filter.rs:37) -/
  | entries (o : JsRef)
  /-- `js_sys::Reflect::get` (src/js_interactable/feature_filter.rs:32-35) -/
  | get (o : JsRef) (key : Str)
  deriving DecidableEq

/-- How it ends. -/
inductive JobEnd where
  | threw
  | value (v : JsValue)
  | entries (l : List (Str × JsRef))

/-- A call from JavaScript; handlers by position in `CbWorld.objs`. -/
inductive CbCall where
  /-- src/lib.rs:48-61 -/
  | initialize (file : Bytes)
  /-- src/lib.rs:104-111 -/
  | getCategories
  /-- src/lib.rs:113-120 -/
  | getTags
  | edit (h : Nat) (e : Edit)
  /-- a `&mut self` method with an option or a tag that has been freed -/
  | editFreed (h : Nat)
  /-- src/js_interactable/category_handler.rs:47-49, tag_handler.rs:55-57 -/
  | status (h : Nat) (i : JsItem)
  /-- the same with an option or a tag that has been freed -/
  | statusFreed (h : Nat)
  /-- src/lib.rs:63-100 -/
  | search (input : Str) (cats tags : Nat) (order : Option Str) (filter : JsRef)
  | free (h : Nat)

/-- What JavaScript gets back. -/
inductive CbReply where
  /-- exception: "recursive use of an object", "null pointer passed to rust", or an object of another class -/
  | refused
  /-- `RuntimeError` after a panic -/
  | trapped
  /-- the exception that a getter threw -/
  | threw
  | done
  | loaded (b : Bool)
  | handler (id : Option Nat)
  | status (b : Bool)
  | results (r : Option ProductProducer)

/-- What happens, in order. -/
inductive CbEvent where
  | called (c : CbCall)
  | started (j : Job)
  | ended (j : Job) (out : JobEnd)
  | returned (c : CbCall) (r : CbReply)

/-- A piece of JavaScript: what it calls next depends on the answers so far. -/
inductive CbScript where
  | finish (out : JobEnd)
  | call (c : CbCall) (next : CbReply → CbScript)

/-- An exported handler: its `WasmRefCell` (`flag`: `none` mutably borrowed, `some n` borrowed `n` times), whether JavaScript has
forgotten its pointer, and whether its memory has been given back. -/
structure Handle where
  value : Obj
  flag : Option Nat
  forgotten : Bool
  dropped : Bool

/-- Everything JavaScript can reach. `trace` records the events so far. -/
structure CbWorld where
  engine : Engine
  objs : List Handle
  trace : List CbEvent

/-- What the runs are about: the machine, `char::to_lowercase`, the order of hash tables at each moment, and what each piece of
JavaScript does, depending on everything that happened before. -/
structure CbEnv where
  t : Target
  lower : Char → List Char
  order : List CbEvent → HashOrd
  code : Job → List CbEvent → CbScript

/-- How a run ends early. -/
inductive Stop where
  | outOfStack
  /-- the crate used memory that was given back -/
  | useAfterFree
  deriving DecidableEq

def CbWorld.log (w : CbWorld) (e : CbEvent) : CbWorld := { w with trace := w.trace ++ [e] }

/-- The object that JavaScript names; `_assertClass` looks only at its class. -/
def CbWorld.kept (w : CbWorld) (h : Nat) : Option Obj := w.objs[h]?.map (·.value)

/-- Shared borrow of an argument; `none` is the exception. -/
def CbWorld.borrow (w : CbWorld) (h : Nat) : Option CbWorld :=
  match w.objs[h]? with
  | some ⟨v, some n, false, d⟩ => some { w with objs := w.objs.set h ⟨v, some (n + 1), false, d⟩ }
  | _ => none

/-- Mutable borrow of `self`. -/
def CbWorld.borrowMut (w : CbWorld) (h : Nat) : Option CbWorld :=
  match w.objs[h]? with
  | some ⟨v, some 0, false, d⟩ => some { w with objs := w.objs.set h ⟨v, none, false, d⟩ }
  | _ => none

/-- The object behind a borrow. -/
def CbWorld.deref (w : CbWorld) (h : Nat) : Except Stop Obj :=
  match w.objs[h]? with
  | some ⟨v, _, _, false⟩ => .ok v
  | _ => .error .useAfterFree

/-- Change the object behind a mutable borrow. -/
def CbWorld.write (w : CbWorld) (h : Nat) (v : Obj) : Except Stop CbWorld :=
  match w.objs[h]? with
  | some ⟨_, f, p, false⟩ => .ok { w with objs := w.objs.set h ⟨v, f, p, false⟩ }
  | _ => .error .useAfterFree

/-- The guard of a borrow is dropped: the flag in the object's memory is changed. -/
def CbWorld.giveBack (w : CbWorld) (h : Nat) : Except Stop CbWorld :=
  match w.objs[h]? with
  | some ⟨v, f, p, false⟩ =>
    .ok { w with objs := w.objs.set h ⟨v, match f with
      | none => some 0
      | some n => some (n - 1), p, false⟩ }
  | _ => .error .useAfterFree

/-- How JavaScript code is run. -/
abbrev Runner := CbWorld → Job → Except Stop (CbWorld × JobEnd)

/-- `for observer in all_observers` (src/js_interactable/category_handler.rs:40-44, tag_handler.rs:48-52); exceptions are printed. -/
def notifyJobs (run : Runner) : CbWorld → List Call → Except Stop CbWorld
  | w, [] => .ok w
  | w, (f, b) :: rest => do
    let (w, _) ← run w (.observer f b)
    notifyJobs run w rest

/-- `get_value` (src/js_interactable/feature_filter.rs:32-35). -/
def getValue (run : Runner) (w : CbWorld) (o : JsRef) (key : Str) : Except Stop (CbWorld × Option JsValue) := do
  let (w, out) ← run w (.get o key)
  match out with
  | .value v => .ok (w, some v)
  | _ => .ok (w, none)

/-- An exact filter (src/js_interactable/feature_filter.rs:51-55). -/
def readExact (run : Runner) (w : CbWorld) (feature : Str) (values : JsRef) : Except Stop (CbWorld × Option FeatureFilter) :=
  match getValue run w values "exact".toList with
  | .error s => .error s
  | .ok (w, v) => .ok (w, v.map fun v => { data := .exact v, feature })

/-- One entry (src/js_interactable/feature_filter.rs:38-55). -/
def readValue (run : Runner) (w : CbWorld) (feature : Str) (values : JsRef) : Except Stop (CbWorld × Option FeatureFilter) :=
  match getValue run w values "from".toList with
  | .error s => .error s
  | .ok (w, none) => readExact run w feature values
  | .ok (w, some lo) =>
    match getValue run w values "to".toList with
    | .error s => .error s
    | .ok (w, some hi) => .ok (w, some { data := .range lo hi, feature })
    | .ok (w, none) => readExact run w feature values

/-- The loop of `FeatureFilter::parse` (src/js_interactable/feature_filter.rs:37-57). -/
def readFeatures (run : Runner) : CbWorld → List (Str × JsRef) → Except Stop (CbWorld × Option (List FeatureFilter))
  | w, [] => .ok (w, some [])
  | w, (feature, values) :: rest =>
    match readValue run w feature values with
    | .error s => .error s
    | .ok (w, none) => .ok (w, none)
    | .ok (w, some f) =>
      match readFeatures run w rest with
      | .error s => .error s
      | .ok (w, fs) => .ok (w, fs.map (f :: ·))

/-- `FeatureFilter::parse` (src/js_interactable/feature_filter.rs:31-58); the outer `none` is an exception passing through. -/
def readFilter (run : Runner) (w : CbWorld) (o : JsRef) : Except Stop (CbWorld × Option (Option (List FeatureFilter))) := do
  let (w, out) ← run w (.entries o)
  match out with
  | .entries l => do
    let (w, fs) ← readFeatures run w l
    .ok (w, some fs)
  | _ => .ok (w, none)

/-- `search` after its filter object has been read (src/lib.rs:73-99). -/
def Engine.searchFiltered (mode : PanicMode) (o : HashOrd) (lower : Char → List Char) (e : Engine)
    (input : Str) (cats : CategoryHandler) (tags : TagHandler) (order : Option Str)
    (filters : List FeatureFilter) : Engine × Except Panic (Option ProductProducer) :=
  match e.index.lockOk with
  | .error w => (e, .error w)
  | .ok none => (e, .ok none)
  | .ok (some index) =>
    match searchIds o lower index input cats tags filters with
    | .error w => ({ e with index := e.index.panicked mode }, .error w)
    | .ok ids =>
      match order with
      | none => (e, .ok (some (ProductProducer.new index.container ids)))
      | some name =>
        match e.classic.lockOk with
        | .error w => ({ e with index := e.index.panicked mode }, .error w)
        | .ok none => (e, .ok none)
        | .ok (some classic) =>
          match classic.order.getOrders name with
          | none => (e, .ok none)
          | some ranks =>
            match sortByOrder ranks ids with
            | .error w => ({ index := e.index.panicked mode, classic := e.classic.panicked mode }, .error w)
            | .ok ids => (e, .ok (some (ProductProducer.new index.container ids)))

/-- The same on the borrowed handlers, which are given back at the end. -/
def CbWorld.searchRead (env : CbEnv) (w : CbWorld) (input : Str) (cats tags : Nat) (order : Option Str)
    (filters : List FeatureFilter) : Except Stop (CbWorld × CbReply) :=
  match w.deref cats, w.deref tags with
  | .ok (.cats ch), .ok (.tags th) =>
    match w.engine.searchFiltered .trap (env.order w.trace) env.lower input ch th order filters with
    | (e, .error _) => .ok ({ w with engine := e }, .trapped)
    | (e, .ok r) => do
      let w ← w.giveBack tags
      let w ← w.giveBack cats
      .ok ({ w with engine := e }, .results r)
  | _, _ => .error .useAfterFree

/-- One call into the crate. -/
def CbWorld.step (env : CbEnv) (run : Runner) (w : CbWorld) : CbCall → Except Stop (CbWorld × CbReply)
  | .initialize file =>
    match w.engine.initialize env.t file with
    | (e, .ok b) => .ok ({ w with engine := e }, .loaded b)
    | (e, .error _) => .ok ({ w with engine := e }, .trapped)
  | .getCategories =>
    match w.engine.getCategories with
    | .error _ => .ok (w, .trapped)
    | .ok none => .ok (w, .handler none)
    | .ok (some h) => .ok ({ w with objs := w.objs ++ [⟨.cats h, some 0, false, false⟩] }, .handler (some w.objs.length))
  | .getTags =>
    match w.engine.getTags with
    | .error _ => .ok (w, .trapped)
    | .ok none => .ok (w, .handler none)
    | .ok (some h) => .ok ({ w with objs := w.objs ++ [⟨.tags h, some 0, false, false⟩] }, .handler (some w.objs.length))
  | .edit h e =>
    match (w.kept h).bind fun v => v.edit e with
    -- not an object of the right class
    | none => .ok (w, .refused)
    | some _ =>
      match w.borrowMut h with
      | none => .ok (w, .refused)
      | some w => do
        let v ← w.deref h
        match v.edit e with
        | none => .ok (w, .refused)
        | some (.error _) => .ok (w, .trapped)
        | some (.ok (v, calls)) =>
          let w ← w.write h v
          let w ← notifyJobs run w calls
          let w ← w.giveBack h
          .ok (w, .done)
  | .editFreed h =>
    -- `self` is borrowed before the option or tag is refused
    match w.borrowMut h with
    | none => .ok (w, .refused)
    | some w => .ok (w, .refused)
  | .status h i =>
    match (w.kept h).bind fun v => v.status i with
    | none => .ok (w, .refused)
    | some _ =>
      match w.borrow h with
      | none => .ok (w, .refused)
      | some w => do
        let v ← w.deref h
        let w ← w.giveBack h
        .ok (w, .status ((v.status i).getD false))
  | .statusFreed h =>
    match w.borrow h with
    | none => .ok (w, .refused)
    | some w => .ok (w, .refused)
  | .search input cats tags order filter =>
    match w.kept cats, w.kept tags with
    | some (.cats _), some (.tags _) =>
      match w.borrow cats with
      | none => .ok (w, .refused)
      | some w =>
        match w.borrow tags with
        -- the first borrow is never given back
        | none => .ok (w, .refused)
        | some w => do
          let (w, read) ← readFilter run w filter
          match read with
          | none => .ok (w, .threw)
          | some none =>
            let w ← w.giveBack tags
            let w ← w.giveBack cats
            .ok (w, .results none)
          | some (some filters) =>
            w.searchRead env input cats tags order filters
    | _, _ => .ok (w, .refused)
  | .free h =>
    match w.objs[h]? with
    | some ⟨v, some 0, false, _⟩ => .ok ({ w with objs := w.objs.set h ⟨v, some 0, true, true⟩ }, .done)
    | some g => .ok ({ w with objs := w.objs.set h { g with forgotten := true } }, .refused)
    | none => .ok (w, .refused)

/-- A call with its events. -/
def CbWorld.perform (env : CbEnv) (run : Runner) (w : CbWorld) (c : CbCall) : Except Stop (CbWorld × CbReply) := do
  let (w, r) ← (w.log (.called c)).step env run c
  .ok (w.log (.returned c r), r)

/-- Run a piece of JavaScript. -/
def runCode (env : CbEnv) (run : Runner) : CbWorld → CbScript → Except Stop (CbWorld × JobEnd)
  | w, .finish out => .ok (w, out)
  | w, .call c next => do
    let (w, r) ← w.perform env run c
    runCode env run w (next r)

/-- Run code for the crate, with room for `depth` nested pieces of code. -/
def runJob (env : CbEnv) : Nat → Runner
  | 0, _, _ => .error .outOfStack
  | depth + 1, w, j => do
    let w := w.log (.started j)
    let (w, out) ← runCode env (runJob env depth) w (env.code j w.trace)
    .ok (w.log (.ended j out), out)

/-- Run a program. -/
def runProgram (env : CbEnv) (depth : Nat) (w : CbWorld) (s : CbScript) : Except Stop CbWorld :=
  (runCode env (runJob env depth) w s).map (·.1)

/-- No handlers. -/
def CbWorld.start (e : Engine) : CbWorld := { engine := e, objs := [], trace := [] }

end Idx
