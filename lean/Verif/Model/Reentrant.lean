import Verif.Model.Engine
/-
The handlers of src/js_interactable as JavaScript sees them: an observer is a JavaScript function, it runs inside `toggle`
and can itself call the crate. What wasm-bindgen (0.2.80 in Cargo.lock, not in the repository) does as documented: every
exported object has a borrow flag; a `&mut self` method needs it free, a `&self` method or `&T` argument needs that nobody
holds it mutably; arguments are borrowed in order, `self` first; a refused borrow throws a JavaScript exception, and neither
this nor a trap runs destructors, so borrows taken by the same call before are never given back.
Simplifications: freeing objects by hand, getters and proxies (they could run code while a filter object is read) and
overflow of the number of shared borrows are left out. Options and tags have no `&mut self` methods, so borrowing them
never fails and they are plain values here.
-/
namespace Idx

/-- An exported object in its `WasmRefCell`: `none` mutably borrowed, `some n` borrowed `n` times. -/
structure Guarded (α : Type) where
  value : α
  flag : Option Nat

/-- The exported handlers. -/
inductive Obj where
  | cats (h : CategoryHandler)
  | tags (h : TagHandler)

/-- `ExportCategoryOption` or `JSTag`. -/
inductive JsItem where
  | option (item : ExportOption)
  | tag (tag : JsTag)

/-- The `&mut self` methods of both handlers. -/
inductive Edit where
  | toggle (i : JsItem)
  | addGeneral (f : JsFn)
  | addListener (i : JsItem) (f : JsFn)
  | removeListener (i : JsItem) (f : JsFn)

/-- A call from JavaScript; handlers by position in `JsWorld.objs`. -/
inductive JsCall where
  /-- src/lib.rs:48-61 -/
  | initialize (file : Bytes)
  /-- src/lib.rs:104-111 -/
  | getCategories
  /-- src/lib.rs:113-120 -/
  | getTags
  | edit (h : Nat) (e : Edit)
  /-- src/js_interactable/category_handler.rs:47-49, tag_handler.rs:55-57 -/
  | status (h : Nat) (i : JsItem)
  /-- src/lib.rs:63-100 -/
  | search (input : Str) (cats tags : Nat) (order : Option Str) (filter : List (Str × JsValue))

/-- What JavaScript gets back. -/
inductive Reply where
  /-- exception: "recursive use of an object", or an object of another class -/
  | refused
  /-- `RuntimeError` after a panic -/
  | trapped
  | done
  | loaded (b : Bool)
  | handler (id : Option Nat)
  | status (b : Bool)
  | results (r : Option ProductProducer)

/-- What happens, in order. -/
inductive Event where
  | called (c : JsCall)
  /-- an observer is called with a state -/
  | observed (f : JsFn) (state : Bool)
  | returned (c : JsCall) (r : Reply)

/-- A piece of JavaScript: what it calls next depends on the answers so far; it may end by throwing, which only prints
(src/js_interactable/category_handler.rs:40-43). -/
inductive Script where
  | finish
  | call (c : JsCall) (next : Reply → Script)

/-- Everything JavaScript can reach. `trace` records the events so far. -/
structure JsWorld where
  engine : Engine
  objs : List (Guarded Obj)
  trace : List Event

/-- What the runs are about: the machine, `char::to_lowercase`, the order of hash tables at each moment, and what each
JavaScript function does when called with a state; functions share mutable JavaScript variables, so this depends on
everything that happened before. -/
structure JsEnv where
  t : Target
  lower : Char → List Char
  order : List Event → HashOrd
  fns : JsFn → Bool → List Event → Script

def JsWorld.log (w : JsWorld) (e : Event) : JsWorld := { w with trace := w.trace ++ [e] }

/-- A `&mut self` method (src/js_interactable/category_handler.rs:17-88, tag_handler.rs:25-84): the new value and the
observers to call; `none` if the object or the item has the wrong class. -/
def Obj.edit : Obj → Edit → Option (Except Panic (Obj × List Call))
  | .cats h, .toggle (.option item) => some (.ok (.cats (h.toggle item).1, (h.toggle item).2))
  | .cats h, .addGeneral f => some (.ok (.cats (h.addGeneral f), []))
  | .cats h, .addListener (.option item) f => some (.ok (.cats (h.addOptionListener item f), []))
  | .cats h, .removeListener (.option item) f => some (.ok (.cats (h.removeOptionListener item f), []))
  | .tags h, .toggle (.tag tag) => some ((h.toggle tag).map fun r => (.tags r.1, r.2))
  | .tags h, .addGeneral f => some (.ok (.tags (h.addGeneral f), []))
  | .tags h, .addListener (.tag tag) f => some ((h.addTagListener tag f).map fun h => (.tags h, []))
  | .tags h, .removeListener (.tag tag) f => some ((h.removeTagListener tag f).map fun h => (.tags h, []))
  | _, _ => none

/-- `get_status` of both handlers. -/
def Obj.status : Obj → JsItem → Option Bool
  | .cats h, .option item => some (h.getStatus item)
  | .tags h, .tag tag => some (h.getStatus tag)
  | _, _ => none

/-- Give an object back. -/
def release (objs : List (Guarded Obj)) (h : Nat) : List (Guarded Obj) := objs.modify h fun g => { g with flag := some 0 }

/-- `for observer in all_observers` (src/js_interactable/category_handler.rs:40-44, tag_handler.rs:48-52). -/
def notifyAll (onCall : JsWorld → JsFn → Bool → Option JsWorld) : JsWorld → List Call → Option JsWorld
  | w, [] => some w
  | w, (f, b) :: rest =>
    match onCall (w.log (.observed f b)) f b with
    | none => none
    | some w => notifyAll onCall w rest

/-- One call into the crate. `onCall` runs an observer; `none` means that JavaScript ran out of stack. -/
def JsWorld.step (env : JsEnv) (onCall : JsWorld → JsFn → Bool → Option JsWorld) (w : JsWorld) :
    JsCall → Option (JsWorld × Reply)
  | .initialize file =>
    match w.engine.initialize env.t file with
    | (e, .ok b) => some ({ w with engine := e }, .loaded b)
    | (e, .error _) => some ({ w with engine := e }, .trapped)
  | .getCategories =>
    match w.engine.getCategories with
    | .error _ => some (w, .trapped)
    | .ok none => some (w, .handler none)
    | .ok (some h) => some ({ w with objs := w.objs ++ [⟨.cats h, some 0⟩] }, .handler (some w.objs.length))
  | .getTags =>
    match w.engine.getTags with
    | .error _ => some (w, .trapped)
    | .ok none => some (w, .handler none)
    | .ok (some h) => some ({ w with objs := w.objs ++ [⟨.tags h, some 0⟩] }, .handler (some w.objs.length))
  | .edit h e =>
    match w.objs[h]? with
    | some ⟨v, some 0⟩ =>
      match v.edit e with
      | none => some (w, .refused)
      | some (.error _) => some ({ w with objs := w.objs.set h ⟨v, none⟩ }, .trapped)
      | some (.ok (v, calls)) =>
        match notifyAll onCall { w with objs := w.objs.set h ⟨v, none⟩ } calls with
        | none => none
        | some w => some ({ w with objs := release w.objs h }, .done)
    | _ => some (w, .refused)
  | .status h i =>
    match w.objs[h]? with
    | some ⟨v, some _⟩ =>
      match v.status i with
      | some b => some (w, .status b)
      | none => some (w, .refused)
    | _ => some (w, .refused)
  | .search input cats tags order filter =>
    match w.objs[cats]? with
    | some ⟨.cats ch, some n⟩ =>
      -- the first argument is borrowed, and stays so if the second one is refused
      let taken := { w with objs := w.objs.set cats ⟨.cats ch, some (n + 1)⟩ }
      match w.objs[tags]? with
      | some ⟨.tags th, some m⟩ =>
        match w.engine.search .trap (env.order w.trace) env.lower input ch th order filter with
        | (e, .ok r) => some ({ w with engine := e }, .results r)
        | (e, .error _) =>
          some ({ taken with engine := e, objs := taken.objs.set tags ⟨.tags th, some (m + 1)⟩ }, .trapped)
      | some ⟨.tags _, none⟩ => some (taken, .refused)
      | _ => some (w, .refused)
    | _ => some (w, .refused)

/-- A call with its events. -/
def JsWorld.perform (env : JsEnv) (onCall : JsWorld → JsFn → Bool → Option JsWorld) (w : JsWorld) (c : JsCall) :
    Option (JsWorld × Reply) :=
  match (w.log (.called c)).step env onCall c with
  | none => none
  | some (w, r) => some (w.log (.returned c r), r)

/-- Run a piece of JavaScript. -/
def runScript (env : JsEnv) (onCall : JsWorld → JsFn → Bool → Option JsWorld) : JsWorld → Script → Option JsWorld
  | w, .finish => some w
  | w, .call c next =>
    match w.perform env onCall c with
    | none => none
    | some (w, r) => runScript env onCall w (next r)

/-- Call an observer with room for `depth` nested observers. -/
def observe (env : JsEnv) : Nat → JsWorld → JsFn → Bool → Option JsWorld
  | 0, _, _, _ => none
  | depth + 1, w, f, b => runScript env (observe env depth) w (env.fns f b w.trace)

/-- Run a program with room for `depth` nested observers. -/
def runJs (env : JsEnv) (depth : Nat) (w : JsWorld) (s : Script) : Option JsWorld := runScript env (observe env depth) w s

/-- No handlers; the engine as it is when the program starts (`Engine.start`, or with files loaded before). -/
def JsWorld.start (e : Engine) : JsWorld := { engine := e, objs := [], trace := [] }

end Idx
