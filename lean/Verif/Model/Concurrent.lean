import Verif.Model.Engine
/-
Model of src/lib.rs with calls from several threads (native build): every call is a sequence of small steps, a
schedule interleaves the steps of any number of threads. A step between two lock operations is one step; code that
touches no lock is merged into a neighbouring step. Panics unwind (`PanicMode.unwind`).
-/
namespace Idx

/-- The arguments of `search` (src/lib.rs:64-70), with the hash order the call sees. -/
structure SearchArgs where
  o : HashOrd
  input : Str
  cats : CategoryHandler
  tags : TagHandler
  order : Option Str
  filter : List (Str × JsValue)

/-- The functions that only read SHARED_CLASSIC_INDEX (src/lib.rs:104-191). -/
inductive ReadKind where
  | categories
  | tags
  | orders (o : HashOrd)
  | suggestion (query : Str)

/-- A call. -/
inductive Request where
  | init (file : Bytes)
  | search (args : SearchArgs)
  | read (kind : ReadKind)

/-- What a call returns; `half` is never returned, it marks the first half of `initialize` in the log. -/
inductive Answer where
  | half
  | loaded
  | produced (r : Option ProductProducer)
  | categories (r : Option CategoryHandler)
  | tags (r : Option TagHandler)
  | orders (r : Option (List Str))
  | suggestion (r : Option Suggestion)
  | panicked (w : Panic)

/-- Where a thread is in its call. `hold..` stages own the lock named, as do the stages listed in
`Stage.ownsIndex`, `Stage.ownsClassic`. -/
inductive Stage where
  /-- src/lib.rs:52 -/
  | initParse
  /-- src/lib.rs:54, before and after `lock()` -/
  | initWaitIndex (ix : GramIndex Char) (cl : Classic)
  | initHoldIndex (ix : GramIndex Char) (cl : Classic)
  /-- src/lib.rs:55-58, before and after `lock()` -/
  | initWaitClassic (cl : Classic)
  | initHoldClassic (cl : Classic)
  /-- src/lib.rs:71 -/
  | searchParse
  /-- src/lib.rs:73, before and after `lock()` -/
  | searchWaitIndex (filters : List FeatureFilter)
  | searchHoldIndex (filters : List FeatureFilter)
  /-- src/lib.rs:93, before and after `lock()`, still owning SHARED_INDEX -/
  | searchWaitClassic (ix : GramIndex Char) (ids : List Nat) (name : Str)
  | searchHoldClassic (ix : GramIndex Char) (ids : List Nat) (name : Str)
  /-- about to drop the guard of SHARED_INDEX and return -/
  | searchReturn (r : Option ProductProducer)
  /-- about to drop the guard of SHARED_INDEX while panicking -/
  | searchUnwind (w : Panic)
  /-- about to drop the guard of SHARED_INDEX after `lock` itself failed (cannot happen in native builds) -/
  | searchAbort (w : Panic)
  /-- src/lib.rs:106, 115, 124, 167, before and after `lock()` -/
  | readWait
  | readHold

/-- The thread owns SHARED_INDEX. -/
def Stage.ownsIndex : Stage → Bool
  | initHoldIndex .. | searchHoldIndex .. | searchWaitClassic .. | searchHoldClassic .. | searchReturn .. |
    searchUnwind .. | searchAbort .. => true
  | _ => false

/-- The thread owns SHARED_CLASSIC_INDEX. -/
def Stage.ownsClassic : Stage → Bool
  | initHoldClassic .. | searchHoldClassic .. | readHold => true
  | _ => false

/-- First stage of a call. -/
def Request.start : Request → Stage
  | init _ => .initParse
  | search _ => .searchParse
  | read _ => .readWait

/-- Effects on the globals, for the log (not part of the code). -/
inductive Op where
  | refuse (w : Panic)
  | setIndex (ix : GramIndex Char)
  | setClassic (cl : Classic)
  | search (args : SearchArgs)
  | read (kind : ReadKind)

/-- All threads and globals. `lockIndex`, `lockClassic` say which thread owns the mutex. `log` and `returned` only
record what happens. -/
structure Conc where
  e : Engine
  lockIndex : Option Nat
  lockClassic : Option Nat
  threads : List (Option (Request × Stage))
  log : List (Nat × Request × Op × Answer)
  returned : List (Nat × Request × Answer)

/-- `n` threads, nothing loaded. -/
def Conc.start (n : Nat) : Conc :=
  { e := .start, lockIndex := none, lockClassic := none, threads := List.replicate n none, log := [], returned := [] }

/-- The reading functions (src/lib.rs:104-191). -/
def ReadKind.run (e : Engine) : ReadKind → Answer
  | categories =>
    match e.getCategories with
    | .ok r => .categories r
    | .error w => .panicked w
  | tags =>
    match e.getTags with
    | .ok r => .tags r
    | .error w => .panicked w
  | orders o =>
    match e.getOrders o with
    | .ok r => .orders r
    | .error w => .panicked w
  | suggestion query =>
    match e.tagSuggestion query with
    | .ok r => .suggestion r
    | .error w => .panicked w

/-- Thread `i` goes to another stage of the same call. -/
def Conc.goto (s : Conc) (i : Nat) (r : Request) (stage : Stage) : Conc :=
  { s with threads := s.threads.set i (some (r, stage)) }

/-- Thread `i` returns from its call. -/
def Conc.finish (s : Conc) (i : Nat) (r : Request) (a : Answer) : Conc :=
  { s with threads := s.threads.set i none, returned := s.returned ++ [(i, r, a)] }

/-- Record an effect. -/
def Conc.note (s : Conc) (i : Nat) (r : Request) (op : Op) (a : Answer) : Conc :=
  { s with log := s.log ++ [(i, r, op, a)] }

/-- One step of thread `i`; `none` if it has no call or waits for a lock. -/
def Conc.go (t : Target) (lower : Char → List Char) (s : Conc) (i : Nat) : Option Conc :=
  match s.threads[i]? with
  | none => none
  | some none => none
  | some (some (r, stage)) =>
    match r, stage with
    | .init file, .initParse =>
      match deserializeAll t ngramIndexSize file with
      | .none => some ((s.note i r (.refuse .unwrapNone) (.panicked .unwrapNone)).finish i r (.panicked .unwrapNone))
      | .panic w => some ((s.note i r (.refuse w) (.panicked w)).finish i r (.panicked w))
      | .ok (ix, cl) => some (s.goto i r (.initWaitIndex ix cl))
    | _, .initWaitIndex ix cl =>
      if s.lockIndex = none then some ({ s with lockIndex := some i }.goto i r (.initHoldIndex ix cl)) else none
    | _, .initHoldIndex ix cl =>
      -- the guard is a temporary: dropped at the end of the statement, or by the unwinding of `unwrap`
      let s := { s with lockIndex := none }
      match s.e.index.lockUnwrap with
      | .error w => some ((s.note i r (.setIndex ix) (.panicked w)).finish i r (.panicked w))
      | .ok _ =>
        some (({ s with e := { s.e with index := { s.e.index with value := some ix } } }.note i r (.setIndex ix) .half).goto
          i r (.initWaitClassic cl))
    | _, .initWaitClassic cl =>
      if s.lockClassic = none then some ({ s with lockClassic := some i }.goto i r (.initHoldClassic cl)) else none
    | _, .initHoldClassic cl =>
      let s := { s with lockClassic := none }
      match s.e.classic.lockUnwrap with
      | .error w => some ((s.note i r (.setClassic cl) (.panicked w)).finish i r (.panicked w))
      | .ok _ =>
        some (({ s with e := { s.e with classic := { s.e.classic with value := some cl } } }.note i r (.setClassic cl)
          .loaded).finish i r .loaded)
    | .search a, .searchParse =>
      match parseFilters a.filter with
      | none => some ((s.note i r (.search a) (.produced none)).finish i r (.produced none))
      | some filters => some (s.goto i r (.searchWaitIndex filters))
    | _, .searchWaitIndex filters =>
      if s.lockIndex = none then some ({ s with lockIndex := some i }.goto i r (.searchHoldIndex filters)) else none
    | .search a, .searchHoldIndex filters =>
      match s.e.index.lockOk with
      | .error w => some ((s.note i r (.search a) (.panicked w)).goto i r (.searchAbort w))
      | .ok none => some ((s.note i r (.search a) (.produced none)).goto i r (.searchReturn none))
      | .ok (some ix) =>
        match searchIds a.o lower ix a.input a.cats a.tags filters with
        | .error w => some ((s.note i r (.search a) (.panicked w)).goto i r (.searchUnwind w))
        | .ok ids =>
          match a.order with
          | none =>
            let pp := ProductProducer.new ix.container ids
            some ((s.note i r (.search a) (.produced (some pp))).goto i r (.searchReturn (some pp)))
          | some name => some (s.goto i r (.searchWaitClassic ix ids name))
    | _, .searchWaitClassic ix ids name =>
      if s.lockClassic = none then
        some ({ s with lockClassic := some i }.goto i r (.searchHoldClassic ix ids name))
      else none
    | .search a, .searchHoldClassic ix ids name =>
      -- the inner guard is dropped in every case
      let s := { s with lockClassic := none }
      match s.e.classic.lockOk with
      | .error w => some ((s.note i r (.search a) (.panicked w)).goto i r (.searchUnwind w))
      | .ok none => some ((s.note i r (.search a) (.produced none)).goto i r (.searchReturn none))
      | .ok (some cl) =>
        match cl.order.getOrders name with
        | none => some ((s.note i r (.search a) (.produced none)).goto i r (.searchReturn none))
        | some ranks =>
          match sortByOrder ranks ids with
          | .error w =>
            some (({ s with e := { s.e with classic := s.e.classic.panicked .unwind } }.note i r (.search a)
              (.panicked w)).goto i r (.searchUnwind w))
          | .ok ids =>
            let pp := ProductProducer.new ix.container ids
            some ((s.note i r (.search a) (.produced (some pp))).goto i r (.searchReturn (some pp)))
    | _, .searchReturn p => some ({ s with lockIndex := none }.finish i r (.produced p))
    | _, .searchUnwind w =>
      some ({ s with lockIndex := none, e := { s.e with index := s.e.index.panicked .unwind } }.finish i r (.panicked w))
    | _, .searchAbort w => some ({ s with lockIndex := none }.finish i r (.panicked w))
    | _, .readWait =>
      if s.lockClassic = none then some ({ s with lockClassic := some i }.goto i r .readHold) else none
    | .read k, .readHold =>
      let a := k.run s.e
      some (({ s with lockClassic := none }.note i r (.read k) a).finish i r a)
    | _, _ => none

/-- A thread without a call starts one. -/
def Conc.call (s : Conc) (i : Nat) (r : Request) : Option Conc :=
  match s.threads[i]? with
  | some none => some (s.goto i r r.start)
  | _ => none

/-- States reached by any number of threads, calls and steps in any order. -/
inductive Conc.Reach (t : Target) (lower : Char → List Char) : Conc → Prop where
  | start (n : Nat) : Reach t lower (.start n)
  | call {s s' : Conc} (i : Nat) (r : Request) : Reach t lower s → s.call i r = some s' → Reach t lower s'
  | go {s s' : Conc} (i : Nat) : Reach t lower s → s.go t lower i = some s' → Reach t lower s'

end Idx
