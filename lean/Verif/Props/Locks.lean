import Verif.Props.Failures
/-! # C93 — what is left of the engine after any history of calls and panics -/
namespace Idx

/-- What a panic makes of a lock: poisoned if it unwinds, never released if it traps. -/
def PanicMode.lost : PanicMode → MutexState
  | .unwind => .poisoned
  | .trap => .stuck

/-- Spec: the engine holds the two indexes, and both locks are free, or only that of the n-gram index is lost, or both are. -/
inductive Holds (mode : PanicMode) (ix : GramIndex Char) (cl : Classic) : Engine → Prop
  | free : Holds mode ix cl ⟨⟨.free, some ix⟩, ⟨.free, some cl⟩⟩
  | one : Holds mode ix cl ⟨⟨mode.lost, some ix⟩, ⟨.free, some cl⟩⟩
  | both : Holds mode ix cl ⟨⟨mode.lost, some ix⟩, ⟨mode.lost, some cl⟩⟩

theorem panicked_eq {α : Type} (mode : PanicMode) (v : Option α) (st : MutexState) : Slot.panicked mode ⟨st, v⟩ = ⟨mode.lost, v⟩ := by
  cases mode <;> rfl

/-- What one search makes of a loaded engine with free locks. -/
theorem search_leaves (mode : PanicMode) (o : HashOrd) (lower : Char → List Char) (ix : GramIndex Char) (cl : Classic) (input : Str)
    (cats : CategoryHandler) (tags : TagHandler) (order : Option Str) (filter : List (Str × JsValue)) (e' : Engine)
    (r : Except Panic (Option ProductProducer))
    (h : Engine.search mode o lower ⟨⟨.free, some ix⟩, ⟨.free, some cl⟩⟩ input cats tags order filter = (e', r)) :
    match r with
    | .ok _ => e' = ⟨⟨.free, some ix⟩, ⟨.free, some cl⟩⟩
    | .error _ =>
      e' = ⟨⟨mode.lost, some ix⟩, ⟨.free, some cl⟩⟩ ∧ ¬(cats.InRange ∧ tags.InRange) ∨
      e' = ⟨⟨mode.lost, some ix⟩, ⟨mode.lost, some cl⟩⟩ ∧ ∃ name ranks, order = some name ∧ cl.order.getOrders name = some ranks := by
  unfold Engine.search at h
  split at h
  · cases h; rfl
  rename_i filters _
  simp only [Slot.lockOk] at h
  cases hs : searchIds o lower ix input cats tags filters with
  | error w =>
    rw [hs] at h
    cases h
    refine .inl ⟨by rw [panicked_eq], fun ⟨hc, ht⟩ => ?_⟩
    obtain ⟨_, _, hok⟩ := searchIds_spec o lower ix input cats tags hc ht filters
    rw [hs] at hok
    cases hok
  | ok ids =>
    rw [hs] at h
    cases order with
    | none => cases h; rfl
    | some name =>
      simp only at h
      cases hg : cl.order.getOrders name with
      | none => rw [hg] at h; cases h; rfl
      | some ranks =>
        rw [hg] at h
        simp only at h
        cases hk : sortByOrder ranks ids with
        | error w =>
          rw [hk] at h
          cases h
          exact .inr ⟨by rw [panicked_eq, panicked_eq], name, ranks, rfl, hg⟩
        | ok ids' => rw [hk] at h; cases h; rfl

theorem holds_step {t : Target} {mode : PanicMode} {lower : Char → List Char} {e : Engine} {ix : GramIndex Char} {cl : Classic}
    (h : Holds mode ix cl e) (c : ApiCall) :
    (∃ file ix' cl', c = .init file ∧ (c.run t mode lower e).2 = .loaded ∧ deserializeAll t ngramIndexSize file = .ok (ix', cl') ∧
      (c.run t mode lower e).1 = ⟨⟨.free, some ix'⟩, ⟨.free, some cl'⟩⟩) ∨
    (c.run t mode lower e).2 ≠ .loaded ∧ Holds mode ix cl (c.run t mode lower e).1 := by
  have lost : mode.lost ≠ .free := by cases mode <;> simp [PanicMode.lost]
  have dead : e.index.state ≠ .free → (c.run t mode lower e).1 = e ∧ (c.run t mode lower e).2 ≠ .loaded := by
    intro hn
    obtain ⟨h1, h2⟩ := C53_dead t mode lower e hn [c]
    refine ⟨h1, fun hl => ?_⟩
    have := h2 (c, (c.run t mode lower e).2) (by simp [play])
    rw [hl] at this
    rcases this with h | ⟨w, h⟩ <;> cases h
  cases h with
  | one =>
    obtain ⟨h1, h2⟩ := dead lost
    exact .inr ⟨h2, by rw [h1]; exact .one⟩
  | both =>
    obtain ⟨h1, h2⟩ := dead lost
    exact .inr ⟨h2, by rw [h1]; exact .both⟩
  | free =>
    cases c with
    | init file =>
      rcases initialize_cases t ⟨⟨.free, some ix⟩, ⟨.free, some cl⟩⟩ (fun hn => absurd rfl hn) file with ⟨ix', cl', hd, _, _, he⟩ | ⟨w, he⟩
      · exact .inl ⟨file, ix', cl', rfl, by simp only [ApiCall.run, he], hd, by simp only [ApiCall.run, he]⟩
      · refine .inr ⟨?_, ?_⟩
        · simp only [ApiCall.run, he]; exact nofun
        · simp only [ApiCall.run, he]; exact .free
    | search o input cats tags order filter =>
      cases hr : Engine.search mode o lower ⟨⟨.free, some ix⟩, ⟨.free, some cl⟩⟩ input cats tags order filter with
      | mk e' r =>
        have hl := search_leaves mode o lower ix cl input cats tags order filter e' r hr
        cases r with
        | ok r =>
          simp only at hl
          subst hl
          refine .inr ⟨?_, ?_⟩
          · simp only [ApiCall.run, hr]; exact nofun
          · simp only [ApiCall.run, hr]; exact .free
        | error w =>
          refine .inr ⟨?_, ?_⟩
          · simp only [ApiCall.run, hr]; exact nofun
          · simp only [ApiCall.run, hr]
            rcases hl with ⟨rfl, _⟩ | ⟨rfl, _⟩
            · exact .one
            · exact .both

/-- After every history of calls, panicking or not, the engine is untouched, or holds the two indexes of the last file loaded; then
both locks are free, or that of the n-gram index is lost, or both are. -/
theorem C93_state (t : Target) (mode : PanicMode) (lower : Char → List Char) (calls : List ApiCall) :
    match lastLoaded (play t mode lower Engine.start calls).2 none with
    | none => (play t mode lower Engine.start calls).1 = Engine.start
    | some file => ∃ ix cl, deserializeAll t ngramIndexSize file = .ok (ix, cl) ∧ Holds mode ix cl (play t mode lower Engine.start calls).1 := by
  have go : ∀ (calls : List ApiCall) (e : Engine) (acc : Option Bytes),
      (match acc with
        | none => e = Engine.start
        | some file => ∃ ix cl, deserializeAll t ngramIndexSize file = .ok (ix, cl) ∧ Holds mode ix cl e) →
      match lastLoaded (play t mode lower e calls).2 acc with
      | none => (play t mode lower e calls).1 = Engine.start
      | some file => ∃ ix cl, deserializeAll t ngramIndexSize file = .ok (ix, cl) ∧ Holds mode ix cl (play t mode lower e calls).1 := by
    intro calls
    induction calls with
    | nil => intro e acc h; exact h
    | cons c cs ih =>
      intro e acc h
      simp only [play]
      rw [← List.singleton_append, lastLoaded_append]
      refine ih _ _ ?_
      cases acc with
      | some file =>
        obtain ⟨ix, cl, hd, hh⟩ := h
        rcases holds_step (t := t) (lower := lower) hh c with ⟨file', ix', cl', rfl, h2, h3, h4⟩ | ⟨h1, h2⟩
        · rw [h2, h4]
          exact ⟨ix', cl', h3, .free⟩
        · have : lastLoaded [(c, (c.run t mode lower e).2)] (some file) = some file := by
            cases c with
            | init f =>
              cases hq : (ApiCall.run t mode lower e (.init f)).2 with
              | loaded => exact absurd hq h1
              | _ => rfl
            | search => rfl
          rw [this]
          exact ⟨ix, cl, hd, h2⟩
      | none =>
        simp only at h
        subst h
        have hs := serves_step t mode lower Engine.start none rfl c
        cases c with
        | init f =>
          rcases initialize_cases t Engine.start (fun hn => absurd rfl hn) f with ⟨ix, cl, hd, _, _, he⟩ | ⟨w, he⟩
          · have : ApiCall.run t mode lower Engine.start (.init f) = (⟨⟨.free, some ix⟩, ⟨.free, some cl⟩⟩, .loaded) := by
              simp only [ApiCall.run, he]
            rw [this]
            exact ⟨ix, cl, hd, .free⟩
          · have : ApiCall.run t mode lower Engine.start (.init f) = (Engine.start, .panicked w) := by
              simp only [ApiCall.run, he]
            rw [this]
            rfl
        | search o input cats tags order filter => exact hs
  exact go calls _ none rfl

/-- The locks are free iff no search panicked. -/
theorem C93_free (t : Target) (mode : PanicMode) (lower : Char → List Char) (calls : List ApiCall) :
    ((play t mode lower Engine.start calls).1.index.state = .free ∧ (play t mode lower Engine.start calls).1.classic.state = .free) ↔
      NoSearchPanicked (play t mode lower Engine.start calls).2 := by
  constructor
  · intro ⟨hfree, _⟩ x hx o input cats tags order filter w he
    subst he
    have go : ∀ (calls : List ApiCall) (e : Engine), (play t mode lower e calls).1.index.state = .free →
        (ApiCall.search o input cats tags order filter, Outcome.panicked w) ∉ (play t mode lower e calls).2 := by
      intro calls
      induction calls with
      | nil => intro e _ hm; cases hm
      | cons c cs ih =>
        intro e hf hm
        simp only [play, List.mem_cons] at hm hf
        rcases hm with hm | hm
        · have hc : ApiCall.search o input cats tags order filter = c := congrArg Prod.fst hm
          have hw : Outcome.panicked w = (c.run t mode lower e).2 := congrArg Prod.snd hm
          subst hc
          have hbad : (ApiCall.run t mode lower e (.search o input cats tags order filter)).1.index.state ≠ .free := by
            cases hr : e.search mode o lower input cats tags order filter with
            | mk e' r =>
              cases r with
              | ok r =>
                simp only [ApiCall.run, hr] at hw
                cases hw
              | error w' =>
                simp only [ApiCall.run, hr]
                rcases ((search_state mode o lower e input cats tags order filter).2 e' w' hr).2.2 with ⟨rfl, hst⟩ | ⟨_, _, hst, _⟩
                · rw [hst]; simp
                · exact hst
          have := (C53_dead t mode lower _ hbad cs).1
          rw [this] at hf
          exact hbad hf
        · exact ih _ hf hm
    exact go calls _ hfree hx
  · exact free_play t mode lower calls Engine.start ⟨rfl, rfl⟩

/-- Which panics lose which locks: a search with selections that do not exist loses only the first lock; a search whose selections
exist can panic only while sorting, and then loses both. -/
theorem C93_lost (mode : PanicMode) (o : HashOrd) (lower : Char → List Char) (ix : GramIndex Char) (cl : Classic) (input : Str)
    (cats : CategoryHandler) (tags : TagHandler) (order : Option Str) (filter : List (Str × JsValue)) (e' : Engine) (w : Panic)
    (h : Engine.search mode o lower ⟨⟨.free, some ix⟩, ⟨.free, some cl⟩⟩ input cats tags order filter = (e', .error w)) :
    (e' = ⟨⟨mode.lost, some ix⟩, ⟨.free, some cl⟩⟩ ∧ ¬(cats.InRange ∧ tags.InRange)) ∨
    (e' = ⟨⟨mode.lost, some ix⟩, ⟨mode.lost, some cl⟩⟩ ∧ ∃ name ranks, order = some name ∧ cl.order.getOrders name = some ranks) :=
  search_leaves mode o lower ix cl input cats tags order filter e' _ h

/-- With only the first lock lost the getters and tag suggestions still answer from the loaded file, as if nothing had happened, while
every search answers nothing or panics and no file can be loaded. -/
theorem C93_one (t : Target) (mode : PanicMode) (lower : Char → List Char) (ix : GramIndex Char) (cl : Classic) :
    let e : Engine := ⟨⟨mode.lost, some ix⟩, ⟨.free, some cl⟩⟩
    let whole : Engine := ⟨⟨.free, some ix⟩, ⟨.free, some cl⟩⟩
    e.getCategories = .ok (some (.new cl)) ∧ e.getTags = .ok (some (.new cl)) ∧
    (∀ o, e.getOrders o = whole.getOrders o ∧ ∃ l, e.getOrders o = .ok (some l)) ∧ (∀ query, e.tagSuggestion query = whole.tagSuggestion query) ∧
    (∀ file, ∃ w, e.initialize t file = (e, .error w)) ∧
    ∀ o input cats tags order filter, match mode, parseFilters filter with
      | .trap, some _ => ∃ w, e.search mode o lower input cats tags order filter = (e, .error w)
      | _, _ => e.search mode o lower input cats tags order filter = (e, .ok none) := by
  intro e whole
  refine ⟨rfl, rfl, fun o => ⟨rfl, _, rfl⟩, fun _ => rfl, ?_, ?_⟩
  · intro file
    unfold Engine.initialize
    split
    · exact ⟨_, rfl⟩
    · exact ⟨_, rfl⟩
    · cases mode <;> exact ⟨_, rfl⟩
  · intro o input cats tags order filter
    unfold Engine.search
    cases hp : parseFilters filter with
    | none => cases mode <;> rfl
    | some filters =>
      cases mode with
      | unwind => rfl
      | trap => exact ⟨_, rfl⟩

/-- With both lost nothing answers any more: searches and `get_orders` answer nothing where panics unwind and panic where they trap,
everything else panics. -/
theorem C93_both (t : Target) (mode : PanicMode) (lower : Char → List Char) (ix : GramIndex Char) (cl : Classic) :
    let e : Engine := ⟨⟨mode.lost, some ix⟩, ⟨mode.lost, some cl⟩⟩
    (∃ w, e.getCategories = .error w) ∧ (∃ w, e.getTags = .error w) ∧ (∀ query, ∃ w, e.tagSuggestion query = .error w) ∧
    (∀ file, ∃ w, e.initialize t file = (e, .error w)) ∧
    (∀ o, match mode with
      | .unwind => e.getOrders o = .ok none
      | .trap => ∃ w, e.getOrders o = .error w) ∧
    ∀ o input cats tags order filter, match mode, parseFilters filter with
      | .trap, some _ => ∃ w, e.search mode o lower input cats tags order filter = (e, .error w)
      | _, _ => e.search mode o lower input cats tags order filter = (e, .ok none) := by
  intro e
  refine ⟨?_, ?_, ?_, ?_, ?_, ?_⟩
  · cases mode <;> exact ⟨_, rfl⟩
  · cases mode <;> exact ⟨_, rfl⟩
  · intro query; cases mode <;> exact ⟨_, rfl⟩
  · intro file
    unfold Engine.initialize
    split
    · exact ⟨_, rfl⟩
    · exact ⟨_, rfl⟩
    · cases mode <;> exact ⟨_, rfl⟩
  · intro o
    cases mode
    · rfl
    · exact ⟨_, rfl⟩
  · intro o input cats tags order filter
    unfold Engine.search
    cases hp : parseFilters filter with
    | none => cases mode <;> rfl
    | some filters =>
      cases mode with
      | unwind => rfl
      | trap => exact ⟨_, rfl⟩

/-- So which of the three it is decides what every later call answers, for good: after a search has panicked, no call changes anything. -/
theorem C93_forever (t : Target) (mode : PanicMode) (lower : Char → List Char) (calls later : List ApiCall)
    (h : ¬NoSearchPanicked (play t mode lower Engine.start calls).2) :
    (play t mode lower Engine.start (calls ++ later)).1 = (play t mode lower Engine.start calls).1 ∧
    ∃ file ix cl, lastLoaded (play t mode lower Engine.start calls).2 none = some file ∧
      deserializeAll t ngramIndexSize file = .ok (ix, cl) ∧
      ((play t mode lower Engine.start calls).1 = ⟨⟨mode.lost, some ix⟩, ⟨.free, some cl⟩⟩ ∨
        (play t mode lower Engine.start calls).1 = ⟨⟨mode.lost, some ix⟩, ⟨mode.lost, some cl⟩⟩) := by
  have hs := C93_state t mode lower calls
  have hf := C93_free t mode lower calls
  have split : ∀ (a b : List ApiCall) (e : Engine), (play t mode lower e (a ++ b)).1 = (play t mode lower (play t mode lower e a).1 b).1 := by
    intro a
    induction a with
    | nil => intro b e; rfl
    | cons c cs ih => intro b e; exact ih b _
  have lost : mode.lost ≠ .free := by cases mode <;> simp [PanicMode.lost]
  rw [split]
  generalize hl : lastLoaded (play t mode lower Engine.start calls).2 none = last at hs
  generalize (play t mode lower Engine.start calls).1 = e at hs hf ⊢
  cases last with
  | none =>
    simp only at hs
    subst hs
    exact absurd (hf.1 ⟨rfl, rfl⟩) h
  | some file =>
    obtain ⟨ix, cl, hd, hh⟩ := hs
    cases hh with
    | free => exact absurd (hf.1 ⟨rfl, rfl⟩) h
    | one => exact ⟨(C53_dead t mode lower _ lost later).1, file, ix, cl, rfl, hd, .inl rfl⟩
    | both => exact ⟨(C53_dead t mode lower _ lost later).1, file, ix, cl, rfl, hd, .inr rfl⟩

/-! ## All three are reached -/

/-- Two files are loaded and a search without an order panics: the first lock is lost, the second is free. -/
theorem one_lost {t : Target} {mode : PanicMode} {o : HashOrd} {lower : Char → List Char} {f₁ f₂ : Bytes} {e₁ e₂ e₃ : Engine} {input : Str}
    {cats : CategoryHandler} {tags : TagHandler} {filter : List (Str × JsValue)} {w : Panic}
    (h₁ : Engine.start.initialize t f₁ = (e₁, .ok true)) (h₂ : e₁.initialize t f₂ = (e₂, .ok true))
    (hs : e₂.search mode o lower input cats tags none filter = (e₃, .error w)) :
    ∃ ix cl, (play t mode lower Engine.start [.init f₁, .init f₂, .search o input cats tags none filter]).1 =
      ⟨⟨mode.lost, some ix⟩, ⟨.free, some cl⟩⟩ := by
  have hp : (play t mode lower Engine.start [.init f₁, .init f₂, .search o input cats tags none filter]).1 = e₃ := by
    simp only [play, ApiCall.run, h₁, h₂, hs]
  have hp2 : play t mode lower Engine.start [.init f₁, .init f₂] = (e₂, [(.init f₁, .loaded), (.init f₂, .loaded)]) := by
    simp only [play, ApiCall.run, h₁, h₂]
  have hst := C93_state t mode lower [.init f₁, .init f₂]
  have hfree := (C93_free t mode lower [.init f₁, .init f₂]).2 (by
    rw [hp2]
    intro x hx o input cats tags order filter w he
    subst he
    simp at hx)
  have lost : mode.lost ≠ .free := by cases mode <;> simp [PanicMode.lost]
  rw [hp2] at hst hfree
  obtain ⟨ix, cl, _, hh⟩ := hst
  rw [hp]
  simp only at hh hfree
  cases hh with
  | one => exact absurd hfree.1 lost
  | both => exact absurd hfree.1 lost
  | free =>
    rcases C93_lost mode o lower ix cl input cats tags none filter e₃ w hs with ⟨h, _⟩ | ⟨_, _, _, h, _⟩
    · exact ⟨ix, cl, h⟩
    · cases h

open Witness in
/-- The history of `C53_false` is one. -/
example (mode : PanicMode) : ∃ calls ix cl,
    (play target mode (fun c => [c]) Engine.start calls).1 = ⟨⟨mode.lost, some ix⟩, ⟨.free, some cl⟩⟩ := by
  obtain ⟨e₁, e₂, e₃, h₁, h₂, tags, it, item, w, hi₁, _, _, _, hi₂, _, _, hs, _⟩ := C53_false mode
  exact ⟨_, one_lost hi₁ hi₂ hs⟩

namespace Witness

/-- The orders of the third catalogue's file, at its end. -/
def ordersEnd : Nat :=
  match deserializeAll target ngramIndexSize (file catalogueC) with
  | .ok (_, cl) => (file catalogueC).length - (serOrders .ident cl.order).length
  | _ => 0

/-- That file with one order that ranks no product: nothing checks that an order ranks all of them. -/
def shortFile : Bytes := (file catalogueC).take ordersEnd ++ serOrders .ident [(['p'], [])]

def shortFacts : Option (List Nat × Option (List Nat)) :=
  match deserializeAll target ngramIndexSize shortFile with
  | .ok (ix, cl) =>
    match ix.searchF .ident ngramIndexSize kunst with
    | .ok l => some (l.map (·.1.sid), cl.order.getOrders ['p'])
    | _ => none
  | _ => none

set_option maxRecDepth 20000 in
set_option synthInstance.maxSize 1000 in
theorem shortFacts_eq : shortFacts = some ([0, 1], some []) := by decide +kernel

theorem short_loads : ∃ ix cl results, deserializeAll target ngramIndexSize shortFile = .ok (ix, cl) ∧
    ix.search .ident ngramIndexSize kunst = .ok results ∧ results.map (·.1.sid) = [0, 1] ∧ cl.order.getOrders ['p'] = some [] := by
  have h := shortFacts_eq
  unfold shortFacts at h
  split at h
  · rename_i ix cl hd
    split at h
    · rename_i l hl
      rw [searchF_eq] at hl
      simp only [Option.some.injEq, Prod.mk.injEq] at h
      exact ⟨ix, cl, l, hd, hl, h.1, h.2⟩
    · cases h
  · cases h

end Witness

open Witness in
/-- A file with too short an order is loaded; a search for two products in that order panics while sorting, and both locks are lost. -/
example (mode : PanicMode) : ∃ ix cl w,
    Engine.start.initialize target shortFile = (⟨⟨.free, some ix⟩, ⟨.free, some cl⟩⟩, .ok true) ∧
    Engine.search mode .ident (fun c => [c]) ⟨⟨.free, some ix⟩, ⟨.free, some cl⟩⟩ kunst (.new cl) (.new cl) (some ['p']) [] =
      (⟨⟨mode.lost, some ix⟩, ⟨mode.lost, some cl⟩⟩, .error w) := by
  obtain ⟨ix, cl, results, hd, hr, hids, ho⟩ := short_loads
  have hk : kunst.flatMap (fun c => [c]) = kunst := rfl
  have hc := inRange_new_categories cl
  have ht := inRange_new_tags cl
  obtain ⟨e', w, he⟩ := (C53_exact mode .ident (fun c => [c]) ix cl kunst (.new cl) (.new cl) hc ht (some ['p']) []).2
    ⟨[], results, ['p'], [], rfl, by rw [hk]; exact hr, rfl, ho, by
      rw [hids, List.filter_eq_self.2 fun sid _ => by simp [wanted_new]]
      exact ⟨by decide, 0, by decide, by decide⟩⟩
  refine ⟨ix, cl, w, initialize_ok rfl rfl hd, ?_⟩
  rcases C93_lost mode _ _ ix cl _ _ _ _ _ e' w he with ⟨_, h⟩ | ⟨h, _⟩
  · exact absurd ⟨hc, ht⟩ h
  · rw [he, h]

end Idx
