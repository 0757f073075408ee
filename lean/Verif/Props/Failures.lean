import Verif.Props.Engine
import Verif.Lemmas.Run
/-! # C50, C53: handlers that outlive their file, and panics -/
namespace Idx

/-! ## C53 — when a search panics -/

open Classical in
/-- With handlers whose selections exist, on a loaded engine with free locks, a search panics exactly if an existing
order is asked for whose ranks do not cover two or more found products. -/
theorem C53_exact (mode : PanicMode) (o : HashOrd) (lower : Char → List Char) (ix : GramIndex Char) (cl : Classic)
    (input : Str) (cats : CategoryHandler) (tags : TagHandler) (hc : cats.InRange) (ht : tags.InRange)
    (order : Option Str) (filter : List (Str × JsValue)) :
    let e : Engine := ⟨⟨.free, some ix⟩, ⟨.free, some cl⟩⟩
    (∃ e' w, e.search mode o lower input cats tags order filter = (e', .error w)) ↔
    ∃ filters results name ranks, parseFilters filter = some filters ∧
      ix.search o ngramIndexSize (input.flatMap lower) = .ok results ∧ order = some name ∧
      cl.order.getOrders name = some ranks ∧
      let ids := (results.map (·.1.sid)).filter fun sid => decide (Wanted cats tags filters ix.container.extra sid)
      2 ≤ ids.length ∧ ∃ i ∈ ids, ranks.length ≤ i := by
  intro e
  unfold Engine.search
  cases hf : parseFilters filter with
  | none => simp
  | some filters =>
    obtain ⟨results, hr, hs⟩ := searchIds_spec o lower ix input cats tags hc ht filters
    simp only [e, Slot.lockOk, hs]
    cases order with
    | none => simp
    | some name =>
      cases hg : cl.order.getOrders name with
      | none => simp [hg]
      | some ranks =>
        simp only [hg]
        have key := sortByOrder_panics ranks
          ((results.map (·.1.sid)).filter fun sid => decide (Wanted cats tags filters ix.container.extra sid))
        constructor
        · rintro ⟨e', w, h⟩
          refine ⟨filters, results, name, ranks, rfl, hr, rfl, hg, ?_⟩
          apply key.1
          split at h
          · rename_i w' hw
            exact ⟨w', hw⟩
          · cases h
        · rintro ⟨filters', results', name', ranks', h1, h2, h3, h4, h5⟩
          cases h1
          rw [hr] at h2
          cases h2
          cases h3
          rw [hg] at h4
          cases h4
          obtain ⟨w, hw⟩ := key.2 h5
          rw [hw]
          exact ⟨_, _, rfl⟩

/-- A file the crate wrote, or one that cannot be loaded. -/
def GoodFile (t : Target) (file : Bytes) : Prop :=
  ∀ ix cl, deserializeAll t ngramIndexSize file = .ok (ix, cl) → ∃ lower parse input, LoadedFrom lower parse input ix cl

/-- Calls with such files, and with handlers whose selections exist. -/
def ApiCall.Good (t : Target) : ApiCall → Prop
  | .init file => GoodFile t file
  | .search _ _ cats tags _ _ => cats.InRange ∧ tags.InRange

/-- Both locks free and what is loaded comes from a written file. -/
def GoodEngine (e : Engine) : Prop :=
  e = Engine.start ∨ ∃ ix cl lower parse input, LoadedFrom lower parse input ix cl ∧
    e = ⟨⟨.free, some ix⟩, ⟨.free, some cl⟩⟩

theorem good_search (mode : PanicMode) (o : HashOrd) (lower : Char → List Char) (e : Engine) (he : GoodEngine e)
    (input : Str) (cats : CategoryHandler) (tags : TagHandler) (hc : cats.InRange) (ht : tags.InRange)
    (order : Option Str) (filter : List (Str × JsValue)) :
    ∃ r, e.search mode o lower input cats tags order filter = (e, .ok r) := by
  classical
  rcases he with rfl | ⟨ix, cl, lower', parse, catalogue, hl, rfl⟩
  · refine ⟨none, ?_⟩
    unfold Engine.search
    split <;> rfl
  · cases hf : parseFilters filter with
    | none => exact ⟨none, by unfold Engine.search; rw [hf]⟩
    | some filters =>
      obtain ⟨results, hr, hs⟩ := searchIds_spec o lower ix input cats tags hc ht filters
      have hplain : ∃ plain, Engine.search mode o lower ⟨⟨.free, some ix⟩, ⟨.free, some cl⟩⟩ input cats tags none filter
          = (⟨⟨.free, some ix⟩, ⟨.free, some cl⟩⟩, .ok (some plain)) := by
        unfold Engine.search
        rw [hf]
        simp only [Slot.lockOk, hs]
        exact ⟨_, rfl⟩
      obtain ⟨plain, hplain⟩ := hplain
      cases order with
      | none => exact ⟨_, hplain⟩
      | some name =>
        obtain ⟨h1, h2⟩ := ordered_search mode o lower' lower parse catalogue ix cl hl ⟨⟨.free, some ix⟩, ⟨.free, some cl⟩⟩ _ rfl rfl
          input cats tags filter plain hplain name
        by_cases hn : name ∈ [alphabeticalKey, priceLowKey, priceHighKey]
        · obtain ⟨pp, hp, _⟩ := h2 hn
          exact ⟨_, hp⟩
        · exact ⟨_, h1 hn⟩

/-- If every file either was written by the crate or cannot be loaded, and the handlers' selections exist in their own
index, then no search of any history panics, and whatever failed, the engine stays usable: both locks are free.
Missing for the full claim: histories with other files or other selections, for which it is false (`C53_false`). -/
theorem C53_partial (t : Target) (mode : PanicMode) (lower : Char → List Char) (calls : List ApiCall)
    (hg : ∀ c ∈ calls, c.Good t) :
    NoSearchPanicked (play t mode lower Engine.start calls).2 ∧ GoodEngine (play t mode lower Engine.start calls).1 := by
  have : ∀ (calls : List ApiCall) (e : Engine), GoodEngine e → (∀ c ∈ calls, c.Good t) →
      NoSearchPanicked (play t mode lower e calls).2 ∧ GoodEngine (play t mode lower e calls).1 := by
    intro calls
    induction calls with
    | nil => intro e h _; exact ⟨by simp [play, NoSearchPanicked], h⟩
    | cons c cs ih =>
      intro e h hg
      have hstep : GoodEngine (c.run t mode lower e).1 ∧ NoSearchPanicked [(c, (c.run t mode lower e).2)] := by
        cases c with
        | init file =>
          have hfree : e.classic.state ≠ .free → e.index.state ≠ .free := by
            rcases h with rfl | ⟨_, _, _, _, _, _, rfl⟩
            · exact fun hn => absurd rfl hn
            · exact fun hn => absurd rfl hn
          refine ⟨?_, ?_⟩
          · simp only [ApiCall.run]
            rcases initialize_cases t e hfree file with ⟨ix, cl, hd, _, _, he⟩ | ⟨w, he⟩
            · rw [he]
              obtain ⟨lower', parse, input, hl⟩ := hg (.init file) (by simp) ix cl hd
              exact .inr ⟨ix, cl, lower', parse, input, hl, rfl⟩
            · rw [he]
              exact h
          · intro x hx o input cats tags order filter w heq
            simp only [List.mem_singleton] at hx
            rw [hx] at heq
            cases heq
        | search o input cats tags order filter =>
          have hgc := hg (.search o input cats tags order filter) (by simp)
          obtain ⟨r, hr⟩ := good_search mode o lower e h input cats tags hgc.1 hgc.2 order filter
          simp only [ApiCall.run, hr]
          refine ⟨h, ?_⟩
          intro x hx o input cats tags order filter w heq
          simp only [List.mem_singleton] at hx
          rw [hx] at heq
          cases heq
      obtain ⟨h1, h2⟩ := ih _ hstep.1 fun c hc => hg c (by simp [hc])
      refine ⟨?_, h2⟩
      simp only [play]
      intro x hx
      rcases List.mem_cons.1 hx with rfl | hx
      · exact hstep.2 _ (by simp)
      · exact h1 x hx
  exact this calls _ (.inl rfl) hg

/-- Once a search has panicked, nothing works any more: every later `initialize` panics and every later search panics
or answers nothing, whatever is called. -/
theorem C53_dead (t : Target) (mode : PanicMode) (lower : Char → List Char) (e : Engine) (h : e.index.state ≠ .free)
    (calls : List ApiCall) :
    (play t mode lower e calls).1 = e ∧
    ∀ x ∈ (play t mode lower e calls).2, x.2 = .answered none ∨ ∃ w, x.2 = .panicked w := by
  induction calls with
  | nil => simp [play]
  | cons c cs ih =>
    have hstep : (c.run t mode lower e).1 = e ∧
        ((c.run t mode lower e).2 = .answered none ∨ ∃ w, (c.run t mode lower e).2 = .panicked w) := by
      cases c with
      | init file =>
        simp only [ApiCall.run]
        have : ∃ w, e.initialize t file = (e, .error w) := by
          unfold Engine.initialize
          split
          · exact ⟨_, rfl⟩
          · exact ⟨_, rfl⟩
          · split
            · exact ⟨_, rfl⟩
            · rename_i hl
              exact absurd (lockUnwrap_ok hl).1 h
        obtain ⟨w, hw⟩ := this
        rw [hw]
        exact ⟨rfl, .inr ⟨w, rfl⟩⟩
      | search o input cats tags order filter =>
        simp only [ApiCall.run]
        unfold Engine.search
        cases hp : parseFilters filter with
        | none => exact ⟨rfl, .inl rfl⟩
        | some filters =>
          simp only [Slot.lockOk]
          cases hs : e.index.state with
          | free => exact absurd hs h
          | poisoned => exact ⟨rfl, .inl rfl⟩
          | stuck => exact ⟨rfl, .inr ⟨_, rfl⟩⟩
    simp only [play]
    rw [hstep.1]
    refine ⟨ih.1, ?_⟩
    intro x hx
    rcases List.mem_cons.1 hx with rfl | hx
    · exact hstep.2
    · exact ih.2 x hx

/-- A search that panics on an engine whose first lock is free leaves that lock unusable, so every later `initialize`
and search, whatever its arguments, changes nothing and panics or answers nothing. -/
theorem C53_fatal (t : Target) (mode : PanicMode) (o : HashOrd) (lower : Char → List Char) (e e' : Engine) (input : Str)
    (cats : CategoryHandler) (tags : TagHandler) (order : Option Str) (filter : List (Str × JsValue)) (w : Panic)
    (hfree : e.index.state = .free) (h : e.search mode o lower input cats tags order filter = (e', .error w))
    (calls : List ApiCall) :
    (play t mode lower e' calls).1 = e' ∧
    ∀ x ∈ (play t mode lower e' calls).2, x.2 = .answered none ∨ ∃ w, x.2 = .panicked w := by
  refine C53_dead t mode lower e' ?_ calls
  have hp : ∀ {α : Type} (s : Slot α), (s.panicked mode).state ≠ .free := by
    intro α s
    cases mode <;> simp [Slot.panicked]
  unfold Engine.search at h
  simp only [Slot.lockOk, hfree] at h
  repeat' split at h
  all_goals first
    | contradiction
    | (simp only [Prod.mk.injEq] at h; obtain ⟨rfl, _⟩ := h; exact hp _)
    | (simp only [Prod.mk.injEq, reduceCtorEq, and_false] at h)

/-! ## Witnesses -/

namespace Witness

abbrev target : Target := .wasm32

def product (description title id : List Char) (options : List RawOption) : RawProduct :=
  { mkRaw description title id with options }

def kunst : Str := ['k', 'u', 'n', 's', 't']
def musik : Str := ['m', 'u', 's', 'i', 'k']

/-- First catalogue: of the two products described as "kunst" the first is red. -/
def catalogueA : List RawProduct :=
  [product kunst ['a'] ['1'] [⟨['c'], [['r']]⟩], product kunst ['b'] ['2'] [],
   product musik ['c'] ['3'] [], product musik ['d'] ['4'] []]

/-- Second catalogue: the second one is red. -/
def catalogueB : List RawProduct :=
  [product kunst ['a'] ['1'] [], product kunst ['b'] ['2'] [⟨['c'], [['r']]⟩],
   product musik ['c'] ['3'] [], product musik ['d'] ['4'] []]

/-- Third catalogue: without options. -/
def catalogueC : List RawProduct :=
  [product kunst ['a'] ['1'] [], product kunst ['b'] ['2'] [],
   product musik ['c'] ['3'] [], product musik ['d'] ['4'] []]

def file (catalogue : List RawProduct) : Bytes := (runFile target parseOne ngramIndexSize catalogue).getD []

/-- What the proofs below need to know about a file: products found for "kunst", and the products of every option. -/
def facts (file : Bytes) : Option (List Nat × List (Str × List (Str × List Nat))) :=
  match deserializeAll target ngramIndexSize file with
  | .ok (ix, cl) =>
    match ix.searchF .ident ngramIndexSize kunst with
    | .ok l => some (l.map (·.1.sid), cl.categories.map fun c => (c.name, c.options.map fun o => (o.name, o.ids)))
    | _ => none
  | _ => none

theorem facts_sound {bytes : Bytes} {ids : List Nat} {cats : List (Str × List (Str × List Nat))}
    (h : facts bytes = some (ids, cats)) :
    ∃ ix cl results, deserializeAll target ngramIndexSize bytes = .ok (ix, cl) ∧
      cl.categories.map (fun c => (c.name, c.options.map fun o => (o.name, o.ids))) = cats ∧
      ix.search .ident ngramIndexSize kunst = .ok results ∧ results.map (·.1.sid) = ids := by
  unfold facts at h
  split at h
  · rename_i ix cl hd
    split at h
    · rename_i l hl
      rw [searchF_eq] at hl
      simp only [Option.some.injEq, Prod.mk.injEq] at h
      exact ⟨ix, cl, l, hd, h.2, hl, h.1⟩
    · cases h
  · cases h

set_option maxRecDepth 20000 in
set_option synthInstance.maxSize 1000 in
theorem factsA : facts (file catalogueA) = some ([0, 1], [(['c'], [(['r'], [0])])]) := by decide +kernel

set_option maxRecDepth 20000 in
set_option synthInstance.maxSize 1000 in
theorem factsB : facts (file catalogueB) = some ([0, 1], [(['c'], [(['r'], [1])])]) := by decide +kernel

set_option maxRecDepth 20000 in
set_option synthInstance.maxSize 1000 in
theorem factsC : facts (file catalogueC) = some ([0, 1], []) := by decide +kernel

/-- The files are what the crate writes for these catalogues. -/
theorem written {catalogue : List RawProduct} (h : (runFile target parseOne ngramIndexSize catalogue).isSome = true) :
    indexAndSerialize target .ident (fun c => [c]) parseOne ngramIndexSize catalogue = .ok (file catalogue) := by
  obtain ⟨b, hb⟩ := Option.isSome_iff_exists.1 h
  obtain ⟨_, _, _, _, h3⟩ := runFile_sound (by decide) (by decide) hb
  rw [h3, file, hb]
  rfl

set_option maxRecDepth 20000 in
theorem writtenA : indexAndSerialize target .ident (fun c => [c]) parseOne ngramIndexSize catalogueA =
    .ok (file catalogueA) := written (by decide +kernel)

set_option maxRecDepth 20000 in
theorem writtenB : indexAndSerialize target .ident (fun c => [c]) parseOne ngramIndexSize catalogueB =
    .ok (file catalogueB) := written (by decide +kernel)

set_option maxRecDepth 20000 in
theorem writtenC : indexAndSerialize target .ident (fun c => [c]) parseOne ngramIndexSize catalogueC =
    .ok (file catalogueC) := written (by decide +kernel)

theorem initialize_ok {e : Engine} (h1 : e.index.state = .free) (h2 : e.classic.state = .free) {file : Bytes}
    {ix : GramIndex Char} {cl : Classic} (h : deserializeAll target ngramIndexSize file = .ok (ix, cl)) :
    e.initialize target file = (⟨⟨.free, some ix⟩, ⟨.free, some cl⟩⟩, .ok true) := by
  unfold Engine.initialize
  rw [h]
  simp only [Slot.lockUnwrap, h1, h2]

/-- One category with one option. -/
theorem one_option {cl : Classic} {cn on : Str} {ids : List Nat}
    (h : cl.categories.map (fun c => (c.name, c.options.map fun o => (o.name, o.ids))) = [(cn, [(on, ids)])]) :
    ∃ c o, cl.categories = [c] ∧ c.options = [o] ∧ c.name = cn ∧ o.name = on ∧ o.ids = ids := by
  match hc : cl.categories, h with
  | [], h => simp at h
  | [c], h =>
    simp only [List.map_cons, List.map_nil, List.cons.injEq, Prod.mk.injEq, and_true] at h
    match ho : c.options, h with
    | [], h => simp at h
    | [o], h =>
      simp only [List.map_cons, List.map_nil, List.cons.injEq, Prod.mk.injEq, and_true] at h
      exact ⟨c, o, rfl, ho, h.1, h.2.1, h.2.2⟩
    | _ :: _ :: _, h => simp at h
  | _ :: _ :: _, h => simp at h

/-- The item a page gets for the only option of a handler. -/
theorem only_item {cl : Classic} {c : Category} {o : CatOption} (hc : cl.categories = [c]) (ho : c.options = [o]) :
    ∃ it, (CategoryHandler.new cl).iter.nextItem.2 = some it ∧ it.name = .ok c.name ∧
      it.nextItem.2 = some ⟨o.name, 0, 0⟩ := by
  refine ⟨⟨cl, 0, 0⟩, ?_, ?_, ?_⟩
  · simp [CategoryIter.nextItem, CategoryHandler.iter, CategoryHandler.new, hc]
  · simp [CategoryOptionIter.name, indexChecked, hc, bind, Except.bind]
  · simp [CategoryOptionIter.nextItem, hc, ho]

end Witness

/-! ## C53 — false -/

open Witness in
/-- Three ordinary calls by a page, all files written by the crate: load a file, take its only option from the
handler's iterator, load another file, select the option in the new handler, search. The search panics, and from then
on, whatever is called, nothing works. -/
theorem C53_false (mode : PanicMode) : ∃ (e₁ e₂ e₃ : Engine) (h₁ h₂ : CategoryHandler) (tags : TagHandler)
    (it : CategoryOptionIter) (item : ExportOption) (w : Panic),
    Engine.start.initialize target (file catalogueA) = (e₁, .ok true) ∧ e₁.getCategories = .ok (some h₁) ∧
    h₁.iter.nextItem.2 = some it ∧ it.nextItem.2 = some item ∧
    e₁.initialize target (file catalogueC) = (e₂, .ok true) ∧ e₂.getCategories = .ok (some h₂) ∧
    e₂.getTags = .ok (some tags) ∧
    e₂.search mode .ident (fun c => [c]) kunst (h₂.toggle item).1 tags none [] = (e₃, .error w) ∧
    ∀ calls, (play target mode (fun c => [c]) e₃ calls).1 = e₃ ∧
      ∀ x ∈ (play target mode (fun c => [c]) e₃ calls).2, x.2 = .answered none ∨ ∃ w, x.2 = .panicked w := by
  obtain ⟨ixA, clA, rA, hA, hcA, _, _⟩ := facts_sound factsA
  obtain ⟨ixC, clC, rC, hC, hcC, hrC, hidsC⟩ := facts_sound factsC
  obtain ⟨c, o, hc, ho, hcn, hon, _⟩ := one_option hcA
  obtain ⟨it, hit, hname, hitem⟩ := only_item hc ho
  have hnil : clC.categories = [] := by simpa using hcC
  have hsearch : Engine.search mode .ident (fun c => [c]) ⟨⟨.free, some ixC⟩, ⟨.free, some clC⟩⟩ kunst
      ((CategoryHandler.new clC).toggle ⟨o.name, 0, 0⟩).1 (.new clC) none [] =
      (⟨Slot.panicked mode ⟨.free, some ixC⟩, ⟨.free, some clC⟩⟩, .error .indexOutOfBounds) := by
    unfold Engine.search
    simp only [parseFilters, Slot.lockOk]
    have : searchIds .ident (fun c => [c]) ixC kunst ((CategoryHandler.new clC).toggle ⟨o.name, 0, 0⟩).1 (.new clC) [] =
        .error .indexOutOfBounds := by
      unfold searchIds
      have hk : kunst.flatMap (fun c => [c]) = kunst := rfl
      rw [hk, hrC]
      match rC, hidsC with
      | [], h => simp at h
      | r :: rs, _ =>
        simp only [bind, Except.bind, filterE, keepProduct, CategoryHandler.isValid, CategoryHandler.toggle,
          CategoryHandler.new, toggleEntry, AMap.get, AMap.insert, HashOrd.ident, ExportOption.keys,
          indexChecked, hnil, List.map]
        rfl
    rw [this]
  refine ⟨_, _, _, _, _, _, it, _, _, initialize_ok rfl rfl hA, rfl, hit, hitem, initialize_ok rfl rfl hC, rfl, rfl, hsearch,
    ?_⟩
  exact C53_dead target mode _ _ (by cases mode <;> simp [Slot.panicked])

/-! ## C50 — handlers of an earlier file -/

open Witness in
/-- A page loads a file, selects its option "r" (red), and loads a second file, all written by the crate. The same
search then returns the product without that option and leaves out the one that has it, although both are found. -/
theorem C50_false (mode : PanicMode) : ∃ (e₁ e₂ : Engine) (h : CategoryHandler) (tags : TagHandler)
    (it : CategoryOptionIter) (item : ExportOption) (whole filtered : ProductProducer),
    Engine.start.initialize target (file catalogueA) = (e₁, .ok true) ∧ e₁.getCategories = .ok (some h) ∧
    h.iter.nextItem.2 = some it ∧ it.name = .ok ['c'] ∧ it.nextItem.2 = some item ∧ item.name = ['r'] ∧
    e₁.initialize target (file catalogueB) = (e₂, .ok true) ∧ e₂.getTags = .ok (some tags) ∧
    e₂.search mode .ident (fun c => [c]) kunst h tags none [] = (e₂, .ok (some whole)) ∧
    e₂.search mode .ident (fun c => [c]) kunst (h.toggle item).1 tags none [] = (e₂, .ok (some filtered)) ∧
    whole.toExport = [0, 1] ∧ filtered.toExport = [0] ∧
    (∀ r, catalogueB[0]? = some r → r.options = []) ∧
    (∀ r, catalogueB[1]? = some r → r.options = [⟨['c'], [['r']]⟩]) := by
  classical
  obtain ⟨ixA, clA, rA, hA, hcA, _, _⟩ := facts_sound factsA
  obtain ⟨ixB, clB, rB, hB, hcB, hrB, hidsB⟩ := facts_sound factsB
  obtain ⟨c, o, hc, ho, hcn, hon, hids⟩ := one_option hcA
  obtain ⟨it, hit, hname, hitem⟩ := only_item hc ho
  have hk : kunst.flatMap (fun c => [c]) = kunst := rfl
  have hwhole : Engine.search mode .ident (fun c => [c]) ⟨⟨.free, some ixB⟩, ⟨.free, some clB⟩⟩ kunst (.new clA) (.new clB)
      none [] = (⟨⟨.free, some ixB⟩, ⟨.free, some clB⟩⟩, .ok (some (ProductProducer.new ixB.container [0, 1]))) := by
    unfold Engine.search
    obtain ⟨r, h1, h2⟩ := searchIds_spec .ident (fun c => [c]) ixB kunst (.new clA) (.new clB) (inRange_new_categories _)
      (inRange_new_tags _) []
    rw [hk, hrB] at h1
    cases h1
    simp only [parseFilters, Slot.lockOk, h2]
    rw [hidsB, List.filter_eq_self.2 fun sid _ => by simp [wanted_new]]
  have hrange : ((CategoryHandler.new clA).toggle ⟨o.name, 0, 0⟩).1.InRange :=
    C33_inRange_categories clA [.toggle ⟨o.name, 0, 0⟩] fun item hi => by
      simp only [List.mem_singleton, CatOp.toggle.injEq] at hi
      rw [hi]
      exact ⟨c, o, by simp [hc], by simp [ho]⟩
  have hfilt := C33_parsed mode .ident (fun c => [c]) _ kunst _ (.new clB) hrange (inRange_new_tags _) [] [] rfl _ _ _ _ hwhole
  refine ⟨_, _, _, _, it, _, _, _, initialize_ok rfl rfl hA, rfl, hit, by rw [hname, hcn], hitem, hon, initialize_ok rfl rfl hB,
    rfl, hwhole, hfilt, rfl, ?_, ?_, ?_⟩
  · have hw : ∀ sid, Wanted ((CategoryHandler.new clA).toggle ⟨o.name, 0, 0⟩).1 (TagHandler.new clB) []
        (ProductProducer.new ixB.container [0, 1]).container.extra sid ↔ sid ∈ o.ids := by
      intro sid
      constructor
      · rintro ⟨h1, _, _⟩
        exact h1 0 0 c o rfl
          (by simp [CategoryHandler.toggle, CategoryHandler.new, hc]) (by simp [ho])
      · intro hm
        refine ⟨?_, ?_, by simp⟩
        · intro a b cat op _ h2 h3
          simp only [CategoryHandler.toggle, CategoryHandler.new, hc] at h2
          cases a with
          | succ a => simp at h2
          | zero =>
            simp only [List.getElem?_cons_zero, Option.some.injEq] at h2
            rw [← h2, ho] at h3
            cases b with
            | succ b => simp at h3
            | zero =>
              simp only [List.getElem?_cons_zero, Option.some.injEq] at h3
              rw [← h3]
              exact hm
        · intro i tag h
          simp [TagHandler.new] at h
    refine (List.filter_congr (q := fun sid => decide (sid ∈ o.ids)) fun sid _ => ?_).trans ?_
    · rw [decide_eq_decide]
      exact hw sid
    · rw [hids]
      rfl
  · intro r hr; simp [catalogueB] at hr; rw [← hr]; rfl
  · intro r hr; simp [catalogueB] at hr; rw [← hr]; rfl

end Idx
