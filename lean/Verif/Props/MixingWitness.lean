import Verif.Props.Mixing
import Verif.Props.Failures
/-! # C43 — false: schedules in which a search mixes two files -/
namespace Idx
namespace Witness

/-- The catalogue with the titles of the first two products exchanged. -/
def catalogueD : List RawProduct :=
  [product kunst ['b'] ['1'] [], product kunst ['a'] ['2'] [],
   product musik ['c'] ['3'] [], product musik ['d'] ['4'] []]

/-- What the proofs below need to know about a file: products found for "kunst", alphabetical ranks, titles. -/
def orderFacts (file : Bytes) : Option (List Nat × Option (List Nat) × List Str) :=
  match deserializeAll target ngramIndexSize file with
  | .ok (ix, cl) =>
    match ix.searchF .ident ngramIndexSize kunst with
    | .ok l => some (l.map (·.1.sid), cl.order.getOrders alphabeticalKey, ix.container.products.map (·.title))
    | _ => none
  | _ => none

theorem orderFacts_sound {bytes : Bytes} {ids : List Nat} {ranks : Option (List Nat)} {titles : List Str}
    (h : orderFacts bytes = some (ids, ranks, titles)) :
    ∃ ix cl results, deserializeAll target ngramIndexSize bytes = .ok (ix, cl) ∧
      cl.order.getOrders alphabeticalKey = ranks ∧ ix.container.products.map (·.title) = titles ∧
      ix.search .ident ngramIndexSize kunst = .ok results ∧ results.map (·.1.sid) = ids := by
  unfold orderFacts at h
  split at h
  · rename_i ix cl hd
    split at h
    · rename_i l hl
      rw [searchF_eq] at hl
      simp only [Option.some.injEq, Prod.mk.injEq] at h
      exact ⟨ix, cl, l, hd, h.2.1, h.2.2, hl, h.1⟩
    · cases h
  · cases h

set_option maxRecDepth 20000 in
set_option synthInstance.maxSize 1000 in
theorem orderFactsC : orderFacts (file catalogueC) = some ([0, 1], some [0, 1, 2, 3], [['a'], ['b'], ['c'], ['d']]) := by
  decide +kernel

set_option maxRecDepth 20000 in
set_option synthInstance.maxSize 1000 in
theorem orderFactsD : orderFacts (file catalogueD) = some ([0, 1], some [1, 0, 2, 3], [['b'], ['a'], ['c'], ['d']]) := by
  decide +kernel

set_option maxRecDepth 20000 in
theorem writtenD : indexAndSerialize target .ident (fun c => [c]) parseOne ngramIndexSize catalogueD =
    .ok (file catalogueD) := written (by decide +kernel)

/-- A schedule: a thread begins a call, or takes a step of its call. -/
inductive Move where
  | call (i : Nat) (r : Request)
  | go (i : Nat)

def follow (t : Target) (lower : Char → List Char) : Conc → List Move → Option Conc
  | s, [] => some s
  | s, .call i r :: rest =>
    match s.call i r with
    | none => none
    | some s' => follow t lower s' rest
  | s, .go i :: rest =>
    match s.go t lower i with
    | none => none
    | some s' => follow t lower s' rest

theorem follow_reach {t : Target} {lower : Char → List Char} : ∀ {moves : List Move} {s s' : Conc},
    Conc.Reach t lower s → follow t lower s moves = some s' → Conc.Reach t lower s'
  | [], s, s', h, hf => by cases hf; exact h
  | .call i r :: rest, s, s', h, hf => by
    simp only [follow] at hf
    split at hf
    · cases hf
    · exact follow_reach (.call i r h ‹_›) hf
  | .go i :: rest, s, s', h, hf => by
    simp only [follow] at hf
    split at hf
    · cases hf
    · exact follow_reach (.go i h ‹_›) hf

/-- Thread 0 loads the first file. While it loads the second, thread 1 searches between the two assignments. -/
def mixedSchedule (f₁ f₂ : Bytes) (args : SearchArgs) : List Move :=
  [.call 0 (.init f₁), .go 0, .go 0, .go 0, .go 0, .go 0,
   .call 0 (.init f₂), .go 0, .go 0, .go 0,
   .call 1 (.search args), .go 1, .go 1, .go 1, .go 1, .go 1, .go 1,
   .go 0, .go 0]

theorem mixed {t : Target} {lower : Char → List Char} {f₁ f₂ : Bytes} {ix₁ ix₂ : GramIndex Char} {cl₁ cl₂ : Classic}
    (h₁ : deserializeAll t ngramIndexSize f₁ = .ok (ix₁, cl₁)) (h₂ : deserializeAll t ngramIndexSize f₂ = .ok (ix₂, cl₂))
    {args : SearchArgs} {name : Str} {filters : List FeatureFilter} {ids ranks sorted : List Nat}
    (hf : parseFilters args.filter = some filters) (ho : args.order = some name)
    (hi : searchIds args.o lower ix₂ args.input args.cats args.tags filters = .ok ids)
    (hr : cl₁.order.getOrders name = some ranks) (hs : sortByOrder ranks ids = .ok sorted) :
    follow t lower (.start 2) (mixedSchedule f₁ f₂ args) = some
      { e := ⟨⟨.free, some ix₂⟩, ⟨.free, some cl₂⟩⟩, lockIndex := none, lockClassic := none, threads := [none, none],
        log := [(0, .init f₁, .setIndex ix₁, .half), (0, .init f₁, .setClassic cl₁, .loaded),
          (0, .init f₂, .setIndex ix₂, .half),
          (1, .search args, .search args, .produced (some (ProductProducer.new ix₂.container sorted))),
          (0, .init f₂, .setClassic cl₂, .loaded)],
        returned := [(0, .init f₁, .loaded),
          (1, .search args, .produced (some (ProductProducer.new ix₂.container sorted))), (0, .init f₂, .loaded)] } := by
  simp [mixedSchedule, follow, Conc.call, Conc.go, Conc.start, Conc.goto, Conc.note, Conc.finish, Request.start, h₁, h₂, hf, ho,
    hi, hr, hs, Engine.start, Slot.lockUnwrap, Slot.lockOk, List.replicate]

/-- Two threads load files at the same time: thread 0 is overtaken between the two assignments. -/
def twoLoads (f₁ f₂ : Bytes) : List Move :=
  [.call 0 (.init f₁), .go 0, .go 0, .go 0,
   .call 1 (.init f₂), .go 1, .go 1, .go 1, .go 1, .go 1,
   .go 0, .go 0]

theorem two_loads {t : Target} {lower : Char → List Char} {f₁ f₂ : Bytes} {ix₁ ix₂ : GramIndex Char} {cl₁ cl₂ : Classic}
    (h₁ : deserializeAll t ngramIndexSize f₁ = .ok (ix₁, cl₁)) (h₂ : deserializeAll t ngramIndexSize f₂ = .ok (ix₂, cl₂)) :
    follow t lower (.start 2) (twoLoads f₁ f₂) = some
      { e := ⟨⟨.free, some ix₂⟩, ⟨.free, some cl₁⟩⟩, lockIndex := none, lockClassic := none, threads := [none, none],
        log := [(0, .init f₁, .setIndex ix₁, .half), (1, .init f₂, .setIndex ix₂, .half),
          (1, .init f₂, .setClassic cl₂, .loaded), (0, .init f₁, .setClassic cl₁, .loaded)],
        returned := [(1, .init f₂, .loaded), (0, .init f₁, .loaded)] } := by
  simp [twoLoads, follow, Conc.call, Conc.go, Conc.start, Conc.goto, Conc.note, Conc.finish, Request.start, h₁, h₂,
    Engine.start, Slot.lockUnwrap, List.replicate]

theorem finds {ix : GramIndex Char} {results : List (Product × F32)} (c c' : Classic)
    (h : ix.search .ident ngramIndexSize kunst = .ok results) :
    searchIds .ident (fun c => [c]) ix kunst (.new c) (.new c') [] = .ok (results.map (·.1.sid)) := by
  obtain ⟨r, h1, h2⟩ := searchIds_spec .ident (fun c => [c]) ix kunst (.new c) (.new c') (inRange_new_categories _)
    (inRange_new_tags _) []
  have hk : kunst.flatMap (fun c => [c]) = kunst := rfl
  rw [hk, h] at h1
  cases h1
  rw [h2, List.filter_eq_self.2 fun sid _ => by simp [wanted_new]]

theorem lockOk_some {α : Type} {s : Slot α} {v : Option α} (h : s.lockOk = .ok v) : v = none ∨ v = s.value := by
  unfold Slot.lockOk at h
  split at h
  · cases h; exact .inr rfl
  · cases h; exact .inl rfl
  · cases h

/-- Where a search with an order gets its products from. -/
theorem produced_from {lower : Char → List Char} {args : SearchArgs} {filters : List FeatureFilter} {name : Str}
    (hf : parseFilters args.filter = some filters) (ho : args.order = some name) {e : Engine} {pp : ProductProducer}
    (h : ((Op.search args).apply lower e).2 = .produced (some pp)) :
    ∃ ix cl ids ranks sorted, e.index.value = some ix ∧ e.classic.value = some cl ∧
      searchIds args.o lower ix args.input args.cats args.tags filters = .ok ids ∧
      cl.order.getOrders name = some ranks ∧ sortByOrder ranks ids = .ok sorted ∧
      pp = ProductProducer.new ix.container sorted := by
  simp only [Op.apply, Engine.search, hf, ho] at h
  cases h1 : e.index.lockOk with
  | error w => simp [h1] at h
  | ok v =>
    cases v with
    | none => simp [h1] at h
    | some ix =>
      have hv := lockOk_some h1
      simp only [reduceCtorEq, false_or] at hv
      simp only [h1] at h
      cases h2 : searchIds args.o lower ix args.input args.cats args.tags filters with
      | error w => simp [h2] at h
      | ok ids =>
        simp only [h2] at h
        cases h3 : e.classic.lockOk with
        | error w => simp [h3] at h
        | ok v =>
          cases v with
          | none => simp [h3] at h
          | some cl =>
            have hv' := lockOk_some h3
            simp only [reduceCtorEq, false_or] at hv'
            simp only [h3] at h
            cases h4 : cl.order.getOrders name with
            | none => simp [h4] at h
            | some ranks =>
              simp only [h4] at h
              cases h5 : sortByOrder ranks ids with
              | error w => simp [h5] at h
              | ok sorted =>
                simp only [h5, Answer.produced.injEq, Option.some.injEq] at h
                exact ⟨ix, cl, ids, ranks, sorted, hv.symm, hv'.symm, h2, h4, h5, h.symm⟩

/-- The page's search. -/
def alphabetical (cl : Classic) : SearchArgs := ⟨.ident, kunst, .new cl, .new cl, some alphabeticalKey, []⟩

/-- No search on one of the two files gives the products of the second in the order of the first. -/
theorem never {ixC ixD : GramIndex Char} {clC clD : Classic} {rD : List (Product × F32)}
    (hC : deserializeAll target ngramIndexSize (file catalogueC) = .ok (ixC, clC))
    (hD : deserializeAll target ngramIndexSize (file catalogueD) = .ok (ixD, clD))
    (hoD : clD.order.getOrders alphabeticalKey = some [1, 0, 2, 3])
    (htC : ixC.container.products.map (·.title) = [['a'], ['b'], ['c'], ['d']])
    (htD : ixD.container.products.map (·.title) = [['b'], ['a'], ['c'], ['d']])
    (hsD : ixD.search .ident ngramIndexSize kunst = .ok rD) (hiD : rD.map (·.1.sid) = [0, 1])
    {log : List (Nat × Request × Op × Answer)}
    (hlog : ∀ f, Used log f → f = file catalogueC ∨ f = file catalogueD) (e : Engine) (he : OneFile target (Used log) e) :
    ((Op.search (alphabetical clC)).apply (fun c => [c]) e).2 ≠ .produced (some (ProductProducer.new ixD.container [0, 1])) := by
  intro h
  obtain ⟨ix, cl, ids, ranks, sorted, h1, h2, h3, h4, h5, h6⟩ := produced_from rfl rfl h
  rcases he with ⟨hn, _⟩ | ⟨f, ix', cl', hu, hd, hv1, hv2⟩
  · rw [hn] at h1
    cases h1
  · rw [hv1] at h1
    rw [hv2] at h2
    cases h1
    cases h2
    rcases hlog f hu with rfl | rfl
    · rw [hC] at hd
      cases hd
      have := congrArg (fun p => p.container.products.map (·.title)) h6
      simp only [ProductProducer.new, htC, htD] at this
      exact absurd this (by decide)
    · rw [hD] at hd
      cases hd
      have h3' := finds clC clC hsD
      rw [hiD] at h3'
      have : ids = [0, 1] := by
        have := h3.symm.trans h3'
        cases this
        rfl
      subst this
      rw [hoD] at h4
      cases h4
      have : sortByOrder [1, 0, 2, 3] [0, 1] = .ok [1, 0] := rfl
      rw [this] at h5
      cases h5
      have := congrArg (·.toExport) h6
      exact absurd this (by simp [ProductProducer.new])

end Witness

open Witness in
/-- Both files are written by the crate. A search that runs while the second file is being loaded returns an answer
that no search on either file (or on nothing) returns: the products of the second file in the order of the first. -/
theorem C43_false : ∃ (s : Conc) (i : Nat) (args : SearchArgs) (a : Answer), Conc.Reach target (fun c => [c]) s ∧
    (∀ x ∈ s.threads, x = none) ∧ (i, Request.search args, Op.search args, a) ∈ s.log ∧ (i, Request.search args, a) ∈ s.returned ∧
    ∀ e, OneFile target (Used s.log) e → ((Op.search args).apply (fun c => [c]) e).2 ≠ a := by
  obtain ⟨ixC, clC, rC, hC, hoC, htC, hsC, hiC⟩ := orderFacts_sound orderFactsC
  obtain ⟨ixD, clD, rD, hD, hoD, htD, hsD, hiD⟩ := orderFacts_sound orderFactsD
  have hm := mixed (lower := fun c => [c]) hC hD (args := alphabetical clC) (sorted := [0, 1]) rfl rfl (finds clC clC hsD) hoC
    (by rw [hiD]; rfl)
  refine ⟨_, 1, alphabetical clC, .produced (some (ProductProducer.new ixD.container [0, 1])), follow_reach (.start 2) hm,
    by simp, by simp, by simp, fun e he => ?_⟩
  refine never hC hD hoD htC htD hsD hiD ?_ e he
  rintro f ⟨i, op, a, hu⟩
  simp only [List.mem_cons, Prod.mk.injEq, Request.init.injEq, reduceCtorEq, List.not_mem_nil, or_false, false_and, and_false,
    false_or] at hu
  rcases hu with h | h | h | h
  · exact .inl h.2.1
  · exact .inl h.2.1
  · exact .inr h.2.1
  · exact .inr h.2.1

open Witness in
/-- Two overlapping loads can leave the index of one file with the orders of the other for good: no call is running any
more, both reported success, and a search of the page gets an answer that neither file gives. -/
theorem C43_false_lasting : ∃ (s : Conc) (args : SearchArgs), Conc.Reach target (fun c => [c]) s ∧
    (∀ x ∈ s.threads, x = none) ∧ s.returned = [(1, .init (file catalogueD), .loaded), (0, .init (file catalogueC), .loaded)] ∧
    ∀ e, OneFile target (Used s.log) e → ((Op.search args).apply (fun c => [c]) e).2 ≠ ((Op.search args).apply (fun c => [c]) s.e).2 := by
  obtain ⟨ixC, clC, rC, hC, hoC, htC, hsC, hiC⟩ := orderFacts_sound orderFactsC
  obtain ⟨ixD, clD, rD, hD, hoD, htD, hsD, hiD⟩ := orderFacts_sound orderFactsD
  have hm := two_loads (lower := fun c => [c]) hC hD
  refine ⟨_, alphabetical clC, follow_reach (.start 2) hm, by simp, rfl, fun e he => ?_⟩
  have : ((Op.search (alphabetical clC)).apply (fun c => [c]) ⟨⟨.free, some ixD⟩, ⟨.free, some clC⟩⟩).2 =
      .produced (some (ProductProducer.new ixD.container [0, 1])) := by
    have h1 := finds clC clC hsD
    have h2 : sortByOrder [0, 1, 2, 3] (rD.map (·.1.sid)) = .ok [0, 1] := by rw [hiD]; rfl
    simp [Op.apply, Engine.search, alphabetical, parseFilters, Slot.lockOk, h1, hoC, h2]
  rw [this]
  refine never hC hD hoD htC htD hsD hiD ?_ e he
  rintro f ⟨i, op, a, hu⟩
  simp only [List.mem_cons, Prod.mk.injEq, Request.init.injEq, List.not_mem_nil, or_false] at hu
  rcases hu with h | h | h | h
  · exact .inl h.2.1
  · exact .inr h.2.1
  · exact .inr h.2.1
  · exact .inl h.2.1

open Witness in
/-- The hypotheses of `C43_partial` and `C43_unordered` are met: load a file, begin a second load, search without an
order in the middle of it, finish the load, search with an order. -/
example : ∃ (s : Conc) (a b : Answer) (plain ordered : SearchArgs), Conc.Reach target (fun c => [c]) s ∧ Tidy s.log none ∧
    plain.order = none ∧ (1, Request.search plain, Op.search plain, a) ∈ s.log ∧ ordered.order ≠ none ∧
    (1, Request.search ordered, Op.search ordered, b) ∈ s.log ∧ a ≠ .produced none ∧ b ≠ .produced none := by
  obtain ⟨ixC, clC, rC, hC, hoC, htC, hsC, hiC⟩ := orderFacts_sound orderFactsC
  obtain ⟨ixD, clD, rD, hD, hoD, htD, hsD, hiD⟩ := orderFacts_sound orderFactsD
  have hf := finds clC clC hsD
  rw [hiD] at hf
  have hs : sortByOrder [1, 0, 2, 3] [0, 1] = .ok [1, 0] := rfl
  have hm : follow target (fun c => [c]) (.start 2)
      [.call 0 (.init (file catalogueC)), .go 0, .go 0, .go 0, .go 0, .go 0,
       .call 0 (.init (file catalogueD)), .go 0, .go 0, .go 0,
       .call 1 (.search { alphabetical clC with order := none }), .go 1, .go 1, .go 1, .go 1, .go 0, .go 0,
       .call 1 (.search (alphabetical clC)), .go 1, .go 1, .go 1, .go 1, .go 1, .go 1] = some
      { e := ⟨⟨.free, some ixD⟩, ⟨.free, some clD⟩⟩, lockIndex := none, lockClassic := none, threads := [none, none],
        log := [(0, .init (file catalogueC), .setIndex ixC, .half), (0, .init (file catalogueC), .setClassic clC, .loaded),
          (0, .init (file catalogueD), .setIndex ixD, .half),
          (1, .search { alphabetical clC with order := none }, .search { alphabetical clC with order := none },
            .produced (some (ProductProducer.new ixD.container [0, 1]))),
          (0, .init (file catalogueD), .setClassic clD, .loaded),
          (1, .search (alphabetical clC), .search (alphabetical clC),
            .produced (some (ProductProducer.new ixD.container [1, 0])))],
        returned := [(0, .init (file catalogueC), .loaded),
          (1, .search { alphabetical clC with order := none }, .produced (some (ProductProducer.new ixD.container [0, 1]))),
          (0, .init (file catalogueD), .loaded),
          (1, .search (alphabetical clC), .produced (some (ProductProducer.new ixD.container [1, 0])))] } := by
    generalize file catalogueC = f₁ at hC ⊢
    generalize file catalogueD = f₂ at hD ⊢
    simp [follow, Conc.call, Conc.go, Conc.start, Conc.goto, Conc.note, Conc.finish, Request.start, hC, hD, alphabetical,
      parseFilters, hf, hoD, hs, Engine.start, Slot.lockUnwrap, Slot.lockOk, List.replicate]
  refine ⟨_, .produced (some (ProductProducer.new ixD.container [0, 1])),
    .produced (some (ProductProducer.new ixD.container [1, 0])), { alphabetical clC with order := none }, alphabetical clC,
    follow_reach (.start 2) hm, ?_, rfl, by simp, by simp [alphabetical], by simp, by simp, by simp⟩
  exact .other _ _ _ _ (.whole _ _ _ (.other _ _ _ _ (.half _ _ _ (.whole _ _ _ (.half _ _ _ .nil))) (by simp) (by simp)
    (by simp))) (by simp) (by simp) (by simp)

end Idx
