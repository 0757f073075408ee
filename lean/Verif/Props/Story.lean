import Verif.Props.EndToEnd
import Verif.Props.Lookup
import Verif.Props.Scores
import Verif.Props.TextSize
/-! # C85: from the catalogue text to what a page shows -/
namespace Idx

/-! ## Specification -/

/-- Spec: what a product handed to the page says is what the catalogue says. -/
structure Shows (parse : Str → Option F32) (shown : JsProduct) (raw : RawProduct) : Prop where
  title : shown.getTitle = .ok raw.title
  id : shown.getId = .ok raw.id
  description : ∃ kept cut, shown.getDescription = .ok kept ∧ raw.description = kept ++ cut ∧
    (byteLen raw.description ≤ 100 → cut = [])
  price : ∃ x n, parse raw.price.min.amount = some x ∧ SameNumber x n ∧ shown.numericFeature "price".toList = .ok (some n)

/-- Spec: `best` takes every window for a best match, if it has any. -/
def TakesBest (lower : Char → List Char) (catalogue : List RawProduct) (best : List Char → Option (List Char)) : Prop :=
  ∀ w, w.length = 5 → (∀ v, best w = some v → BestMatch lower catalogue w v) ∧
    (best w = none → ∀ v, Resembles w v → ¬ Occurs lower catalogue v)

/-- Spec: the confidences that count for a product: for every window of the query that of what it is taken for, as often
as this occurs in the product's text; nothing for what is too frequent in the catalogue. -/
def countedFor (t : Target) (lower : Char → List Char) (catalogue : List RawProduct) (best : List Char → Option (List Char))
    (query : List Char) (raw : RawProduct) : List F32 :=
  (paddedWindows 5 query).flatMap fun w =>
    match best w with
    | none => []
    | some v =>
      if occurrencesAll lower 5 catalogue v < maximumProductAmount t catalogue.length then
        List.replicate ((paddedWindows 5 (textOf lower raw)).count v) (exactConfidence lower catalogue v)
      else []

/-- Spec: the f32 sum from left to right. -/
def totalOf : List F32 → F32
  | [] => F32.zero
  | x :: xs => xs.foldl F32.add x

/-- Spec: the producer hands out these products one after the other, with what the catalogue says about them, and then
nothing. -/
def HandsOut (parse : Str → Option F32) (producer : ProductProducer) (shown : List RawProduct) : Prop :=
  ∃ pages : List JsProduct, (∀ k, drain ProductProducer.nextProduct k producer = (List.range k).map fun i => pages[i]?) ∧
    pages.length = shown.length ∧
    ∀ (i : Nat) page raw, pages[i]? = some page → shown[i]? = some raw → Shows parse page raw

/-- Spec: a search answers with these products, however ordered, handed out in an order in which none is `before` an earlier
one. -/
def AnswersOrdered (parse : Str → Option F32) (answer : Engine × Except Panic (Option ProductProducer)) (e : Engine)
    (shown : List RawProduct) (before : RawProduct → RawProduct → Prop) : Prop :=
  ∃ producer reordered, answer = (e, .ok (some producer)) ∧ HandsOut parse producer reordered ∧ reordered.Perm shown ∧
    reordered.Pairwise fun a b => ¬ before b a

/-- Spec: what the answers to a query are, for a catalogue, what windows are taken for, and selections. -/
structure Answers (t : Target) (lower : Char → List Char) (parse : Str → Option F32) (mode : PanicMode) (e : Engine)
    (catalogue : List RawProduct) (best : List Char → Option (List Char)) (o : HashOrd) (query : Str) (cats : CategoryHandler)
    (tags : TagHandler) (prices : List (JsValue × JsValue)) (shown : List RawProduct) : Prop where
  /-- each product that has everything selected and counts for the query, once -/
  which : ∀ raw, raw ∈ shown ↔ raw ∈ catalogue ∧ Matches parse cats tags prices raw ∧
    countedFor t lower catalogue best (query.flatMap lower) raw ≠ []
  once : (shown.map (·.id)).Nodup
  /-- without an order, by confidence -/
  plain : AnswersOrdered parse (e.search mode o lower query cats tags none (prices.map priceFilter)) e shown fun a b =>
    F32.lt (totalOf (countedFor t lower catalogue best (query.flatMap lower) b))
      (totalOf (countedFor t lower catalogue best (query.flatMap lower) a)) = true
  alphabetical : AnswersOrdered parse
    (e.search mode o lower query cats tags (some "Alphabetical".toList) (prices.map priceFilter)) e shown
    fun a b => CodeLt a.title b.title
  cheapestFirst : (∀ raw ∈ catalogue, ∀ x, parse raw.price.min.amount = some x → x.val ≠ .nan) → AnswersOrdered parse
    (e.search mode o lower query cats tags (some "Price low to high".toList) (prices.map priceFilter)) e shown (PriceLt parse)
  dearestFirst : (∀ raw ∈ catalogue, ∀ x, parse raw.price.min.amount = some x → x.val ≠ .nan) → AnswersOrdered parse
    (e.search mode o lower query cats tags (some "Price high to low".toList) (prices.map priceFilter)) e shown
    fun a b => PriceLt parse b a
  otherOrder : ∀ name, name ∉ ["Alphabetical".toList, "Price low to high".toList, "Price high to low".toList] →
    e.search mode o lower query cats tags (some name) (prices.map priceFilter) = (e, .ok none)

/-! ## Lemmas -/

theorem occurrencesFor_distinct {lower : Char → List Char} {n : Nat} {k : List Char} :
    ∀ {input : List RawProduct}, (input.map (·.id)).Nodup → ∀ {raw : RawProduct}, raw ∈ input →
      occurrencesFor lower n input raw.id k = (paddedWindows n (textOf lower raw)).count k := by
  intro input hd raw hr
  have : input.filter (fun r => r.id = raw.id) = [raw] := by
    induction input with
    | nil => cases hr
    | cons a l ih =>
      simp only [List.map_cons, List.nodup_cons, List.mem_map, not_exists, not_and] at hd
      rcases List.mem_cons.1 hr with rfl | hr
      · rw [List.filter_cons_of_pos (by simp)]
        congr 1
        rw [List.filter_eq_nil_iff]
        intro b hb
        simpa using hd.1 b hb
      · rw [List.filter_cons_of_neg (by simpa using fun e => hd.1 raw hr e.symm)]
        exact ih hd.2 hr
  unfold occurrencesFor
  rw [this]
  simp

theorem filterMap_getElem? {f : α → Option β} : ∀ {l : List α}, (∀ a ∈ l, ∃ b, f a = some b) → ∀ i : Nat,
    (l.filterMap f)[i]? = l[i]?.bind f := by
  intro l
  induction l with
  | nil => simp
  | cons a l ih =>
    intro h i
    obtain ⟨b, hb⟩ := h a List.mem_cons_self
    rw [List.filterMap_cons_some hb]
    cases i with
    | zero => simp [hb]
    | succ i => simpa using ih (fun a ha => h a (List.mem_cons_of_mem _ ha)) i

/-- A product among the results is the product at its position. -/
theorem result_at {t o lower parse n input ix cl} (h1 : 1 ≤ n) (h2 : n ≤ 764)
    (hb : buildAll t o lower parse n input = .ok (ix, cl)) {o' : HashOrd} {query : List Char}
    {results : List (Product × F32)} (hs : ix.search o' n query = .ok results) {p : Product} {c : F32}
    (hp : (p, c) ∈ results) : ∃ raw, input[p.sid]? = some raw ∧ p.id = raw.id := by
  obtain ⟨prices, b⟩ := (builtAll_of_ok hb).built
  obtain ⟨⟨c', hhit⟩, _⟩ := result_score h1 h2 hs hp
  obtain ⟨w, hw, found, l, hg, hdata, hpl⟩ := mem_hitsOf.1 hhit
  rw [C22_postings h1 hb] at hdata
  simp only at hdata
  split at hdata
  · cases hdata
    obtain ⟨h3, raw, h4, h5⟩ := b.expected_mem hpl
    refine ⟨raw, h4, ?_⟩
    rw [b.getElem?, h4] at h3
    simp only [Option.map_some, Option.some.injEq] at h3
    rw [← h3]; rfl
  · cases hdata

/-- What is found and with which confidence, for different ids. -/
theorem found_counted {t o lower parse input ix cl} (h : Searchable t o lower parse 5 input ix cl)
    (hd : (input.map (·.id)).Nodup) {o' : HashOrd} {query : List Char} {results : List (Product × F32)}
    (hs : ix.search o' 5 query = .ok results) {raw : RawProduct} (hr : raw ∈ input) (c : F32) :
    (raw.id, c) ∈ results.map (fun e => (e.1.id, e.2)) ↔
      countedFor t lower input (fun w => (lookup ix 5 w).map (·.1)) query raw ≠ [] ∧
      c = totalOf (countedFor t lower input (fun w => (lookup ix 5 w).map (·.1)) query raw) := by
  rw [C60 h.pos h.le h.built o' query results hs]
  have e : ((paddedWindows 5 query).flatMap fun w => windowScores t lower 5 input raw.id (lookup ix 5 w)) =
      countedFor t lower input (fun w => (lookup ix 5 w).map (·.1)) query raw := by
    unfold countedFor
    rw [List.flatMap_def, List.flatMap_def]
    congr 1
    refine List.map_congr_left fun w hw => ?_
    have hl := paddedWindows_length h.pos hw
    rcases C83_lookup h (by omega) (by omega) w hl with ⟨hg, _⟩ | ⟨found, hg, _⟩
    · simp only [lookup, hg]; rfl
    · simp only [lookup, hg, windowScores, Option.map_some, occurrencesFor_distinct hd hr]
  rw [e]
  generalize countedFor t lower input (fun w => (lookup ix 5 w).map (·.1)) query raw = l
  cases l with
  | nil => simp
  | cons x xs =>
    constructor
    · rintro ⟨y, ys, h1, h2⟩; cases h1; exact ⟨by simp, h2⟩
    · rintro ⟨_, h2⟩; exact ⟨x, xs, rfl, h2⟩

theorem takesBest {t o lower parse input ix cl} (h : Searchable t o lower parse 5 input ix cl) :
    TakesBest lower input fun w => (lookup ix 5 w).map (·.1) := by
  intro w hl
  rcases C83_lookup h (by omega) (by omega) w hl with ⟨hg, hn⟩ | ⟨found, hg, h1, h2, h3⟩
  · refine ⟨fun v hv => ?_, fun _ => hn⟩
    simp [lookup, hg] at hv
  · refine ⟨fun v hv => ?_, fun hv => ?_⟩
    · simp only [lookup, hg, Option.map_some, Option.some.injEq] at hv
      rw [← hv]
      exact ⟨h1, h2, h3⟩
    · simp [lookup, hg] at hv

theorem eq_of_distinct {f : α → β} : ∀ {l : List α}, (l.map f).Nodup → ∀ {a b : α}, a ∈ l → b ∈ l → f a = f b → a = b := by
  intro l
  induction l with
  | nil => intro _ a b ha; cases ha
  | cons x l ih =>
    intro h a b ha hb e
    simp only [List.map_cons, List.nodup_cons, List.mem_map, not_exists, not_and] at h
    rcases List.mem_cons.1 ha with ea | ha <;> rcases List.mem_cons.1 hb with eb | hb
    · rw [ea, eb]
    · rw [ea] at e; exact absurd e.symm (h.1 b hb)
    · rw [eb] at e; exact absurd e (h.1 a ha)
    · exact ih h.2 ha hb e

/-- Every product of a loaded file shows what the catalogue says. -/
theorem LoadedFrom.shows {lower parse input ix cl} (h : LoadedFrom lower parse input ix cl) {i : Nat} {raw : RawProduct}
    (hi : input[i]? = some raw) : Shows parse ⟨ix.container, i⟩ raw := by
  obtain ⟨t₀, o₀, ix₀, cl₀, hb, hs⟩ := h.sameData
  obtain ⟨_, h14⟩ := C14 (buildAll_container hb)
  obtain ⟨p, hp, h1, h2, h3, h4, hsid⟩ := h14 i raw hi
  obtain ⟨x, hx, hf⟩ := price_of (buildAll_container hb) i raw hi p hp
  have hp' : ix.container.products[i]? = some (limited p) := by rw [hs.products, List.getElem?_map, hp]; rfl
  have hf' : FeatureSet.get ix.container.extra (limited p) priceKey = some (.float x) := by
    rw [← hf]
    unfold FeatureSet.get
    rw [hs.extra]
    rfl
  obtain ⟨g1, g2, g3, _, r, g4, g5⟩ := C44_reports ix.container i (limited p) hp' priceKey
  obtain ⟨n, rfl, hn⟩ := g5.1 x hf'
  obtain ⟨cut, hc⟩ := limit_prefix p.description 100
  refine ⟨g1.trans (by rw [← h2]; rfl), g3.trans (by rw [← h1]; rfl), ⟨_, cut, g2, by rw [← h3]; exact hc.symm, fun hl => ?_⟩,
    x, n, hx, hn, g4⟩
  have h6 := (C06 p.description 100).2.2 (by rw [h3]; exact hl)
  rw [h6] at hc
  exact List.append_right_eq_self.1 hc

theorem LoadedFrom.handsOut {lower parse input ix cl} (h : LoadedFrom lower parse input ix cl) {ids : List Nat}
    (hids : ∀ i ∈ ids, i < input.length) :
    HandsOut parse ⟨ix.container, ids, 0⟩ (ids.filterMap fun i => input[i]?) := by
  have hsome : ∀ i ∈ ids, ∃ raw, input[i]? = some raw := fun i hi => ⟨_, List.getElem?_eq_getElem (hids i hi)⟩
  refine ⟨ids.map fun i => ⟨ix.container, i⟩, fun k => ?_, ?_, fun i page raw h4 h5 => ?_⟩
  · have := C44 ix.container ids (fun i hi => by rw [h.length]; exact hids i hi) k
    simp only [ProductProducer.new] at this
    rw [this]
    simp only [List.getElem?_map]
  · rw [List.length_map]
    clear hids
    induction ids with
    | nil => rfl
    | cons a l ih =>
      obtain ⟨raw, h4⟩ := hsome a List.mem_cons_self
      rw [List.filterMap_cons_some h4, List.length_cons, List.length_cons, ih fun i hi => hsome i (List.mem_cons_of_mem _ hi)]
  · rw [filterMap_getElem? hsome] at h5
    rw [List.getElem?_map] at h4
    cases hi : ids[i]? with
    | none => rw [hi] at h4; cases h4
    | some j =>
      rw [hi] at h4 h5
      cases h4
      exact h.shows h5

/-- Positions ordered by a ranking. -/
theorem answersOrdered {lower parse input ix cl} (h : LoadedFrom lower parse input ix cl) {e : Engine}
    {answer : Engine × Except Panic (Option ProductProducer)} {ids : List Nat} (hids : ∀ i ∈ ids, i < input.length)
    {lt : RawProduct → RawProduct → Prop} (hlt : ∀ a b, lt a b → ¬ lt b a) {pp : ProductProducer}
    (ha : answer = (e, .ok (some pp))) (hc : pp.container = ix.container) (hi : pp.index = 0) (hp : pp.toExport.Perm ids)
    (ho : pp.toExport.Pairwise (Before lt input)) :
    AnswersOrdered parse answer e (ids.filterMap fun i => input[i]?) lt := by
  obtain ⟨c, l, i⟩ := pp
  simp only at hc hi hp ho
  subst hc; subst hi
  refine ⟨_, l.filterMap fun i => input[i]?, ha, h.handsOut fun i hi => hids i (hp.mem_iff.1 hi), hp.filterMap _, ?_⟩
  rw [List.pairwise_filterMap]
  refine ho.imp fun {i j} hij a h4 b h5 hba => ?_
  obtain ⟨a', b', h6, h7, h8⟩ := hij
  rw [h4] at h6
  rw [h5] at h7
  cases h6; cases h7
  rcases h8 with h8 | ⟨h8, _⟩
  · exact hlt _ _ h8 hba
  · exact h8 hba

theorem valLt_asymm {a b : F32.Val} (h : ValLt a b) : ¬ ValLt b a := by
  intro h'
  cases h with
  | low _ h1 h2 =>
    cases h' with
    | low => exact h2 rfl
  | high _ h1 h2 =>
    cases h' with
    | high => exact h2 rfl
  | fin s r m n h1 =>
    cases h' with
    | fin _ _ _ _ h2 => omega

theorem codeLt_asymm {a b : Str} (h : CodeLt a b) : ¬ CodeLt b a := by
  induction h with
  | nil => intro h'; cases h'
  | head a b s t hab =>
    intro h'
    cases h' with
    | head _ _ _ _ h => omega
    | tail => omega
  | tail c s t _ ih =>
    intro h'
    cases h' with
    | head _ _ _ _ h => omega
    | tail _ _ _ h => exact ih h

theorem priceLt_asymm {parse : Str → Option F32} {a b : RawProduct} (h : PriceLt parse a b) : ¬ PriceLt parse b a := by
  rintro ⟨y', x', h1, h2, h3⟩
  obtain ⟨x, y, h4, h5, h6⟩ := h
  rw [h4] at h2
  rw [h5] at h1
  cases h1; cases h2
  exact valLt_asymm h6 h3

/-! ## The whole way -/

open Classical in
/-- A catalogue text is indexed, the file is loaded, perhaps after other files, and searches are made with handlers of
that file and ranges of prices. If the ids of the entries that are not replaced differ, then whatever is searched for, the
page is handed exactly the products that have everything selected and count for the query, each once, with what the text
says about them, in descending order of confidence or in the order asked for. What a window of the query is taken for is
the same in all searches. -/
theorem C85 {t t' : Target} {o : HashOrd} {lower : Char → List Char} {parse : Str → Option F32} {text : Str} {file : Bytes}
    (h : indexText t o lower parse ngramIndexSize text = .ok file) (hf : Fits t' file.length) (mode : PanicMode)
    (calls : List ApiCall) (hg : ∀ c ∈ calls, c.Good t')
    (hlast : lastLoaded (play t' mode lower Engine.start calls).2 none = some file) :
    let e := (play t' mode lower Engine.start calls).1
    ∃ members entries last cl, IsText (.obj members) text ∧ SaysCatalogue members entries ∧ LastOfKeys entries last ∧
      e.getCategories = .ok (some (.new cl)) ∧ e.getTags = .ok (some (.new cl)) ∧
      (totalChars lower (last.map (·.2)) ≤ 2 ^ 32 → (last.map (·.2.id)).Nodup →
        ∃ best, TakesBest lower (last.map (·.2)) best ∧
          ∀ (o' : HashOrd) (query : Str) (cats : CategoryHandler) (tags : TagHandler) (prices : List (JsValue × JsValue)),
            cats.InRange → tags.InRange → cats.handle = cl → tags.handle = cl →
            ∃ shown, Answers t lower parse mode e (last.map (·.2)) best o' query cats tags prices shown) := by
  intro e
  obtain ⟨entries, last, ix₀, cl₀, h1, h2, h3, rfl⟩ := indexText_ok h
  obtain ⟨members, hm, hs⟩ := (C63 text entries).1 h1
  obtain ⟨hnp, _⟩ := C53_partial t' mode lower calls hg
  obtain ⟨ix, cl, hde, he, hc, ht, _⟩ := C42_serves_partial t' mode lower calls _ hlast hnp
  obtain ⟨ix', cl', hde', hperm⟩ := C11 (n := ngramIndexSize) (by decide) (by decide) h3 o t' hf
  rw [hde] at hde'
  cases hde'
  have hser : indexAndSerialize t o lower parse ngramIndexSize (last.map (·.2)) = .ok (serializeAll o ix₀ cl₀) := by
    unfold indexAndSerialize
    obtain ⟨_, hr⟩ := C48_search_total o ix₀ (n := ngramIndexSize) (by decide) (by decide) (trialQuery.flatMap lower)
    simp only [h3, Res.bind_ok, hr, Res.ofExcept, Res.pure_eq]
  have hl : LoadedFrom lower parse (last.map (·.2)) ix cl := ⟨⟨t, t', o, _, hser, hf, hde⟩⟩
  refine ⟨members, entries, last, cl, hm, hs, h2, hc, ht, fun hsize hd => ⟨fun w => (lookup ix₀ 5 w).map (·.1), ?_⟩⟩
  have hsr : Searchable t o lower parse 5 (last.map (·.2)) ix₀ cl₀ := ⟨by decide, by decide, h3, hsize⟩
  refine ⟨takesBest hsr, fun o' query cats tags prices hci hti hch hth => ?_⟩
  have hd' : ((last.map (·.2)).map (·.id)).Nodup := by simpa [List.map_map, Function.comp_def] using hd
  generalize hcat : last.map (·.2) = catalogue at *
  obtain ⟨r', hr', hids⟩ := searchIds_spec o' lower ix query (.new cl) (.new cl) (inRange_new_categories _) (inRange_new_tags _) []
  have hwhole : e.search mode o' lower query (.new cl) (.new cl) none [] =
      (e, .ok (some (ProductProducer.new ix.container (r'.map (·.1.sid))))) := by
    rw [show e = _ from he]
    unfold Engine.search
    simp only [parseFilters, Slot.lockOk, hids]
    rw [List.filter_eq_self.2 fun sid _ => by simp [wanted_new]]
  have hfilt := C50_partial mode o' lower lower parse catalogue ix cl hl e e (by rw [show e = _ from he]) query cats tags hci hti
    hch hth prices cl cl _ hwhole
  obtain ⟨g1, _, g3, g4⟩ := C44_search t' _ ix cl hde mode o' lower e (by rw [show e = _ from he]) query _ _ none _ _ _ hwhole
  obtain ⟨r, hr⟩ := C48_search_total o' ix₀ (n := ngramIndexSize) (by decide) (by decide) (query.flatMap lower)
  have hp := hperm o' o' _ r r' hr hr'
  have hsorted : r'.Pairwise fun a b => F32.lt a.2 b.2 = false := by
    obtain ⟨ix', cl', hde', hso⟩ := C11_sorted hsr o t' hf
    rw [show (5 : Nat) = ngramIndexSize from rfl, hde] at hde'
    cases hde'
    exact hso o' _ r' hr'
  have hfind : ∀ e ∈ r', ∃ raw, catalogue[e.1.sid]? = some raw ∧ e.1.id = raw.id ∧
      countedFor t lower catalogue (fun w => (lookup ix₀ 5 w).map (·.1)) (query.flatMap lower) raw ≠ [] ∧
      e.2 = totalOf (countedFor t lower catalogue (fun w => (lookup ix₀ 5 w).map (·.1)) (query.flatMap lower) raw) := by
    intro e he
    obtain ⟨x, hx, rfl⟩ := List.mem_map.1 (hp.mem_iff.1 he)
    obtain ⟨raw, h4, h5⟩ := result_at (by decide) (by decide) h3 hr (p := x.1) (c := x.2) hx
    refine ⟨raw, h4, h5, (found_counted hsr hd' hr (List.mem_of_getElem? h4) x.2).1 (List.mem_map.2 ⟨x, hx, ?_⟩)⟩
    rw [h5]
  have hback : ∀ raw ∈ catalogue,
      countedFor t lower catalogue (fun w => (lookup ix₀ 5 w).map (·.1)) (query.flatMap lower) raw ≠ [] →
      ∃ e ∈ r', catalogue[e.1.sid]? = some raw := by
    intro raw hraw hne
    obtain ⟨x, hx, hxe⟩ := List.mem_map.1 ((found_counted hsr hd' hr hraw _).2 ⟨hne, rfl⟩)
    simp only [Prod.mk.injEq] at hxe
    have hm' : (limited x.1, x.2) ∈ r' := hp.mem_iff.2 (List.mem_map.2 ⟨x, hx, rfl⟩)
    obtain ⟨raw', h4, h5, _⟩ := hfind _ hm'
    refine ⟨_, hm', ?_⟩
    rw [h4, eq_of_distinct hd' (List.mem_of_getElem? h4) hraw (h5.symm.trans hxe.1)]
  generalize hP : (fun i : Nat => decide (∃ raw, catalogue[i]? = some raw ∧ Matches parse cats tags prices raw)) = P at hfilt
  have hPi : ∀ i : Nat, P i = true ↔ ∃ raw, catalogue[i]? = some raw ∧ Matches parse cats tags prices raw := by
    intro i; rw [← hP]; exact decide_eq_true_iff
  simp only [ProductProducer.new] at hfilt g1 g3 g4
  have hsome : ∀ i ∈ (r'.map (·.1.sid)).filter P, ∃ raw, catalogue[i]? = some raw := by
    intro i hi
    obtain ⟨raw, h4, _⟩ := (hPi i).1 (List.mem_filter.1 hi).2
    exact ⟨raw, h4⟩
  have hlt : ∀ i ∈ (r'.map (·.1.sid)).filter P, i < catalogue.length := fun i hi => by
    obtain ⟨raw, h4⟩ := hsome i hi
    exact (List.getElem?_eq_some_iff.1 h4).1
  have hord := fun name => C34 mode o' lower lower parse catalogue ix cl hl e e (by rw [show e = _ from he])
    (by rw [show e = _ from he]) query cats tags _ _ hfilt name
  refine ⟨((r'.map (·.1.sid)).filter P).filterMap fun i => catalogue[i]?, ?_, ?_, ⟨_, _, hfilt, hl.handsOut hlt, .refl _, ?_⟩, ?_,
    fun hnan => ?_, fun hnan => ?_, fun name hname => (hord name).1 hname⟩
  · intro raw
    rw [List.mem_filterMap]
    constructor
    · rintro ⟨i, hi, h4⟩
      obtain ⟨h5, h6⟩ := List.mem_filter.1 hi
      obtain ⟨e', he', rfl⟩ := List.mem_map.1 h5
      obtain ⟨raw₁, h7, h8⟩ := (hPi _).1 h6
      obtain ⟨raw₂, h9, _, h10, _⟩ := hfind e' he'
      rw [h4] at h7 h9
      cases h7; cases h9
      exact ⟨List.mem_of_getElem? h4, h8, h10⟩
    · rintro ⟨hraw, h5, h6⟩
      obtain ⟨e', he', h7⟩ := hback raw hraw h6
      exact ⟨e'.1.sid, List.mem_filter.2 ⟨List.mem_map.2 ⟨e', he', rfl⟩, (hPi _).2 ⟨raw, h7, h5⟩⟩, h7⟩
  · unfold List.Nodup
    rw [List.pairwise_map, List.pairwise_filterMap, List.pairwise_filter]
    refine g4.imp fun {i j} hij _ _ raw h4 raw' h5 e => hij ?_
    obtain ⟨hi, _⟩ := List.getElem?_eq_some_iff.1 h4
    refine (List.getElem?_inj (l := catalogue.map RawProduct.id) (by simpa using hi) hd').1 ?_
    rw [List.getElem?_map, List.getElem?_map, h4, h5]
    exact congrArg some e
  · rw [List.pairwise_filterMap, List.pairwise_filter, List.pairwise_map]
    refine hsorted.imp_of_mem fun {a b} ha hb hab _ _ raw h4 raw' h5 => ?_
    obtain ⟨raw₁, h6, _, _, h7⟩ := hfind a ha
    obtain ⟨raw₂, h8, _, _, h9⟩ := hfind b hb
    rw [h4] at h6
    rw [h5] at h8
    cases h6; cases h8
    show ¬ F32.lt (totalOf _) (totalOf _) = true
    rw [← h7, ← h9, hab]
    exact Bool.false_ne_true
  · obtain ⟨pp, h4, h5, h6, h7, h8, _⟩ := (hord "Alphabetical".toList).2 (by simp)
    exact answersOrdered hl hlt (fun a b => codeLt_asymm) h4 h5 h6 h7 (h8 rfl)
  · obtain ⟨pp, h4, h5, h6, h7, _, h8⟩ := (hord "Price low to high".toList).2 (by simp)
    exact answersOrdered hl hlt (fun a b => priceLt_asymm) h4 h5 h6 h7 ((h8 hnan).1 rfl)
  · obtain ⟨pp, h4, h5, h6, h7, _, h8⟩ := (hord "Price high to low".toList).2 (by simp)
    exact answersOrdered hl hlt (fun a b h h' => priceLt_asymm h h') h4 h5 h6 h7 ((h8 hnan).2 rfl)

/-- The same for catalogue texts of at most three million bytes, where nothing need be known about the file; the page needs
the memory. A lower case has at most three characters in Rust. -/
theorem C85_small {t t' : Target} {o : HashOrd} {lower : Char → List Char} {parse : Str → Option F32} {text : Str} {file : Bytes}
    (hk : ∀ c, (lower c).length ≤ 3) (h : indexText t o lower parse ngramIndexSize text = .ok file)
    (hs : (utf8 text).length ≤ 3000000) (ht : t'.usizeBits = 32 ∨ t'.usizeBits = 64)
    (hr : ∀ what m, m ≤ 4020001000 → t'.reserves what m = true) (mode : PanicMode)
    (calls : List ApiCall) (hg : ∀ c ∈ calls, c.Good t')
    (hlast : lastLoaded (play t' mode lower Engine.start calls).2 none = some file) :
    let e := (play t' mode lower Engine.start calls).1
    ∃ members entries last cl, IsText (.obj members) text ∧ SaysCatalogue members entries ∧ LastOfKeys entries last ∧
      e.getCategories = .ok (some (.new cl)) ∧ e.getTags = .ok (some (.new cl)) ∧
      ((last.map (·.2.id)).Nodup → ∃ best, TakesBest lower (last.map (·.2)) best ∧
        ∀ (o' : HashOrd) (query : Str) (cats : CategoryHandler) (tags : TagHandler) (prices : List (JsValue × JsValue)),
          cats.InRange → tags.InRange → cats.handle = cl → tags.handle = cl →
          ∃ shown, Answers t lower parse mode e (last.map (·.2)) best o' query cats tags prices shown) := by
  intro e
  obtain ⟨members, entries, last, cl, h1, h2, h3, h4, h5, h6⟩ := C85 h (fits_of_small hk h hs ht hr) mode calls hg hlast
  refine ⟨members, entries, last, cl, h1, h2, h3, h4, h5, h6 ?_⟩
  have hc := totalChars_le hk (last.map (·.2))
  have := catalogue_le_text ((C63 text entries).2 ⟨members, h1, h2⟩) h3
  omega

set_option maxRecDepth 20000 in
/-- The hypotheses are met by a text of a product, indexed and loaded once. -/
example : ∃ file, indexText .debug64 .rev (fun c => [c]) parseOne ngramIndexSize
      ("{\"a\": ".toList ++ sampleText "T" "" "" ++ "}".toList) = .ok file ∧
    (utf8 ("{\"a\": ".toList ++ sampleText "T" "" "" ++ "}".toList)).length ≤ 3000000 ∧ Fits .wasm32 file.length ∧
    (∀ c ∈ [ApiCall.init file], c.Good .wasm32) ∧
    lastLoaded (play .wasm32 .trap (fun c => [c]) Engine.start [.init file]).2 none = some file := by
  have hc : readCatalogue ("{\"a\": ".toList ++ sampleText "T" "" "" ++ "}".toList) =
    some [("a".toList, sampleProduct "T")] := by decide +kernel
  have h : ((runFileO .debug64 .rev parseOne ngramIndexSize [sampleProduct "T"]).map fun b => decide (b.length ≤ 1000)) = some true := by
    decide +kernel
  obtain ⟨a, ha, hl⟩ := Option.map_eq_some_iff.1 h
  obtain ⟨_, _, _, _, h3⟩ := runFileO_sound (by decide) (by decide) ha
  have hl := of_decide_eq_true hl
  have hf : Fits .wasm32 a.length := .of_carried (by simp only [Carried]; omega) fun _ _ => rfl
  obtain ⟨_, _, ix, cl, _, hd, _⟩ := C09_file (by decide) h3 .wasm32 hf
  refine ⟨a, ?_, by decide +kernel, hf, ?_, ?_⟩
  · unfold indexText
    rw [hc]
    exact h3
  · intro c hc
    rw [List.mem_singleton.1 hc]
    exact fun ix cl hd => ⟨_, _, _, ⟨⟨_, _, _, _, h3, hf, hd⟩⟩⟩
  · simp only [play, ApiCall.run, Engine.initialize, hd]
    rfl

end Idx
