import Verif.Props.EndToEnd
import Verif.Props.Text
/-
C91: what handlers do that were obtained from one file and are used with another one, as on a page that loads a newer index and
keeps its selections.
-/
namespace Idx

theorem LoadedFrom.tag_lt {lower parse input ix cl} (h : LoadedFrom lower parse input ix cl) (k : Nat) (t : Tag)
    (ht : cl.tags[k]? = some t) (i : Nat) (hi : i ∈ t.ids) : i < input.length := by
  obtain ⟨_, t', _, bytes, _, _, hd⟩ := h.loaded
  obtain ⟨_, _, h3, _⟩ := C12 t' _ bytes ix cl hd
  obtain ⟨_, h4, h5⟩ := h3 k t ht
  obtain ⟨p, hp, rfl⟩ := (h5 i).1 hi
  rw [← h.length]
  exact (List.getElem?_eq_some_iff.1 (h4 p hp)).1

theorem LoadedFrom.option_lt {lower parse input ix cl} (h : LoadedFrom lower parse input ix cl) (k j : Nat) (cat : Category)
    (op : CatOption) (hc : cl.categories[k]? = some cat) (ho : cat.options[j]? = some op) (i : Nat) (hi : i ∈ op.ids) :
    i < input.length := by
  obtain ⟨_, t', _, bytes, _, _, hd⟩ := h.loaded
  obtain ⟨_, _, _, h3, _⟩ := C12 t' _ bytes ix cl hd
  obtain ⟨h4, h5⟩ := h3 cat (List.mem_of_getElem? hc) op (List.mem_of_getElem? ho)
  obtain ⟨p, hp, rfl⟩ := (h5 i).1 hi
  rw [← h.length]
  exact (List.getElem?_eq_some_iff.1 (h4 p hp)).1

/-- Spec: product `i` of the file being searched is kept. `forCats` and `forTags` are the catalogues of the files the handlers came
from, `searched` the one of the file that is searched: options and tags are looked up at the same position of the old catalogues. -/
structure KeptBy (parse : Str → Option F32) (forCats forTags searched : List RawProduct) (cats : CategoryHandler) (tags : TagHandler)
    (prices : List (JsValue × JsValue)) (i : Nat) : Prop where
  options : ∀ category value, cats.Selected category value → ∃ raw, forCats[i]? = some raw ∧ Gives raw category value
  tags : ∀ name, tags.Selected name → ∃ raw, forTags[i]? = some raw ∧ name ∈ raw.tags
  prices : ∀ f ∈ prices, Bounded f.1 f.2 →
    ∃ raw x n, searched[i]? = some raw ∧ parse raw.price.min.amount = some x ∧ SameNumber x n ∧ InBounds f.1 f.2 n

open Classical in
/-- **C91.** A search with handlers of earlier files returns exactly those products of the unfiltered search, in the same order, for
which the entry at the same position of the handler's own catalogue has every selected option and tag, and whose own price is
within the ranges. -/
theorem C91 (mode : PanicMode) (o : HashOrd) (lowerA lowerA' lower lower' : Char → List Char) (parseA parseA' parse : Str → Option F32)
    (catalogueA catalogueA' catalogue : List RawProduct) (ixA ixA' ix : GramIndex Char) (clA clA' cl : Classic)
    (hA : LoadedFrom lowerA parseA catalogueA ixA clA) (hA' : LoadedFrom lowerA' parseA' catalogueA' ixA' clA')
    (hl : LoadedFrom lower parse catalogue ix cl)
    (e e₁ : Engine) (hix : e.index.value = some ix) (input : Str)
    (cats : CategoryHandler) (tags : TagHandler) (hc : cats.InRange) (ht : tags.InRange)
    (hch : cats.handle = clA) (hth : tags.handle = clA') (prices : List (JsValue × JsValue))
    (c₁ c₂ : Classic) (whole : ProductProducer)
    (h : e.search mode o lower' input (.new c₁) (.new c₂) none [] = (e₁, .ok (some whole))) :
    e.search mode o lower' input cats tags none (prices.map priceFilter) =
      (e, .ok (some ⟨whole.container, whole.toExport.filter fun i =>
        decide (KeptBy parse catalogueA catalogueA' catalogue cats tags prices i), 0⟩)) := by
  obtain ⟨t₀, t, o₀, bytes, h1, h2, h3⟩ := hl.loaded
  obtain ⟨g1, _, g3, _⟩ := C44_search t bytes ix cl h3 mode o lower' e hix input (.new c₁) (.new c₂) none [] e₁ whole h
  rw [C33_parsed mode o lower' e input cats tags hc ht _ _ (parse_priceFilters prices) c₁ c₂ e₁ whole h]
  suffices hw : ∀ i ∈ whole.toExport,
      (Wanted cats tags (prices.map fun f => ⟨.range f.1 f.2, priceKey⟩) whole.container.extra i ↔
        KeptBy parse catalogueA catalogueA' catalogue cats tags prices i) by
    rw [List.filter_congr fun i hi => decide_eq_decide.2 (hw i hi)]
  intro i hi
  have hlt := g3 i hi
  rw [g1, hl.length] at hlt
  have hraw := List.getElem?_eq_getElem hlt
  constructor
  · rintro ⟨w1, w2, w3⟩
    refine ⟨?_, ?_, ?_⟩
    · rintro cn v ⟨c, k, cat, op, ha, hcat, hop, rfl, rfl⟩
      have hm := w1 c k cat op ha hcat hop
      rw [hch] at hcat
      have hr := List.getElem?_eq_getElem (hA.option_lt c k cat op hcat hop i hm)
      exact ⟨_, hr, (hA.option c k cat op hcat hop i _ hr).1 hm⟩
    · rintro name ⟨k, tag, ha, htag, rfl⟩
      have hm := w2 k tag ha htag
      rw [hth] at htag
      have hr := List.getElem?_eq_getElem (hA'.tag_lt k tag htag i hm)
      exact ⟨_, hr, (hA'.tag k tag htag i _ hr).1 hm⟩
    · intro f hf hb
      obtain ⟨x, hx, hin⟩ := w3 ⟨.range f.1 f.2, priceKey⟩ (List.mem_map.2 ⟨f, hf, rfl⟩) hb
      rw [g1] at hx
      obtain ⟨y, hy, n, heq, hn⟩ := (hl.price i _ hraw _).1 hx
      cases heq
      exact ⟨_, y, _, hraw, hy, hn, hin⟩
  · rintro ⟨m1, m2, m3⟩
    refine ⟨?_, ?_, ?_⟩
    · intro c k cat op ha hcat hop
      obtain ⟨raw, hr, hgive⟩ := m1 _ _ ⟨c, k, cat, op, ha, hcat, hop, rfl, rfl⟩
      exact (hA.option c k cat op (by rw [← hch]; exact hcat) hop i _ hr).2 hgive
    · intro k tag ha htag
      obtain ⟨raw, hr, hm⟩ := m2 _ ⟨k, tag, ha, htag, rfl⟩
      exact (hA'.tag k tag (by rw [← hth]; exact htag) i _ hr).2 hm
    · intro f hf
      obtain ⟨g, hg, rfl⟩ := List.mem_map.1 hf
      intro hb
      obtain ⟨raw, x, n, hr, hx, hn, hin⟩ := m3 g hg hb
      rw [g1]
      exact ⟨_, (hl.price i _ hr _).2 ⟨x, hx, n, rfl, hn⟩, hin⟩

open Classical in
/-- So handlers stay right over a re-load if both files were written for the same list of products, on whatever machines and in
whatever hash orders. -/
theorem C91_again (mode : PanicMode) (o : HashOrd) (lowerA lower lower' : Char → List Char) (parse : Str → Option F32)
    (catalogue : List RawProduct) (ixA ix : GramIndex Char) (clA cl : Classic)
    (hA : LoadedFrom lowerA parse catalogue ixA clA) (hl : LoadedFrom lower parse catalogue ix cl)
    (e e₁ : Engine) (hix : e.index.value = some ix) (input : Str)
    (cats : CategoryHandler) (tags : TagHandler) (hc : cats.InRange) (ht : tags.InRange)
    (hch : cats.handle = clA) (hth : tags.handle = clA) (prices : List (JsValue × JsValue))
    (c₁ c₂ : Classic) (whole : ProductProducer)
    (h : e.search mode o lower' input (.new c₁) (.new c₂) none [] = (e₁, .ok (some whole))) :
    e.search mode o lower' input cats tags none (prices.map priceFilter) =
      (e, .ok (some ⟨whole.container, whole.toExport.filter fun i =>
        decide (∃ raw, catalogue[i]? = some raw ∧ Matches parse cats tags prices raw), 0⟩)) := by
  rw [C91 mode o lowerA lowerA lower lower' parse parse parse _ _ _ _ _ _ _ _ _ hA hA hl e e₁ hix input cats tags hc ht hch hth prices c₁ c₂ whole h]
  obtain ⟨t₀, t, o₀, bytes, h1, h2, h3⟩ := hl.loaded
  obtain ⟨g1, _, g3, _⟩ := C44_search t bytes ix cl h3 mode o lower' e hix input (.new c₁) (.new c₂) none [] e₁ whole h
  suffices hw : ∀ i ∈ whole.toExport, (KeptBy parse catalogue catalogue catalogue cats tags prices i ↔
      ∃ raw, catalogue[i]? = some raw ∧ Matches parse cats tags prices raw) by
    rw [List.filter_congr fun i hi => decide_eq_decide.2 (hw i hi)]
  intro i hi
  have hlt := g3 i hi
  rw [g1, hl.length] at hlt
  have hraw := List.getElem?_eq_getElem hlt
  constructor
  · rintro ⟨m1, m2, m3⟩
    refine ⟨_, hraw, ?_, ?_, ?_⟩
    · intro c v hs
      obtain ⟨raw, hr, hg⟩ := m1 c v hs
      rw [hraw] at hr
      cases hr
      exact hg
    · intro name hs
      obtain ⟨raw, hr, hg⟩ := m2 name hs
      rw [hraw] at hr
      cases hr
      exact hg
    · intro f hf hb
      obtain ⟨raw, x, n, hr, h⟩ := m3 f hf hb
      rw [hraw] at hr
      cases hr
      exact ⟨x, n, h⟩
  · rintro ⟨raw, hr, m⟩
    exact ⟨fun c v hs => ⟨raw, hr, m.options c v hs⟩, fun n hs => ⟨raw, hr, m.tags n hs⟩, fun f hf hb => by
      obtain ⟨x, n, h⟩ := m.prices f hf hb
      exact ⟨raw, x, n, hr, h⟩⟩

open Classical in
/-- And with anything selected, a newer file's products at positions that the old file did not have are never shown. -/
theorem C91_newer (mode : PanicMode) (o : HashOrd) (lowerA lower lower' : Char → List Char) (parseA parse : Str → Option F32)
    (catalogueA catalogue : List RawProduct) (ixA ix : GramIndex Char) (clA cl : Classic)
    (hA : LoadedFrom lowerA parseA catalogueA ixA clA) (hl : LoadedFrom lower parse catalogue ix cl)
    (e : Engine) (hix : e.index.value = some ix) (input : Str)
    (cats : CategoryHandler) (tags : TagHandler) (hc : cats.InRange) (ht : tags.InRange)
    (hch : cats.handle = clA) (hth : tags.handle = clA) (prices : List (JsValue × JsValue))
    (hsel : (∃ c v, cats.Selected c v) ∨ ∃ n, tags.Selected n) (c₁ c₂ : Classic) (e₁ : Engine) (whole : ProductProducer)
    (h : e.search mode o lower' input (.new c₁) (.new c₂) none [] = (e₁, .ok (some whole)))
    (e₂ : Engine) (shown : ProductProducer)
    (h2 : e.search mode o lower' input cats tags none (prices.map priceFilter) = (e₂, .ok (some shown))) :
    ∀ i ∈ shown.toExport, i < catalogueA.length := by
  rw [C91 mode o lowerA lowerA lower lower' parseA parseA parse _ _ _ _ _ _ _ _ _ hA hA hl e e₁ hix input cats tags hc ht hch hth prices c₁ c₂
    whole h] at h2
  cases h2
  intro i hi
  obtain ⟨m1, m2, _⟩ := of_decide_eq_true (List.mem_filter.1 hi).2
  rcases hsel with ⟨c, v, hs⟩ | ⟨n, hs⟩
  · obtain ⟨raw, hr, _⟩ := m1 c v hs
    exact (List.getElem?_eq_some_iff.1 hr).1
  · obtain ⟨raw, hr, _⟩ := m2 n hs
    exact (List.getElem?_eq_some_iff.1 hr).1

theorem LoadedFrom.id {lower parse input ix cl} (h : LoadedFrom lower parse input ix cl) {i : Nat} {raw : RawProduct}
    (hi : input[i]? = some raw) : ∃ p, ix.container.products[i]? = some p ∧ p.id = raw.id := by
  obtain ⟨t₀, o₀, ix₀, cl₀, hb, hs⟩ := h.sameData
  obtain ⟨_, h14⟩ := C14 (buildAll_container hb)
  obtain ⟨p, hp, h1, h2, h3, h4, hsid⟩ := h14 i raw hi
  exact ⟨limited p, by rw [hs.products, List.getElem?_map, hp]; rfl, h1⟩

namespace Witness

/-- A catalogue as it is in the text; the first and the last product are described as "kunst", the first is red. -/
def entriesK : List (Str × RawProduct) :=
  [(['1'], product kunst ['a'] ['1'] [⟨['c'], [['r']]⟩]), (['2'], product musik ['c'] ['3'] []),
   (['3'], product musik ['d'] ['4'] []), (['4'], product kunst ['b'] ['2'] [])]

def fileK (o : HashOrd) : Bytes := (runFileO target o parseOne ngramIndexSize ((o.order "catalogue" entriesK).map (·.2))).getD []

set_option maxRecDepth 20000 in
set_option synthInstance.maxSize 1000 in
theorem factsK₁ : facts (fileK .ident) = some ([0, 3], [(['c'], [(['r'], [0])])]) := by decide +kernel

set_option maxRecDepth 20000 in
set_option synthInstance.maxSize 1000 in
theorem factsK₂ : facts (fileK .rev) = some ([0, 3], [(['c'], [(['r'], [3])])]) := by decide +kernel

theorem textK : ∃ text, readCatalogue text = some entriesK := by
  obtain ⟨text, h⟩ := (C64 entriesK).2 (by
    intro e he
    simp only [entriesK, List.mem_cons, List.not_mem_nil, or_false] at he
    rcases he with rfl | rfl | rfl | rfl <;> (constructor <;> unfold Unescaped <;> decide))
  exact ⟨text, by unfold readCatalogue; rw [h]; rfl⟩

theorem writtenK {text : Str} (ht : readCatalogue text = some entriesK) (o : HashOrd)
    (h : (runFileO target o parseOne ngramIndexSize ((o.order "catalogue" entriesK).map (·.2))).isSome = true) :
    indexText target o (fun c => [c]) parseOne ngramIndexSize text = .ok (fileK o) := by
  obtain ⟨b, hb⟩ := Option.isSome_iff_exists.1 h
  obtain ⟨_, _, _, _, h3⟩ := runFileO_sound (by decide) (by decide) hb
  unfold indexText indexCatalogue
  rw [ht]
  show indexAndSerialize _ _ _ _ _ _ = _
  rw [h3, fileK, hb]
  rfl

theorem filter_first (P : Nat → Prop) [DecidablePred P] (h0 : P 0) (h3 : ¬P 3) : [0, 3].filter (fun i => decide (P i)) = [0] := by
  simp [List.filter_cons, h0, h3]

end Witness

set_option maxRecDepth 20000 in
open Witness in
/-- But the same text indexed twice may give its products in another order. A page loads the first file, selects "red", and loads the
second file, made from the same text: the same search then shows the product that is not red and leaves out the red one. -/
theorem C91_text (mode : PanicMode) : ∃ (text : Str) (o₁ o₂ : HashOrd) (file₁ file₂ : Bytes) (e₁ e₂ : Engine) (h : CategoryHandler)
    (tags : TagHandler) (it : CategoryOptionIter) (item : ExportOption) (whole filtered : ProductProducer) (red other : Product),
    indexText target o₁ (fun c => [c]) parseOne ngramIndexSize text = .ok file₁ ∧
    indexText target o₂ (fun c => [c]) parseOne ngramIndexSize text = .ok file₂ ∧
    Engine.start.initialize target file₁ = (e₁, .ok true) ∧ e₁.getCategories = .ok (some h) ∧
    h.iter.nextItem.2 = some it ∧ it.name = .ok ['c'] ∧ it.nextItem.2 = some item ∧ item.name = ['r'] ∧
    e₁.initialize target file₂ = (e₂, .ok true) ∧ e₂.getTags = .ok (some tags) ∧
    e₂.search mode .ident (fun c => [c]) kunst h tags none [] = (e₂, .ok (some whole)) ∧
    e₂.search mode .ident (fun c => [c]) kunst (h.toggle item).1 tags none [] = (e₂, .ok (some filtered)) ∧
    whole.toExport = [0, 3] ∧ filtered.toExport = [0] ∧ filtered.container = whole.container ∧
    whole.container.products[0]? = some other ∧ whole.container.products[3]? = some red ∧
    (∀ p ∈ entriesK, p.2.id = other.id → p.2.options = []) ∧ (∀ p ∈ entriesK, p.2.id = red.id → p.2.options = [⟨['c'], [['r']]⟩]) := by
  classical
  obtain ⟨text, ht⟩ := textK
  have w₁ := writtenK ht .ident (by decide +kernel)
  have w₂ := writtenK ht .rev (by decide +kernel)
  obtain ⟨ixA, clA, rA, hA, hcA, _, _⟩ := facts_sound factsK₁
  obtain ⟨ixB, clB, rB, hB, hcB, hrB, hidsB⟩ := facts_sound factsK₂
  obtain ⟨c, o, hc, ho, hcn, hon, hids⟩ := one_option hcA
  obtain ⟨it, hit, hname, hitem⟩ := only_item hc ho
  have i₁ : ∃ l, l = entriesK.map (·.2) ∧ indexAndSerialize target .ident (fun c => [c]) parseOne ngramIndexSize l = .ok (fileK .ident) := by
    have := w₁
    unfold indexText indexCatalogue at this
    rw [ht] at this
    exact ⟨_, rfl, this⟩
  have i₂ : ∃ l, l = entriesK.reverse.map (·.2) ∧ indexAndSerialize target .rev (fun c => [c]) parseOne ngramIndexSize l = .ok (fileK .rev) := by
    have := w₂
    unfold indexText indexCatalogue at this
    rw [ht] at this
    exact ⟨_, rfl, this⟩
  obtain ⟨_, rfl, i₁⟩ := i₁
  obtain ⟨_, rfl, i₂⟩ := i₂
  have lA : LoadedFrom (fun c => [c]) parseOne (entriesK.map (·.2)) ixA clA :=
    ⟨⟨target, target, .ident, _, i₁, .of_carried (by decide +kernel) fun _ _ => rfl, hA⟩⟩
  have lB : LoadedFrom (fun c => [c]) parseOne (entriesK.reverse.map (·.2)) ixB clB :=
    ⟨⟨target, target, .rev, _, i₂, .of_carried (by decide +kernel) fun _ _ => rfl, hB⟩⟩
  have hk : kunst.flatMap (fun c => [c]) = kunst := rfl
  have hwhole : Engine.search mode .ident (fun c => [c]) ⟨⟨.free, some ixB⟩, ⟨.free, some clB⟩⟩ kunst (.new clA) (.new clB)
      none [] = (⟨⟨.free, some ixB⟩, ⟨.free, some clB⟩⟩, .ok (some (ProductProducer.new ixB.container [0, 3]))) := by
    unfold Engine.search
    obtain ⟨r, h1, h2⟩ := searchIds_spec .ident (fun c => [c]) ixB kunst (.new clA) (.new clB) (inRange_new_categories _)
      (inRange_new_tags _) []
    rw [hk, hrB] at h1
    cases h1
    simp only [parseFilters, Slot.lockOk, h2]
    rw [hidsB, List.filter_eq_self.2 fun sid _ => by simp [wanted_new]]
  have hrange : ((CategoryHandler.new clA).toggle ⟨o.name, 0, 0⟩).1.InRange :=
    C33_inRange_categories clA [.toggle ⟨o.name, 0, 0⟩] fun item hi => by
      simp only [List.mem_singleton, CatOp.toggle.injEq] at hi
      rw [hi]
      exact ⟨c, o, by simp [hc], by simp [ho]⟩
  have hfilt := C91 mode .ident _ _ _ (fun c => [c]) _ _ _ _ _ _ _ _ _ _ _ _ lA lB lB _ _ rfl kunst
    ((CategoryHandler.new clA).toggle ⟨o.name, 0, 0⟩).1 (.new clB) hrange (inRange_new_tags _) rfl rfl [] _ _ _ hwhole
  obtain ⟨p0, hp0, hid0⟩ : ∃ p, ixB.container.products[0]? = some p ∧ p.id = ['2'] := lB.id (i := 0) rfl
  obtain ⟨p3, hp3, hid3⟩ : ∃ p, ixB.container.products[3]? = some p ∧ p.id = ['1'] := lB.id (i := 3) rfl
  have hsel : ∀ category value, ((CategoryHandler.new clA).toggle ⟨o.name, 0, 0⟩).1.Selected category value ↔ category = ['c'] ∧ value = ['r'] := by
    intro category value
    constructor
    · rintro ⟨a, b, cat, op, ha, h2, h3, rfl, rfl⟩
      simp only [CategoryHandler.toggle, CategoryHandler.new, hc] at h2
      cases a with
      | succ a => simp at h2
      | zero =>
        simp only [List.getElem?_cons_zero, Option.some.injEq] at h2
        rw [← h2, ho] at h3
        cases b with
        | succ b => simp at h3
        | zero =>
          simp only [List.getElem?_cons_zero, Option.some.injEq] at h3
          rw [← h2, ← h3]
          exact ⟨hcn, hon⟩
    · rintro ⟨rfl, rfl⟩
      exact ⟨0, 0, c, o, rfl, by simp [CategoryHandler.toggle, CategoryHandler.new, hc], by simp [ho], hcn, hon⟩
  have k0 : KeptBy parseOne (entriesK.map (·.2)) (entriesK.reverse.map (·.2)) (entriesK.reverse.map (·.2))
      ((CategoryHandler.new clA).toggle ⟨o.name, 0, 0⟩).1 (.new clB) [] 0 := by
    refine ⟨?_, ?_, by simp⟩
    · intro cn v hs
      obtain ⟨rfl, rfl⟩ := (hsel cn v).1 hs
      exact ⟨_, rfl, by decide⟩
    · rintro name ⟨k, tag, ha, _⟩
      simp [TagHandler.new] at ha
  have k3 : ¬KeptBy parseOne (entriesK.map (·.2)) (entriesK.reverse.map (·.2)) (entriesK.reverse.map (·.2))
      ((CategoryHandler.new clA).toggle ⟨o.name, 0, 0⟩).1 (.new clB) [] 3 := by
    rintro ⟨h1, _, _⟩
    obtain ⟨raw, hr, hg⟩ := h1 ['c'] ['r'] ((hsel _ _).2 ⟨rfl, rfl⟩)
    cases hr
    exact absurd hg (by decide)
  refine ⟨text, .ident, .rev, _, _, _, _, _, _, it, _, _, _, p3, p0, w₁, w₂, initialize_ok rfl rfl hA, rfl, hit, by rw [hname, hcn], hitem, hon,
    initialize_ok rfl rfl hB, rfl, hwhole, hfilt, rfl, ?_, rfl, hp0, hp3, ?_, ?_⟩
  · exact filter_first _ k0 k3
  · rw [hid0]; decide
  · rw [hid3]; decide

namespace Witness

/-- The products of `entriesK` and the first of them only, indexed with one hash order or the other. -/
def fileL (o : HashOrd) (n : Nat) : Bytes := (runFileO target o parseOne ngramIndexSize ((entriesK.map (·.2)).take n)).getD []

set_option maxRecDepth 20000 in
set_option synthInstance.maxSize 1000 in
theorem factsL₁ : facts (fileL .ident 4) = some ([0, 3], [(['c'], [(['r'], [0])])]) := by decide +kernel

set_option maxRecDepth 20000 in
set_option synthInstance.maxSize 1000 in
theorem factsL₂ : facts (fileL .rev 4) = some ([0, 3], [(['c'], [(['r'], [0])])]) := by decide +kernel

set_option maxRecDepth 20000 in
set_option synthInstance.maxSize 1000 in
theorem factsL₃ : facts (fileL .ident 1) = some ([], [(['c'], [(['r'], [0])])]) := by decide +kernel

theorem writtenL (o : HashOrd) (n : Nat)
    (h : (runFileO target o parseOne ngramIndexSize ((entriesK.map (·.2)).take n)).isSome = true) :
    indexAndSerialize target o (fun c => [c]) parseOne ngramIndexSize ((entriesK.map (·.2)).take n) = .ok (fileL o n) := by
  obtain ⟨b, hb⟩ := Option.isSome_iff_exists.1 h
  obtain ⟨_, _, _, _, h3⟩ := runFileO_sound (by decide) (by decide) hb
  rw [h3, fileL, hb]
  rfl

theorem unfilteredK (mode : PanicMode) {ix : GramIndex Char} {cl clA : Classic} {r : List (Product × F32)}
    (hr : ix.search .ident ngramIndexSize kunst = .ok r) (hids : r.map (·.1.sid) = [0, 3]) :
    Engine.search mode .ident (fun c => [c]) ⟨⟨.free, some ix⟩, ⟨.free, some cl⟩⟩ kunst (.new clA) (.new clA) none [] =
      (⟨⟨.free, some ix⟩, ⟨.free, some cl⟩⟩, .ok (some (ProductProducer.new ix.container [0, 3]))) := by
  have hk : kunst.flatMap (fun c => [c]) = kunst := rfl
  unfold Engine.search
  obtain ⟨r', h1, h2⟩ := searchIds_spec .ident (fun c => [c]) ix kunst (.new clA) (.new clA) (inRange_new_categories _)
    (inRange_new_tags _) []
  rw [hk, hr] at h1
  cases h1
  simp only [parseFilters, Slot.lockOk, h2]
  rw [hids, List.filter_eq_self.2 fun sid _ => by simp [wanted_new]]

end Witness

set_option maxRecDepth 20000 in
open Witness in
/-- `C91_again` with two files of the same list: the red product and only it is shown; and `C91_newer` with an old file that had only
that product. -/
example (mode : PanicMode) : ∃ (ixA ix ixO : GramIndex Char) (clA cl clO : Classic) (e : Engine) (whole : ProductProducer),
    LoadedFrom (fun c => [c]) parseOne (entriesK.map (·.2)) ixA clA ∧ LoadedFrom (fun c => [c]) parseOne (entriesK.map (·.2)) ix cl ∧
    LoadedFrom (fun c => [c]) parseOne ((entriesK.map (·.2)).take 1) ixO clO ∧
    e.index.value = some ix ∧ whole.toExport = [0, 3] ∧
    (e.search mode .ident (fun c => [c]) kunst (.new clA) (.new clA) none [] = (e, .ok (some whole))) ∧
    (e.search mode .ident (fun c => [c]) kunst (.new clO) (.new clO) none [] = (e, .ok (some whole))) ∧
    (∃ h : CategoryHandler, h.InRange ∧ h.handle = clA ∧ h.Selected ['c'] ['r']) ∧
    ∃ h : CategoryHandler, h.InRange ∧ h.handle = clO ∧ h.Selected ['c'] ['r'] := by
  have sel : ∀ {cl : Classic} {c : Category} {o : CatOption}, cl.categories = [c] → c.options = [o] → c.name = ['c'] → o.name = ['r'] →
      ∃ h : CategoryHandler, h.InRange ∧ h.handle = cl ∧ h.Selected ['c'] ['r'] := by
    intro cl c o hc ho hcn hon
    refine ⟨((CategoryHandler.new cl).toggle ⟨o.name, 0, 0⟩).1, C33_inRange_categories cl [.toggle ⟨o.name, 0, 0⟩] fun item hi => ?_, rfl,
      0, 0, c, o, rfl, by simp [CategoryHandler.toggle, CategoryHandler.new, hc], by simp [ho], hcn, hon⟩
    simp only [List.mem_singleton, CatOp.toggle.injEq] at hi
    rw [hi]
    exact ⟨c, o, by simp [hc], by simp [ho]⟩
  obtain ⟨ixA, clA, _, hA, hcA, _, _⟩ := facts_sound factsL₁
  obtain ⟨ix, cl, _, hB, _, hr, hids⟩ := facts_sound factsL₂
  obtain ⟨ixO, clO, _, hO, hcO, _, _⟩ := facts_sound factsL₃
  obtain ⟨c, o, hc, ho, hcn, hon, _⟩ := one_option hcA
  obtain ⟨c', o', hc', ho', hcn', hon', _⟩ := one_option hcO
  exact ⟨ixA, ix, ixO, clA, cl, clO, ⟨⟨.free, some ix⟩, ⟨.free, some cl⟩⟩, _,
    ⟨target, target, .ident, _, writtenL .ident 4 (by decide +kernel), .of_carried (by decide +kernel) fun _ _ => rfl, hA⟩,
    ⟨target, target, .rev, _, writtenL .rev 4 (by decide +kernel), .of_carried (by decide +kernel) fun _ _ => rfl, hB⟩,
    ⟨target, target, .ident, _, writtenL .ident 1 (by decide +kernel), .of_carried (by decide +kernel) fun _ _ => rfl, hO⟩,
    rfl, rfl, unfilteredK mode hr hids, unfilteredK mode hr hids, sel hc ho hcn hon, sel hc' ho' hcn' hon'⟩

end Idx
