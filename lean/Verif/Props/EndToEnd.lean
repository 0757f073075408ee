import Verif.Props.Failures
/-! # C50, C58: filters of the file that is loaded, in terms of the catalogue it was written for -/
namespace Idx

theorem LoadedFrom.tag {lower parse input ix cl} (h : LoadedFrom lower parse input ix cl) (k : Nat) (t : Tag)
    (ht : cl.tags[k]? = some t) (i : Nat) (raw : RawProduct) (hi : input[i]? = some raw) :
    i ∈ t.ids ↔ t.name ∈ raw.tags := by
  obtain ⟨t₀, o₀, ix₀, cl₀, hb, hs⟩ := h.sameData
  obtain ⟨_, _, _, h18⟩ := C18 (buildAll_container hb)
  obtain ⟨_, h14⟩ := C14 (buildAll_container hb)
  obtain ⟨p, hp, _, _, _, _, hsid⟩ := h14 i raw hi
  have hmap := congrArg (fun l => l[k]?) hs.tags
  simp only [List.getElem?_map, ht, Option.map_some] at hmap
  cases hk : cl₀.tags[k]? with
  | none => rw [hk] at hmap; cases hmap
  | some u =>
    rw [hk] at hmap
    simp only [Option.map_some, Option.some.injEq, Prod.mk.injEq] at hmap
    have h1 := hs.tagContains k u t hk ht p
    have h2 := h18 u (List.mem_of_getElem? hk) i raw p hi hp
    rw [hmap.1, ← h2, ← h1]
    simp [Tag.contains, limited, hsid]

theorem LoadedFrom.option {lower parse input ix cl} (h : LoadedFrom lower parse input ix cl) (k j : Nat) (cat : Category)
    (op : CatOption) (hc : cl.categories[k]? = some cat) (ho : cat.options[j]? = some op) (i : Nat) (raw : RawProduct)
    (hi : input[i]? = some raw) : i ∈ op.ids ↔ Gives raw cat.name op.name := by
  obtain ⟨t₀, o₀, ix₀, cl₀, hb, hs⟩ := h.sameData
  obtain ⟨_, _, h19⟩ := C19 (buildAll_container hb)
  obtain ⟨_, h14⟩ := C14 (buildAll_container hb)
  obtain ⟨p, hp, _, _, _, _, hsid⟩ := h14 i raw hi
  have hmap := congrArg (fun l => l[k]?) hs.categories
  simp only [List.getElem?_map, hc, Option.map_some] at hmap
  cases hk : cl₀.categories[k]? with
  | none => rw [hk] at hmap; cases hmap
  | some c0 =>
    rw [hk] at hmap
    simp only [Option.map_some, Option.some.injEq, categoryView, Prod.mk.injEq] at hmap
    obtain ⟨hn, _, hopts⟩ := hmap
    have hopt := congrArg (fun l => l[j]?) hopts
    simp only [List.getElem?_map, ho, Option.map_some] at hopt
    cases hj : c0.options[j]? with
    | none => rw [hj] at hopt; cases hopt
    | some op0 =>
      rw [hj] at hopt
      simp only [Option.map_some, Option.some.injEq, Prod.mk.injEq] at hopt
      obtain ⟨_, hcont⟩ := hs.optionContains k j c0 cat op0 op hk hc hj ho
      obtain ⟨_, _, hops⟩ := h19 c0 (List.mem_of_getElem? hk)
      obtain ⟨_, _, h2⟩ := hops op0 (List.mem_of_getElem? hj)
      rw [hn, hopt.1, ← h2 i raw p hi hp, ← hcont p]
      simp [CatOption.contains, limited, hsid]

theorem LoadedFrom.price {lower parse input ix cl} (h : LoadedFrom lower parse input ix cl) (i : Nat) (raw : RawProduct)
    (hi : input[i]? = some raw) (v : JsValue) : Reported ix.container.extra priceKey i v ↔
      ∃ x, parse raw.price.min.amount = some x ∧ ∃ n, v = .num n ∧ SameNumber x n := by
  obtain ⟨t₀, o₀, ix₀, cl₀, hb, hs⟩ := h.sameData
  obtain ⟨_, h14⟩ := C14 (buildAll_container hb)
  obtain ⟨p, hp, _, _, _, _, hsid⟩ := h14 i raw hi
  obtain ⟨x, hx, hf⟩ := price_of (buildAll_container hb) i raw hi p hp
  unfold Reported
  rw [hs.extra, hx]
  unfold FeatureSet.get at hf
  cases hg : AMap.get ix₀.container.extra priceKey with
  | none => rw [hg] at hf; cases hf
  | some f =>
    rw [hg] at hf
    simp only at hf
    cases f with
    | string l => simp only [Feature.get] at hf; cases hl : l[p.sid]? <;> rw [hl] at hf <;> cases hf
    | integer l => simp only [Feature.get] at hf; cases hl : l[p.sid]? <;> rw [hl] at hf <;> cases hf
    | float l =>
      simp only [Feature.get] at hf
      cases hl : l[p.sid]? with
      | none => rw [hl] at hf; cases hf
      | some y =>
        rw [hl] at hf
        cases hf
        rw [hsid] at hl
        simp [hl]

/-- The option is selected in the handler. -/
def CategoryHandler.Selected (h : CategoryHandler) (category value : Str) : Prop :=
  ∃ c i cat op, (AMap.get h.active (c, i)).isSome = true ∧ h.handle.categories[c]? = some cat ∧
    cat.options[i]? = some op ∧ cat.name = category ∧ op.name = value

/-- The tag is selected in the handler. -/
def TagHandler.Selected (h : TagHandler) (name : Str) : Prop :=
  ∃ i tag, (AMap.get h.active i).isSome = true ∧ h.handle.tags[i]? = some tag ∧ tag.name = name

/-- Spec: what a catalogue entry must have, in the words of the catalogue. -/
structure Matches (parse : Str → Option F32) (cats : CategoryHandler) (tags : TagHandler)
    (priceFilters : List (JsValue × JsValue)) (raw : RawProduct) : Prop where
  options : ∀ category value, cats.Selected category value → Gives raw category value
  tags : ∀ name, tags.Selected name → name ∈ raw.tags
  prices : ∀ f ∈ priceFilters, Bounded f.1 f.2 →
    ∃ x n, parse raw.price.min.amount = some x ∧ SameNumber x n ∧ InBounds f.1 f.2 n

/-- The filter object with these price ranges. -/
def priceFilter (f : JsValue × JsValue) : Str × JsValue :=
  ("price".toList, .obj 0 [("from".toList, f.1), ("to".toList, f.2)])

theorem parse_priceFilters (l : List (JsValue × JsValue)) :
    parseFilters (l.map priceFilter) = some (l.map fun f => ⟨.range f.1 f.2, priceKey⟩) := by
  induction l with
  | nil => rfl
  | cons f l ih => simp only [List.map_cons, parseFilters, ih, priceFilter]; rfl

open Classical in
/-- With handlers obtained from the file that is being searched, a filtered search returns exactly those products of
the unfiltered search, in the same order, whose catalogue entry has every selected option and tag and a price within
the given ranges. Missing for the full claim: handlers of an earlier file, for which it is false (`C50_false`); they
filter by the positions of their own file (`C33`). -/
theorem C50_partial (mode : PanicMode) (o : HashOrd) (lower lower' : Char → List Char) (parse : Str → Option F32)
    (catalogue : List RawProduct) (ix : GramIndex Char) (cl : Classic) (hl : LoadedFrom lower parse catalogue ix cl)
    (e e₁ : Engine) (hix : e.index.value = some ix) (input : Str)
    (cats : CategoryHandler) (tags : TagHandler) (hc : cats.InRange) (ht : tags.InRange)
    (hch : cats.handle = cl) (hth : tags.handle = cl) (prices : List (JsValue × JsValue))
    (c₁ c₂ : Classic) (whole : ProductProducer)
    (h : e.search mode o lower' input (.new c₁) (.new c₂) none [] = (e₁, .ok (some whole))) :
    e.search mode o lower' input cats tags none (prices.map priceFilter) =
      (e, .ok (some ⟨whole.container, whole.toExport.filter fun i =>
        decide (∃ raw, catalogue[i]? = some raw ∧ Matches parse cats tags prices raw), 0⟩)) := by
  obtain ⟨t₀, t, o₀, bytes, h1, h2, h3⟩ := hl.loaded
  obtain ⟨g1, _, g3, _⟩ := C44_search t bytes ix cl h3 mode o lower' e hix input (.new c₁) (.new c₂) none [] e₁ whole h
  rw [C33_parsed mode o lower' e input cats tags hc ht _ _ (parse_priceFilters prices) c₁ c₂ e₁ whole h]
  suffices hw : ∀ i ∈ whole.toExport,
      (Wanted cats tags (prices.map fun f => ⟨.range f.1 f.2, priceKey⟩) whole.container.extra i ↔
        ∃ raw, catalogue[i]? = some raw ∧ Matches parse cats tags prices raw) by
    rw [List.filter_congr fun i hi => decide_eq_decide.2 (hw i hi)]
  intro i hi
  have hlt := g3 i hi
  rw [g1, hl.length] at hlt
  have hraw := List.getElem?_eq_getElem hlt
  constructor
  · rintro ⟨w1, w2, w3⟩
    refine ⟨_, hraw, ⟨?_, ?_, ?_⟩⟩
    · rintro cn v ⟨c, k, cat, op, ha, hcat, hop, rfl, rfl⟩
      exact (hl.option c k cat op (by rw [← hch]; exact hcat) hop i _ hraw).1 (w1 c k cat op ha hcat hop)
    · rintro name ⟨k, tag, ha, htag, rfl⟩
      exact (hl.tag k tag (by rw [← hth]; exact htag) i _ hraw).1 (w2 k tag ha htag)
    · intro f hf hb
      obtain ⟨x, hx, hin⟩ := w3 ⟨.range f.1 f.2, priceKey⟩ (List.mem_map.2 ⟨f, hf, rfl⟩) hb
      rw [g1] at hx
      obtain ⟨y, hy, n, heq, hn⟩ := (hl.price i _ hraw _).1 hx
      cases heq
      exact ⟨y, _, hy, hn, hin⟩
  · rintro ⟨raw, hraw', m⟩
    rw [hraw] at hraw'
    cases hraw'
    refine ⟨?_, ?_, ?_⟩
    · intro c k cat op ha hcat hop
      exact (hl.option c k cat op (by rw [← hch]; exact hcat) hop i _ hraw).2
        (m.options _ _ ⟨c, k, cat, op, ha, hcat, hop, rfl, rfl⟩)
    · intro k tag ha htag
      exact (hl.tag k tag (by rw [← hth]; exact htag) i _ hraw).2 (m.tags _ ⟨k, tag, ha, htag, rfl⟩)
    · intro f hf
      obtain ⟨g, hg, rfl⟩ := List.mem_map.1 hf
      intro hb
      obtain ⟨x, n, hx, hn, hin⟩ := m.prices g hg hb
      rw [g1]
      exact ⟨_, (hl.price i _ hraw _).2 ⟨x, hx, n, rfl, hn⟩, hin⟩

open Witness in
/-- The hypotheses hold for the catalogue of `C50_false` when the option is selected in a handler of that very file:
the search then returns the red product. -/
example (mode : PanicMode) : ∃ (ix : GramIndex Char) (cl : Classic) (e : Engine) (cats : CategoryHandler)
    (whole : ProductProducer), LoadedFrom (fun c => [c]) parseOne catalogueB ix cl ∧ e.index.value = some ix ∧
    cats.InRange ∧ cats.handle = cl ∧ cats.Selected ['c'] ['r'] ∧
    e.search mode .ident (fun c => [c]) kunst (.new cl) (.new cl) none [] = (e, .ok (some whole)) ∧
    whole.toExport = [0, 1] := by
  classical
  obtain ⟨ix, cl, r, hd, hcat, hr, hids⟩ := facts_sound factsB
  obtain ⟨c, o, hc, ho, hcn, hon, hoids⟩ := one_option hcat
  refine ⟨ix, cl, ⟨⟨.free, some ix⟩, ⟨.free, some cl⟩⟩, ((CategoryHandler.new cl).toggle ⟨o.name, 0, 0⟩).1,
    ⟨ix.container, [0, 1], 0⟩, ⟨⟨target, target, .ident, file catalogueB, writtenB, ?_, hd⟩⟩, rfl, ?_, rfl, ?_, ?_, rfl⟩
  · exact .of_carried (by decide +kernel) fun _ _ => rfl
  · exact C33_inRange_categories cl [.toggle ⟨o.name, 0, 0⟩] fun item hi => by
      simp only [List.mem_singleton, CatOp.toggle.injEq] at hi
      rw [hi]
      exact ⟨c, o, by simp [hc], by simp [ho]⟩
  · exact ⟨0, 0, c, o, rfl, by simp [CategoryHandler.toggle, CategoryHandler.new, hc], by simp [ho], hcn, hon⟩
  · unfold Engine.search
    obtain ⟨r', h1, h2⟩ := searchIds_spec .ident (fun c => [c]) ix kunst (.new cl) (.new cl) (inRange_new_categories _)
      (inRange_new_tags _) []
    rw [show kunst.flatMap (fun c => [c]) = kunst from rfl, hr] at h1
    cases h1
    simp only [parseFilters, Slot.lockOk, h2]
    rw [hids, List.filter_eq_self.2 fun sid _ => by simp [wanted_new]]
    rfl

end Idx
