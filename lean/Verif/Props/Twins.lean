import Verif.Props.Found
import Verif.Props.Catalogue
import Verif.Props.Ordering
import Verif.Props.Filters
/-! # C116: several products with the same id -/
namespace Idx

/-- Spec: product number `i` is the first of those with this id whose padded text has the n-gram. -/
def FirstWith (lower : Char → List Char) (n : Nat) (input : List RawProduct) (id : Str) (k : List Char) (i : Nat) : Prop :=
  ∃ raw, input[i]? = some raw ∧ raw.id = id ∧ k ∈ paddedWindows n (textOf lower raw) ∧
    ∀ j raw', j < i → input[j]? = some raw' → raw'.id = id → k ∉ paddedWindows n (textOf lower raw')

/-- Spec: the n-gram of the query finds something with this id. -/
def FindsId (t : Target) (lower : Char → List Char) (n : Nat) (input : List RawProduct) (ix : GramIndex Char) (id : Str) (w : List Char) : Prop :=
  ∃ found conf, ix.searchGram n w = .ok (some (found, conf)) ∧
    (input.map fun raw => (paddedWindows n (textOf lower raw)).count found).sum < maximumProductAmount t input.length ∧
    ∃ raw ∈ input, raw.id = id ∧ found ∈ paddedWindows n (textOf lower raw)

theorem Built.id_at {parse o input c cl prices} (b : Built parse o input c cl prices) {i : Nat} {p : Product} {raw : RawProduct}
    (hp : c.products[i]? = some p) (hr : input[i]? = some raw) : p.id = raw.id := by
  rw [b.getElem?, hr] at hp
  simp only [Option.map_some, Option.some.injEq] at hp
  rw [← hp]; rfl

theorem posted_first {parse o input c cl prices} (b : Built parse o input c cl prices) (lower : Char → List Char) (n : Nat) (k : List Char)
    (id : Str) (p : Product) :
    (expectedPostings lower n c.products input k).find? (fun p => decide (p.id = id)) = some p ↔
      c.products[p.sid]? = some p ∧ FirstWith lower n input id k p.sid := by
  unfold expectedPostings
  rw [List.find?_flatMap, List.findSome?_eq_some_iff]
  constructor
  · rintro ⟨l₁, ⟨p', raw⟩, l₂, e, h, hno⟩
    rw [List.find?_replicate_eq_some_iff] at h
    simp only [decide_eq_true_eq] at h
    obtain ⟨hc, hid, rfl⟩ := h
    have hz : (c.products.zip input)[l₁.length]? = some (p', raw) := by rw [e]; simp
    have hz' := List.getElem?_zip_eq_some.1 hz
    have hs := b.sid _ _ hz'.1
    rw [hs]
    refine ⟨hz'.1, raw, hz'.2, by rw [← b.id_at hz'.1 hz'.2]; exact hid, List.count_pos_iff.1 (Nat.pos_of_ne_zero hc), ?_⟩
    intro j raw' hj hr' hid' hk
    have hp2 : c.products[j]? = some (productOf c.vendors raw' j) := by rw [b.getElem?, hr']; rfl
    have hz2 : (c.products.zip input)[j]? = some (productOf c.vendors raw' j, raw') := List.getElem?_zip_eq_some.2 ⟨hp2, hr'⟩
    rw [e, List.getElem?_append_left hj] at hz2
    have := hno _ (List.mem_of_getElem? hz2)
    rw [List.find?_replicate_eq_none_iff] at this
    rcases this with h0 | h0
    · have := List.count_pos_iff.2 hk
      simp only at h0
      omega
    · rw [b.id_at hp2 hr'] at h0
      simp [hid'] at h0
  · rintro ⟨hp, raw, hr, hid, hk, hfirst⟩
    have hz : (c.products.zip input)[p.sid]? = some (p, raw) := List.getElem?_zip_eq_some.2 ⟨hp, hr⟩
    obtain ⟨hlt, hz'⟩ := List.getElem?_eq_some_iff.1 hz
    refine ⟨(c.products.zip input).take p.sid, (p, raw), (c.products.zip input).drop (p.sid + 1), ?_, ?_, ?_⟩
    · conv => lhs; rw [← List.take_append_drop p.sid (c.products.zip input), List.drop_eq_getElem_cons hlt, hz']
    · rw [List.find?_replicate_eq_some_iff]
      have := List.count_pos_iff.2 hk
      exact ⟨by simp only; omega, by rw [b.id_at hp hr, hid]; simp, rfl⟩
    · rintro ⟨p', raw'⟩ hx
      obtain ⟨j, hj⟩ := List.getElem?_of_mem hx
      rw [List.getElem?_take] at hj
      split at hj
      · rename_i hlt
        obtain ⟨h1, h2⟩ := List.getElem?_zip_eq_some.1 hj
        rw [List.find?_replicate_eq_none_iff]
        rcases Classical.em (raw'.id = id) with hid' | hid'
        · exact .inl (List.count_eq_zero.2 (hfirst j raw' hlt h2 hid'))
        · exact .inr (by rw [b.id_at h1 h2]; simp [hid'])
      · cases hj

theorem posted_none {parse o input c cl prices} (b : Built parse o input c cl prices) (lower : Char → List Char) (n : Nat) (k : List Char)
    (id : Str) : (expectedPostings lower n c.products input k).find? (fun p => decide (p.id = id)) = none ↔
      ∀ raw ∈ input, raw.id = id → k ∉ paddedWindows n (textOf lower raw) := by
  constructor
  · intro h raw hr hid hk
    obtain ⟨i, hi⟩ := List.getElem?_of_mem hr
    have hp : c.products[i]? = some (productOf c.vendors raw i) := by rw [b.getElem?, hi]; rfl
    have hmem : productOf c.vendors raw i ∈ expectedPostings lower n c.products input k := by
      refine List.mem_flatMap.2 ⟨(productOf c.vendors raw i, raw), List.mem_of_getElem? (List.getElem?_zip_eq_some.2 ⟨hp, hi⟩), ?_⟩
      exact List.mem_replicate.2 ⟨by have := List.count_pos_iff.2 hk; simp only; omega, rfl⟩
    have := List.find?_eq_none.1 h _ hmem
    rw [b.id_at hp hi] at this
    simp [hid] at this
  · intro h
    cases hf : (expectedPostings lower n c.products input k).find? (fun p => decide (p.id = id)) with
    | none => rfl
    | some p =>
      obtain ⟨_, raw, hr, hid, hk, _⟩ := (posted_first b lower n k id p).1 hf
      exact absurd hk (h raw (List.mem_of_getElem? hr) hid)

theorem posted_length {t o lower parse n input ix cl} (h : buildAll t o lower parse n input = .ok (ix, cl)) (k : List Char) :
    (expectedPostings lower n ix.container.products input k).length =
      (input.map fun raw => (paddedWindows n (textOf lower raw)).count k).sum := by
  have hlen := congrArg List.length (expected_ids h k)
  simp only [List.length_map, List.length_flatMap, List.length_replicate] at hlen
  rw [hlen, List.map_map]
  rfl

/-- Which product stands for an id: of the first n-gram of the query that finds something with this id, the first product with it. -/
theorem C116_shown {t o lower parse n input ix cl} (h1 : 1 ≤ n) (h2 : n ≤ 764) (hb : buildAll t o lower parse n input = .ok (ix, cl))
    (o' : HashOrd) (query : List Char) (results : List (Product × F32)) (hs : ix.search o' n query = .ok results) (p : Product) :
    (∃ c, (p, c) ∈ results) ↔ ix.container.products[p.sid]? = some p ∧
      ∃ before w after found conf, paddedWindows n query = before ++ w :: after ∧ (∀ u ∈ before, ¬ FindsId t lower n input ix p.id u) ∧
        ix.searchGram n w = .ok (some (found, conf)) ∧
        (input.map fun raw => (paddedWindows n (textOf lower raw)).count found).sum < maximumProductAmount t input.length ∧
        FirstWith lower n input p.id found p.sid := by
  obtain ⟨prices, b⟩ := (builtAll_of_ok hb).built
  -- what one window contributes
  have hwin : ∀ (u : List Char) (x : Product × F32), (hitsOfWindow ix n u).find? (fun h => decide (h.1.id = p.id)) = some x ↔
      ∃ found, ix.searchGram n u = .ok (some (found, x.2)) ∧
        (input.map fun raw => (paddedWindows n (textOf lower raw)).count found).sum < maximumProductAmount t input.length ∧
        (expectedPostings lower n ix.container.products input found).find? (fun q => decide (q.id = p.id)) = some x.1 := by
    intro u x
    unfold hitsOfWindow
    split
    · rename_i found conf hg
      rw [C22_postings h1 hb, hg]
      simp only [Except.ok.injEq, Option.some.injEq, Prod.mk.injEq]
      constructor
      · intro h
        split at h
        · rename_i hc
          rw [Option.getD_some, List.find?_map] at h
          obtain ⟨q, hq, rfl⟩ := Option.map_eq_some_iff.1 h
          exact ⟨found, ⟨rfl, rfl⟩, by rw [← posted_length hb]; exact hc.2, hq⟩
        · cases h
      · rintro ⟨_, ⟨rfl, hx⟩, hlt, hq⟩
        rw [← posted_length hb] at hlt
        rw [if_pos ⟨List.ne_nil_of_mem (List.mem_of_find?_eq_some hq), hlt⟩, Option.getD_some, List.find?_map]
        refine Option.map_eq_some_iff.2 ⟨x.1, hq, ?_⟩
        rw [hx]
    · rename_i hne
      constructor
      · intro h; cases h
      · rintro ⟨found, hg, _⟩; exact absurd hg (hne _ _)
  have hnot : ∀ u, (hitsOfWindow ix n u).find? (fun h => decide (h.1.id = p.id)) = none ↔ ¬ FindsId t lower n input ix p.id u := by
    intro u
    constructor
    · rintro h ⟨found, conf, hg, hlt, raw, hr, hid, hk⟩
      cases hf : (expectedPostings lower n ix.container.products input found).find? (fun q => decide (q.id = p.id)) with
      | none => exact (posted_none b lower n found p.id).1 hf raw hr hid hk
      | some q => rw [(hwin u (q, conf)).2 ⟨found, hg, hlt, hf⟩] at h; cases h
    · intro h
      cases hf : (hitsOfWindow ix n u).find? (fun h => decide (h.1.id = p.id)) with
      | none => rfl
      | some x =>
        obtain ⟨found, hg, hlt, hq⟩ := (hwin u x).1 hf
        obtain ⟨_, raw, hr, hid, hk, _⟩ := (posted_first b lower n found p.id x.1).1 hq
        exact absurd ⟨found, x.2, hg, hlt, raw, List.mem_of_getElem? hr, hid, hk⟩ h
  rw [search_eq o' ix h1 h2] at hs
  cases hs
  have hex : (∃ c, (p, c) ∈ (rank (hitsOf ix n query)).export o') ↔
      ∃ x, (hitsOf ix n query).find? (fun h => decide (h.1.id = p.id)) = some x ∧ x.1 = p := by
    constructor
    · rintro ⟨c, hc⟩
      exact (mem_export_iff.1 hc).1
    · rintro ⟨x, hx, e⟩
      cases hsum : sumScores (scoresOf p.id (hitsOf ix n query)) with
      | some c => exact ⟨c, mem_export_iff.2 ⟨⟨x, hx, e⟩, hsum⟩⟩
      | none =>
        have : x.2 ∈ scoresOf p.id (hitsOf ix n query) := by
          simp only [scoresOf, List.mem_map, List.mem_filter, decide_eq_true_eq]
          exact ⟨_, ⟨List.mem_of_find?_eq_some hx, by simpa using List.find?_some hx⟩, rfl⟩
        cases hsc : scoresOf p.id (hitsOf ix n query) with
        | nil => rw [hsc] at this; cases this
        | cons a l => rw [hsc] at hsum; cases hsum
  rw [hex]
  unfold hitsOf
  rw [List.find?_flatMap]
  constructor
  · rintro ⟨x, hx, rfl⟩
    obtain ⟨before, w, after, e, hw, hno⟩ := List.findSome?_eq_some_iff.1 hx
    obtain ⟨found, hg, hlt, hq⟩ := (hwin w x).1 hw
    obtain ⟨g1, g2⟩ := (posted_first b lower n found _ x.1).1 hq
    exact ⟨g1, before, w, after, found, x.2, e, fun u hu => (hnot u).1 (hno u hu), hg, hlt, g2⟩
  · rintro ⟨hp, before, w, after, found, conf, e, hno, hg, hlt, hf⟩
    refine ⟨(p, conf), List.findSome?_eq_some_iff.2 ⟨before, w, after, e, ?_, fun u hu => (hnot u).2 (hno u hu)⟩, rfl⟩
    exact (hwin w (p, conf)).2 ⟨found, hg, hlt, (posted_first b lower n found p.id p).2 ⟨hp, hf⟩⟩

/-- A product whose n-grams all occur in an earlier one with the same id is shown for no query. -/
theorem C116_hidden {t o lower parse n input ix cl} (h1 : 1 ≤ n) (h2 : n ≤ 764) (hb : buildAll t o lower parse n input = .ok (ix, cl))
    (i j : Nat) (hij : i < j) (a b : RawProduct) (ha : input[i]? = some a) (hb' : input[j]? = some b) (hid : a.id = b.id)
    (hall : ∀ k ∈ paddedWindows n (textOf lower b), k ∈ paddedWindows n (textOf lower a)) (o' : HashOrd) (query : List Char)
    (results : List (Product × F32)) (hs : ix.search o' n query = .ok results) (p : Product) (c : F32) (hp : (p, c) ∈ results) :
    p.sid ≠ j := by
  rintro rfl
  obtain ⟨hpi, _, _, _, found, _, _, _, _, _, raw, hr, hrid, hk, hfirst⟩ := (C116_shown h1 h2 hb o' query results hs p).1 ⟨c, hp⟩
  rw [hb'] at hr
  cases hr
  exact hfirst i a hij ha (by rw [hid]; exact hrid) (hall found hk)

/-- So it is with a page, whatever is selected and in whatever order the products are wanted. -/
theorem C116_page {lower parse input ix cl} (hl : LoadedFrom lower parse input ix cl) (i j : Nat) (hij : i < j) (a b : RawProduct)
    (ha : input[i]? = some a) (hb : input[j]? = some b) (hid : a.id = b.id)
    (hall : ∀ k ∈ paddedWindows 5 (textOf lower b), k ∈ paddedWindows 5 (textOf lower a))
    (mode : PanicMode) (o : HashOrd) (lower' : Char → List Char) (e e' : Engine) (hix : e.index.value = some ix) (query : Str)
    (cats : CategoryHandler) (tags : TagHandler) (hc : cats.InRange) (ht : tags.InRange) (order : Option Str)
    (filter : List (Str × JsValue)) (found : ProductProducer)
    (h : e.search mode o lower' query cats tags order filter = (e', .ok (some found))) : j ∉ found.toExport := by
  obtain ⟨t₀, o₀, ix₀, cl₀, hbuild, hsame⟩ := hl.sameData
  have key : ∀ filters r, searchIds o lower' ix query cats tags filters = .ok r → j ∉ r := by
    intro filters r hr hj
    obtain ⟨results, h1, h2⟩ := searchIds_spec o lower' ix query cats tags hc ht filters
    rw [h2] at hr
    cases hr
    obtain ⟨⟨p, c⟩, hp, hsid⟩ := List.mem_map.1 (List.mem_filter.1 hj).1
    rw [search_eq o ix (by decide) (by decide), hitsOf_reload hsame, rank_map] at h1
    cases h1
    have hperm : (Ranker.export o ((rank (hitsOf ix₀ ngramIndexSize (query.flatMap lower'))).map fun e : Str × Product × F32 => (e.1, (limited e.2.1, e.2.2)))).Perm
        (((rank (hitsOf ix₀ ngramIndexSize (query.flatMap lower'))).export o).map fun x => (limited x.1, x.2)) := by
      refine (export_perm _ _).trans ?_
      refine List.Perm.trans ?_ ((export_perm o (rank (hitsOf ix₀ _ _))).map _).symm
      simp [List.map_map, Function.comp_def]
    obtain ⟨⟨q, c'⟩, hq, e⟩ := List.mem_map.1 (hperm.mem_iff.1 hp)
    simp only [Prod.mk.injEq] at e
    refine C116_hidden (by decide) (by decide) hbuild i j hij a b ha hb hid hall o _ _ (search_eq o ix₀ (by decide) (by decide) _) q c' hq ?_
    rw [← hsid, ← e.1]
    rfl
  unfold Engine.search at h
  split at h
  · cases h
  · split at h
    · cases h
    · cases h
    · rename_i filters _ index hlock
      have hidx : index = ix := by
        unfold Slot.lockOk at hlock
        split at hlock
        · rw [hix] at hlock
          simpa using hlock.symm
        · cases hlock
        · cases hlock
      subst hidx
      split at h
      · cases h
      · rename_i ids hids
        split at h
        · cases h; exact key _ _ hids
        · split at h
          · cases h
          · cases h
          · split at h
            · cases h
            · split at h
              · cases h
              · rename_i out hsort
                cases h
                intro hj
                exact key _ _ hids ((sortByOrder_ok hsort).1.mem_iff.1 hj)

/-- If every product with a tag is hidden so, no query shows a product with that tag. -/
theorem C116_tag {t o lower parse n input ix cl} (h1 : 1 ≤ n) (h2 : n ≤ 764) (hb : buildAll t o lower parse n input = .ok (ix, cl)) (tag : Tag)
    (ht : tag ∈ cl.tags) (hall : ∀ (j : Nat) (b : RawProduct), input[j]? = some b → tag.name ∈ b.tags → ∃ (i : Nat) (a : RawProduct), i < j ∧ input[i]? = some a ∧ a.id = b.id ∧
      ∀ k ∈ paddedWindows n (textOf lower b), k ∈ paddedWindows n (textOf lower a)) (o' : HashOrd) (query : List Char)
    (results : List (Product × F32)) (hs : ix.search o' n query = .ok results) (p : Product) (c : F32) (hp : (p, c) ∈ results) :
    tag.contains p = false := by
  obtain ⟨hpi, _, _, _, _, _, _, _, _, _, raw, hr, _⟩ := (C116_shown h1 h2 hb o' query results hs p).1 ⟨c, hp⟩
  have hiff := (C18 (buildAll_container hb)).2.2.2 tag ht p.sid raw p hr hpi
  cases hc : tag.contains p with
  | false => rfl
  | true =>
    obtain ⟨i, a, hi, ha, hid, hk⟩ := hall p.sid raw hr (hiff.1 hc)
    exact absurd rfl (C116_hidden h1 h2 hb i p.sid hi a raw ha hr hid hk o' query results hs p c hp)

/-! ## Instances -/

set_option maxRecDepth 10000

def onSale : RawProduct := { mkRaw ['k', 'u', 'n', 's', 't'] [] ['1'] with tags := [['s', 'a', 'l', 'e']] }

/-- Two products with the id 1, the second on sale, and two others. -/
def twins : List RawProduct := [mkRaw ['k', 'u', 'n', 's', 't'] [] ['1'],
  onSale, mkRaw ['m', 'u', 's', 'i', 'k'] [] ['3'], mkRaw [] [] ['4']]

/-- There is a tag with a product whose text is found, and yet no query shows a product with it. -/
theorem C116_lost : ∃ ix cl, buildAll .debug64 .ident (fun c => [c]) parseOne 5 twins = .ok (ix, cl) ∧
    (∃ results, ix.search .ident 5 ['k', 'u', 'n', 's', 't'] = .ok results ∧ results.map (·.1.id) = [['1']]) ∧
    ∃ tag ∈ cl.tags, tag.name = ['s', 'a', 'l', 'e'] ∧ (∃ p ∈ ix.container.products, p.id = ['1'] ∧ tag.contains p = true) ∧
      ∀ (o' : HashOrd) (query : List Char) (results : List (Product × F32)), ix.search o' 5 query = .ok results →
        ∀ p c, (p, c) ∈ results → tag.contains p = false := by
  have h : (runSearch .debug64 .ident 5 twins ['k', 'u', 'n', 's', 't']).map (fun r => r.map (·.1)) = some [['1']] := by decide +kernel
  obtain ⟨l, h1, h2⟩ := Option.map_eq_some_iff.1 h
  obtain ⟨ix, cl, results, hb, hs, e⟩ := runSearch_sound h1
  obtain ⟨_, hnames, _, hcont⟩ := C18 (buildAll_container hb)
  obtain ⟨tag, ht, hname⟩ := List.mem_map.1 ((hnames ['s', 'a', 'l', 'e']).2 ⟨_, List.mem_cons_of_mem _ List.mem_cons_self, List.mem_cons_self⟩)
  have hsecond : twins[1]? = some onSale := rfl
  refine ⟨ix, cl, hb, ⟨results, hs, ?_⟩, tag, ht, hname, ?_, fun o' query results hs p c hp =>
    C116_tag (by omega) (by omega) hb tag ht (fun j b hj hm => ?_) o' query results hs p c hp⟩
  · rw [← h2, ← e]
    simp
  · obtain ⟨prices, b⟩ := (builtAll_of_ok hb).built
    have hp : ix.container.products[1]? = some (productOf ix.container.vendors onSale 1) := by rw [b.getElem?, hsecond]; rfl
    refine ⟨_, List.mem_of_getElem? hp, rfl, (hcont tag ht 1 _ _ hsecond hp).2 ?_⟩
    rw [hname]
    exact List.mem_cons_self
  · rw [hname] at hm
    match j, hj with
    | 0, hj => cases hj; exact absurd hm (by decide)
    | 1, hj => cases hj; exact ⟨0, _, by omega, rfl, rfl, fun k hk => hk⟩
    | 2, hj => cases hj; exact absurd hm (by decide)
    | 3, hj => cases hj; exact absurd hm (by decide)
    | j + 4, hj => cases hj

end Idx
