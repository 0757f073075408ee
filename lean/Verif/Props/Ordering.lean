import Verif.Props.Filters
import Verif.Props.File
import Verif.Props.Reload
/-! # C34, C44: ordering a search; the ids a search hands out -/
namespace Idx

/-! ## Ids of results exist -/

/-- A found product is in a posting list. -/
theorem result_posting {o : HashOrd} {ix : GramIndex Char} {n : Nat} (h1 : 1 ≤ n) (h2 : n ≤ 764) {query : List Char}
    {results : List (Product × F32)} (h : ix.search o n query = .ok results) {x : Product × F32} (hx : x ∈ results) :
    ∃ k l, (k, l) ∈ ix.data ∧ x.1 ∈ l := by
  obtain ⟨p, c⟩ := x
  obtain ⟨⟨c', hhit⟩, _⟩ := result_score h1 h2 h hx
  obtain ⟨w, _, found, l, _, hd, hp⟩ := mem_hitsOf.1 hhit
  exact ⟨found, l, AMap.mem_of_get hd, hp⟩

/-- Posting lists hold catalogue products. -/
def PostingsStored (ix : GramIndex Char) : Prop :=
  ∀ k l, (k, l) ∈ ix.data → ∀ p ∈ l, ix.container.products[p.sid]? = some p

theorem postingsStored_loaded {t : Target} {n : Nat} {bytes : Bytes} {ix : GramIndex Char} {cl : Classic}
    (h : deserializeAll t n bytes = .ok (ix, cl)) : PostingsStored ix :=
  fun k l hkl p hp => ((C12 t n bytes ix cl h).2.1 k l hkl).2 p hp

theorem results_stored {o : HashOrd} {ix : GramIndex Char} {n : Nat} (hs : PostingsStored ix) (h1 : 1 ≤ n) (h2 : n ≤ 764)
    {query : List Char} {results : List (Product × F32)} (h : ix.search o n query = .ok results) :
    (∀ x ∈ results, ix.container.products[x.1.sid]? = some x.1) ∧ (results.map (·.1.sid)).Nodup := by
  have hst : ∀ x ∈ results, ix.container.products[x.1.sid]? = some x.1 := by
    intro x hx
    obtain ⟨k, l, hkl, hp⟩ := result_posting h1 h2 h hx
    exact hs k l hkl _ hp
  refine ⟨hst, ?_⟩
  have hd := C25_distinct o ix h1 h2 query results h
  rw [List.Nodup, List.pairwise_map] at hd ⊢
  refine List.Pairwise.imp_of_mem ?_ hd
  intro a b ha hb hne he
  apply hne
  have h3 := hst a ha
  have h4 := hst b hb
  rw [he, h4] at h3
  rw [Option.some.inj h3]

/-! ## Sorting by an order -/

theorem orderKeys_ok {order ids : List Nat} {keyed : List (Nat × Nat)} (h : orderKeys order ids = .ok keyed) :
    keyed.map (·.2) = ids ∧ ∀ x ∈ keyed, order[x.2]? = some x.1 := by
  induction ids generalizing keyed with
  | nil => cases h; simp
  | cons v vs ih =>
    simp only [orderKeys, bind, Except.bind, indexChecked] at h
    split at h
    · cases h
    · rename_i k hk
      split at h
      · cases h
      · rename_i rest hrest
        cases h
        obtain ⟨h1, h2⟩ := ih hrest
        refine ⟨by simp [h1], ?_⟩
        intro x hx
        rcases List.mem_cons.1 hx with rfl | hx
        · split at hk
          · rename_i a ha; cases hk; exact ha
          · cases hk
        · exact h2 x hx

theorem orderKeys_total {order ids : List Nat} (h : ∀ i ∈ ids, i < order.length) :
    ∃ keyed, orderKeys order ids = .ok keyed := by
  induction ids with
  | nil => exact ⟨[], rfl⟩
  | cons v vs ih =>
    obtain ⟨keyed, hk⟩ := ih fun i hi => h i (by simp [hi])
    have hv := h v (by simp)
    refine ⟨(order[v], v) :: keyed, ?_⟩
    simp [orderKeys, indexChecked, List.getElem?_eq_getElem hv, hk, bind, Except.bind]

theorem orderKeys_panics {order ids : List Nat} (h : ∃ i ∈ ids, order.length ≤ i) : ∃ w, orderKeys order ids = .error w := by
  cases hk : orderKeys order ids with
  | error w => exact ⟨w, rfl⟩
  | ok keyed =>
    obtain ⟨h1, h2⟩ := orderKeys_ok hk
    obtain ⟨i, hi, hlen⟩ := h
    rw [← h1] at hi
    obtain ⟨x, hx, rfl⟩ := List.mem_map.1 hi
    have := (List.getElem?_eq_some_iff.1 (h2 x hx)).1
    omega

theorem sortByOrder_ok {order ids out : List Nat} (h : sortByOrder order ids = .ok out) :
    out.Perm ids ∧
    out.Pairwise fun a b => ∀ ra rb, order[a]? = some ra → order[b]? = some rb → ra ≤ rb := by
  unfold sortByOrder at h
  split at h
  · rename_i hlen
    cases h
    refine ⟨List.Perm.refl _, ?_⟩
    match ids, hlen with
    | [], _ => exact List.Pairwise.nil
    | [_], _ => exact List.pairwise_singleton _ _
    | _ :: _ :: _, hlen => exact absurd hlen (by simp)
  · simp only [bind, Except.bind] at h
    split at h
    · cases h
    · rename_i keyed hk
      cases h
      obtain ⟨h1, h2⟩ := orderKeys_ok hk
      have hp := stableSort_perm (fun a b : Nat × Nat => decide (a.1 ≤ b.1)) keyed
      refine ⟨by rw [← h1]; exact hp.map _, ?_⟩
      rw [List.pairwise_map]
      have hsorted := stableSort_sorted (le := fun a b : Nat × Nat => decide (a.1 ≤ b.1))
        ⟨fun a b => by simp; omega, fun a b c => by simp; omega⟩ keyed
      refine List.Pairwise.imp_of_mem ?_ hsorted
      intro a b ha hb hab ra rb hra hrb
      rw [h2 a (hp.mem_iff.1 ha)] at hra
      rw [h2 b (hp.mem_iff.1 hb)] at hrb
      cases hra; cases hrb
      simpa using hab

theorem sortByOrder_total {order ids : List Nat} (h : ∀ i ∈ ids, i < order.length) :
    ∃ out, sortByOrder order ids = .ok out := by
  unfold sortByOrder
  split
  · exact ⟨_, rfl⟩
  · obtain ⟨keyed, hk⟩ := orderKeys_total h
    rw [hk]
    exact ⟨_, rfl⟩

/-- Sorting panics exactly when there is something to sort and a rank is missing. -/
theorem sortByOrder_panics (order ids : List Nat) :
    (∃ w, sortByOrder order ids = .error w) ↔ 2 ≤ ids.length ∧ ∃ i ∈ ids, order.length ≤ i := by
  constructor
  · rintro ⟨w, h⟩
    refine ⟨?_, ?_⟩
    · unfold sortByOrder at h
      split at h
      · cases h
      · omega
    · apply Classical.byContradiction
      intro hno
      obtain ⟨out, ho⟩ := sortByOrder_total (order := order) (ids := ids) fun i hi =>
        Nat.lt_of_not_le fun hle => hno ⟨i, hi, hle⟩
      rw [ho] at h
      cases h
  · rintro ⟨h1, h2⟩
    obtain ⟨w, hw⟩ := orderKeys_panics h2
    refine ⟨w, ?_⟩
    unfold sortByOrder
    rw [if_neg (by omega), hw]
    rfl

/-- Every producer a search on a loaded file makes holds distinct ids of catalogue products, so `C44` applies to it. -/
theorem C44_search (t : Target) (bytes : Bytes) (ix : GramIndex Char) (cl : Classic)
    (hl : deserializeAll t ngramIndexSize bytes = .ok (ix, cl)) (mode : PanicMode) (o : HashOrd)
    (lower : Char → List Char) (e : Engine) (hv : e.index.value = some ix) (input : Str) (cats : CategoryHandler)
    (tags : TagHandler) (order : Option Str) (filter : List (Str × JsValue)) (e' : Engine) (pp : ProductProducer)
    (h : e.search mode o lower input cats tags order filter = (e', .ok (some pp))) :
    pp.container = ix.container ∧ pp.index = 0 ∧ (∀ i ∈ pp.toExport, i < pp.container.products.length) ∧
      pp.toExport.Nodup := by
  have hfilter : ∀ (p : Product → Except Panic Bool) (l out : List Product), filterE p l = .ok out → out.Sublist l := by
    intro p l
    induction l with
    | nil => intro out h; cases h; exact List.Sublist.refl _
    | cons a l ih =>
      intro out h
      simp only [filterE, bind, Except.bind] at h
      split at h
      · cases h
      · split at h
        · cases h
        · rename_i hrest
          cases h
          have := ih _ hrest
          split
          · exact this.cons_cons a
          · exact this.cons a
  have hids : ∀ filters ids, searchIds o lower ix input cats tags filters = .ok ids →
      (∀ i ∈ ids, i < ix.container.products.length) ∧ ids.Nodup := by
    intro filters ids hi
    obtain ⟨results, hr⟩ := C48_search_total o ix (n := ngramIndexSize) (by decide) (by decide) (input.flatMap lower)
    obtain ⟨h3, h4⟩ := results_stored (postingsStored_loaded hl) (by decide) (by decide) hr
    unfold searchIds at hi
    rw [hr] at hi
    simp only [bind, Except.bind] at hi
    split at hi
    · cases hi
    · rename_i kept hk
      cases hi
      have hsub := hfilter _ _ _ hk
      constructor
      · intro i hi
        obtain ⟨p, hp, rfl⟩ := List.mem_map.1 hi
        have := hsub.subset hp
        obtain ⟨x, hx, rfl⟩ := List.mem_map.1 this
        exact (List.getElem?_eq_some_iff.1 (h3 x hx)).1
      · have := hsub.map (·.sid)
        rw [List.map_map] at this
        exact this.nodup h4
  unfold Engine.search at h
  split at h
  · cases h
  · rename_i filters _
    split at h
    · cases h
    · cases h
    · rename_i ix' hix
      have : ix' = ix := by
        unfold Slot.lockOk at hix
        split at hix
        · rw [hv] at hix; cases hix; rfl
        · cases hix
        · cases hix
      subst this
      split at h
      · cases h
      · rename_i ids hi
        obtain ⟨h5, h6⟩ := hids _ _ hi
        split at h
        · cases h
          exact ⟨rfl, rfl, h5, h6⟩
        · split at h
          · cases h
          · cases h
          · split at h
            · cases h
            · rename_i ranks _
              split at h
              · cases h
              · rename_i sorted hs
                cases h
                have hp := (sortByOrder_ok hs).1
                exact ⟨rfl, rfl, fun i hi => h5 i (hp.mem_iff.1 hi), hp.nodup_iff.2 h6⟩

/-! ## C34 -/

/-- On any state: asking for an order the loaded file has, whose ranks cover the ids found, returns the same products
arranged by rank. -/
theorem C34_any (mode : PanicMode) (o : HashOrd) (lower : Char → List Char) (e e₁ : Engine) (input : Str)
    (cats : CategoryHandler) (tags : TagHandler) (filter : List (Str × JsValue)) (plain : ProductProducer)
    (h : e.search mode o lower input cats tags none filter = (e₁, .ok (some plain)))
    (cl : Classic) (hfree : e.classic.state = .free) (hv : e.classic.value = some cl) (name : Str) (ranks : List Nat)
    (hr : cl.order.getOrders name = some ranks) (hcover : ∀ i ∈ plain.toExport, i < ranks.length) :
    ∃ pp, e.search mode o lower input cats tags (some name) filter = (e, .ok (some pp)) ∧
      pp.container = plain.container ∧ pp.index = 0 ∧ pp.toExport.Perm plain.toExport ∧
      pp.toExport.Pairwise fun a b => ∀ ra rb, ranks[a]? = some ra → ranks[b]? = some rb → ra ≤ rb := by
  unfold Engine.search at h ⊢
  split at h
  · cases h
  · rename_i filters hf
    split at h
    · cases h
    · cases h
    · rename_i ix hix
      simp only at h ⊢
      split at h
      · cases h
      · rename_i ids hi
        cases h
        obtain ⟨out, hout⟩ := sortByOrder_total hcover
        obtain ⟨hp, hs⟩ := sortByOrder_ok hout
        rw [show (ProductProducer.new ix.container ids).toExport = ids from rfl] at hout hp
        simp only [Slot.lockOk, hfree, hv, hr, hout]
        exact ⟨_, rfl, rfl, rfl, hp, hs⟩

/-- An unknown order yields no producer. -/
theorem C34_unknown (mode : PanicMode) (o : HashOrd) (lower : Char → List Char) (e e₁ : Engine) (input : Str)
    (cats : CategoryHandler) (tags : TagHandler) (filter : List (Str × JsValue)) (r : Option ProductProducer)
    (h : e.search mode o lower input cats tags none filter = (e₁, .ok r))
    (cl : Classic) (hfree : e.classic.state = .free) (hv : e.classic.value = some cl) (name : Str)
    (hr : cl.order.getOrders name = none) :
    e.search mode o lower input cats tags (some name) filter = (e, .ok none) := by
  unfold Engine.search at h ⊢
  split at h
  · rfl
  · rename_i filters hf
    split at h
    · cases h
    · rfl
    · rename_i ix hix
      simp only at h ⊢
      split at h
      · cases h
      · rename_i ids hi
        simp only [Slot.lockOk, hfree, hv, hr]

/-- A file written for a catalogue, loaded on some machine. -/
structure LoadedFrom (lower : Char → List Char) (parse : Str → Option F32) (input : List RawProduct)
    (ix : GramIndex Char) (cl : Classic) : Prop where
  loaded : ∃ (t₀ t : Target) (o₀ : HashOrd) (bytes : Bytes),
    indexAndSerialize t₀ o₀ lower parse ngramIndexSize input = .ok bytes ∧ Fits t bytes.length ∧
    deserializeAll t ngramIndexSize bytes = .ok (ix, cl)

/-- It holds the catalogue's products, tags and orders. -/
theorem LoadedFrom.sameData {lower parse input ix cl} (h : LoadedFrom lower parse input ix cl) :
    ∃ (t₀ : Target) (o₀ : HashOrd) (ix₀ : GramIndex Char) (cl₀ : Classic),
      buildAll t₀ o₀ lower parse ngramIndexSize input = .ok (ix₀, cl₀) ∧ SameData ix₀ ix cl₀ cl := by
  obtain ⟨t₀, t, o₀, bytes, h1, h2, h3⟩ := h.loaded
  obtain ⟨ix₀, cl₀, ix', cl', h4, h5, h6⟩ := C09_file (by decide) h1 t h2
  rw [h3] at h5
  cases h5
  exact ⟨t₀, o₀, ix₀, cl₀, h4, h6⟩

theorem LoadedFrom.length {lower parse input ix cl} (h : LoadedFrom lower parse input ix cl) :
    ix.container.products.length = input.length := by
  obtain ⟨t₀, o₀, ix₀, cl₀, hb, hs⟩ := h.sameData
  rw [hs.products, List.length_map]
  obtain ⟨prices, b⟩ := built_of_ok (buildAll_container hb)
  rw [b.products, List.length_mapIdx]

/-- The unordered search, ordered by a ranking of the catalogue positions. -/
theorem C34_ranked (mode : PanicMode) (o : HashOrd) (lower lower' : Char → List Char) (parse : Str → Option F32)
    (catalogue : List RawProduct) (ix : GramIndex Char) (cl : Classic) (hl : LoadedFrom lower parse catalogue ix cl)
    (e e₁ : Engine) (hix : e.index.value = some ix) (hcl : e.classic = ⟨.free, some cl⟩) (input : Str)
    (cats : CategoryHandler) (tags : TagHandler) (filter : List (Str × JsValue)) (plain : ProductProducer)
    (h : e.search mode o lower' input cats tags none filter = (e₁, .ok (some plain))) (name : Str) (ranks : List Nat)
    (hr : cl.order.getOrders name = some ranks) (before : Nat → Nat → Prop) (hb : IsRanking catalogue.length before ranks) :
    ∃ pp, e.search mode o lower' input cats tags (some name) filter = (e, .ok (some pp)) ∧
      pp.container = plain.container ∧ pp.index = 0 ∧ pp.toExport.Perm plain.toExport ∧ pp.toExport.Pairwise before := by
  obtain ⟨t₀, t, o₀, bytes, h1, h2, h3⟩ := hl.loaded
  obtain ⟨g1, g2, g3, g4⟩ := C44_search t bytes ix cl h3 mode o lower' e hix input cats tags none filter e₁ plain h
  have hlen : ranks.length = catalogue.length := by simpa using hb.perm.length_eq
  have hcover : ∀ i ∈ plain.toExport, i < ranks.length := by
    intro i hi
    have := g3 i hi
    rw [g1, hl.length] at this
    omega
  obtain ⟨pp, k1, k2, k3, k4, k5⟩ := C34_any mode o lower' e e₁ input cats tags filter plain h cl (by rw [hcl])
    (by rw [hcl]) name ranks hr hcover
  refine ⟨pp, k1, k2, k3, k4, ?_⟩
  have hnd : pp.toExport.Pairwise (· ≠ ·) := k4.nodup_iff.2 g4
  refine List.Pairwise.imp_of_mem ?_ (k5.and hnd)
  rintro a b ha hb' ⟨hle, hne⟩
  have ha' := hcover a (k4.mem_iff.1 ha)
  have hb'' := hcover b (k4.mem_iff.1 hb')
  have ea := List.getElem?_eq_getElem ha'
  have eb := List.getElem?_eq_getElem hb''
  rw [← hb.iff a b _ _ ea eb]
  refine Nat.lt_of_le_of_ne (hle _ _ ea eb) fun heq => hne ?_
  have hndr : ranks.Nodup := hb.perm.nodup_iff.2 List.nodup_range
  exact (List.getElem_inj hndr).1 heq

theorem ordered_search (mode : PanicMode) (o : HashOrd) (lower lower' : Char → List Char) (parse : Str → Option F32)
    (catalogue : List RawProduct) (ix : GramIndex Char) (cl : Classic) (hl : LoadedFrom lower parse catalogue ix cl)
    (e e₁ : Engine) (hix : e.index.value = some ix) (hcl : e.classic = ⟨.free, some cl⟩) (input : Str)
    (cats : CategoryHandler) (tags : TagHandler) (filter : List (Str × JsValue)) (plain : ProductProducer)
    (h : e.search mode o lower' input cats tags none filter = (e₁, .ok (some plain))) (name : Str) :
    (name ∉ [alphabeticalKey, priceLowKey, priceHighKey] →
      e.search mode o lower' input cats tags (some name) filter = (e, .ok none)) ∧
    (name ∈ [alphabeticalKey, priceLowKey, priceHighKey] →
      ∃ pp, e.search mode o lower' input cats tags (some name) filter = (e, .ok (some pp)) ∧
        pp.container = plain.container ∧ pp.index = 0 ∧ pp.toExport.Perm plain.toExport ∧
        (name = alphabeticalKey →
          pp.toExport.Pairwise (Before (fun a b => CodeLt a.title b.title) catalogue)) ∧
        ((∀ raw ∈ catalogue, ∀ x, parse raw.price.min.amount = some x → x.val ≠ .nan) →
          (name = priceLowKey → pp.toExport.Pairwise (Before (PriceLt parse) catalogue)) ∧
          (name = priceHighKey → pp.toExport.Pairwise (Before (fun a b => PriceLt parse b a) catalogue)))) := by
  obtain ⟨t₀, o₀, ix₀, cl₀, hb, hs⟩ := hl.sameData
  obtain ⟨⟨ra, ha, hra⟩, hkeys, hperm, hprices⟩ := orders_of (buildAll_container hb)
  constructor
  · intro hname
    refine C34_unknown mode o lower' e e₁ input cats tags filter _ h cl (by rw [hcl]) (by rw [hcl]) name ?_
    rw [hs.orders]
    cases hg : cl₀.order.getOrders name with
    | none => rfl
    | some r => exact absurd ((hkeys name).1 ⟨r, hg⟩) hname
  · intro hname
    obtain ⟨ranks, hranks⟩ := (hkeys name).2 hname
    have hranks' : cl.order.getOrders name = some ranks := by rw [hs.orders]; exact hranks
    -- ranks are a ranking for the order they define
    have hself : IsRanking catalogue.length (fun i j => ∀ ri rj, ranks[i]? = some ri → ranks[j]? = some rj → ri < rj) ranks := by
      refine ⟨hperm name ranks hranks, fun i j ri rj hi hj => ⟨fun hlt ri' rj' hi' hj' => ?_, fun hall => hall ri rj hi hj⟩⟩
      rw [hi] at hi'; rw [hj] at hj'
      cases hi'; cases hj'
      exact hlt
    have conv : ∀ before, IsRanking catalogue.length before ranks → ∀ l : List Nat,
        l.Pairwise (fun i j => ∀ ri rj, ranks[i]? = some ri → ranks[j]? = some rj → ri < rj) →
        (∀ i ∈ l, i < ranks.length) → l.Pairwise before := by
      intro before hbf l hlp hcov
      refine List.Pairwise.imp_of_mem ?_ hlp
      intro a b ha hb hlt
      have ea := List.getElem?_eq_getElem (hcov a ha)
      have eb := List.getElem?_eq_getElem (hcov b hb)
      exact (hbf.iff a b _ _ ea eb).1 (hlt _ _ ea eb)
    obtain ⟨pp, k1, k2, k3, k4, k5⟩ := C34_ranked mode o lower lower' parse catalogue ix cl hl e e₁ hix hcl input cats tags
      filter plain h name ranks hranks' _ hself
    have hcov : ∀ i ∈ pp.toExport, i < ranks.length := by
      intro i hi
      obtain ⟨t₀, t, o₀, bytes, h1, h2, h3⟩ := hl.loaded
      obtain ⟨g1, g2, g3, g4⟩ := C44_search t bytes ix cl h3 mode o lower' e hix input cats tags none filter e₁ plain h
      have h7 := g3 i (k4.mem_iff.1 hi)
      rw [g1, hl.length] at h7
      have h8 : ranks.length = catalogue.length := by simpa using hself.perm.length_eq
      omega
    refine ⟨pp, k1, k2, k3, k4, ?_, ?_⟩
    · intro hn
      rw [hn, ha] at hranks
      cases hranks
      exact conv _ hra _ k5 hcov
    · intro hnan
      obtain ⟨⟨rl, hl1, hl2⟩, ⟨rh, hh1, hh2⟩⟩ := hprices hnan
      constructor
      · intro hn
        rw [hn, hl1] at hranks
        cases hranks
        exact conv _ hl2 _ k5 hcov
      · intro hn
        rw [hn, hh1] at hranks
        cases hranks
        exact conv _ hh2 _ k5 hcov

/-- On a loaded file that was written for a catalogue, the existing orders are exactly the three; asking for one of
them returns the products of the unordered search arranged by title (by code points), price, or descending price; ties in
catalogue order. Anything else yields no producer. -/
theorem C34 (mode : PanicMode) (o : HashOrd) (lower lower' : Char → List Char) (parse : Str → Option F32)
    (catalogue : List RawProduct) (ix : GramIndex Char) (cl : Classic) (hl : LoadedFrom lower parse catalogue ix cl)
    (e e₁ : Engine) (hix : e.index.value = some ix) (hcl : e.classic = ⟨.free, some cl⟩) (input : Str)
    (cats : CategoryHandler) (tags : TagHandler) (filter : List (Str × JsValue)) (plain : ProductProducer)
    (h : e.search mode o lower' input cats tags none filter = (e₁, .ok (some plain))) (name : Str) :
    (name ∉ ["Alphabetical".toList, "Price low to high".toList, "Price high to low".toList] →
      e.search mode o lower' input cats tags (some name) filter = (e, .ok none)) ∧
    (name ∈ ["Alphabetical".toList, "Price low to high".toList, "Price high to low".toList] →
      ∃ pp, e.search mode o lower' input cats tags (some name) filter = (e, .ok (some pp)) ∧
        pp.container = plain.container ∧ pp.index = 0 ∧ pp.toExport.Perm plain.toExport ∧
        (name = "Alphabetical".toList →
          pp.toExport.Pairwise (Before (fun a b => CodeLt a.title b.title) catalogue)) ∧
        ((∀ raw ∈ catalogue, ∀ x, parse raw.price.min.amount = some x → x.val ≠ .nan) →
          (name = "Price low to high".toList → pp.toExport.Pairwise (Before (PriceLt parse) catalogue)) ∧
          (name = "Price high to low".toList → pp.toExport.Pairwise (Before (fun a b => PriceLt parse b a) catalogue)))) :=
  ordered_search mode o lower lower' parse catalogue ix cl hl e e₁ hix hcl input cats tags filter plain h name

end Idx
