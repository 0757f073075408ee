import Verif.Props.Index
import Verif.Props.Extent
import Verif.Props.Kept
/-
C98: what changes when products are added to the end of a catalogue and everything is indexed again.
-/
namespace Idx

/-! ## What the two runs of `optimize` share -/

/-- The category loop without its container: products paired with their options. -/
def runCats (pairs : List (Product × List RawOption)) (st : List Category × Nat) : List Category × Nat :=
  pairs.foldl (fun st e => e.2.foldl (addOption e.1) st) st

theorem categoriesLoop_runCats (c : Container) (rest : List (List RawOption)) : ∀ (i : Nat) (st : List Category × Nat)
    (cats : List Category), categoriesLoop c i rest st = .ok cats →
    cats = (runCats ((c.products.drop i).zip rest) st).1 := by
  induction rest with
  | nil => intro i st cats h; simp only [categoriesLoop, Res.ok.injEq] at h; simp [runCats, h]
  | cons raws rest ih =>
    intro i st cats h
    rw [categoriesLoop] at h
    obtain ⟨p, h1, h2⟩ := Res.bind_eq_ok.1 h
    unfold Res.index at h1
    cases hp : c.products[i]? with
    | none => rw [hp] at h1; cases h1
    | some q =>
      rw [hp] at h1
      cases h1
      obtain ⟨hlt, hq⟩ := List.getElem?_eq_some_iff.1 hp
      rw [List.drop_eq_getElem_cons hlt, List.zip_cons_cons, hq]
      exact ih _ _ _ h2

theorem optimize_parts {o : HashOrd} {parse : Str → Option F32} {input : List RawProduct} {c : Container} {cl : Classic}
    (h : optimize o parse input = .ok (c, cl)) :
    c.vendors = input.foldl (fun m raw => m.insert raw.vendor) VendorManager.new ∧
    cl.categories = (runCats (c.products.zip (input.map (·.options))) ([], 0)).1 := by
  unfold optimize at h
  obtain ⟨⟨ps, ex⟩, h1, h2⟩ := Res.bind_eq_ok.1 h
  obtain ⟨tags, h3, h4⟩ := Res.bind_eq_ok.1 h2
  obtain ⟨ord, h5, h6⟩ := Res.bind_eq_ok.1 h4
  obtain ⟨cats, h7, h8⟩ := Res.bind_eq_ok.1 h6
  simp only [Res.pure_eq, Res.ok.injEq, Prod.mk.injEq] at h8
  obtain ⟨rfl, rfl⟩ := h8
  exact ⟨rfl, by simpa using categoriesLoop_runCats _ _ _ _ _ h7⟩

theorem insert_prefix {m : VendorManager} (h : m.Inv) (name : Str) : m.byId <+: (m.insert name).byId := by
  rw [(h.insert name).2]
  split
  · exact List.prefix_refl _
  · exact List.prefix_append _ _

theorem foldl_insert_prefix (input : List RawProduct) : ∀ (m : VendorManager), m.Inv →
    m.byId <+: (input.foldl (fun m raw => m.insert raw.vendor) m).byId := by
  induction input with
  | nil => intro m _; exact List.prefix_refl _
  | cons raw input ih =>
    intro m h
    exact (insert_prefix h raw.vendor).trans (ih _ (h.insert raw.vendor).1)

section
variable {o o' : HashOrd} {parse : Str → Option F32} {input more : List RawProduct} {c c' : Container} {cl cl' : Classic}

theorem vendors_prefix (h : optimize o parse input = .ok (c, cl)) (h' : optimize o' parse (input ++ more) = .ok (c', cl')) :
    c.vendors.byId <+: c'.vendors.byId := by
  obtain ⟨_, b⟩ := built_of_ok h
  rw [(optimize_parts h').1, List.foldl_append, ← (optimize_parts h).1]
  exact foldl_insert_prefix more _ b.vendorInv

theorem products_append (h : optimize o parse input = .ok (c, cl)) (h' : optimize o' parse (input ++ more) = .ok (c', cl')) :
    ∃ new, c'.products = c.products ++ new ∧ new.length = more.length ∧ ∀ p ∈ new, input.length ≤ p.sid := by
  obtain ⟨_, b⟩ := built_of_ok h
  obtain ⟨_, b'⟩ := built_of_ok h'
  have hpre := vendors_prefix h h'
  refine ⟨more.mapIdx fun i raw => productOf c'.vendors raw (i + input.length), ?_, by simp, ?_⟩
  · rw [b'.products, List.mapIdx_append, b.products]
    congr 1
    apply List.ext_getElem?
    intro i
    simp only [List.getElem?_mapIdx]
    cases hi : input[i]? with
    | none => rfl
    | some raw =>
      obtain ⟨v, hv, e, hm⟩ := b.vendor raw (List.mem_of_getElem? hi)
      have hv' := (b'.vendorInv.get_iff raw.vendor v).2 ⟨hpre.subset hm, e⟩
      simp [productOf, hv, hv']
  · intro p hp
    obtain ⟨i, hi⟩ := List.getElem?_of_mem hp
    rw [List.getElem?_mapIdx] at hi
    cases hr : more[i]? with
    | none => rw [hr] at hi; cases hi
    | some raw =>
      rw [hr] at hi
      simp only [Option.map_some, Option.some.injEq] at hi
      rw [← hi]
      exact Nat.le_add_left _ _

end

/-! ## How lists grow -/

/-- Spec: every element keeps its place, and is related to the one that was there. -/
def Stays (R : α → α → Prop) (l l' : List α) : Prop := ∀ (i : Nat) (a : α), l[i]? = some a → ∃ b, l'[i]? = some b ∧ R a b

/-- Spec: an option after products from position `from` on were added: name and number are the same, and only such products joined
at the end. -/
structure OptionGrew («from» : Nat) (a b : CatOption) : Prop where
  name : b.name = a.name
  sid : b.sid = a.sid
  joined : ∃ new : List Product, b.content = a.content ++ new ∧ b.ids = a.ids ++ new.map (·.sid) ∧ ∀ p ∈ new, «from» ≤ p.sid

/-- Spec: a category after products from position `from` on were added. -/
structure CategoryGrew («from» : Nat) (a b : Category) : Prop where
  name : b.name = a.name
  exclusive : b.exclusive = a.exclusive
  options : Stays (OptionGrew «from») a.options b.options

theorem OptionGrew.refl (n : Nat) (a : CatOption) : OptionGrew n a a := ⟨rfl, rfl, [], by simp, by simp, by simp⟩

theorem OptionGrew.trans {n : Nat} {a b c : CatOption} (h : OptionGrew n a b) (h' : OptionGrew n b c) : OptionGrew n a c := by
  obtain ⟨x, e1, e2, e3⟩ := h.joined
  obtain ⟨y, f1, f2, f3⟩ := h'.joined
  refine ⟨h'.name.trans h.name, h'.sid.trans h.sid, x ++ y, by rw [f1, e1, List.append_assoc], by
    rw [f2, e2, List.map_append, List.append_assoc], ?_⟩
  intro p hp
  rcases List.mem_append.1 hp with hp | hp
  · exact e3 p hp
  · exact f3 p hp

theorem Stays.refl {R : α → α → Prop} (h : ∀ a, R a a) (l : List α) : Stays R l l := fun _ a ha => ⟨a, ha, h a⟩

theorem Stays.trans {R : α → α → Prop} (h : ∀ a b c, R a b → R b c → R a c) {l m k : List α} (h1 : Stays R l m) (h2 : Stays R m k) :
    Stays R l k := by
  intro i a ha
  obtain ⟨b, hb, r1⟩ := h1 i a ha
  obtain ⟨c, hc, r2⟩ := h2 i b hb
  exact ⟨c, hc, h _ _ _ r1 r2⟩

theorem CategoryGrew.refl (n : Nat) (a : Category) : CategoryGrew n a a := ⟨rfl, rfl, .refl (OptionGrew.refl n) _⟩

theorem CategoryGrew.trans {n : Nat} {a b c : Category} (h : CategoryGrew n a b) (h' : CategoryGrew n b c) : CategoryGrew n a c :=
  ⟨h'.name.trans h.name, h'.exclusive.trans h.exclusive, Stays.trans (R := OptionGrew n) (fun _ _ _ => OptionGrew.trans) h.options h'.options⟩

theorem findOrPush_at (p : α → Bool) (new : α) (f : α → α) (l : List α) : ∀ (i : Nat) (a : α), l[i]? = some a →
    ∃ b, (findOrPush l p new f)[i]? = some b ∧ (b = a ∨ (b = f a ∧ l.find? p = some a)) := by
  induction l with
  | nil => intro i a h; simp at h
  | cons x l ih =>
    intro i a h
    unfold findOrPush
    by_cases hx : p x = true
    · rw [if_pos hx]
      cases i with
      | zero => simp only [List.getElem?_cons_zero, Option.some.injEq] at h; subst h; exact ⟨f x, rfl, .inr ⟨rfl, by simp [hx]⟩⟩
      | succ i => exact ⟨a, by simpa using h, .inl rfl⟩
    · rw [if_neg hx]
      cases i with
      | zero => simp only [List.getElem?_cons_zero, Option.some.injEq] at h; subst h; exact ⟨x, rfl, .inl rfl⟩
      | succ i =>
        obtain ⟨b, h1, h2⟩ := ih i a (by simpa using h)
        exact ⟨b, by simpa using h1, by simpa [List.find?_cons, hx] using h2⟩

theorem add_grew {n : Nat} (a : CatOption) (p : Product) (h : n ≤ p.sid) : OptionGrew n a (a.add p) := by
  unfold CatOption.add
  split
  · exact .refl n a
  · exact ⟨rfl, rfl, [p], rfl, rfl, by simpa using h⟩

theorem addValues_grew {n : Nat} (p : Product) (h : n ≤ p.sid) (values : List Str) : ∀ (st : List CatOption × Nat),
    Stays (OptionGrew n) st.1 (addValues p values st).1 := by
  unfold addValues
  induction values with
  | nil => intro st; exact .refl (OptionGrew.refl n) _
  | cons v values ih =>
    intro st
    rw [List.foldl_cons]
    refine Stays.trans (R := OptionGrew n) (fun _ _ _ => OptionGrew.trans) ?_ (ih _)
    intro i a ha
    obtain ⟨b, hb, e⟩ := findOrPush_at (fun o : CatOption => o.name == v) (CatOption.new v st.2) (fun o => o.add p) st.1 i a ha
    refine ⟨b, hb, ?_⟩
    rcases e with rfl | ⟨rfl, _⟩
    · exact .refl n _
    · exact add_grew a p h

theorem addOption_grew {n : Nat} (p : Product) (h : n ≤ p.sid) (raw : RawOption) (st : List Category × Nat) :
    Stays (CategoryGrew n) st.1 (addOption p st raw).1 := by
  intro i a ha
  have hv := addValues_grew p h raw.values (currentOptions st.1 raw.name, st.2)
  simp only [addOption]
  obtain ⟨b, hb, e⟩ := findOrPush_at (fun c : Category => c.name == raw.name) (Category.new raw.name)
    (fun c => { c with options := (addValues p raw.values (currentOptions st.1 raw.name, st.2)).1 }) st.1 i a ha
  refine ⟨b, hb, ?_⟩
  rcases e with rfl | ⟨rfl, hf⟩
  · exact .refl n _
  · have hc : currentOptions st.1 raw.name = a.options := by rw [currentOptions, hf]
    rw [hc] at hv ⊢
    exact ⟨rfl, rfl, hv⟩

theorem runCats_grew {n : Nat} (pairs : List (Product × List RawOption)) (h : ∀ e ∈ pairs, n ≤ e.1.sid) :
    ∀ (st : List Category × Nat), Stays (CategoryGrew n) st.1 (runCats pairs st).1 := by
  unfold runCats
  induction pairs with
  | nil => intro st; exact .refl (CategoryGrew.refl n) _
  | cons e pairs ih =>
    intro st
    rw [List.foldl_cons]
    refine Stays.trans (R := CategoryGrew n) (fun _ _ _ => CategoryGrew.trans) ?_ (ih (fun x hx => h x (List.mem_cons_of_mem _ hx)) _)
    have he := h e (by simp)
    generalize e.2 = raws
    clear ih
    induction raws generalizing st with
    | nil => exact .refl (CategoryGrew.refl n) _
    | cons r raws ih =>
      rw [List.foldl_cons]
      exact Stays.trans (R := CategoryGrew n) (fun _ _ _ => CategoryGrew.trans) (addOption_grew e.1 he r st) (ih _)

/-! ## C98 -/

section
variable {t t' : Target} {o o' : HashOrd} {lower : Char → List Char} {parse : Str → Option F32} {n n' : Nat}
  {input more : List RawProduct} {ix ix' : GramIndex Char} {cl cl' : Classic}

theorem optimize_of_buildAll (h : buildAll t o lower parse n input = .ok (ix, cl)) : optimize o parse input = .ok (ix.container, cl) := by
  unfold buildAll at h
  obtain ⟨⟨c, cl₂⟩, h1, h2⟩ := Res.bind_eq_ok.1 h
  simp only [Res.pure_eq, Res.ok.injEq, Prod.mk.injEq] at h2
  obtain ⟨rfl, rfl⟩ := h2
  exact h1

/-- **C98.** The products of the smaller catalogue are the first ones of the larger one, unchanged in every field, vendor numbers
included; the vendors too; and a feature a product had it still has, with the same value. -/
theorem C98_products (h : buildAll t o lower parse n input = .ok (ix, cl))
    (h' : buildAll t' o' lower parse n' (input ++ more) = .ok (ix', cl')) :
    ix.container.products <+: ix'.container.products ∧ ix.container.vendors.byId <+: ix'.container.vendors.byId ∧
    ∀ p ∈ ix.container.products, ∀ key v, FeatureSet.get ix.container.extra p key = some v →
      FeatureSet.get ix'.container.extra p key = some v := by
  have h := optimize_of_buildAll h
  have h' := optimize_of_buildAll h'
  obtain ⟨new, e, _, _⟩ := products_append h h'
  refine ⟨⟨new, e.symm⟩, vendors_prefix h h', fun p hp key v hv => ?_⟩
  obtain ⟨prices, b⟩ := built_of_ok h
  obtain ⟨prices', b'⟩ := built_of_ok h'
  unfold FeatureSet.get at hv ⊢
  by_cases hi : key = imageUrlKey
  · subst hi
    rw [b.columns.images] at hv
    rw [b'.columns.images]
    have happ : imagesOf (input ++ more) = imagesOf input ++ imagesOf more := by simp [imagesOf]
    by_cases h0 : imagesOf input = []
    · rw [if_pos h0] at hv; cases hv
    · rw [if_neg h0] at hv
      rw [if_neg (by rw [happ]; simp [h0]), happ]
      simp only [Feature.get] at hv ⊢
      cases hg : (imagesOf input)[p.sid]? with
      | none => rw [hg] at hv; cases hv
      | some u =>
        rw [hg] at hv
        rw [List.getElem?_append_left (List.getElem?_eq_some_iff.1 hg).1, hg]
        exact hv
  · by_cases hk : key = priceKey
    · subst hk
      rw [b.columns.prices] at hv
      rw [b'.columns.prices]
      have hpre : prices <+: prices' := by
        have e1 := b.parsed
        have e2 := b'.parsed
        rw [List.map_append, e1] at e2
        have hlen : prices.length ≤ prices'.length := by
          have := congrArg List.length e2
          simp at this; omega
        have := congrArg (List.take prices.length) e2
        rw [List.take_left' (by simp), ← List.map_take] at this
        have := List.map_inj_right (f := some) (fun _ _ => Option.some.inj) |>.1 this
        exact ⟨prices'.drop prices.length, by conv => lhs; lhs; rw [this]
                                              exact List.take_append_drop _ _⟩
      obtain ⟨rest, rfl⟩ := hpre
      by_cases h0 : prices = []
      · rw [if_pos h0] at hv; cases hv
      · rw [if_neg h0] at hv
        rw [if_neg (by simp [h0])]
        simp only [Feature.get] at hv ⊢
        cases hg : prices[p.sid]? with
        | none => rw [hg] at hv; cases hv
        | some u =>
          rw [hg] at hv
          rw [List.getElem?_append_left (List.getElem?_eq_some_iff.1 hg).1, hg]
          exact hv
    · rw [b.columns.other key hi hk] at hv; cases hv

/-- Categories and their options keep their places, names and numbers; only added products join them, at the end. -/
theorem C98_categories (h : buildAll t o lower parse n input = .ok (ix, cl))
    (h' : buildAll t' o' lower parse n' (input ++ more) = .ok (ix', cl')) :
    Stays (CategoryGrew input.length) cl.categories cl'.categories := by
  have h := optimize_of_buildAll h
  have h' := optimize_of_buildAll h'
  obtain ⟨new, e, hl, hs⟩ := products_append h h'
  obtain ⟨_, b⟩ := built_of_ok h
  rw [(optimize_parts h).2, (optimize_parts h').2, e, List.map_append, List.zip_append (by rw [b.length]; simp)]
  generalize ix.container.products.zip (input.map (·.options)) = pairs
  have : runCats (pairs ++ new.zip (more.map (·.options))) ([], 0) =
      runCats (new.zip (more.map (·.options))) (runCats pairs ([], 0)) := by simp [runCats]
  rw [this]
  exact runCats_grew _ (fun x hx => hs _ (List.of_mem_zip (a := x.1) (b := x.2) hx).1) _

theorem Built.option_ids {parse o input c cl prices} (b : Built parse o input c cl prices) (cat : Category) (op : CatOption)
    (hc : cat ∈ cl.categories) (ho : op ∈ cat.options) : op.ids = op.content.map (·.sid) := by
  obtain ⟨_, sid, hop⟩ := (b.cats.options cat hc).2.some op ho
  obtain ⟨a1, _, a3, _⟩ := addAll_spec (givers ((c.products.zip (input.map (·.options))).flatMap
    fun e => e.2.map fun r => (e.1, r)) cat.name op.name) (CatOption.new op.name sid) rfl rfl
  rw [← hop] at a1 a3
  rw [a1, a3]

/-- So an option answers as before for every product that was there, and the old option holds no added product. -/
theorem C98_selections (h : buildAll t o lower parse n input = .ok (ix, cl))
    (h' : buildAll t' o' lower parse n' (input ++ more) = .ok (ix', cl'))
    (i j : Nat) (cat : Category) (op : CatOption) (hc : cl.categories[i]? = some cat) (ho : cat.options[j]? = some op) :
    ∃ cat' op', cl'.categories[i]? = some cat' ∧ cat'.options[j]? = some op' ∧ cat'.name = cat.name ∧ op'.name = op.name ∧
      (∀ p ∈ ix.container.products, op'.contains p = op.contains p) ∧
      ∀ p ∈ ix'.container.products, input.length ≤ p.sid → op.contains p = false := by
  obtain ⟨cat', hc', g⟩ := C98_categories h h' i cat hc
  obtain ⟨op', ho', g2⟩ := g.options j op ho
  obtain ⟨new, _, e2, e3⟩ := g2.joined
  obtain ⟨prices, b⟩ := built_of_ok (optimize_of_buildAll h)
  refine ⟨cat', op', hc', ho', g.name, g2.name, ?_, ?_⟩
  · intro p hp
    have hlt : p.sid < input.length := by
      rw [← b.length]
      exact (List.getElem?_eq_some_iff.1 (b.mem_sid p hp)).1
    unfold CatOption.contains
    rw [e2, decide_eq_decide, List.mem_append]
    constructor
    · rintro (h | h)
      · exact h
      · obtain ⟨q, hq, e⟩ := List.mem_map.1 h
        have := e3 q hq
        omega
    · exact .inl
  · intro p _ hp
    unfold CatOption.contains
    rw [decide_eq_false_iff_not]
    intro hm
    obtain ⟨_, _, h3⟩ := C19 (optimize_of_buildAll h)
    obtain ⟨_, _, h4⟩ := h3 cat (List.mem_of_getElem? hc)
    obtain ⟨h5, _, _⟩ := h4 op (List.mem_of_getElem? ho)
    rw [b.option_ids cat op (List.mem_of_getElem? hc) (List.mem_of_getElem? ho), h5, List.mem_filter, List.mem_range] at hm
    omega

theorem mentions_append (a b : List (Product × List Str)) (name : Str) : mentions (a ++ b) name = mentions a name ++ mentions b name := by
  simp [mentions]

theorem mentions_mem {a : List (Product × List Str)} {name : Str} {p : Product} (h : p ∈ mentions a name) : ∃ e ∈ a, e.1 = p := by
  obtain ⟨e, he, hp⟩ := List.mem_flatMap.1 h
  exact ⟨e, he, (List.eq_of_mem_replicate hp).symm⟩

theorem tag_iff {m : AMap Str (List Product)} {spec : Str → List Product} (h : TagMapIs m spec) {tags : List Tag}
    (ht : tags = (o.order "tags" m).mapIdx fun id e => Tag.new e.1 e.2 id) (name : Str) (ps : List Product) :
    (∃ tag ∈ tags, tag.name = name ∧ tag.products = ps) ↔ ps ≠ [] ∧ ps = spec name := by
  have hmem : ∀ e, e ∈ o.order "tags" m ↔ e ∈ m := fun e => (o.perm "tags" m).mem_iff
  have hget := h.get name
  constructor
  · rintro ⟨tag, htag, rfl, rfl⟩
    rw [ht] at htag
    obtain ⟨i, hi⟩ := List.getElem?_of_mem htag
    rw [List.getElem?_mapIdx] at hi
    cases he : (o.order "tags" m)[i]? with
    | none => rw [he] at hi; cases hi
    | some e =>
      rw [he] at hi
      simp only [Option.map_some, Option.some.injEq] at hi
      have hm := (hmem e).1 (List.mem_of_getElem? he)
      have := AMap.get_of_mem (k := e.1) (v := e.2) h.wf hm
      have hget := h.get e.1
      have e1 : tag.name = e.1 := by rw [← hi]; rfl
      have e2 : tag.products = e.2 := by rw [← hi]; rfl
      rw [e1, e2]
      rw [this] at hget
      by_cases hne : spec e.1 = []
      · rw [if_pos hne] at hget; cases hget
      · rw [if_neg hne] at hget
        have hget := Option.some.inj hget
        exact ⟨by rw [hget]; exact hne, hget⟩
  · rintro ⟨hne, rfl⟩
    rw [if_neg hne] at hget
    have hm := (hmem _).2 ((AMap.mem_iff_get h.wf).2 hget)
    obtain ⟨i, hi⟩ := List.getElem?_of_mem hm
    refine ⟨Tag.new name (spec name) i, ?_, rfl, rfl⟩
    rw [ht]
    apply List.mem_of_getElem? (i := i)
    rw [List.getElem?_mapIdx, hi]
    rfl

/-- Every tag is still there, though perhaps at another place; only added products join it, at the end. A tag that is new has none
of the earlier products. -/
theorem C98_tags (h : buildAll t o lower parse n input = .ok (ix, cl))
    (h' : buildAll t' o' lower parse n' (input ++ more) = .ok (ix', cl')) :
    (∀ tag ∈ cl.tags, ∃ tag' ∈ cl'.tags, tag'.name = tag.name ∧ ∃ new, tag'.products = tag.products ++ new ∧
      ∀ p ∈ new, input.length ≤ p.sid) ∧
    ∀ tag' ∈ cl'.tags, tag'.name ∉ cl.tags.map (·.name) → ∀ p ∈ tag'.products, input.length ≤ p.sid := by
  have h := optimize_of_buildAll h
  have h' := optimize_of_buildAll h'
  obtain ⟨new, e, hl, hs⟩ := products_append h h'
  obtain ⟨_, b⟩ := built_of_ok h
  obtain ⟨_, b'⟩ := built_of_ok h'
  obtain ⟨m, hm, ht⟩ := b.tags
  obtain ⟨m', hm', ht'⟩ := b'.tags
  rw [e, List.map_append, List.zip_append (by rw [b.length]; simp)] at hm'
  have hnew : ∀ name, ∀ p ∈ mentions (new.zip (more.map (·.tags))) name, input.length ≤ p.sid := by
    intro name p hp
    obtain ⟨x, hx, rfl⟩ := mentions_mem hp
    exact hs _ (List.of_mem_zip (a := x.1) (b := x.2) hx).1
  constructor
  · intro tag htag
    obtain ⟨hne, heq⟩ := (tag_iff hm ht tag.name tag.products).1 ⟨tag, htag, rfl, rfl⟩
    obtain ⟨tag', htag', e1, e2⟩ := (tag_iff hm' ht' tag.name _).2 ⟨by rw [mentions_append, ← heq]; simp [hne], rfl⟩
    exact ⟨tag', htag', e1, _, by rw [e2, mentions_append, ← heq], hnew tag.name⟩
  · intro tag' htag' hno p hp
    obtain ⟨_, heq⟩ := (tag_iff hm' ht' tag'.name tag'.products).1 ⟨tag', htag', rfl, rfl⟩
    rw [mentions_append] at heq
    have h0 : mentions (ix.container.products.zip (input.map (·.tags))) tag'.name = [] := by
      apply Classical.byContradiction
      intro hne
      obtain ⟨tag, htag, e1, _⟩ := (tag_iff hm ht tag'.name _).2 ⟨hne, rfl⟩
      exact hno (List.mem_map.2 ⟨tag, htag, e1⟩)
    rw [heq, h0, List.nil_append] at hp
    exact hnew _ p hp

theorem before_append {lt : RawProduct → RawProduct → Prop} {i j : Nat} (hi : i < input.length) (hj : j < input.length) :
    Before lt (input ++ more) i j ↔ Before lt input i j := by
  unfold Before
  rw [List.getElem?_append_left hi, List.getElem?_append_left hj]

theorem ranking_append {lt : RawProduct → RawProduct → Prop} {r r' : List Nat} (hr : IsRanking input.length (Before lt input) r)
    (hr' : IsRanking (input ++ more).length (Before lt (input ++ more)) r') (i j a b a' b' : Nat)
    (h1 : r[i]? = some a) (h2 : r[j]? = some b) (h1' : r'[i]? = some a') (h2' : r'[j]? = some b') : a < b ↔ a' < b' := by
  have hl : r.length = input.length := by rw [hr.perm.length_eq, List.length_range]
  have hi := (List.getElem?_eq_some_iff.1 h1).1
  have hj := (List.getElem?_eq_some_iff.1 h2).1
  rw [hr.iff i j a b h1 h2, hr'.iff i j a' b' h1' h2', before_append (by omega) (by omega)]

/-- In every order the earlier products stand as they did relative to each other (by price if no price is not a number). -/
theorem C98_orders (h : buildAll t o lower parse n input = .ok (ix, cl))
    (h' : buildAll t' o' lower parse n' (input ++ more) = .ok (ix', cl')) (key : Str) (r r' : List Nat)
    (hr : cl.order.getOrders key = some r) (hr' : cl'.order.getOrders key = some r')
    (hp : key = "Alphabetical".toList ∨ ∀ raw ∈ input ++ more, ∀ x, parse raw.price.min.amount = some x → x.val ≠ .nan)
    (i j a b a' b' : Nat) (h1 : r[i]? = some a) (h2 : r[j]? = some b) (h1' : r'[i]? = some a') (h2' : r'[j]? = some b') :
    a < b ↔ a' < b' := by
  obtain ⟨⟨s, hs, hs1⟩, hk, _, hpr⟩ := C20 (optimize_of_buildAll h)
  obtain ⟨⟨s', hs', hs1'⟩, _, _, hpr'⟩ := C20 (optimize_of_buildAll h')
  by_cases hka : key = "Alphabetical".toList
  · subst hka
    rw [hs] at hr
    rw [hs'] at hr'
    cases hr; cases hr'
    exact ranking_append hs1 hs1' i j a b a' b' h1 h2 h1' h2'
  · have hp := hp.resolve_left hka
    obtain ⟨⟨u, hu, hu1⟩, w, hw, hw1⟩ := hpr fun raw hraw => hp raw (List.mem_append_left _ hraw)
    obtain ⟨⟨u', hu', hu1'⟩, w', hw', hw1'⟩ := hpr' hp
    have hkey := (hk key).1 ⟨r, hr⟩
    simp only [List.mem_cons, List.not_mem_nil, or_false] at hkey
    rcases hkey with rfl | rfl | rfl
    · exact absurd rfl hka
    · rw [hu] at hr
      rw [hu'] at hr'
      cases hr; cases hr'
      exact ranking_append hu1 hu1' i j a b a' b' h1 h2 h1' h2'
    · rw [hw] at hr
      rw [hw'] at hr'
      cases hr; cases hr'
      exact ranking_append hw1 hw1' i j a b a' b' h1 h2 h1' h2'

/-- The tree keeps every path, and gains exactly those of the added texts; so it never gets smaller. -/
theorem C98_paths (hn : 1 ≤ n) (h : buildAll t o lower parse n input = .ok (ix, cl))
    (h' : buildAll t' o' lower parse n (input ++ more) = .ok (ix', cl')) (path : List Char) (hp : path ≠ []) :
    (∃ node, ix'.Has path node) ↔
      (∃ node, ix.Has path node) ∨ (path.length ≤ n ∧ ∃ raw ∈ more, path <:+: textOf lower raw) := by
  rw [C21_path_iff_substring hn h path hp, C21_path_iff_substring hn h' path hp]
  constructor
  · rintro ⟨hl, raw, hr, hi⟩
    rcases List.mem_append.1 hr with hr | hr
    · exact .inl ⟨hl, raw, hr, hi⟩
    · exact .inr ⟨hl, raw, hr, hi⟩
  · rintro (⟨hl, raw, hr, hi⟩ | ⟨hl, raw, hr, hi⟩)
    · exact ⟨hl, raw, List.mem_append_left _ hr, hi⟩
    · exact ⟨hl, raw, List.mem_append_right _ hr, hi⟩

theorem C98_nodes (hn : 1 ≤ n) (h : buildAll t o lower parse n input = .ok (ix, cl))
    (h' : buildAll t' o' lower parse n (input ++ more) = .ok (ix', cl')) :
    (ix.roots.map fun e => e.2.nodes).sum ≤ (ix'.roots.map fun e => e.2.nodes).sum := by
  have hk : ix.Keyed := by rw [(builtAll_of_ok h).index]; exact indexFrom_keyed t o hn _ _
  have hk' : ix'.Keyed := by rw [(builtAll_of_ok h').index]; exact indexFrom_keyed t' o' hn _ _
  rw [← ix.all_length, ← ix'.all_length, ← List.length_map (f := fun x : List Char × GramNode Char => x.1) (as := ix.all),
    ← List.length_map (f := fun x : List Char × GramNode Char => x.1) (as := ix'.all)]
  refine (GramIndex.all_nodup hk).length_le_of_subset fun s hm => ?_
  obtain ⟨x, hx, rfl⟩ := List.mem_map.1 hm
  have hx' := (GramIndex.all_iff hk x.1 x.2).1 hx
  obtain ⟨m, hm⟩ := (C98_paths hn h h' x.1 hx'.ne_nil).2 (.inl ⟨_, hx'⟩)
  exact List.mem_map.2 ⟨(x.1, m), (GramIndex.all_iff hk' _ _).2 hm, rfl⟩

theorem zip_map_snd {f : RawProduct → Nat} : ∀ {new : List Product} {more : List RawProduct}, new.length = more.length →
    (new.zip more).map (fun e => f e.2) = more.map f := by
  intro new
  induction new with
  | nil => intro more h; cases more with
    | nil => rfl
    | cons r more => simp at h
  | cons p new ih => intro more h; cases more with
    | nil => simp at h
    | cons r more => simp only [List.zip_cons_cons, List.map_cons]; rw [ih (by simpa using h)]

/-- A list of products kept under an n-gram before and after is longer by added products only. -/
theorem C98_postings (hn : 1 ≤ n) (h : buildAll t o lower parse n input = .ok (ix, cl))
    (h' : buildAll t' o' lower parse n (input ++ more) = .ok (ix', cl')) (k : List Char) (l l' : List Product)
    (hl : AMap.get ix.data k = some l) (hl' : AMap.get ix'.data k = some l') :
    ∃ new, l' = l ++ new ∧ (∀ p ∈ new, input.length ≤ p.sid) ∧
      new.length = (more.map fun raw => (paddedWindows n (textOf lower raw)).count k).sum := by
  obtain ⟨new, e, hlen, hs⟩ := products_append (optimize_of_buildAll h) (optimize_of_buildAll h')
  obtain ⟨_, b⟩ := built_of_ok (optimize_of_buildAll h)
  rw [C22_postings hn h] at hl
  rw [C22_postings hn h'] at hl'
  simp only at hl hl'
  split at hl
  · split at hl'
    · cases hl; cases hl'
      rw [e, expectedPostings, List.zip_append (by rw [b.length]), List.flatMap_append]
      refine ⟨_, rfl, ?_, ?_⟩
      · intro p hp
        obtain ⟨x, hx, hp⟩ := List.mem_flatMap.1 hp
        rw [List.eq_of_mem_replicate hp]
        exact hs _ (List.of_mem_zip (a := x.1) (b := x.2) hx).1
      · simp only [List.length_flatMap, List.length_replicate]
        rw [zip_map_snd (f := fun raw => (paddedWindows n (textOf lower raw)).count k) hlen]
    · cases hl'
  · cases hl

/-- If no added product has the n-gram, its list is kept as it was (for up to 2^20 products). -/
theorem C98_untouched (hn : 1 ≤ n) (ht : t.Real) (ht' : t'.Real) (h : buildAll t o lower parse n input = .ok (ix, cl))
    (h' : buildAll t' o' lower parse n (input ++ more) = .ok (ix', cl')) (hsize : (input ++ more).length ≤ 2 ^ 20) (k : List Char)
    (hk : ∀ raw ∈ more, k ∉ paddedWindows n (textOf lower raw)) (l : List Product) (hl : AMap.get ix.data k = some l) :
    AMap.get ix'.data k = some l := by
  obtain ⟨new, e, hlen, hs⟩ := products_append (optimize_of_buildAll h) (optimize_of_buildAll h')
  obtain ⟨_, b⟩ := built_of_ok (optimize_of_buildAll h)
  rw [C22_postings hn h] at hl
  rw [C22_postings hn h']
  have h0 : expectedPostings lower n new more k = [] := by
    rw [expectedPostings, List.flatMap_eq_nil_iff]
    intro x hx
    rw [List.count_eq_zero.2 (hk x.2 (List.of_mem_zip (a := x.1) (b := x.2) hx).2)]
    rfl
  have happ : expectedPostings lower n ix'.container.products (input ++ more) k =
      expectedPostings lower n ix.container.products input k := by
    have := h0
    unfold expectedPostings at this ⊢
    rw [e, List.zip_append (by rw [b.length]), List.flatMap_append, this, List.append_nil]
  simp only [happ]
  simp only at hl
  split at hl
  · rename_i hc
    cases hl
    refine if_pos ⟨hc.1, Nat.lt_of_lt_of_le hc.2 ?_⟩
    rw [List.length_append] at hsize ⊢
    rw [C22_cutoff t ht _ (by omega), C22_cutoff t' ht' _ hsize]
    omega
  · cases hl

end

open Classical in
/-- On a page: selections made on the file of the smaller catalogue and used with the file of the larger one show, of the unfiltered
search, exactly the earlier products that match them. -/
theorem C98_kept (mode : PanicMode) (o : HashOrd) (lowerA lower lower' : Char → List Char) (parse : Str → Option F32)
    (input more : List RawProduct) (ixA ix : GramIndex Char) (clA cl : Classic)
    (hA : LoadedFrom lowerA parse input ixA clA) (hl : LoadedFrom lower parse (input ++ more) ix cl)
    (e e₁ : Engine) (hix : e.index.value = some ix) (query : Str)
    (cats : CategoryHandler) (tags : TagHandler) (hc : cats.InRange) (ht : tags.InRange)
    (hch : cats.handle = clA) (hth : tags.handle = clA) (prices : List (JsValue × JsValue))
    (hsel : (∃ c v, cats.Selected c v) ∨ ∃ n, tags.Selected n) (c₁ c₂ : Classic) (whole : ProductProducer)
    (h : e.search mode o lower' query (.new c₁) (.new c₂) none [] = (e₁, .ok (some whole))) :
    e.search mode o lower' query cats tags none (prices.map priceFilter) =
      (e, .ok (some ⟨whole.container, whole.toExport.filter fun i =>
        decide (∃ raw, input[i]? = some raw ∧ Matches parse cats tags prices raw), 0⟩)) := by
  rw [C91 mode o lowerA lowerA lower lower' parse parse parse _ _ _ _ _ _ _ _ _ hA hA hl e e₁ hix query cats tags hc ht hch hth prices
    c₁ c₂ whole h]
  suffices hw : ∀ i, (KeptBy parse input input (input ++ more) cats tags prices i ↔
      ∃ raw, input[i]? = some raw ∧ Matches parse cats tags prices raw) by
    rw [List.filter_congr fun i _ => decide_eq_decide.2 (hw i)]
  intro i
  constructor
  · rintro ⟨m1, m2, m3⟩
    obtain ⟨raw, hraw⟩ : ∃ raw, input[i]? = some raw := by
      rcases hsel with ⟨c, v, hs⟩ | ⟨name, hs⟩
      · obtain ⟨raw, hr, _⟩ := m1 c v hs; exact ⟨raw, hr⟩
      · obtain ⟨raw, hr, _⟩ := m2 name hs; exact ⟨raw, hr⟩
    refine ⟨raw, hraw, ?_, ?_, ?_⟩
    · intro c v hs
      obtain ⟨raw', hr, hg⟩ := m1 c v hs
      rw [hraw] at hr
      cases hr
      exact hg
    · intro name hs
      obtain ⟨raw', hr, hg⟩ := m2 name hs
      rw [hraw] at hr
      cases hr
      exact hg
    · intro f hf hb
      obtain ⟨raw', x, n, hr, h⟩ := m3 f hf hb
      rw [List.getElem?_append_left (List.getElem?_eq_some_iff.1 hraw).1, hraw] at hr
      cases hr
      exact ⟨x, n, h⟩
  · rintro ⟨raw, hr, m⟩
    exact ⟨fun c v hs => ⟨raw, hr, m.options c v hs⟩, fun n hs => ⟨raw, hr, m.tags n hs⟩, fun f hf hb => by
      obtain ⟨x, n, h⟩ := m.prices f hf hb
      exact ⟨raw, x, n, by rw [List.getElem?_append_left (List.getElem?_eq_some_iff.1 hr).1, hr], h⟩⟩

end Idx
