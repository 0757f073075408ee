import Verif.Lemmas.Optimize
import Verif.Lemmas.Alpha
/-! # C14, C16–C20, C24: what indexing a catalogue produces (`optimize`) -/
namespace Idx

/-- Everything the proofs need to know about a successful `optimize`. -/
structure Built (parse : Str → Option F32) (o : HashOrd) (input : List RawProduct) (c : Container)
    (cl : Classic) (prices : List F32) : Prop where
  parsed : input.map (fun raw => parse raw.price.min.amount) = prices.map some
  vendorInv : c.vendors.Inv
  vendorNames : ∀ name, name ∈ c.vendors.byId.map (·.name) ↔ ∃ raw ∈ input, raw.vendor = name
  products : c.products = input.mapIdx fun i raw => productOf c.vendors raw i
  columns : ColumnsAre c.extra (imagesOf input) prices
  tags : ∃ m, TagMapIs m (mentions (c.products.zip (input.map (·.tags)))) ∧
    cl.tags = (o.order "tags" m).mapIdx fun id e => Tag.new e.1 e.2 id
  cats : CatsAre cl.categories
    ((c.products.zip (input.map (·.options))).flatMap fun e => e.2.map fun r => (e.1, r))
  orders : ∃ r1 r2 r3, cl.order = AMap.insert (AMap.insert (AMap.insert [] alphabeticalKey r1) priceLowKey r2)
      priceHighKey r3 ∧
    OrderIndex.addCustomCmp [] c (fun p => .ok p.title) strCmp alphabeticalKey =
      .ok (AMap.insert [] alphabeticalKey r1) ∧
    OrderIndex.addCustomCmp (AMap.insert [] alphabeticalKey r1) c (priceMaker c.extra) F32.cmpOrEq priceLowKey =
      .ok (AMap.insert (AMap.insert [] alphabeticalKey r1) priceLowKey r2) ∧
    OrderIndex.addCustomCmp (AMap.insert (AMap.insert [] alphabeticalKey r1) priceLowKey r2) c
        (priceMaker c.extra) (fun a b => (F32.cmpOrEq a b).swap) priceHighKey =
      .ok (AMap.insert (AMap.insert (AMap.insert [] alphabeticalKey r1) priceLowKey r2) priceHighKey r3) ∧
    ∀ r ∈ [r1, r2, r3], r.Perm (List.range input.length)

theorem Built.length {parse o input c cl prices} (b : Built parse o input c cl prices) :
    c.products.length = input.length := by rw [b.products]; simp

theorem Built.getElem? {parse o input c cl prices} (b : Built parse o input c cl prices) (i : Nat) :
    c.products[i]? = input[i]?.map fun raw => productOf c.vendors raw i := by
  conv => lhs; rw [b.products]
  simp [List.getElem?_mapIdx]

theorem Built.sid {parse o input c cl prices} (b : Built parse o input c cl prices) (i : Nat) (p : Product)
    (h : c.products[i]? = some p) : p.sid = i := by
  rw [b.getElem?] at h
  cases hi : input[i]? with
  | none => rw [hi] at h; simp at h
  | some raw => rw [hi] at h; simp at h; rw [← h]; rfl

theorem Built.mem_sid {parse o input c cl prices} (b : Built parse o input c cl prices) (p : Product)
    (h : p ∈ c.products) : c.products[p.sid]? = some p := by
  obtain ⟨i, hi⟩ := List.getElem?_of_mem h
  have := b.sid i p hi
  rw [this]; exact hi

theorem Built.vendor {parse o input c cl prices} (b : Built parse o input c cl prices) (raw : RawProduct)
    (h : raw ∈ input) : ∃ v, c.vendors.get raw.vendor = some v ∧ v.name = raw.vendor ∧ v ∈ c.vendors.byId := by
  have := (b.vendorNames raw.vendor).2 ⟨raw, h, rfl⟩
  obtain ⟨v, hv, e⟩ := List.mem_map.1 this
  have := (b.vendorInv.get_iff raw.vendor v).2 ⟨hv, e⟩
  exact ⟨v, this, e, hv⟩

theorem Built.price_length {parse o input c cl prices} (b : Built parse o input c cl prices) :
    prices.length = input.length := by
  have := congrArg List.length b.parsed
  simpa using this.symm

theorem priceMaker_ok {extra : FeatureSet} {im prices} (h : ColumnsAre extra im prices) (p : Product)
    (hp : p.sid < prices.length) : priceMaker extra p = .ok (prices[p.sid]?.getD F32.zero) := by
  have hne : prices ≠ [] := by intro e; simp [e] at hp
  unfold priceMaker FeatureSet.get
  rw [h.prices, if_neg hne]
  simp only [Feature.get, List.getElem?_eq_getElem hp, Option.map_some, Option.getD_some]

/-- With parsable prices indexing succeeds. -/
theorem optimize_ok (o : HashOrd) (parse : Str → Option F32) (input : List RawProduct) (prices : List F32)
    (hp : input.map (fun raw => parse raw.price.min.amount) = prices.map some) :
    ∃ c cl, optimize o parse input = .ok (c, cl) ∧ Built parse o input c cl prices := by
  obtain ⟨hinv, hnames⟩ := foldl_insert_inv input VendorManager.new VendorManager.inv_new
  generalize hv : input.foldl (fun m raw => m.insert raw.vendor) VendorManager.new = vendors at *
  have hnames : ∀ name, name ∈ vendors.byId.map (·.name) ↔ ∃ raw ∈ input, raw.vendor = name := by
    intro name; rw [hnames]; simp [VendorManager.new]
  have hsome : ∀ raw ∈ input, (vendors.get raw.vendor).isSome := by
    intro raw hr
    obtain ⟨v, hv, e⟩ := List.mem_map.1 ((hnames raw.vendor).2 ⟨raw, hr, rfl⟩)
    rw [(hinv.get_iff raw.vendor v).2 ⟨hv, e⟩]; rfl
  obtain ⟨extra, h1, h2⟩ := productsLoop_ok input 0 [] [] [] [] prices ColumnsAre.nil hsome hp
  simp only [List.nil_append, Nat.zero_add] at h1 h2
  generalize hps : input.mapIdx (fun j raw => productOf vendors raw j) = products at h1
  have hlen : products.length = input.length := by rw [← hps]; simp
  let c : Container := { products, vendors, extra }
  have hsid : ∀ (i : Nat) (p : Product), c.products[i]? = some p → p.sid = i := by
    intro i p h
    have h : products[i]? = some p := h
    rw [← hps, List.getElem?_mapIdx] at h
    cases hi : input[i]? with
    | none => rw [hi] at h; simp at h
    | some raw => rw [hi] at h; simp at h; rw [← h]; rfl
  have hplen : prices.length = input.length := by
    have := congrArg List.length hp
    simpa using this.symm
  obtain ⟨m, hm1, hm2⟩ := tagsLoop_is c (input.map (·.tags)) 0 [] []
    ⟨AMap.Wf.nil, fun k => by simp [mentions]⟩ (by simp [c, hlen])
  obtain ⟨cats, hc1, hc2⟩ := categoriesLoop_is c (input.map (·.options)) 0 ([], 0) []
    ⟨by simp, by simp, by simp⟩ (by simp [c, hlen])
  have hprice : ∀ p ∈ c.products, priceMaker c.extra p = .ok (prices[p.sid]?.getD F32.zero) := by
    intro p hpm
    apply priceMaker_ok h2
    obtain ⟨i, hi⟩ := List.getElem?_of_mem hpm
    rw [hsid i p hi, hplen, ← hlen]
    exact (List.getElem?_eq_some_iff.1 hi).1
  obtain ⟨r1, o1, p1, _⟩ := addCustomCmp_perm [] c (fun p => .ok p.title) strCmp alphabeticalKey Product.title
    (fun _ _ => rfl) hsid
  obtain ⟨r2, o2, p2, _⟩ := addCustomCmp_perm (AMap.insert [] alphabeticalKey r1) c (priceMaker c.extra)
    F32.cmpOrEq priceLowKey _ hprice hsid
  obtain ⟨r3, o3, p3, _⟩ := addCustomCmp_perm (AMap.insert (AMap.insert [] alphabeticalKey r1) priceLowKey r2) c
    (priceMaker c.extra) (fun a b => (F32.cmpOrEq a b).swap) priceHighKey _ hprice hsid
  have hcl : c.products.length = input.length := hlen
  rw [hcl] at p1 p2 p3
  refine ⟨c, ⟨cats, _, _⟩, ?_, hp, hinv, hnames, hps.symm, h2, ⟨m, by simpa using hm2, rfl⟩, by simpa using hc2,
    r1, r2, r3, rfl, o1, o2, o3, by simp [p1, p2, p3]⟩
  unfold optimize
  simp only [hv, h1, Res.bind_ok, Res.pure_eq]
  simp only [tagIndex]
  rw [show (⟨products, vendors, extra⟩ : Container) = c from rfl, hm1]
  simp only [Res.bind_ok, Res.pure_eq, buildOrders, o1, o2, o3]
  rw [categoryIndex, hc1]
  rfl

/-- With an unparsable price it panics. -/
theorem optimize_panic (o : HashOrd) (parse : Str → Option F32) (input : List RawProduct)
    (hp : ∃ raw ∈ input, parse raw.price.min.amount = none) :
    optimize o parse input = .panic .unwrapNone := by
  obtain ⟨hinv, hnames⟩ := foldl_insert_inv input VendorManager.new VendorManager.inv_new
  generalize hv : input.foldl (fun m raw => m.insert raw.vendor) VendorManager.new = vendors at *
  have hsome : ∀ raw ∈ input, (vendors.get raw.vendor).isSome := by
    intro raw hr
    obtain ⟨v, hv, e⟩ := List.mem_map.1 ((hnames raw.vendor).2 (.inr ⟨raw, hr, rfl⟩))
    rw [(hinv.get_iff raw.vendor v).2 ⟨hv, e⟩]; rfl
  have := productsLoop_panic (vendors := vendors) input 0 [] [] [] [] ColumnsAre.nil hsome hp
  unfold optimize
  simp only [hv, this, Res.bind_panic]

/-- Either some price does not parse, or all do. -/
theorem parse_cases (parse : Str → Option F32) (input : List RawProduct) :
    (∃ raw ∈ input, parse raw.price.min.amount = none) ∨
    ∃ prices : List F32, input.map (fun raw => parse raw.price.min.amount) = prices.map some := by
  induction input with
  | nil => exact .inr ⟨[], rfl⟩
  | cons raw rest ih =>
    cases h : parse raw.price.min.amount with
    | none => exact .inl ⟨raw, by simp, h⟩
    | some x =>
      rcases ih with ⟨r, hr, e⟩ | ⟨ps, e⟩
      · exact .inl ⟨r, by simp [hr], e⟩
      · exact .inr ⟨x :: ps, by simp [h, e]⟩

theorem built_of_ok {o : HashOrd} {parse : Str → Option F32} {input : List RawProduct} {c : Container}
    {cl : Classic} (h : optimize o parse input = .ok (c, cl)) : ∃ prices, Built parse o input c cl prices := by
  rcases parse_cases parse input with hn | ⟨prices, hp⟩
  · rw [optimize_panic o parse input hn] at h; simp at h
  · obtain ⟨c', cl', e, b⟩ := optimize_ok o parse input prices hp
    rw [h] at e
    cases e
    exact ⟨prices, b⟩

/-! ## C24 -/

/-- Indexing panics exactly when a price does not parse; otherwise it returns a result. -/
theorem C24 (o : HashOrd) (parse : Str → Option F32) (input : List RawProduct) :
    ((∃ w, optimize o parse input = .panic w) ↔ ∃ raw ∈ input, parse raw.price.min.amount = none) ∧
    optimize o parse input ≠ .none := by
  rcases parse_cases parse input with hn | ⟨prices, hp⟩
  · have := optimize_panic o parse input hn
    exact ⟨⟨fun _ => hn, fun _ => ⟨_, this⟩⟩, by rw [this]; simp⟩
  · obtain ⟨c, cl, e, _⟩ := optimize_ok o parse input prices hp
    refine ⟨⟨fun ⟨w, hw⟩ => ?_, fun ⟨raw, hr, hn⟩ => ?_⟩, by rw [e]; simp⟩
    · rw [e] at hw; simp at hw
    · have : parse raw.price.min.amount ∈ prices.map some := by
        rw [← hp]; exact List.mem_map.2 ⟨raw, hr, rfl⟩
      rw [hn] at this
      simp at this

/-! ## C14 -/

/-- Each product keeps its own data. -/
theorem C14 {o : HashOrd} {parse : Str → Option F32} {input : List RawProduct} {c : Container} {cl : Classic}
    (h : optimize o parse input = .ok (c, cl)) :
    c.products.length = input.length ∧
    ∀ (i : Nat) (raw : RawProduct), input[i]? = some raw → ∃ p, c.products[i]? = some p ∧
      p.id = raw.id ∧ p.title = raw.title ∧ p.description = raw.description ∧
      p.vendor.name = raw.vendor ∧ p.sid = i := by
  obtain ⟨prices, b⟩ := built_of_ok h
  refine ⟨b.length, fun i raw hi => ⟨productOf c.vendors raw i, ?_, rfl, rfl, rfl, ?_, rfl⟩⟩
  · rw [b.getElem?, hi]; rfl
  · obtain ⟨v, hv, e, _⟩ := b.vendor raw (List.mem_of_getElem? hi)
    simp [productOf, hv, e]

/-! ## C16 -/

theorem price_of {o : HashOrd} {parse : Str → Option F32} {input : List RawProduct} {c : Container} {cl : Classic}
    (h : optimize o parse input = .ok (c, cl)) (i : Nat) (raw : RawProduct) (hi : input[i]? = some raw)
    (p : Product) (hp : c.products[i]? = some p) :
    ∃ x, parse raw.price.min.amount = some x ∧ FeatureSet.get c.extra p priceKey = some (.float x) := by
  obtain ⟨prices, b⟩ := built_of_ok h
  have hil : i < input.length := (List.getElem?_eq_some_iff.1 hi).1
  have hpl : i < prices.length := by rw [b.price_length]; exact hil
  have hx := congrArg (fun l => l[i]?) b.parsed
  simp only [List.getElem?_map, hi, Option.map_some, List.getElem?_eq_getElem hpl] at hx
  refine ⟨prices[i], Option.some.inj hx, ?_⟩
  have hne : prices ≠ [] := by intro e; simp [e] at hpl
  unfold FeatureSet.get
  rw [b.columns.prices, if_neg hne]
  simp [Feature.get, b.sid i p hp, hpl]

/-- Each product reports its own price. -/
theorem C16 {o : HashOrd} {parse : Str → Option F32} {input : List RawProduct} {c : Container} {cl : Classic}
    (h : optimize o parse input = .ok (c, cl)) (i : Nat) (raw : RawProduct) (hi : input[i]? = some raw)
    (p : Product) (hp : c.products[i]? = some p) :
    ∃ x, parse raw.price.min.amount = some x ∧ FeatureSet.get c.extra p "price".toList = some (.float x) :=
  price_of h i raw hi p hp

/-! ## C17 -/

/-- The claim: a product reports the first url of its own media. -/
def C17_statement : Prop :=
  ∀ (o : HashOrd) (parse : Str → Option F32) (input : List RawProduct) (c : Container) (cl : Classic),
    optimize o parse input = .ok (c, cl) → ∀ (i : Nat) (raw : RawProduct) (p : Product),
      input[i]? = some raw → c.products[i]? = some p →
      FeatureSet.get c.extra p "image_url".toList = raw.media.head?.map .string

/-- What really happens: product `i` reports the first url of the `i`-th product among those that have
media. -/
theorem C17_exact {o : HashOrd} {parse : Str → Option F32} {input : List RawProduct} {c : Container}
    {cl : Classic} (h : optimize o parse input = .ok (c, cl)) (i : Nat) (p : Product)
    (hp : c.products[i]? = some p) :
    FeatureSet.get c.extra p "image_url".toList = (input.filterMap (·.media.head?))[i]?.map .string := by
  change FeatureSet.get c.extra p imageUrlKey = _
  obtain ⟨prices, b⟩ := built_of_ok h
  unfold FeatureSet.get
  rw [b.columns.images, b.sid i p hp]
  unfold imagesOf
  by_cases he : input.filterMap (·.media.head?) = []
  · rw [if_pos he, he]; rfl
  · rw [if_neg he]; rfl

/-- The claim holds for products before the first one without media (so for all products if all have media). -/
theorem C17_partial {o : HashOrd} {parse : Str → Option F32} {input : List RawProduct} {c : Container}
    {cl : Classic} (h : optimize o parse input = .ok (c, cl)) (i : Nat) (raw : RawProduct) (p : Product)
    (hi : input[i]? = some raw) (hp : c.products[i]? = some p)
    (hm : ∀ (j : Nat) (r : RawProduct), j ≤ i → input[j]? = some r → r.media ≠ []) :
    FeatureSet.get c.extra p "image_url".toList = raw.media.head?.map .string := by
  rw [C17_exact h i p hp]
  congr 1
  have : ∀ (l : List RawProduct) (i : Nat) (raw : RawProduct), l[i]? = some raw →
      (∀ (j : Nat) (r : RawProduct), j ≤ i → l[j]? = some r → r.media ≠ []) →
      (l.filterMap (·.media.head?))[i]? = raw.media.head? := by
    intro l
    induction l with
    | nil => intro i raw h; simp at h
    | cons a l ih =>
      intro i raw h hm
      have ha := hm 0 a (by omega) rfl
      obtain ⟨u, us, hu⟩ := List.exists_cons_of_ne_nil ha
      rw [List.filterMap_cons, hu]
      simp only [List.head?_cons]
      cases i with
      | zero =>
        simp only [List.getElem?_cons_zero, Option.some.injEq] at h
        subst h; simp [hu]
      | succ i =>
        simp only [List.getElem?_cons_succ] at h ⊢
        exact ih i raw h fun j r hj hr => hm (j + 1) r (by omega) (by simpa using hr)
  exact this input i raw hi hm

/-- A catalogue whose first product has no picture: it reports the second product's picture. -/
def c17Input : List RawProduct :=
  [{ description := [], tags := [], title := ['a'], vendor := [], id := [], options := [],
     price := ⟨⟨['1'], []⟩, ⟨['1'], []⟩⟩, media := [] },
   { description := [], tags := [], title := ['b'], vendor := [], id := [], options := [],
     price := ⟨⟨['1'], []⟩, ⟨['1'], []⟩⟩, media := ["b.png".toList] }]

theorem C17_false : ¬ C17_statement := by
  intro h
  obtain ⟨c, cl, e, _⟩ := optimize_ok .ident (fun _ => some F32.one) c17Input [F32.one, F32.one] rfl
  obtain ⟨h1, h2⟩ := C14 e
  obtain ⟨p, hp, _⟩ := h2 0 _ rfl
  have a := h _ _ _ _ _ e 0 _ p rfl hp
  rw [C17_exact e 0 p hp] at a
  simp [c17Input] at a

/-! ## C18 -/

/-- Tags are exactly what the catalogue says. -/
theorem C18 {o : HashOrd} {parse : Str → Option F32} {input : List RawProduct} {c : Container} {cl : Classic}
    (h : optimize o parse input = .ok (c, cl)) :
    (cl.tags.map (·.name)).Nodup ∧
    (∀ name, name ∈ cl.tags.map (·.name) ↔ ∃ raw ∈ input, name ∈ raw.tags) ∧
    (∀ (i : Nat) (t : Tag), cl.tags[i]? = some t → t.id = i) ∧
    ∀ t ∈ cl.tags, ∀ (i : Nat) (raw : RawProduct) (p : Product), input[i]? = some raw →
      c.products[i]? = some p → (t.contains p = true ↔ t.name ∈ raw.tags) := by
  obtain ⟨prices, b⟩ := built_of_ok h
  obtain ⟨m, hm, ht⟩ := b.tags
  have hperm := o.perm "tags" m
  have hnames : cl.tags.map (·.name) = (o.order "tags" m).map (·.1) := by
    rw [ht]
    apply List.ext_getElem?
    intro i
    simp only [List.getElem?_map, List.getElem?_mapIdx]
    cases (o.order "tags" m)[i]? <;> simp [Tag.new]
  have hkeys : ∀ name, name ∈ cl.tags.map (·.name) ↔ AMap.get m name ≠ none := by
    intro name
    rw [hnames, (hperm.map _).mem_iff, Ne, AMap.get_eq_none_iff]
    exact Decidable.not_not.symm
  -- product / tag-list pairs
  have hzip : ∀ (e : Product × List Str), e ∈ c.products.zip (input.map (·.tags)) ↔
      ∃ (i : Nat) (raw : RawProduct), input[i]? = some raw ∧ c.products[i]? = some e.1 ∧ e.2 = raw.tags := by
    rintro ⟨p, tags⟩
    rw [List.mem_iff_getElem?]
    constructor
    · rintro ⟨i, hi⟩
      rw [List.getElem?_zip_eq_some] at hi
      obtain ⟨h1, h2⟩ := hi
      simp only [List.getElem?_map] at h2
      cases hr : input[i]? with
      | none => rw [hr] at h2; simp at h2
      | some raw => rw [hr] at h2; exact ⟨i, raw, hr, h1, by simpa using h2.symm⟩
    · rintro ⟨i, raw, h1, h2, h3⟩
      refine ⟨i, ?_⟩
      rw [List.getElem?_zip_eq_some]
      refine ⟨h2, ?_⟩
      rw [List.getElem?_map, h1]
      simp at h3; simp [h3]
  refine ⟨?_, ?_, ?_, ?_⟩
  · rw [hnames]; exact (hm.wf.perm hperm)
  · intro name
    rw [hkeys, hm.get]
    have : mentions (c.products.zip (input.map (·.tags))) name ≠ [] ↔ ∃ raw ∈ input, name ∈ raw.tags := by
      rw [Ne, mentions_eq_nil]
      constructor
      · intro hne
        apply Classical.byContradiction
        intro hno
        apply hne
        intro e he hn
        obtain ⟨i, raw, h1, _, h3⟩ := (hzip e).1 he
        exact hno ⟨raw, List.mem_of_getElem? h1, h3 ▸ hn⟩
      · rintro ⟨raw, hr, hn⟩ hall
        obtain ⟨i, hi⟩ := List.getElem?_of_mem hr
        have := hall (productOf c.vendors raw i, raw.tags) ((hzip _).2 ⟨i, raw, hi, by rw [b.getElem?, hi]; rfl, rfl⟩)
        exact this hn
    rw [← this]
    by_cases hs : mentions (c.products.zip (input.map (·.tags))) name = [] <;> simp [hs]
  · intro i t hi
    rw [ht, List.getElem?_mapIdx] at hi
    cases hx : (o.order "tags" m)[i]? with
    | none => rw [hx] at hi; simp at hi
    | some x => rw [hx] at hi; simp at hi; rw [← hi]; rfl
  · intro t htm i raw p hi hp
    rw [ht] at htm
    obtain ⟨k, hk⟩ := List.getElem?_of_mem htm
    rw [List.getElem?_mapIdx] at hk
    cases hx : (o.order "tags" m)[k]? with
    | none => rw [hx] at hk; simp at hk
    | some x =>
      rw [hx] at hk
      simp only [Option.map_some, Option.some.injEq] at hk
      have hmem : x ∈ m := hperm.mem_iff.1 (List.mem_of_getElem? hx)
      have hg := AMap.get_of_mem hm.wf (k := x.1) (v := x.2) hmem
      rw [hm.get] at hg
      have hx2 : x.2 = mentions (c.products.zip (input.map (·.tags))) x.1 := by
        by_cases hs : mentions (c.products.zip (input.map (·.tags))) x.1 = []
        · simp [hs] at hg
        · rw [if_neg hs] at hg; exact (Option.some.inj hg).symm
      rw [← hk]
      simp only [Tag.contains, Tag.new, decide_eq_true_eq, mem_setCollect, List.mem_map]
      rw [hx2]
      simp only [mentions, List.mem_flatMap, List.mem_replicate]
      constructor
      · rintro ⟨q, ⟨e, he, hcnt, rfl⟩, hsid⟩
        obtain ⟨j, raw', h1, h2, h3⟩ := (hzip e).1 he
        have hj := b.sid j _ h2
        have hp' := b.sid i p hp
        have : j = i := by omega
        subst this
        rw [h1] at hi; cases hi
        rw [← h3]
        exact List.count_pos_iff.1 (Nat.pos_of_ne_zero hcnt)
      · intro hn
        refine ⟨p, ⟨(p, raw.tags), (hzip _).2 ⟨i, raw, hi, hp, rfl⟩, ?_, rfl⟩, rfl⟩
        exact Nat.ne_of_gt (List.count_pos_iff.2 hn)

/-! ## C19 -/

/-- The catalogue entry lists this value under a category of this name. -/
def Gives (raw : RawProduct) (category value : Str) : Prop :=
  ∃ r ∈ raw.options, r.name = category ∧ value ∈ r.values

instance (raw category value) : Decidable (Gives raw category value) := by unfold Gives; infer_instance

theorem Built.giver_iff {parse o input c cl prices} (_ : Built parse o input c cl prices) (cn v : Str)
    (p : Product) :
    p ∈ givers ((c.products.zip (input.map (·.options))).flatMap fun e => e.2.map fun r => (e.1, r)) cn v ↔
      ∃ (i : Nat) (raw : RawProduct), input[i]? = some raw ∧ c.products[i]? = some p ∧ Gives raw cn v := by
  simp only [givers, List.mem_map, List.mem_filter, List.mem_flatMap, Bool.and_eq_true, beq_iff_eq,
    List.contains_iff_mem]
  constructor
  · rintro ⟨⟨q, r⟩, ⟨⟨⟨q', opts⟩, he, r', hr', heq⟩, h1, h2⟩, rfl⟩
    simp only [Prod.mk.injEq] at heq
    obtain ⟨rfl, rfl⟩ := heq
    obtain ⟨i, hi⟩ := List.getElem?_of_mem he
    rw [List.getElem?_zip_eq_some] at hi
    obtain ⟨h3, h4⟩ := hi
    simp only [List.getElem?_map] at h4
    cases hraw : input[i]? with
    | none => rw [hraw] at h4; simp at h4
    | some raw =>
      rw [hraw] at h4
      simp only [Option.map_some, Option.some.injEq] at h4
      subst h4
      exact ⟨i, raw, hraw, h3, r', hr', h1, h2⟩
  · rintro ⟨i, raw, h1, h2, r, hr, h3, h4⟩
    refine ⟨(p, r), ⟨⟨(p, raw.options), ?_, r, hr, rfl⟩, h3, h4⟩, rfl⟩
    rw [List.mem_iff_getElem?]
    refine ⟨i, ?_⟩
    rw [List.getElem?_zip_eq_some]
    exact ⟨h2, by simp [h1]⟩

/-- Ascending lists with the same members are equal. -/
theorem eq_of_sorted_mem {l m : List Nat} (hl : l.Pairwise (· < ·)) (hm : m.Pairwise (· < ·))
    (h : ∀ a, a ∈ l ↔ a ∈ m) : l = m := by
  have hp : l.Perm m := by
    rw [List.perm_iff_count]
    intro a
    have h1 : l.Nodup := hl.imp fun h => Nat.ne_of_lt h
    have h2 : m.Nodup := hm.imp fun h => Nat.ne_of_lt h
    rw [h1.count, h2.count]
    simp [h a]
  exact Perm.eq_of_natSorted hp (hl.imp Nat.le_of_lt) (hm.imp Nat.le_of_lt)

theorem setCollect_sorted {l : List Nat} (h : l.Pairwise (· ≤ ·)) : (setCollect l).Pairwise (· < ·) := by
  have : ∀ (l s : List Nat), s.Pairwise (· < ·) → l.Pairwise (· ≤ ·) → (∀ a ∈ s, ∀ b ∈ l, a ≤ b) →
      (l.foldl setInsert s).Pairwise (· < ·) := by
    intro l
    induction l with
    | nil => intro s hs _ _; exact hs
    | cons a l ih =>
      intro s hs hl hsl
      rw [List.pairwise_cons] at hl
      rw [List.foldl_cons]
      refine ih _ ?_ hl.2 ?_
      · unfold setInsert
        split
        · exact hs
        · rename_i ha
          rw [List.pairwise_append]
          refine ⟨hs, by simp, fun x hx y hy => ?_⟩
          simp only [List.mem_singleton] at hy
          subst hy
          have := hsl x hx y (by simp)
          have hne : x ≠ y := fun e => ha (e ▸ hx)
          omega
      · intro x hx y hy
        rw [mem_setInsert] at hx
        rcases hx with hx | rfl
        · exact hsl x hx y (by simp [hy])
        · exact hl.1 y hy
  exact this l [] .nil h (by simp)

theorem Built.givers_sorted {parse o input c cl prices} (b : Built parse o input c cl prices) (cn v : Str) :
    ((givers ((c.products.zip (input.map (·.options))).flatMap fun e => e.2.map fun r => (e.1, r)) cn v).map
      (·.sid)).Pairwise (· ≤ ·) := by
  simp only [givers, List.map_map, List.pairwise_map]
  refine List.Pairwise.filter _ ?_
  rw [List.pairwise_flatMap]
  constructor
  · intro e _
    rw [List.pairwise_map]
    exact List.pairwise_of_forall (fun _ _ => Nat.le_refl _)
  · rw [List.pairwise_iff_getElem]
    intro i j hi hj hij x hx y hy
    obtain ⟨rx, _, rfl⟩ := List.mem_map.1 hx
    obtain ⟨ry, _, rfl⟩ := List.mem_map.1 hy
    simp only [List.length_zip, List.length_map] at hi hj
    have hi' : i < c.products.length := by omega
    have hj' : j < c.products.length := by omega
    simp only [Function.comp_apply, List.getElem_zip]
    rw [b.sid i _ (List.getElem?_eq_getElem hi'), b.sid j _ (List.getElem?_eq_getElem hj')]
    omega

/-- Categories are exactly what the catalogue says. -/
theorem C19 {o : HashOrd} {parse : Str → Option F32} {input : List RawProduct} {c : Container} {cl : Classic}
    (h : optimize o parse input = .ok (c, cl)) :
    (cl.categories.map (·.name)).Nodup ∧
    (∀ cn, cn ∈ cl.categories.map (·.name) ↔ ∃ raw ∈ input, ∃ r ∈ raw.options, r.name = cn) ∧
    ∀ cat ∈ cl.categories,
      (cat.options.map (·.name)).Nodup ∧
      (∀ v, v ∈ cat.options.map (·.name) ↔ ∃ raw ∈ input, Gives raw cat.name v) ∧
      ∀ op ∈ cat.options,
        -- the products holding it: every position whose input gives the value, ascending, once
        op.content.map (·.sid) = (List.range input.length).filter (fun i =>
          match input[i]? with
          | some raw => decide (Gives raw cat.name op.name)
          | none => false) ∧
        (∀ p ∈ op.content, c.products[p.sid]? = some p) ∧
        ∀ (i : Nat) (raw : RawProduct) (p : Product), input[i]? = some raw → c.products[i]? = some p →
          (op.contains p = true ↔ Gives raw cat.name op.name) := by
  obtain ⟨prices, b⟩ := built_of_ok h
  have hc := b.cats
  refine ⟨hc.nodup, ?_, ?_⟩
  · intro cn
    rw [hc.names]
    simp only [List.mem_flatMap, List.mem_map]
    constructor
    · rintro ⟨e, ⟨⟨q, opts⟩, he, r, hr, rfl⟩, hn⟩
      obtain ⟨i, hi⟩ := List.getElem?_of_mem he
      rw [List.getElem?_zip_eq_some] at hi
      obtain ⟨h3, h4⟩ := hi
      simp only [List.getElem?_map] at h4
      cases hraw : input[i]? with
      | none => rw [hraw] at h4; simp at h4
      | some raw =>
        rw [hraw] at h4
        simp only [Option.map_some, Option.some.injEq] at h4
        subst h4
        exact ⟨raw, List.mem_of_getElem? hraw, r, hr, hn⟩
    · rintro ⟨raw, hraw, r, hr, hn⟩
      obtain ⟨i, hi⟩ := List.getElem?_of_mem hraw
      refine ⟨(productOf c.vendors raw i, r), ⟨(productOf c.vendors raw i, raw.options), ?_, r, hr, rfl⟩, hn⟩
      rw [List.mem_iff_getElem?]
      refine ⟨i, ?_⟩
      rw [List.getElem?_zip_eq_some]
      exact ⟨by rw [b.getElem?, hi]; rfl, by simp [hi]⟩
  · intro cat hcat
    obtain ⟨_, ho⟩ := hc.options cat hcat
    have hgiv : ∀ v, givers ((c.products.zip (input.map (·.options))).flatMap fun e => e.2.map fun r => (e.1, r))
        cat.name v ≠ [] ↔ ∃ raw ∈ input, Gives raw cat.name v := by
      intro v
      constructor
      · intro hne
        obtain ⟨p, hp⟩ := List.exists_mem_of_ne_nil _ hne
        obtain ⟨i, raw, h1, _, h3⟩ := (b.giver_iff cat.name v p).1 hp
        exact ⟨raw, List.mem_of_getElem? h1, h3⟩
      · rintro ⟨raw, hraw, hg⟩
        obtain ⟨i, hi⟩ := List.getElem?_of_mem hraw
        exact List.ne_nil_of_mem ((b.giver_iff cat.name v _).2 ⟨i, raw, hi, by rw [b.getElem?, hi]; rfl, hg⟩)
    refine ⟨ho.nodup, ?_, ?_⟩
    · intro v
      rw [← hgiv v]
      constructor
      · intro hv
        obtain ⟨op, hop, rfl⟩ := List.mem_map.1 hv
        exact (ho.some op hop).1
      · intro hne
        apply Classical.byContradiction
        intro hv
        exact hne (ho.none v hv)
    · intro op hop
      obtain ⟨_, sid, hop2⟩ := ho.some op hop
      obtain ⟨a1, _, a3, a4⟩ := addAll_spec (givers ((c.products.zip (input.map (·.options))).flatMap
        fun e => e.2.map fun r => (e.1, r)) cat.name op.name) (CatOption.new op.name sid) rfl rfl
      rw [← hop2] at a1 a3 a4
      have hmemids : ∀ i, i ∈ setCollect ((givers ((c.products.zip (input.map (·.options))).flatMap
          fun e => e.2.map fun r => (e.1, r)) cat.name op.name).map (·.sid)) ↔
          ∃ raw, input[i]? = some raw ∧ Gives raw cat.name op.name := by
        intro i
        rw [mem_setCollect, List.mem_map]
        constructor
        · rintro ⟨p, hp, hs⟩
          obtain ⟨j, raw, h1, h2, h3⟩ := (b.giver_iff _ _ _).1 hp
          have := b.sid j p h2
          have : j = i := by omega
          subst this
          exact ⟨raw, h1, h3⟩
        · rintro ⟨raw, h1, h3⟩
          exact ⟨productOf c.vendors raw i, (b.giver_iff _ _ _).2 ⟨i, raw, h1, by rw [b.getElem?, h1]; rfl, h3⟩, rfl⟩
      refine ⟨?_, ?_, ?_⟩
      · rw [a3]
        refine eq_of_sorted_mem (setCollect_sorted (b.givers_sorted _ _))
          (List.Pairwise.filter _ List.pairwise_lt_range) ?_
        intro i
        rw [hmemids, List.mem_filter, List.mem_range]
        constructor
        · rintro ⟨raw, h1, h2⟩
          exact ⟨(List.getElem?_eq_some_iff.1 h1).1, by simp [h1, h2]⟩
        · rintro ⟨h1, h2⟩
          rw [List.getElem?_eq_getElem h1] at h2
          exact ⟨_, List.getElem?_eq_getElem h1, by simpa using h2⟩
      · intro p hp
        obtain ⟨i, raw, _, h2, _⟩ := (b.giver_iff _ _ _).1 (a4 p hp)
        exact b.mem_sid p (List.mem_of_getElem? h2)
      · intro i raw p hi hp
        rw [CatOption.contains, a1, decide_eq_true_eq, hmemids, b.sid i p hp, hi]
        simp

/-! ## C20 -/

/-- Spec of an order over the inputs: strictly before, or tied and earlier in the catalogue. -/
def Before (lt : RawProduct → RawProduct → Prop) (input : List RawProduct) (i j : Nat) : Prop :=
  ∃ a b, input[i]? = some a ∧ input[j]? = some b ∧ (lt a b ∨ (¬ lt b a ∧ i < j))

/-- Spec: strictly smaller as numbers (units of `2^-149`, or infinite). -/
inductive ValLt : F32.Val → F32.Val → Prop
  | low (b : F32.Val) : b ≠ .nan → b ≠ .inf true → ValLt (.inf true) b
  | high (a : F32.Val) : a ≠ .nan → a ≠ .inf false → ValLt a (.inf false)
  | fin (s r : Bool) (m n : Nat) :
      (if s then -(m : Int) else (m : Int)) < (if r then -(n : Int) else (n : Int)) → ValLt (.fin s m) (.fin r n)

theorem valLt_iff (a b : F32.Val) : F32.Val.lt a b = true ↔ ValLt a b := by
  constructor
  · intro h
    cases a with
    | nan => simp [F32.Val.lt] at h
    | inf s =>
      cases b with
      | nan => simp [F32.Val.lt] at h
      | inf r =>
        cases s
        · exact absurd (show false = true from h) Bool.false_ne_true
        · cases r
          · exact .low _ (fun e => nomatch e) (fun e => nomatch e)
          · exact absurd (show false = true from h) Bool.false_ne_true
      | fin r n =>
        cases s
        · exact absurd (show false = true from h) Bool.false_ne_true
        · exact .low _ (fun e => nomatch e) (fun e => nomatch e)
    | fin s m =>
      cases b with
      | nan => simp [F32.Val.lt] at h
      | inf r =>
        cases r
        · exact .high _ (fun e => nomatch e) (fun e => nomatch e)
        · exact absurd (show false = true from h) Bool.false_ne_true
      | fin r n => exact .fin _ _ _ _ (of_decide_eq_true h)
  · intro h
    cases h with
    | low b h1 h2 =>
      cases b with
      | nan => exact absurd rfl h1
      | inf r => cases r <;> first | rfl | exact absurd rfl h2
      | fin r n => rfl
    | high a h1 h2 =>
      cases a with
      | nan => exact absurd rfl h1
      | inf r => cases r <;> first | rfl | exact absurd rfl h2
      | fin r n => rfl
    | fin s r m n h => exact decide_eq_true h

/-- Numeric price order on the inputs. -/
def PriceLt (parse : Str → Option F32) (a b : RawProduct) : Prop :=
  ∃ x y, parse a.price.min.amount = some x ∧ parse b.price.min.amount = some y ∧ ValLt x.val y.val

theorem IsRanking.congr {n : Nat} {P Q : Nat → Nat → Prop} {r : List Nat} (h : IsRanking n P r)
    (e : ∀ i j, i < n → j < n → (P i j ↔ Q i j)) : IsRanking n Q r := by
  refine ⟨h.perm, fun i j ri rj hi hj => ?_⟩
  have hl : r.length = n := by simpa using h.perm.length_eq
  rw [h.iff i j ri rj hi hj]
  apply e
  · rw [← hl]; exact (List.getElem?_eq_some_iff.1 hi).1
  · rw [← hl]; exact (List.getElem?_eq_some_iff.1 hj).1

theorem orders_of {o : HashOrd} {parse : Str → Option F32} {input : List RawProduct} {c : Container} {cl : Classic}
    (h : optimize o parse input = .ok (c, cl)) :
    (∃ r, cl.order.getOrders alphabeticalKey = some r ∧
      IsRanking input.length (Before (fun a b => CodeLt a.title b.title) input) r) ∧
    (∀ k, (∃ r, cl.order.getOrders k = some r) ↔ k ∈ [alphabeticalKey, priceLowKey, priceHighKey]) ∧
    (∀ k r, cl.order.getOrders k = some r → r.Perm (List.range input.length)) ∧
    ((∀ raw ∈ input, ∀ x, parse raw.price.min.amount = some x → x.val ≠ .nan) →
      (∃ r, cl.order.getOrders priceLowKey = some r ∧
        IsRanking input.length (Before (PriceLt parse) input) r) ∧
      (∃ r, cl.order.getOrders priceHighKey = some r ∧
        IsRanking input.length (Before (fun a b => PriceLt parse b a) input) r)) := by
  obtain ⟨prices, b⟩ := built_of_ok h
  obtain ⟨r1, r2, r3, ho, o1, o2, o3, hperm⟩ := b.orders
  have k12 : alphabeticalKey ≠ priceLowKey := by decide
  have k13 : alphabeticalKey ≠ priceHighKey := by decide
  have k23 : priceLowKey ≠ priceHighKey := by decide
  have g1 : cl.order.getOrders alphabeticalKey = some r1 := by
    rw [ho, OrderIndex.getOrders, AMap.get_insert, if_neg (Ne.symm k13), AMap.get_insert, if_neg (Ne.symm k12),
      AMap.get_insert, if_pos rfl]
  have g2 : cl.order.getOrders priceLowKey = some r2 := by
    rw [ho, OrderIndex.getOrders, AMap.get_insert, if_neg (Ne.symm k23), AMap.get_insert, if_pos rfl]
  have g3 : cl.order.getOrders priceHighKey = some r3 := by
    rw [ho, OrderIndex.getOrders, AMap.get_insert, if_pos rfl]
  have gk : ∀ k r, cl.order.getOrders k = some r → (k = alphabeticalKey ∧ r = r1) ∨ (k = priceLowKey ∧ r = r2) ∨
      (k = priceHighKey ∧ r = r3) := by
    intro k r hk
    rw [ho, OrderIndex.getOrders, AMap.get_insert, AMap.get_insert, AMap.get_insert] at hk
    by_cases e3 : priceHighKey = k
    · rw [if_pos e3] at hk; exact .inr (.inr ⟨e3.symm, (Option.some.inj hk).symm⟩)
    · rw [if_neg e3] at hk
      by_cases e2 : priceLowKey = k
      · rw [if_pos e2] at hk; exact .inr (.inl ⟨e2.symm, (Option.some.inj hk).symm⟩)
      · rw [if_neg e2] at hk
        by_cases e1 : alphabeticalKey = k
        · rw [if_pos e1] at hk; exact .inl ⟨e1.symm, (Option.some.inj hk).symm⟩
        · rw [if_neg e1] at hk; simp at hk
  have hlen := b.length
  have insert_inj : ∀ {ix : OrderIndex} {k : Str} {r r' : List Nat},
      AMap.insert ix k r = AMap.insert ix k r' → r = r' := by
    intro ix k r r' e
    have := congrArg (fun m => AMap.get m k) e
    simpa [AMap.get_insert] using this
  refine ⟨⟨r1, g1, ?_⟩, ?_, ?_, ?_⟩
  · obtain ⟨r, e, hr⟩ := addCustomCmp_spec [] c (fun p => .ok p.title) strCmp alphabeticalKey Product.title
      (fun _ _ => rfl) b.sid (fun p _ q _ => strCmp_total _ _)
      (fun p _ q _ r _ => bytesCmp_le_trans _ _ _)
    rw [o1] at e
    have : r1 = r := insert_inj (Res.ok.inj e)
    subst this
    rw [hlen] at hr
    refine hr.congr fun i j hi hj => ?_
    have hpi := b.getElem? i
    have hpj := b.getElem? j
    rw [List.getElem?_eq_getElem hi] at hpi
    rw [List.getElem?_eq_getElem hj] at hpj
    have key : (strCmp input[i].title input[j].title ≠ .gt ∧
        (strCmp input[j].title input[i].title ≠ .gt → i < j)) ↔
        (CodeLt input[i].title input[j].title ∨ (¬ CodeLt input[j].title input[i].title ∧ i < j)) := by
      rw [← strCmp_lt_iff, ← strCmp_lt_iff]
      have := bytesCmp_swap (utf8 input[i].title) (utf8 input[j].title)
      unfold strCmp
      rw [this]
      cases bytesCmp (utf8 input[i].title) (utf8 input[j].title) <;> simp
    constructor
    · rintro ⟨p, q, hp, hq, h1⟩
      rw [hpi] at hp; rw [hpj] at hq
      simp only [Option.map_some, Option.some.injEq] at hp hq
      subst hp hq
      exact ⟨_, _, List.getElem?_eq_getElem hi, List.getElem?_eq_getElem hj, key.1 h1⟩
    · rintro ⟨x, y, hx, hy, h1⟩
      rw [List.getElem?_eq_getElem hi] at hx; cases hx
      rw [List.getElem?_eq_getElem hj] at hy; cases hy
      exact ⟨_, _, hpi, hpj, key.2 h1⟩
  · intro k
    constructor
    · rintro ⟨r, hr⟩
      rcases gk k r hr with ⟨rfl, _⟩ | ⟨rfl, _⟩ | ⟨rfl, _⟩ <;> simp
    · intro hk
      simp only [List.mem_cons, List.not_mem_nil, or_false] at hk
      rcases hk with rfl | rfl | rfl
      · exact ⟨_, g1⟩
      · exact ⟨_, g2⟩
      · exact ⟨_, g3⟩
  · intro k r hr
    rcases gk k r hr with ⟨_, rfl⟩ | ⟨_, rfl⟩ | ⟨_, rfl⟩
    · exact hperm _ (by simp)
    · exact hperm _ (by simp)
    · exact hperm _ (by simp)
  · intro hnan
    let f : Product → F32 := fun p => prices[p.sid]?.getD F32.zero
    have hmaker : ∀ p ∈ c.products, priceMaker c.extra p = .ok (f p) := by
      intro p hp
      apply priceMaker_ok b.columns
      have := (List.getElem?_eq_some_iff.1 (b.mem_sid p hp)).1
      rw [b.price_length, ← b.length]; exact this
    -- the price of the product at position `i`
    have hval : ∀ (i : Nat) (raw : RawProduct) (p : Product), input[i]? = some raw → c.products[i]? = some p →
        parse raw.price.min.amount = some (f p) := by
      intro i raw p hi hp
      have hx := congrArg (fun l => l[i]?) b.parsed
      have hil : i < prices.length := by rw [b.price_length]; exact (List.getElem?_eq_some_iff.1 hi).1
      simp only [List.getElem?_map, hi, Option.map_some, List.getElem?_eq_getElem hil] at hx
      simp only [f, b.sid i p hp, List.getElem?_eq_getElem hil, Option.getD_some]
      exact Option.some.inj hx
    have hnn : ∀ p ∈ c.products, ¬ (f p).IsNan := by
      intro p hp
      have hp' := b.mem_sid p hp
      have hlt := (List.getElem?_eq_some_iff.1 hp').1
      rw [b.length] at hlt
      exact hnan _ (List.getElem_mem hlt) _ (hval p.sid _ p (List.getElem?_eq_getElem hlt) hp')
    have tot := fun p (hp : p ∈ c.products) q (hq : q ∈ c.products) =>
      (by rw [F32.cmpOrEq_ne_gt (hnn p hp) (hnn q hq), F32.cmpOrEq_ne_gt (hnn q hq) (hnn p hp)]
          cases h1 : F32.lt (f q) (f p) with
          | false => exact .inl rfl
          | true => exact .inr (F32.lt_asymm h1) :
        F32.cmpOrEq (f p) (f q) ≠ .gt ∨ F32.cmpOrEq (f q) (f p) ≠ .gt)
    have tot' := fun p (hp : p ∈ c.products) q (hq : q ∈ c.products) =>
      (by rw [F32.cmpOrEq_swap_ne_gt (hnn p hp) (hnn q hq), F32.cmpOrEq_swap_ne_gt (hnn q hq) (hnn p hp)]
          cases h1 : F32.lt (f p) (f q) with
          | false => exact .inl rfl
          | true => exact .inr (F32.lt_asymm h1) :
        (F32.cmpOrEq (f p) (f q)).swap ≠ .gt ∨ (F32.cmpOrEq (f q) (f p)).swap ≠ .gt)
    have tra := fun p (hp : p ∈ c.products) q (hq : q ∈ c.products) r (hr : r ∈ c.products) =>
      (by rw [F32.cmpOrEq_ne_gt (hnn p hp) (hnn q hq), F32.cmpOrEq_ne_gt (hnn q hq) (hnn r hr),
            F32.cmpOrEq_ne_gt (hnn p hp) (hnn r hr)]
          exact F32.le_trans (hnn p hp) (hnn q hq) (hnn r hr) :
        F32.cmpOrEq (f p) (f q) ≠ .gt → F32.cmpOrEq (f q) (f r) ≠ .gt → F32.cmpOrEq (f p) (f r) ≠ .gt)
    have tra' := fun p (hp : p ∈ c.products) q (hq : q ∈ c.products) r (hr : r ∈ c.products) =>
      (by rw [F32.cmpOrEq_swap_ne_gt (hnn p hp) (hnn q hq), F32.cmpOrEq_swap_ne_gt (hnn q hq) (hnn r hr),
            F32.cmpOrEq_swap_ne_gt (hnn p hp) (hnn r hr)]
          exact fun h1 h2 => F32.le_trans (hnn r hr) (hnn q hq) (hnn p hp) h2 h1 :
        (F32.cmpOrEq (f p) (f q)).swap ≠ .gt → (F32.cmpOrEq (f q) (f r)).swap ≠ .gt →
          (F32.cmpOrEq (f p) (f r)).swap ≠ .gt)
    -- price comparison of two positions, in terms of the inputs
    have plt : ∀ (i j : Nat) (hi : i < input.length) (hj : j < input.length),
        PriceLt parse input[i] input[j] ↔
          F32.lt (f (productOf c.vendors input[i] i)) (f (productOf c.vendors input[j] j)) = true := by
      intro i j hi hj
      have e1 := hval i _ _ (List.getElem?_eq_getElem hi) (by rw [b.getElem?, List.getElem?_eq_getElem hi]; rfl)
      have e2 := hval j _ _ (List.getElem?_eq_getElem hj) (by rw [b.getElem?, List.getElem?_eq_getElem hj]; rfl)
      constructor
      · rintro ⟨x, y, hx, hy, hl⟩
        rw [e1] at hx; rw [e2] at hy
        cases hx; cases hy; exact (valLt_iff _ _).2 hl
      · intro hl; exact ⟨_, _, e1, e2, (valLt_iff _ _).1 hl⟩
    have hmem : ∀ (i : Nat) (hi : i < input.length), productOf c.vendors input[i] i ∈ c.products := by
      intro i hi
      apply List.mem_of_getElem? (i := i)
      rw [b.getElem?, List.getElem?_eq_getElem hi]; rfl
    constructor
    · refine ⟨r2, g2, ?_⟩
      obtain ⟨r, e, hr⟩ := addCustomCmp_spec _ c (priceMaker c.extra) F32.cmpOrEq priceLowKey f hmaker b.sid tot tra
      rw [o2] at e
      have : r2 = r := insert_inj (Res.ok.inj e)
      subst this
      rw [hlen] at hr
      refine hr.congr fun i j hi hj => ?_
      have hpi := b.getElem? i
      have hpj := b.getElem? j
      rw [List.getElem?_eq_getElem hi] at hpi
      rw [List.getElem?_eq_getElem hj] at hpj
      have key : (F32.cmpOrEq (f (productOf c.vendors input[i] i)) (f (productOf c.vendors input[j] j)) ≠ .gt ∧
          (F32.cmpOrEq (f (productOf c.vendors input[j] j)) (f (productOf c.vendors input[i] i)) ≠ .gt → i < j)) ↔
          (PriceLt parse input[i] input[j] ∨ (¬ PriceLt parse input[j] input[i] ∧ i < j)) := by
        rw [F32.cmpOrEq_ne_gt (hnn _ (hmem i hi)) (hnn _ (hmem j hj)),
          F32.cmpOrEq_ne_gt (hnn _ (hmem j hj)) (hnn _ (hmem i hi)), plt i j hi hj, plt j i hj hi]
        cases h1 : F32.lt (f (productOf c.vendors input[i] i)) (f (productOf c.vendors input[j] j)) with
        | true => simp [F32.lt_asymm h1]
        | false => simp
      constructor
      · rintro ⟨p, q, hp, hq, h1⟩
        rw [hpi] at hp; rw [hpj] at hq
        simp only [Option.map_some, Option.some.injEq] at hp hq
        subst hp hq
        exact ⟨_, _, List.getElem?_eq_getElem hi, List.getElem?_eq_getElem hj, key.1 h1⟩
      · rintro ⟨x, y, hx, hy, h1⟩
        rw [List.getElem?_eq_getElem hi] at hx; cases hx
        rw [List.getElem?_eq_getElem hj] at hy; cases hy
        exact ⟨_, _, hpi, hpj, key.2 h1⟩
    · refine ⟨r3, g3, ?_⟩
      obtain ⟨r, e, hr⟩ := addCustomCmp_spec _ c (priceMaker c.extra) (fun a b => (F32.cmpOrEq a b).swap)
        priceHighKey f hmaker b.sid tot' tra'
      rw [o3] at e
      have : r3 = r := insert_inj (Res.ok.inj e)
      subst this
      rw [hlen] at hr
      refine hr.congr fun i j hi hj => ?_
      have hpi := b.getElem? i
      have hpj := b.getElem? j
      rw [List.getElem?_eq_getElem hi] at hpi
      rw [List.getElem?_eq_getElem hj] at hpj
      have key : ((F32.cmpOrEq (f (productOf c.vendors input[i] i)) (f (productOf c.vendors input[j] j))).swap ≠ .gt ∧
          ((F32.cmpOrEq (f (productOf c.vendors input[j] j)) (f (productOf c.vendors input[i] i))).swap ≠ .gt →
            i < j)) ↔
          (PriceLt parse input[j] input[i] ∨ (¬ PriceLt parse input[i] input[j] ∧ i < j)) := by
        rw [F32.cmpOrEq_swap_ne_gt (hnn _ (hmem i hi)) (hnn _ (hmem j hj)),
          F32.cmpOrEq_swap_ne_gt (hnn _ (hmem j hj)) (hnn _ (hmem i hi)), plt i j hi hj, plt j i hj hi]
        cases h1 : F32.lt (f (productOf c.vendors input[j] j)) (f (productOf c.vendors input[i] i)) with
        | true => simp [F32.lt_asymm h1]
        | false => simp
      constructor
      · rintro ⟨p, q, hp, hq, h1⟩
        rw [hpi] at hp; rw [hpj] at hq
        simp only [Option.map_some, Option.some.injEq] at hp hq
        subst hp hq
        exact ⟨_, _, List.getElem?_eq_getElem hi, List.getElem?_eq_getElem hj, key.1 h1⟩
      · rintro ⟨x, y, hx, hy, h1⟩
        rw [List.getElem?_eq_getElem hi] at hx; cases hx
        rw [List.getElem?_eq_getElem hj] at hy; cases hy
        exact ⟨_, _, hpi, hpj, key.2 h1⟩

/-- The orders: exactly these three; alphabetical by the code points of the title; by price if no price is NaN; ties by
catalogue position. -/
theorem C20 {o : HashOrd} {parse : Str → Option F32} {input : List RawProduct} {c : Container} {cl : Classic}
    (h : optimize o parse input = .ok (c, cl)) :
    (∃ r, cl.order.getOrders "Alphabetical".toList = some r ∧
      IsRanking input.length (Before (fun a b => CodeLt a.title b.title) input) r) ∧
    (∀ k, (∃ r, cl.order.getOrders k = some r) ↔
      k ∈ ["Alphabetical".toList, "Price low to high".toList, "Price high to low".toList]) ∧
    (∀ k r, cl.order.getOrders k = some r → r.Perm (List.range input.length)) ∧
    ((∀ raw ∈ input, ∀ x, parse raw.price.min.amount = some x → x.val ≠ .nan) →
      (∃ r, cl.order.getOrders "Price low to high".toList = some r ∧
        IsRanking input.length (Before (PriceLt parse) input) r) ∧
      (∃ r, cl.order.getOrders "Price high to low".toList = some r ∧
        IsRanking input.length (Before (fun a b => PriceLt parse b a) input) r)) :=
  orders_of h

/-- A small catalogue: two products sharing a tag and an option value. -/
def sampleInput : List RawProduct :=
  [{ description := ['d'], tags := [['t'], ['u']], title := ['b'], vendor := ['v'], id := ['1'],
     options := [⟨['s'], [['S'], ['M']]⟩], price := ⟨⟨['1'], []⟩, ⟨['1'], []⟩⟩, media := [['x']] },
   { description := ['d'], tags := [['t']], title := ['a'], vendor := ['v'], id := ['2'],
     options := [⟨['s'], [['M']]⟩], price := ⟨⟨['1'], []⟩, ⟨['1'], []⟩⟩, media := [['y']] }]

/-- The hypothesis of C14, C16–C20 is met by it. -/
example : ∃ c cl, optimize .rev (fun _ => some F32.one) sampleInput = .ok (c, cl) := by
  obtain ⟨c, cl, e, _⟩ := optimize_ok .rev (fun _ => some F32.one) sampleInput [F32.one, F32.one] rfl
  exact ⟨c, cl, e⟩

/-- Its price is not NaN, as the price part of C20 asks. -/
example : F32.one.val ≠ .nan := by decide

/-- Both sides of C24 occur. -/
example : optimize .ident (fun _ => none) sampleInput = .panic .unwrapNone :=
  optimize_panic _ _ _ ⟨_, List.mem_cons_self, rfl⟩

end Idx
