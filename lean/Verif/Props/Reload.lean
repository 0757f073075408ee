import Verif.Props.Determinism
/-! # C09, C11, C16 (after reload): a written file reloads to the same index -/
namespace Idx

theorem Built.containerWf {parse o input c cl prices} (b : Built parse o input c cl prices) : ContainerWf c := by
  refine ⟨b.vendorInv, b.sid, ?_, b.columns.wf⟩
  intro p hp
  obtain ⟨i, hi⟩ := List.getElem?_of_mem hp
  rw [b.getElem?] at hi
  cases hr : input[i]? with
  | none => rw [hr] at hi; simp at hi
  | some raw =>
    rw [hr] at hi
    simp only [Option.map_some, Option.some.injEq] at hi
    obtain ⟨v, hv, e, hm⟩ := b.vendor raw (List.mem_of_getElem? hr)
    have hpv : p.vendor = v := by rw [← hi]; simp [productOf, hv]
    obtain ⟨j, hj⟩ := List.getElem?_of_mem hm
    rw [hpv, b.vendorInv.ids j v hj]; exact hj

theorem gramWf_of_built {t o lower parse n input ix cl} (hn : 1 ≤ n)
    (h : buildAll t o lower parse n input = .ok (ix, cl)) : GramWf n ix := by
  have hb := builtAll_of_ok h
  obtain ⟨prices, b⟩ := hb.built
  have hwf : AMap.Wf ix.data := by rw [hb.index]; exact data_wf t o hn _ _
  refine ⟨b.containerWf, ?_, hwf, ?_⟩
  · exact (C23_roots hn h).1
  · rintro ⟨k, l⟩ he
    have hg := AMap.get_of_mem hwf he
    have hasc := C22_ascending hn h k l hg
    rw [C22_postings hn h] at hg
    simp only at hg
    split at hg
    · rename_i hc
      cases hg
      have hm := fun p hp => b.expected_mem (lower := lower) (n := n) (k := k) (p := p) hp
      obtain ⟨p, hp⟩ := List.exists_mem_of_ne_nil _ hc.1
      obtain ⟨_, raw, _, hw⟩ := hm p hp
      refine ⟨paddedWindows_length hn hw, fun p hp => (hm p hp).1, ?_⟩
      rw [List.pairwise_map]; exact hasc
    · cases hg

theorem Built.classicWf {parse o input c cl prices} (b : Built parse o input c cl prices)
    (h : optimize o parse input = .ok (c, cl)) : ClassicWf c cl := by
  obtain ⟨m, hm, ht⟩ := b.tags
  obtain ⟨hnd, _, hid, _⟩ := C18 h
  obtain ⟨_, _, hcat⟩ := C19 h
  obtain ⟨r1, r2, r3, ho, _, _, _, hperm⟩ := b.orders
  have hpw : (c.products.zip (input.map (·.tags))).Pairwise fun a b => a.1.sid ≤ b.1.sid := by
    rw [List.pairwise_iff_getElem]
    intro i j hi hj hij
    have hi' : i < c.products.length := by simp at hi; omega
    have hj' : j < c.products.length := by simp at hj; omega
    have e1 := b.sid i _ (List.getElem?_eq_getElem hi')
    have e2 := b.sid j _ (List.getElem?_eq_getElem hj')
    simp only [List.getElem_zip]
    omega
  refine ⟨?_, hid, ?_, ?_, ?_⟩
  · intro tag htag
    rw [ht] at htag
    obtain ⟨i, hi⟩ := List.getElem?_of_mem htag
    rw [List.getElem?_mapIdx] at hi
    cases hx : (o.order "tags" m)[i]? with
    | none => rw [hx] at hi; simp at hi
    | some e =>
      rw [hx] at hi
      simp only [Option.map_some, Option.some.injEq] at hi
      have hem : e ∈ m := (o.perm _ _).mem_iff.1 (List.mem_of_getElem? hx)
      have hg := AMap.get_of_mem (k := e.1) (v := e.2) hm.wf hem
      rw [hm.get] at hg
      split at hg
      · cases hg
      · simp only [Option.some.injEq] at hg
        have hp : tag.products = mentions (c.products.zip (input.map (·.tags))) e.1 := by rw [← hi, hg]; rfl
        rw [hp]
        constructor
        · intro p hp
          simp only [mentions, List.mem_flatMap, List.mem_replicate] at hp
          obtain ⟨x, hx, _, rfl⟩ := hp
          exact b.mem_sid _ (List.of_mem_zip (a := x.1) (b := x.2) hx).1
        · rw [List.pairwise_map, mentions, List.pairwise_flatMap]
          refine ⟨fun x _ => by rw [List.pairwise_replicate]; exact .inr (Nat.le_refl _), hpw.imp ?_⟩
          intro a b hab x hx y hy
          rw [List.eq_of_mem_replicate hx, List.eq_of_mem_replicate hy]; exact hab
  · intro cat hc op hop
    obtain ⟨_, _, hops⟩ := hcat cat hc
    obtain ⟨h1, h2, _⟩ := hops op hop
    refine ⟨h2, ?_⟩
    rw [h1]
    exact (List.pairwise_lt_range.imp Nat.le_of_lt).filter _
  · rw [ho]; exact ((AMap.Wf.nil.insert _ _).insert _ _).insert _ _
  · intro e he r hr
    have hwf : AMap.Wf cl.order := by rw [ho]; exact ((AMap.Wf.nil.insert _ _).insert _ _).insert _ _
    have hg := AMap.get_of_mem (k := e.1) (v := e.2) hwf he
    have := (orders_of h).2.2.1 e.1 e.2 hg
    have := this.mem_iff.1 hr
    rw [b.length]
    exact Nat.le_of_lt (List.mem_range.1 this)

theorem classicWf_of_built {t o lower parse n input ix cl}
    (h : buildAll t o lower parse n input = .ok (ix, cl)) : ClassicWf ix.container cl := by
  obtain ⟨prices, b⟩ := (builtAll_of_ok h).built
  exact b.classicWf (buildAll_container h)

/-! ## C09 -/

/-- What the file keeps of a product: its description is limited to about 100 bytes (C06). -/
def limited (p : Product) : Product := { p with description := limitStringLen p.description 100 }

/-- What the file keeps of a category: everything but the internal option numbers. -/
def categoryView (c : Category) : Str × Bool × List (Str × List Nat) :=
  (c.name, c.exclusive, c.options.map fun op => (op.name, op.content.map (·.sid)))

/-- Reloaded index `ix'`, `cl'` holds the same data as `ix`, `cl`. -/
structure SameData (ix ix' : GramIndex Char) (cl cl' : Classic) : Prop where
  products : ix'.container.products = ix.container.products.map limited
  vendors : ix'.container.vendors = ix.container.vendors
  extra : ∀ k, AMap.get ix'.container.extra k = AMap.get ix.container.extra k
  roots : ∀ g, AMap.get ix'.roots g = AMap.get ix.roots g
  postings : ∀ k, AMap.get ix'.data k = (AMap.get ix.data k).map (·.map limited)
  tags : cl'.tags.map (fun t => (t.name, t.id)) = cl.tags.map fun t => (t.name, t.id)
  tagProducts : cl'.tags.map (·.products) = cl.tags.map fun t => t.products.map limited
  tagContains : ∀ (i : Nat) (t t' : Tag), cl.tags[i]? = some t → cl'.tags[i]? = some t' →
    ∀ p : Product, t'.contains (limited p) = t.contains p
  categories : cl'.categories.map categoryView = cl.categories.map categoryView
  optionContains : ∀ (i j : Nat) (c c' : Category) (op op' : CatOption), cl.categories[i]? = some c →
    cl'.categories[i]? = some c' → c.options[j]? = some op → c'.options[j]? = some op' →
    op'.content = op.content.map limited ∧ ∀ p : Product, op'.contains (limited p) = op.contains p
  orders : ∀ k, cl'.order.getOrders k = cl.order.getOrders k

theorem reloadOptions_get (l : List CatOption) : ∀ (next j : Nat),
    (reloadOptions next l)[j]? = l[j]?.map (reloadOption (next + j)) := by
  induction l with
  | nil => intro next j; simp [reloadOptions]
  | cons a l ih =>
    intro next j
    cases j with
    | zero => simp [reloadOptions]
    | succ j => simp only [reloadOptions, List.getElem?_cons_succ, ih]; congr 2; omega

theorem reloadCategories_get (l : List Category) : ∀ (next i : Nat), ∃ start,
    (reloadCategories next l)[i]? = l[i]?.map fun c => { c with options := reloadOptions start c.options } := by
  induction l with
  | nil => intro next i; exact ⟨0, by simp [reloadCategories]⟩
  | cons a l ih =>
    intro next i
    cases i with
    | zero => exact ⟨next, by simp [reloadCategories]⟩
    | succ i => simpa [reloadCategories] using ih (next + a.options.length) i

theorem tag_ids_of_built {o parse input c cl} (h : optimize o parse input = .ok (c, cl)) :
    ∀ tag ∈ cl.tags, tag.ids = setCollect (tag.products.map (·.sid)) := by
  obtain ⟨prices, b⟩ := built_of_ok h
  obtain ⟨m, hm, ht⟩ := b.tags
  intro tag htag
  rw [ht] at htag
  obtain ⟨i, hi⟩ := List.getElem?_of_mem htag
  rw [List.getElem?_mapIdx] at hi
  cases hx : (o.order "tags" m)[i]? with
  | none => rw [hx] at hi; simp at hi
  | some e =>
    rw [hx] at hi
    simp only [Option.map_some, Option.some.injEq] at hi
    rw [← hi]; rfl

theorem option_ids_of_built {o parse input c cl} (h : optimize o parse input = .ok (c, cl)) :
    ∀ cat ∈ cl.categories, ∀ op ∈ cat.options, op.ids = op.content.map (·.sid) := by
  obtain ⟨prices, b⟩ := built_of_ok h
  intro cat hc op hop
  obtain ⟨_, hops⟩ := b.cats.options cat hc
  obtain ⟨_, sid, e⟩ := hops.some op hop
  have key : ∀ (l : List Product) (op : CatOption), op.ids = op.content.map (·.sid) →
      (addAll op l).ids = (addAll op l).content.map (·.sid) := by
    intro l
    induction l with
    | nil => intro op h; exact h
    | cons p l ih =>
      intro op h
      have h1 : (op.add p).ids = (op.add p).content.map (·.sid) := by
        unfold CatOption.add
        split
        · exact h
        · simp [h]
      exact ih _ h1
  rw [e]
  exact key _ _ rfl

theorem sameData_reload {t o lower parse n input ix cl} (hn : 1 ≤ n)
    (h : buildAll t o lower parse n input = .ok (ix, cl)) (o' : HashOrd) :
    SameData ix (reloadGram o' ix) cl (reloadClassic o' cl) := by
  have hw := gramWf_of_built hn h
  have hc := classicWf_of_built h
  have ho := buildAll_container h
  have hopt := option_ids_of_built ho
  refine ⟨rfl, rfl, ?_, ?_, ?_, ?_, ?_, ?_, ?_, ?_, ?_⟩
  · exact fun k => AMap.get_perm hw.container.extra (o'.perm _ _) k
  · exact fun k => AMap.get_perm hw.roots (o'.perm _ _) k
  · intro k
    have := AMap.get_map (o'.order "data" ix.data) (fun _ l => l.map limited) k
    rw [AMap.get_perm hw.data (o'.perm _ _) k] at this
    exact this
  · simp [reloadClassic, reloadTag, Function.comp_def]
  · simp only [reloadClassic, List.map_map]; rfl
  · intro i tag tag' h1 h2 p
    simp only [reloadClassic, List.getElem?_map, h1, Option.map_some, Option.some.injEq] at h2
    have := tag_ids_of_built ho tag (List.mem_of_getElem? h1)
    rw [← h2]
    rw [Tag.contains, Tag.contains, decide_eq_decide, this]
    exact Iff.rfl
  · apply List.ext_getElem?
    intro i
    simp only [reloadClassic, List.getElem?_map]
    obtain ⟨start, e⟩ := reloadCategories_get cl.categories 0 i
    rw [e]
    cases hi : cl.categories[i]? with
    | none => rfl
    | some cat =>
      simp only [Option.map_some, Option.some.injEq, categoryView, Prod.mk.injEq, true_and]
      apply List.ext_getElem?
      intro j
      simp only [List.getElem?_map, reloadOptions_get]
      cases cat.options[j]? with
      | none => rfl
      | some op => simp [reloadOption, reloadProduct, Function.comp_def]
  · intro i j c c' op op' h1 h2 h3 h4
    simp only [reloadClassic] at h2
    obtain ⟨start, e⟩ := reloadCategories_get cl.categories 0 i
    rw [e, h1] at h2
    simp only [Option.map_some, Option.some.injEq] at h2
    rw [← h2, reloadOptions_get, h3] at h4
    simp only [Option.map_some, Option.some.injEq] at h4
    have := hopt c (List.mem_of_getElem? h1) op (List.mem_of_getElem? h3)
    rw [← h4]
    refine ⟨rfl, fun p => ?_⟩
    simp only [CatOption.contains, reloadOption, limited, this, mem_setCollect]
  · exact fun k => AMap.get_perm hc.order (o'.perm _ _) k

/-- The file written for any catalogue loads, on any machine that can hold it, to the same data, whatever follows it. -/
theorem C09 {t o lower parse n input ix cl} (hn : 1 ≤ n) (h : buildAll t o lower parse n input = .ok (ix, cl))
    (o' : HashOrd) (t' : Target) (hf : Fits t' (serializeAll o' ix cl).length) (rest : Bytes) :
    ∃ ix' cl', deserializeAll t' n (serializeAll o' ix cl ++ rest) = .ok (ix', cl') ∧ SameData ix ix' cl cl' :=
  ⟨_, _, deserializeAll_fit o' (gramWf_of_built hn h) (classicWf_of_built h) hf rest, sameData_reload hn h o'⟩

/-- The same, from the bytes `index_and_serialize` produced. -/
theorem C09_file {t o lower parse n input} {bytes : Bytes} (hn : 1 ≤ n)
    (h : indexAndSerialize t o lower parse n input = .ok bytes) (t' : Target) (hf : Fits t' bytes.length) :
    ∃ ix cl ix' cl', buildAll t o lower parse n input = .ok (ix, cl) ∧ deserializeAll t' n bytes = .ok (ix', cl') ∧
      SameData ix ix' cl cl' := by
  obtain ⟨ix, cl, h1, rfl⟩ := indexAndSerialize_ok h
  obtain ⟨ix', cl', h3, h4⟩ := C09 hn h1 o t' hf []
  rw [List.append_nil] at h3
  exact ⟨ix, cl, ix', cl', h1, h3, h4⟩

set_option maxRecDepth 20000 in
/-- The hypotheses of `C09` and `C09_file` are met: three products, trees of depth three, a 223 byte file, read
on a 32 bit target without overflow checks. -/
example : ∃ ix cl bytes, buildAll .debug64 .ident (fun c => [c]) parseOne 3 tied = .ok (ix, cl) ∧
    indexAndSerialize .debug64 .ident (fun c => [c]) parseOne 3 tied = .ok bytes ∧
    serializeAll .ident ix cl = bytes ∧ bytes.length = 223 ∧ Fits .wasm32 bytes.length := by
  have h : (runFile .debug64 parseOne 3 tied).map (·.length) = some 223 := by decide +kernel
  obtain ⟨bytes, hb, hl⟩ := Option.map_eq_some_iff.1 h
  obtain ⟨ix, cl, h1, h2, h3⟩ := runFile_sound (by decide) (by decide) hb
  refine ⟨ix, cl, bytes, h1, h3, h2, hl, ?_⟩
  rw [hl]
  exact .of_carried (by decide) fun _ _ => rfl

/-! ## C16 after reload -/

/-- Each product reports its own price after reload too. -/
theorem C16_reload {t o lower parse n input ix cl} (hn : 1 ≤ n) (h : buildAll t o lower parse n input = .ok (ix, cl))
    (o' : HashOrd) (t' : Target) (hf : Fits t' (serializeAll o' ix cl).length) :
    ∃ ix' cl', deserializeAll t' n (serializeAll o' ix cl) = .ok (ix', cl') ∧
      ∀ (i : Nat) (raw : RawProduct) (p : Product), input[i]? = some raw → ix'.container.products[i]? = some p →
        ∃ x, parse raw.price.min.amount = some x ∧ FeatureSet.get ix'.container.extra p "price".toList = some (.float x) := by
  obtain ⟨ix', cl', h1, h2⟩ := C09 hn h o' t' hf []
  rw [List.append_nil] at h1
  refine ⟨ix', cl', h1, ?_⟩
  intro i raw p hi hp
  rw [h2.products, List.getElem?_map] at hp
  cases hq : ix.container.products[i]? with
  | none => rw [hq] at hp; simp at hp
  | some q =>
    rw [hq] at hp
    simp only [Option.map_some, Option.some.injEq] at hp
    obtain ⟨x, h3, h4⟩ := price_of (buildAll_container h) i raw hi q hq
    refine ⟨x, h3, ?_⟩
    unfold FeatureSet.get at h4 ⊢
    rw [h2.extra, ← hp]
    exact h4

/-! ## C11 -/

theorem upsert_map {K V W : Type} [DecidableEq K] (m : AMap K V) (k : K) (f : V → V) (f' : W → W) (v : V) (g : V → W)
    (hg : ∀ x, g (f x) = f' (g x)) :
    (AMap.upsert m k f v).map (fun p => (p.1, g p.2)) = AMap.upsert (m.map fun p => (p.1, g p.2)) k f' (g v) := by
  induction m with
  | nil => rfl
  | cons p m ih =>
    simp only [AMap.upsert, List.map_cons]
    split
    · simp [hg]
    · simp [ih]

theorem rank_map (hits : List (Product × F32)) :
    rank (hits.map fun h => (limited h.1, h.2)) = (rank hits).map fun e => (e.1, (limited e.2.1, e.2.2)) := by
  unfold rank
  have : ∀ (hits : List (Product × F32)) (r : Ranker),
      (hits.map fun h => (limited h.1, h.2)).foldl (fun r h => Ranker.add r h.1 h.2)
        (r.map fun e => (e.1, (limited e.2.1, e.2.2))) =
      (hits.foldl (fun r h => Ranker.add r h.1 h.2) r).map fun e => (e.1, (limited e.2.1, e.2.2)) := by
    intro hits
    induction hits with
    | nil => intro r; rfl
    | cons h hits ih =>
      intro r
      simp only [List.map_cons, List.foldl_cons]
      rw [← ih]
      congr 1
      unfold Ranker.add
      exact (upsert_map r h.1.id (fun e => (e.1, F32.add e.2 h.2)) (fun e => (e.1, F32.add e.2 h.2)) (h.1, h.2)
        (fun v => (limited v.1, v.2)) (fun _ => rfl)).symm
  exact this hits []

theorem hitsOf_reload {ix ix' : GramIndex Char} {cl cl'} (h : SameData ix ix' cl cl') (n : Nat) (query : List Char) :
    hitsOf ix' n query = (hitsOf ix n query).map fun h => (limited h.1, h.2) := by
  have hg : ∀ w, ix'.searchGram n w = ix.searchGram n w := fun w => searchGram_of_roots h.roots n w
  unfold hitsOf
  generalize paddedWindows n query = l
  induction l with
  | nil => rfl
  | cons w l ih =>
    simp only [List.flatMap_cons, List.map_append, ih]
    congr 1
    unfold hitsOfWindow
    rw [hg]
    split
    · rw [h.postings]
      rename_i found conf _
      cases AMap.get ix.data found with
      | none => rfl
      | some l => simp [Function.comp_def]
    · rfl

/-- Searching the reloaded index gives the same products with bit-identical confidences; the two lists are
permutations of each other, and both are sorted by confidence (`C11_sorted`). -/
theorem C11 {t o lower parse n input ix cl} (h1 : 1 ≤ n) (h2 : n ≤ 764)
    (h : buildAll t o lower parse n input = .ok (ix, cl)) (o' : HashOrd) (t' : Target)
    (hf : Fits t' (serializeAll o' ix cl).length) :
    ∃ ix' cl', deserializeAll t' n (serializeAll o' ix cl) = .ok (ix', cl') ∧
      ∀ (o₁ o₂ : HashOrd) (query : List Char) (r r' : List (Product × F32)), ix.search o₁ n query = .ok r →
        ix'.search o₂ n query = .ok r' → r'.Perm (r.map fun x => (limited x.1, x.2)) := by
  obtain ⟨ix', cl', e, hs⟩ := C09 h1 h o' t' hf []
  rw [List.append_nil] at e
  refine ⟨ix', cl', e, ?_⟩
  intro o₁ o₂ query r r' hr hr'
  rw [search_eq o₁ ix h1 h2] at hr
  rw [search_eq o₂ ix' h1 h2, hitsOf_reload hs, rank_map] at hr'
  cases hr; cases hr'
  refine (export_perm _ _).trans ?_
  refine List.Perm.trans ?_ ((export_perm o₁ (rank (hitsOf ix n query))).map _).symm
  simp [List.map_map, Function.comp_def]

/-- The results of the reloaded index are sorted by confidence too. -/
theorem C11_sorted {t o lower parse n input ix cl} (h : Searchable t o lower parse n input ix cl) (o' : HashOrd)
    (t' : Target) (hf : Fits t' (serializeAll o' ix cl).length) :
    ∃ ix' cl', deserializeAll t' n (serializeAll o' ix cl) = .ok (ix', cl') ∧
      ∀ (o₂ : HashOrd) (query : List Char) (r' : List (Product × F32)), ix'.search o₂ n query = .ok r' →
        r'.Pairwise fun a b => F32.lt a.2 b.2 = false := by
  obtain ⟨ix', cl', e, hp⟩ := C11 h.pos h.le h.built o' t' hf
  refine ⟨ix', cl', e, ?_⟩
  intro o₂ query r' hr'
  obtain ⟨r, hr⟩ := C48_search_total o₂ ix h.pos h.le query
  have hperm := hp o₂ o₂ query r r' hr hr'
  have hn : ∀ p c, (p, c) ∈ r' → ¬ F32.IsNan c := by
    intro p c hc
    have := hperm.mem_iff.1 hc
    simp only [List.mem_map, Prod.mk.injEq] at this
    obtain ⟨x, hx, _, rfl⟩ := this
    exact (h.result_nonNeg hr (p := x.1) (c := x.2) hx).notNan
  rw [search_eq o₂ ix' h.pos h.le] at hr'
  cases hr'
  exact export_sorted o₂ _ hn

end Idx
