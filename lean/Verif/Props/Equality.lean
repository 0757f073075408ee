import Verif.Props.File
import Verif.Props.Codec
/-! # C10: when the reloaded index equals the original under the crate's own equality -/
namespace Idx

theorem listEqv_map (eq : α → α → Bool) (f : α → α) (l : List α) :
    listEqv eq l (l.map f) = true ↔ ∀ a ∈ l, eq a (f a) = true := by
  induction l with
  | nil => simp [listEqv]
  | cons a l ih => simp [listEqv, ih]

theorem byteLen_zero (s : Str) : byteLen s = 0 ↔ s = [] := by
  cases s with
  | nil => simp [byteLen]
  | cons c s =>
    have := Char.utf8Size_pos c
    simp [byteLen]; omega

theorem isPrefixOf_byteLen {a b : Str} (h : a <+: b) : byteLen a ≤ byteLen b ∧ (byteLen a = byteLen b → a = b) := by
  obtain ⟨t, rfl⟩ := h
  rw [byteLen_append]
  refine ⟨by omega, fun h => ?_⟩
  have : t = [] := (byteLen_zero t).1 (by omega)
  simp [this]

/-- A description equals a prefix of it unless exactly one of them is empty (src/data/product.rs:40-57). -/
theorem descriptionEq_prefix {a b : Str} (h : b <+: a) : descriptionEq a b = true ↔ (b = [] → a = []) := by
  obtain ⟨h1, h2⟩ := isPrefixOf_byteLen h
  unfold descriptionEq
  by_cases hb : b = []
  · subst hb
    by_cases ha : a = []
    · subst ha; simp [byteLen]
    · have : byteLen a ≠ 0 := fun e => ha ((byteLen_zero a).1 e)
      simp only [byteLen, List.map_nil, List.sum_nil] at *
      rw [if_pos (.inr ⟨by omega, trivial⟩)]
      simp [ha]
  · have hb0 : byteLen b ≠ 0 := fun e => hb ((byteLen_zero b).1 e)
    simp only [hb, false_implies, iff_true]
    rw [if_neg (by omega)]
    by_cases hlt : byteLen a > byteLen b
    · rw [if_pos hlt]; exact List.isPrefixOf_iff_prefix.2 h
    · rw [if_neg hlt, if_neg (by omega), h2 (by omega)]; simp

/-- The limited string is empty when the string is, or when its only space among the first bytes is its first character. -/
theorem limit_nil_iff (s : Str) (L : Nat) : limitStringLen s L = [] ↔ s = [] ∨
    ∃ rest, s = ' ' :: rest ∧ limitStringLen s L ≠ s ∧ ∀ pre post, s = pre ++ ' ' :: post → byteLen pre ≤ L → pre = [] := by
  constructor
  · intro h
    by_cases hs : s = []
    · exact .inl hs
    · right
      have hcut : limitStringLen s L ≠ s := by rw [h]; exact fun e => hs e.symm
      have key : ∀ pre post, s = pre ++ ' ' :: post → byteLen pre ≤ L → pre = [] := by
        intro pre post e hp
        have := (C06_space s L hcut pre post e hp).2.2
        rw [h] at this
        exact (byteLen_zero pre).1 (by simpa [byteLen] using this)
      by_cases hex : ∀ pre post, s = pre ++ ' ' :: post → L < byteLen pre
      · have := C06_nospace s L hcut hex
        rw [h] at this
        simp [byteLen] at this
      · simp only [Classical.not_forall] at hex
        obtain ⟨pre, post, e, hp⟩ := hex
        have := key pre post e (by omega)
        subst this
        exact ⟨post, e, hcut, key⟩
  · rintro (h | ⟨rest, e, hcut, key⟩)
    · subst h
      exact List.prefix_nil.1 (limit_prefix [] L)
    · obtain ⟨⟨post, e'⟩, hl, _⟩ := C06_space s L hcut [] rest e (by simp [byteLen])
      exact key _ post e' hl

theorem feq_self (x : F32) : F32.feq x x = true ↔ x.val ≠ .nan := by
  unfold F32.feq F32.lt
  cases h : x.val with
  | nan => simp
  | inf s => cases s <;> simp [F32.Val.lt]
  | fin s n => simp [F32.Val.lt]

theorem Product.eqv_reload (p : Product) :
    p.eqv (reloadProduct p) = true ↔ (limitStringLen p.description 100 = [] → p.description = []) := by
  unfold Product.eqv reloadProduct
  simp [descriptionEq_prefix (limit_prefix p.description 100)]

theorem listEqv_feq_self (l : List F32) : listEqv F32.feq l l = true ↔ ∀ x ∈ l, x.val ≠ .nan := by
  have := listEqv_map F32.feq id l
  rw [List.map_id] at this
  rw [this]
  exact forall_congr' fun x => forall_congr' fun _ => feq_self x

/-- The reflexive features: those without NaN. -/
theorem Feature.eqv_self (f : Feature) : f.eqv f = true ↔ ∀ l, f = .float l → ∀ x ∈ l, x.val ≠ .nan := by
  cases f with
  | string l => simp [Feature.eqv]
  | integer l => simp [Feature.eqv]
  | float l =>
    simp only [Feature.eqv, listEqv_feq_self]
    constructor
    · rintro h l' ⟨⟩; exact h
    · intro h; exact h l rfl

theorem mapEqv_reload [DecidableEq K] {eq : V → V → Bool} {m m' : AMap K V} {f : V → V} (hm : AMap.Wf m)
    (hp : m'.Perm m) : mapEqv eq m (m'.map fun e => (e.1, f e.2)) = true ↔ ∀ e ∈ m, eq e.2 (f e.2) = true := by
  unfold mapEqv
  simp only [List.length_map, hp.length_eq, BEq.rfl, Bool.true_and, List.all_eq_true]
  refine forall_congr' fun e => forall_congr' fun he => ?_
  have h1 := AMap.get_map m' (fun _ v => f v) e.1
  rw [AMap.get_perm hm hp, AMap.get_of_mem hm (k := e.1) (v := e.2) he] at h1
  have h2 : AMap.get (m'.map fun e => (e.1, f e.2)) e.1 = some (f e.2) := h1
  rw [h2]

theorem GramNode.eqv_go (l : List (GramNode Char)) (h : ∀ c ∈ l, GramNode.eqv c c = true) : GramNode.eqv.go l l = true := by
  induction l with
  | nil => simp [GramNode.eqv.go]
  | cons a l ih =>
    simp only [GramNode.eqv.go, h a (by simp), Bool.true_and]
    exact ih fun c hc => h c (by simp [hc])

theorem eqv_of_has {ix : GramIndex Char} (hw : ∀ path c, ix.Has path c → c.weight.val ≠ .nan) :
    ∀ (node : GramNode Char) (path : List Char), ix.Has path node → GramNode.eqv node node = true := by
  intro node
  induction node using GramNode.depth_induct with
  | h i w l ih =>
    intro path hp
    rw [GramNode.eqv]
    have h1 := hw _ _ hp
    simp only [BEq.rfl, Bool.true_and, Bool.and_eq_true]
    refine ⟨(feq_self w).2 h1, GramNode.eqv_go l fun c hc => ?_⟩
    exact ih c hc _ (.child hp hc)

theorem setEqv_self [DecidableEq α] (l : List α) : setEqv l l = true := by
  simp [setEqv]

/-- The text of `p` survives: its description is not cut to nothing. -/
def KeepsText (p : Product) : Prop := limitStringLen p.description 100 = [] → p.description = []

theorem options_eqv {c : Container} (l : List CatOption) : ∀ next, (∀ op ∈ l, op.ids = op.content.map (·.sid) ∧
    (op.content.map (·.sid)).Nodup ∧ ∀ p ∈ op.content, p ∈ c.products) → (∀ p ∈ c.products, KeepsText p) →
    (listEqv CatOption.eqv l (reloadOptions next l) = true ↔ l.map (·.sid) = List.range' next l.length) := by
  induction l with
  | nil => intro next _ _; simp [listEqv, reloadOptions]
  | cons op l ih =>
    intro next h hk
    obtain ⟨h1, h2, h3⟩ := h op (by simp)
    have ih := ih (next + 1) (fun o ho => h o (by simp [ho])) hk
    have e1 : setEqv op.ids (setCollect (op.content.map (·.sid))) = true := by
      rw [setCollect_of_nodup h2, h1]; exact setEqv_self _
    have e2 : listEqv Product.eqv op.content (op.content.map reloadProduct) = true :=
      (listEqv_map _ _ _).2 fun p hp => (Product.eqv_reload p).2 (hk p (h3 p hp))
    simp only [reloadOptions, listEqv, CatOption.eqv, reloadOption, BEq.rfl, Bool.true_and, e1, e2, Bool.and_true,
      Bool.and_eq_true, beq_iff_eq, ih, List.map_cons, List.length_cons, List.range'_succ, List.cons.injEq]

theorem categories_eqv {c : Container} (l : List Category) : ∀ next, (∀ cat ∈ l, ∀ op ∈ cat.options,
    op.ids = op.content.map (·.sid) ∧ (op.content.map (·.sid)).Nodup ∧ ∀ p ∈ op.content, p ∈ c.products) →
    (∀ p ∈ c.products, KeepsText p) →
    (listEqv Category.eqv l (reloadCategories next l) = true ↔ optionIds l = List.range' next (optionIds l).length) := by
  induction l with
  | nil => intro next _ _; simp [listEqv, reloadCategories, optionIds]
  | cons cat l ih =>
    intro next h hk
    have ih := ih (next + cat.options.length) (fun o ho => h o (by simp [ho])) hk
    have ho := options_eqv cat.options next (h cat (by simp)) hk
    have e : optionIds (cat :: l) = cat.options.map (·.sid) ++ optionIds l := by simp [optionIds]
    simp only [reloadCategories, listEqv, Category.eqv, BEq.rfl, Bool.true_and, Bool.and_true, Bool.and_eq_true, ho, ih, e,
      List.length_append, List.length_map]
    rw [← List.range'_append_1]
    constructor
    · rintro ⟨h1, h2⟩
      rw [← h1, ← h2]
    · intro h
      exact List.append_inj h (by simp)

/-- The exact condition under which an index written and read again equals the original: no description is cut to nothing,
no price is NaN, and the options were numbered category by category. -/
theorem C10_exact {t o lower parse n input ix cl} (hn : 1 ≤ n) (h : buildAll t o lower parse n input = .ok (ix, cl))
    (hsize : totalChars lower input ≤ 2 ^ 32) (o' : HashOrd) (t' : Target) (hf : Fits t' (serializeAll o' ix cl).length) :
    ∃ ix' cl', deserializeAll t' n (serializeAll o' ix cl) = .ok (ix', cl') ∧
      ((ix.eqv ix' = true ∧ cl.eqv cl' = true) ↔
        (∀ raw ∈ input, limitStringLen raw.description 100 = [] → raw.description = []) ∧
        (∀ raw ∈ input, ∀ x, parse raw.price.min.amount = some x → x.val ≠ .nan) ∧
        (cl.categories.flatMap fun c => c.options.map (·.sid)) =
          List.range (cl.categories.flatMap fun c => c.options.map (·.sid)).length) := by
  have hg := gramWf_of_built hn h
  have hc := classicWf_of_built h
  have hopt := buildAll_container h
  obtain ⟨prices, b⟩ := (builtAll_of_ok h).built
  have h1 := deserializeAll_fit o' hg hc hf []
  rw [List.append_nil] at h1
  refine ⟨_, _, h1, ?_⟩
  -- texts
  have htext : (∀ p ∈ ix.container.products, KeepsText p) ↔
      ∀ raw ∈ input, limitStringLen raw.description 100 = [] → raw.description = [] := by
    constructor
    · intro h raw hr
      obtain ⟨i, hi⟩ := List.getElem?_of_mem hr
      have := b.getElem? i
      rw [hi] at this
      exact h _ (List.mem_of_getElem? this)
    · intro h p hp
      obtain ⟨i, hi⟩ := List.getElem?_of_mem hp
      rw [b.getElem?] at hi
      cases hr : input[i]? with
      | none => rw [hr] at hi; simp at hi
      | some raw =>
        rw [hr] at hi
        simp only [Option.map_some, Option.some.injEq] at hi
        rw [← hi]
        exact h raw (List.mem_of_getElem? hr)
  have hprod : listEqv Product.eqv ix.container.products (ix.container.products.map reloadProduct) = true ↔
      ∀ p ∈ ix.container.products, KeepsText p := by
    rw [listEqv_map]
    exact forall_congr' fun p => forall_congr' fun _ => Product.eqv_reload p
  -- prices
  have hprice : mapEqv Feature.eqv ix.container.extra (o'.order "features" ix.container.extra) = true ↔
      ∀ raw ∈ input, ∀ x, parse raw.price.min.amount = some x → x.val ≠ .nan := by
    have h2 := mapEqv_reload (eq := Feature.eqv) (f := id) b.columns.wf (o'.perm "features" ix.container.extra)
    simp only [id_eq, List.map_id'] at h2
    rw [h2]
    have hmem : ∀ raw ∈ input, ∀ x, parse raw.price.min.amount = some x → x ∈ prices := by
      intro raw hr x hx
      have : some x ∈ prices.map some := by
        rw [← b.parsed]; exact List.mem_map.2 ⟨raw, hr, hx⟩
      simpa using this
    have hmem' : ∀ x ∈ prices, ∃ raw ∈ input, parse raw.price.min.amount = some x := by
      intro x hx
      have : some x ∈ input.map fun raw => parse raw.price.min.amount := by
        rw [b.parsed]; exact List.mem_map.2 ⟨x, hx, rfl⟩
      simpa using this
    constructor
    · intro h raw hr x hx
      have hp := b.columns.prices
      rw [if_neg (fun e => by have := hmem raw hr x hx; rw [e] at this; simp at this)] at hp
      exact (Feature.eqv_self _).1 (h _ (AMap.mem_of_get hp)) prices rfl x (hmem raw hr x hx)
    · rintro h ⟨k, f⟩ he
      rw [Feature.eqv_self]
      rintro l rfl x hx
      have hgk := AMap.get_of_mem b.columns.wf he
      by_cases hk : k = priceKey
      · subst hk
        rw [b.columns.prices] at hgk
        split at hgk
        · cases hgk
        · simp only [Option.some.injEq, Feature.float.injEq] at hgk
          obtain ⟨raw, hr, hx'⟩ := hmem' x (by rw [hgk]; exact hx)
          exact h raw hr x hx'
      · by_cases hk' : k = imageUrlKey
        · subst hk'
          rw [b.columns.images] at hgk
          split at hgk <;> cases hgk
        · rw [b.columns.other k hk' hk] at hgk; cases hgk
  -- trees
  have hroots : mapEqv GramNode.eqv ix.roots (o'.order "roots" ix.roots) = true := by
    have h2 := mapEqv_reload (eq := GramNode.eqv) (f := id) hg.roots (o'.perm "roots" ix.roots)
    simp only [id_eq, List.map_id'] at h2
    refine h2.2 fun e he => eqv_of_has (fun path c hc => ?_) e.2 [e.1] (.root he)
    obtain ⟨m, hm, _⟩ := (C23_weights hn h hsize path c hc).1
    rw [hm]; simp
  -- posting lists
  have hpost : (∀ p ∈ ix.container.products, KeepsText p) →
      mapEqv (listEqv Product.eqv) ix.data ((o'.order "data" ix.data).map fun e => (e.1, e.2.map reloadProduct)) = true := by
    intro hk
    refine (mapEqv_reload (f := fun l => l.map reloadProduct) hg.data (o'.perm "data" ix.data)).2 fun e he => ?_
    rw [listEqv_map]
    exact fun p hp => (Product.eqv_reload p).2 (hk p (List.mem_of_getElem? ((hg.grams e he).2.mem p hp)))
  have hvend : ix.container.vendors.eqv ix.container.vendors = true := by
    unfold VendorManager.eqv
    have hwf : AMap.Wf ix.container.vendors.tags := by
      rw [b.vendorInv.tags_eq]
      have := b.vendorInv.nodup
      simpa [AMap.Wf, Function.comp_def] using this
    have h2 := mapEqv_reload (eq := fun a b : Vendor => a == b) (f := id) hwf (List.Perm.refl _)
    simp only [id_eq, List.map_id'] at h2
    have h3 := listEqv_map (fun a b : Vendor => a == b) id ix.container.vendors.byId
    rw [List.map_id] at h3
    rw [h2.2 (fun _ _ => by simp), h3.2 (fun _ _ => by simp)]
    rfl
  have hgram : ix.eqv (reloadGram o' ix) = true ↔ (∀ p ∈ ix.container.products, KeepsText p) ∧
      ∀ raw ∈ input, ∀ x, parse raw.price.min.amount = some x → x.val ≠ .nan := by
    rw [← hprice, ← hprod]
    simp only [GramIndex.eqv, reloadGram, reloadContainer, Container.eqv, hroots, hvend, Bool.true_and, Bool.and_true,
      Bool.and_eq_true]
    constructor
    · rintro ⟨_, h2, h3⟩; exact ⟨h2, h3⟩
    · rintro ⟨h2, h3⟩; exact ⟨hpost (hprod.1 h2), h2, h3⟩
  -- classic indexes
  have hclassic : (∀ p ∈ ix.container.products, KeepsText p) →
      (cl.eqv (reloadClassic o' cl) = true ↔ optionIds cl.categories = List.range' 0 (optionIds cl.categories).length) := by
    intro hk
    have hcats := categories_eqv (c := ix.container) cl.categories 0 (fun cat hcat op hop => by
      obtain ⟨hcon, hst, _⟩ := ((C19 hopt).2.2 cat hcat).2.2 op hop
      refine ⟨option_ids_of_built hopt cat hcat op hop, ?_, fun p hp => List.mem_of_getElem? (hst p hp)⟩
      rw [hcon]
      exact List.nodup_range.filter _) hk
    have htags : listEqv Tag.eqv cl.tags (cl.tags.map reloadTag) = true := by
      rw [listEqv_map]
      intro tag ht
      have hids := tag_ids_of_built hopt tag ht
      have e2 : listEqv Product.eqv tag.products (tag.products.map reloadProduct) = true :=
        (listEqv_map _ _ _).2 fun p hp => (Product.eqv_reload p).2
          (hk p (List.mem_of_getElem? ((hc.tags tag ht).mem p hp)))
      simp only [Tag.eqv, reloadTag, BEq.rfl, Bool.true_and, Bool.and_true, e2]
      rw [hids]
      exact setEqv_self _
    have hord : mapEqv (· == ·) cl.order (o'.order "orders" cl.order) = true := by
      have h2 := mapEqv_reload (eq := fun a b : List Nat => a == b) (f := id) hc.order (o'.perm "orders" cl.order)
      simp only [id_eq, List.map_id'] at h2
      exact h2.2 fun _ _ => by simp
    simp only [Classic.eqv, reloadClassic, htags, hord, Bool.and_true, hcats]
  rw [List.range_eq_range']
  constructor
  · rintro ⟨h2, h3⟩
    obtain ⟨h4, h5⟩ := hgram.1 h2
    exact ⟨htext.1 h4, h5, (hclassic h4).1 h3⟩
  · rintro ⟨h2, h3, h4⟩
    have hk := htext.2 h2
    exact ⟨hgram.2 ⟨hk, h3⟩, (hclassic hk).2 h4⟩

/-- Numbers of the options and length of the file of a concrete catalogue. -/
def idsAndLength (parse : Str → Option F32) (input : List RawProduct) : Option (List Nat × Nat) :=
  (runBuild .debug64 .ident parse 3 input).bind fun r =>
    (serializeAllF .ident 4 r.1 r.2).map fun b => (optionIds r.2.categories, b.length)

/-- `C10_exact` for a concrete catalogue. -/
theorem equal_iff {parse : Str → Option F32} {input : List RawProduct} {ids : List Nat} {len : Nat}
    (h : idsAndLength parse input = some (ids, len)) (hlen : len < 2 ^ 32)
    (hsize : totalChars (fun c => [c]) input ≤ 2 ^ 32) :
    ∃ ix cl ix' cl', buildAll .debug64 .ident (fun c => [c]) parse 3 input = .ok (ix, cl) ∧
      deserializeAll .wasm32 3 (serializeAll .ident ix cl) = .ok (ix', cl') ∧
      ((ix.eqv ix' = true ∧ cl.eqv cl' = true) ↔
        (∀ raw ∈ input, limitStringLen raw.description 100 = [] → raw.description = []) ∧
        (∀ raw ∈ input, ∀ x, parse raw.price.min.amount = some x → x.val ≠ .nan) ∧ ids = List.range ids.length) := by
  obtain ⟨⟨ix, cl⟩, h1, h2⟩ := Option.bind_eq_some_iff.1 h
  obtain ⟨b, h3, h4⟩ := Option.map_eq_some_iff.1 h2
  simp only [Prod.mk.injEq] at h4
  have hb := runBuild_sound h1
  have hs := serializeAllF_eq h3
  have hf : Fits .wasm32 (serializeAll .ident ix cl).length := by
    rw [hs, h4.2]
    exact .of_carried ⟨hlen, Nat.lt_trans hlen (by decide)⟩ fun _ _ => rfl
  obtain ⟨ix', cl', h5, h6⟩ := C10_exact (by omega) hb hsize .ident .wasm32 hf
  refine ⟨ix, cl, ix', cl', hb, h5, ?_⟩
  rw [h6]
  have e : (cl.categories.flatMap fun c => c.options.map (·.sid)) = ids := h4.1
  rw [e]

/-- A description that is a space followed by one long word. -/
def spaceFirst : List RawProduct := [mkRaw (' ' :: List.replicate 101 'a') [] ['1']]

/-- Two products; the second brings a new value for the first category. -/
def interleaved : List RawProduct :=
  [{ mkRaw [] [] ['1'] with options := [⟨['c'], [['x']]⟩, ⟨['d'], [['y']]⟩] },
   { mkRaw [] [] ['2'] with options := [⟨['c'], [['z']]⟩] }]

/-- Two products; categories and values appear one category after the other. -/
def blockwise : List RawProduct :=
  [{ mkRaw ['h', 'e', 'l', 'l', 'o'] [] ['1'] with options := [⟨['c'], [['x'], ['z']]⟩, ⟨['d'], [['y']]⟩], tags := [['t']] },
   { mkRaw ['h', 'e', 'l', 'p'] [] ['2'] with options := [⟨['c'], [['z']]⟩], tags := [['t'], ['u']] }]

set_option maxRecDepth 20000 in
/-- Three catalogues whose reloaded index does not equal the original: a description cut to nothing, a price that is NaN,
options not numbered category by category. -/
theorem C10_false : ∀ c ∈ [(parseOne, spaceFirst), (fun _ => some F32.nan, [mkRaw [] [] ['1']]), (parseOne, interleaved)],
    ∃ ix cl ix' cl', buildAll .debug64 .ident (fun c => [c]) c.1 3 c.2 = .ok (ix, cl) ∧
      deserializeAll .wasm32 3 (serializeAll .ident ix cl) = .ok (ix', cl') ∧ ¬ (ix.eqv ix' = true ∧ cl.eqv cl' = true) := by
  intro c hc
  simp only [List.mem_cons, List.not_mem_nil, or_false] at hc
  rcases hc with rfl | rfl | rfl
  · have h : (idsAndLength parseOne spaceFirst).map (·.1) = some [] ∧
        (idsAndLength parseOne spaceFirst).all (fun r => decide (r.2 < 2 ^ 32)) = true := by decide +kernel
    obtain ⟨⟨ids, len⟩, h1, rfl⟩ := Option.map_eq_some_iff.1 h.1
    rw [h1] at h
    obtain ⟨ix, cl, ix', cl', hb, hd, he⟩ := equal_iff h1 (by simpa using h.2) (by decide +kernel)
    refine ⟨ix, cl, ix', cl', hb, hd, fun hq => ?_⟩
    have := (he.1 hq).1 (mkRaw (' ' :: List.replicate 101 'a') [] ['1']) (by simp [spaceFirst]) (by decide +kernel)
    simp [mkRaw] at this
  · have h : (idsAndLength (fun _ => some F32.nan) [mkRaw [] [] ['1']]).map (·.1) = some [] ∧
        (idsAndLength (fun _ => some F32.nan) [mkRaw [] [] ['1']]).all (fun r => decide (r.2 < 2 ^ 32)) = true := by
      decide +kernel
    obtain ⟨⟨ids, len⟩, h1, rfl⟩ := Option.map_eq_some_iff.1 h.1
    rw [h1] at h
    obtain ⟨ix, cl, ix', cl', hb, hd, he⟩ := equal_iff h1 (by simpa using h.2) (by decide +kernel)
    refine ⟨ix, cl, ix', cl', hb, hd, fun hq => ?_⟩
    exact (he.1 hq).2.1 (mkRaw [] [] ['1']) (by simp) F32.nan rfl (by decide +kernel)
  · have h : (idsAndLength parseOne interleaved).map (·.1) = some [0, 2, 1] ∧
        (idsAndLength parseOne interleaved).all (fun r => decide (r.2 < 2 ^ 32)) = true := by decide +kernel
    obtain ⟨⟨ids, len⟩, h1, h2⟩ := Option.map_eq_some_iff.1 h.1
    rw [h1] at h
    obtain ⟨ix, cl, ix', cl', hb, hd, he⟩ := equal_iff h1 (by simpa using h.2) (by decide +kernel)
    refine ⟨ix, cl, ix', cl', hb, hd, fun hq => ?_⟩
    have := (he.1 hq).2.2
    simp only at h2
    rw [h2] at this
    exact absurd this (by decide)

/-- Numbers of the options, length of the file, whether the first category has an option and whether there is a tag. -/
def blockwiseShape : Option ((List Nat × Nat) × Bool × Bool) :=
  (runBuild .debug64 .ident parseOne 3 blockwise).bind fun r =>
    (serializeAllF .ident 4 r.1 r.2).map fun b => ((optionIds r.2.categories, b.length),
      ((r.2.categories[0]?).bind fun c => c.options[0]?).isSome, (r.2.tags[0]?).isSome)

set_option maxRecDepth 20000 in
/-- A catalogue with text, tags and options whose reloaded index does equal the original. -/
theorem blockwise_equal : ∃ ix cl ix' cl', buildAll .debug64 .ident (fun c => [c]) parseOne 3 blockwise = .ok (ix, cl) ∧
    deserializeAll .wasm32 3 (serializeAll .ident ix cl) = .ok (ix', cl') ∧ ix.eqv ix' = true ∧ cl.eqv cl' = true ∧
    (∃ cat op, cl.categories[0]? = some cat ∧ cat.options[0]? = some op) ∧ ∃ tag, cl.tags[0]? = some tag := by
  have h : blockwiseShape.map (fun r => (r.1.1, r.2)) = some ([0, 1, 2], true, true) ∧
      blockwiseShape.all (fun r => decide (r.1.2 < 2 ^ 32)) = true := by decide +kernel
  obtain ⟨⟨⟨ids, len⟩, b1, b2⟩, h1, h2⟩ := Option.map_eq_some_iff.1 h.1
  rw [h1] at h
  simp only [Prod.mk.injEq] at h2
  obtain ⟨rfl, rfl, rfl⟩ := h2
  have hlen : len < 2 ^ 32 := of_decide_eq_true h.2
  unfold blockwiseShape at h1
  obtain ⟨⟨ix, cl⟩, r1, r2⟩ := Option.bind_eq_some_iff.1 h1
  obtain ⟨b, r3, r4⟩ := Option.map_eq_some_iff.1 r2
  simp only [Prod.mk.injEq] at r4
  have hids : idsAndLength parseOne blockwise = some ([0, 1, 2], len) := by
    unfold idsAndLength
    rw [r1]
    simp only [Option.bind_some, r3, Option.map_some]
    rw [r4.1.1, r4.1.2]
  obtain ⟨ix', cl', ix2, cl2, hb, hd, he⟩ := equal_iff hids hlen (by decide +kernel)
  have e := runBuild_sound r1
  rw [hb] at e
  cases e
  refine ⟨ix, cl, ix2, cl2, hb, hd, ?_⟩
  rw [← and_assoc]
  refine ⟨he.2 ⟨?_, ?_, rfl⟩, ?_, ?_⟩
  · decide +kernel
  · intro raw _ x hx
    cases hx
    decide +kernel
  · obtain ⟨op, hop⟩ := Option.isSome_iff_exists.1 r4.2.1
    obtain ⟨cat, hc, ho⟩ := Option.bind_eq_some_iff.1 hop
    exact ⟨cat, op, hc, ho⟩
  · exact Option.isSome_iff_exists.1 r4.2.2

end Idx
