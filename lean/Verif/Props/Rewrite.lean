import Verif.Props.Codec
import Verif.Props.Reload

/-! Writing a loaded index again: nothing more is lost, however often. -/

namespace Idx

/-- Limiting a text twice is limiting it once. -/
theorem limit_idem (s : Str) (L : Nat) : limitStringLen (limitStringLen s L) L = limitStringLen s L := by
  apply Classical.byContradiction
  intro hcut
  obtain ⟨pre, c, post, e, hlt⟩ := (C06_cut_iff _ _).1 hcut
  rcases limit_spec s L with ⟨h, _⟩ | ⟨seen, c', rest, _, _, _, hs, (⟨_, h⟩ | ⟨v, post', e', _, h⟩)⟩
  · rw [h] at hcut; exact hcut h
  · have := hs pre c post (by rw [← h, e])
    omega
  · have := hs pre c (post ++ ' ' :: post') (by rw [e', ← h, e]; simp)
    omega

theorem reloadProduct_idem (p : Product) : reloadProduct (reloadProduct p) = reloadProduct p := by
  simp only [reloadProduct, limit_idem]

theorem serProduct_reload (p : Product) : serProduct (reloadProduct p) = serProduct p := by
  simp only [serProduct, reloadProduct, serStrWithLimit, limit_idem]

theorem map_reload_sid (l : List Product) : (l.map reloadProduct).map (·.sid) = l.map (·.sid) := by
  simp [List.map_map, Function.comp_def, reloadProduct]

theorem map_reload_idem (l : List Product) : (l.map reloadProduct).map reloadProduct = l.map reloadProduct := by
  simp [List.map_map, Function.comp_def, reloadProduct_idem]

theorem serProductSeq_reload (l : List Product) : serProductSeq (l.map reloadProduct) = serProductSeq l := by
  simp only [serProductSeq, map_reload_sid]

theorem reloadTag_idem (t : Tag) : reloadTag (reloadTag t) = reloadTag t := by
  simp only [reloadTag, map_reload_sid, map_reload_idem]

theorem serTag_reload (t : Tag) : serTag (reloadTag t) = serTag t := by
  simp only [serTag, reloadTag, serProductSeq_reload]

theorem reloadOption_idem (i j : Nat) (op : CatOption) : reloadOption i (reloadOption j op) = reloadOption i op := by
  simp only [reloadOption, map_reload_sid, map_reload_idem]

theorem serCatOption_reload (i : Nat) (op : CatOption) : serCatOption (reloadOption i op) = serCatOption op := by
  simp only [serCatOption, reloadOption, serProductSeq_reload]

theorem reloadOptions_idem (l : List CatOption) : ∀ i j, reloadOptions i (reloadOptions j l) = reloadOptions i l := by
  induction l with
  | nil => intro _ _; rfl
  | cons a l ih => intro i j; simp only [reloadOptions, reloadOption_idem, ih]

theorem serOptions_reload (l : List CatOption) : ∀ i, (reloadOptions i l).flatMap serCatOption = l.flatMap serCatOption := by
  induction l with
  | nil => intro _; rfl
  | cons a l ih => intro i; simp only [reloadOptions, List.flatMap_cons, serCatOption_reload, ih]

theorem reloadCategories_idem (l : List Category) : ∀ i, reloadCategories i (reloadCategories i l) = reloadCategories i l := by
  induction l with
  | nil => intro _; rfl
  | cons a l ih => intro i; simp only [reloadCategories, reloadOptions_idem, reloadOptions_length, ih]

theorem reloadCategories_length (l : List Category) : ∀ i, (reloadCategories i l).length = l.length := by
  induction l with
  | nil => intro _; rfl
  | cons a l ih => intro i; simp only [reloadCategories, List.length_cons, ih]

theorem serCategories_reload (l : List Category) : ∀ i, (reloadCategories i l).flatMap serCategory = l.flatMap serCategory := by
  induction l with
  | nil => intro _; rfl
  | cons a l ih =>
    intro i
    simp only [reloadCategories, List.flatMap_cons, ih]
    simp only [serCategory, reloadOptions_length, serOptions_reload]

/-! ## The reloaded index is well formed again -/

theorem Listed.reload {o : HashOrd} {c : Container} {l : List Product} (h : Listed c l) :
    Listed (reloadContainer o c) (l.map reloadProduct) := by
  refine ⟨?_, by rw [map_reload_sid]; exact h.sorted⟩
  intro p hp
  obtain ⟨q, hq, rfl⟩ := List.mem_map.1 hp
  have := h.mem q hq
  simp only [reloadContainer, List.getElem?_map]
  rw [show (reloadProduct q).sid = q.sid from rfl, this]; rfl

theorem ContainerWf.reload {o : HashOrd} {c : Container} (h : ContainerWf c) : ContainerWf (reloadContainer o c) := by
  refine ⟨h.vendors, ?_, ?_, h.extra.perm (o.perm _ _)⟩
  · intro i p hp
    simp only [reloadContainer, List.getElem?_map] at hp
    obtain ⟨q, hq, rfl⟩ := Option.map_eq_some_iff.1 hp
    exact h.sid i q hq
  · intro p hp
    obtain ⟨q, hq, rfl⟩ := List.mem_map.1 hp
    exact h.vendor q hq

theorem GramWf.reload {n : Nat} {o : HashOrd} {ix : GramIndex Char} (h : GramWf n ix) : GramWf n (reloadGram o ix) := by
  refine ⟨h.container.reload, h.roots.perm (o.perm _ _), ?_, ?_⟩
  · have := h.data.perm (o.perm "data" ix.data)
    simpa [AMap.Wf, reloadGram, List.map_map, Function.comp_def] using this
  · intro e he
    obtain ⟨e', he', rfl⟩ := List.mem_map.1 he
    obtain ⟨h1, h2⟩ := h.grams e' ((o.perm _ _).mem_iff.1 he')
    exact ⟨h1, h2.reload⟩

theorem ClassicWf.reload {o : HashOrd} {c : Container} {cl : Classic} (h : ClassicWf c cl) :
    ClassicWf (reloadContainer o c) (reloadClassic o cl) := by
  refine ⟨?_, ?_, ?_, h.order.perm (o.perm _ _), ?_⟩
  · intro t ht
    obtain ⟨t', ht', rfl⟩ := List.mem_map.1 ht
    exact (h.tags t' ht').reload
  · intro i t ht
    simp only [reloadClassic, List.getElem?_map] at ht
    obtain ⟨t', ht', rfl⟩ := Option.map_eq_some_iff.1 ht
    exact h.tagIds i t' ht'
  · intro cat hcat op hop
    obtain ⟨i, hi⟩ := List.getElem?_of_mem hcat
    obtain ⟨start, hs⟩ := reloadCategories_get cl.categories 0 i
    simp only [reloadClassic] at hi
    rw [hs] at hi
    obtain ⟨cat', hc', rfl⟩ := Option.map_eq_some_iff.1 hi
    obtain ⟨j, hj⟩ := List.getElem?_of_mem hop
    simp only at hj
    rw [reloadOptions_get] at hj
    obtain ⟨op', ho', rfl⟩ := Option.map_eq_some_iff.1 hj
    exact (h.options cat' (List.mem_of_getElem? hc') op' (List.mem_of_getElem? ho')).reload
  · intro e he r hr
    simp only [reloadContainer, List.length_map]
    exact h.ranks e ((o.perm _ _).mem_iff.1 he) r hr

/-! ## Bytes and lengths -/

/-- Writing the reloaded index, with hash tables that iterate in the order of the file, gives the file. -/
theorem serializeAll_reload {n : Nat} (o : HashOrd) {ix : GramIndex Char} {cl : Classic} (h : GramWf n ix) :
    serializeAll .ident (reloadGram o ix) (reloadClassic o cl) = serializeAll o ix cl := by
  have hperm := (o.perm "data" ix.data).length_eq
  have hid : ∀ {σ : Type} (site : σ) {α : Type} (l : List α), HashOrd.ident.order site l = l := fun _ _ _ => rfl
  have hpost : ∀ e : List Char × List Product, serPosting (e.1, e.2.map reloadProduct) = serPosting e := fun e => by
    simp only [serPosting, serProductSeq_reload]
  simp only [serializeAll, serGramIndex, serClassic, serContainer, reloadGram, reloadContainer, reloadClassic,
    serVendors_eq .ident h.container.vendors, serVendors_eq o h.container.vendors, serCategories, reloadCategories_length,
    serCategories_reload, serTags, serOrders, serVec, serFeatureSet, serMap, hid, List.length_map,
    List.flatMap_map, serProduct_reload, serTag_reload, hpost, hperm]

theorem flatMap_length_perm {l l' : List α} (h : l.Perm l') (f : α → Bytes) : (l.flatMap f).length = (l'.flatMap f).length :=
  (h.flatMap_right f).length_eq

/-- The hash order does not change the length of the file. -/
theorem serializeAll_length {n : Nat} (o o' : HashOrd) {ix : GramIndex Char} {cl : Classic} (h : GramWf n ix) :
    (serializeAll o ix cl).length = (serializeAll o' ix cl).length := by
  have hp : ∀ {σ : Type} (site : σ) {α : Type} (l : List α), (o.order site l).Perm (o'.order site l) :=
    fun site _ l => (o.perm site l).trans (o'.perm site l).symm
  simp only [serializeAll, serGramIndex, serClassic, serContainer, serVendors_eq o h.container.vendors,
    serVendors_eq o' h.container.vendors, serOrders, serFeatureSet, serMap, serMapEntries, List.length_append,
    flatMap_length_perm (hp "data" ix.data), flatMap_length_perm (hp "roots" ix.roots),
    flatMap_length_perm (hp "features" ix.container.extra), flatMap_length_perm (hp "orders" cl.order),
    (hp "roots" ix.roots).length_eq, (hp "features" ix.container.extra).length_eq, (hp "orders" cl.order).length_eq]

/-! ## C79 -/

/-- The same index, except for the order in which hash tables hold their entries. -/
structure SameButHash (a b : GramIndex Char × Classic) : Prop where
  products : b.1.container.products = a.1.container.products
  vendors : b.1.container.vendors = a.1.container.vendors
  extra : b.1.container.extra.Perm a.1.container.extra
  roots : b.1.roots.Perm a.1.roots
  postings : b.1.data.Perm a.1.data
  categories : b.2.categories = a.2.categories
  tags : b.2.tags = a.2.tags
  orders : b.2.order.Perm a.2.order

/-- `b` comes from `a` by writing and loading any number of times, each time with another hash order and with any bytes
after the file. -/
inductive Rewritten (t : Target) (n : Nat) (a : GramIndex Char × Classic) : GramIndex Char × Classic → Prop where
  | none : Rewritten t n a a
  | again {b c : GramIndex Char × Classic} (o : HashOrd) (rest : Bytes) : Rewritten t n a b →
      deserializeAll t n (serializeAll o b.1 b.2 ++ rest) = .ok c → Rewritten t n a c

/-- What stays as it is when an index is written and loaded again. -/
structure Settled (n : Nat) (size : Nat) (a : GramIndex Char × Classic) : Prop where
  gram : GramWf n a.1
  classic : ClassicWf a.1.container a.2
  products : a.1.container.products.map reloadProduct = a.1.container.products
  postings : ∀ e ∈ a.1.data, e.2.map reloadProduct = e.2
  categories : reloadCategories 0 a.2.categories = a.2.categories
  tags : a.2.tags.map reloadTag = a.2.tags
  size : ∀ o, (serializeAll o a.1 a.2).length = size

theorem settled_reload {n : Nat} (o : HashOrd) {ix : GramIndex Char} {cl : Classic} (hix : GramWf n ix)
    (hcl : ClassicWf ix.container cl) :
    Settled n (serializeAll o ix cl).length (reloadGram o ix, reloadClassic o cl) := by
  refine ⟨hix.reload, hcl.reload, map_reload_idem _, ?_, reloadCategories_idem _ _, ?_, ?_⟩
  · intro e he
    obtain ⟨e', _, rfl⟩ := List.mem_map.1 he
    exact map_reload_idem _
  · simp only [reloadClassic, List.map_map, Function.comp_def, reloadTag_idem]
  · intro o'
    rw [serializeAll_length o' .ident hix.reload, serializeAll_reload o hix]

theorem Settled.again {n size : Nat} {a : GramIndex Char × Classic} (h : Settled n size a) (o : HashOrd) :
    Settled n size (reloadGram o a.1, reloadClassic o a.2) ∧ SameButHash a (reloadGram o a.1, reloadClassic o a.2) := by
  refine ⟨h.size o ▸ settled_reload o h.gram h.classic, h.products, rfl, o.perm _ _, o.perm _ _, ?_, h.categories, h.tags,
    o.perm _ _⟩
  have hp := o.perm "data" a.1.data
  have e : ((o.order "data" a.1.data).map fun e => (e.1, e.2.map reloadProduct)) = o.order "data" a.1.data := by
    conv => rhs; rw [← List.map_id (o.order "data" a.1.data)]
    refine List.map_congr_left fun e he => ?_
    rw [h.postings e (hp.mem_iff.1 he)]; rfl
  simp only [reloadGram]
  rw [e]; exact hp

theorem SameButHash.trans {a b c : GramIndex Char × Classic} (h : SameButHash a b) (h' : SameButHash b c) : SameButHash a c :=
  ⟨h'.products.trans h.products, h'.vendors.trans h.vendors, h'.extra.trans h.extra, h'.roots.trans h.roots,
    h'.postings.trans h.postings, h'.categories.trans h.categories, h'.tags.trans h.tags, h'.orders.trans h.orders⟩

theorem SameButHash.refl (a : GramIndex Char × Classic) : SameButHash a a :=
  ⟨rfl, rfl, .refl _, .refl _, .refl _, rfl, rfl, .refl _⟩

/-- A loaded file, written again with hash tables iterating in the order they were read, is the same file byte by byte. -/
theorem C79_bytes {t t' o lower parse n input ix cl ix' cl'} (hn : 1 ≤ n)
    (h : buildAll t o lower parse n input = .ok (ix, cl)) (hf : Fits t' (serializeAll o ix cl).length) (rest : Bytes)
    (hl : deserializeAll t' n (serializeAll o ix cl ++ rest) = .ok (ix', cl')) :
    serializeAll .ident ix' cl' = serializeAll o ix cl := by
  have hix := gramWf_of_built hn h
  rw [deserializeAll_fit o hix (classicWf_of_built h) hf rest] at hl
  cases hl
  exact serializeAll_reload o hix

/-- However often a loaded file is written and loaded again, and with whatever hash orders, the file can always be
loaded and has the same length, and the index is the one loaded first except for the order inside hash tables. -/
theorem C79_rounds {t t' o lower parse n input ix cl a b} (hn : 1 ≤ n)
    (h : buildAll t o lower parse n input = .ok (ix, cl)) (hf : Fits t' (serializeAll o ix cl).length) (rest : Bytes)
    (hl : deserializeAll t' n (serializeAll o ix cl ++ rest) = .ok a) (hr : Rewritten t' n a b) :
    SameButHash a b ∧ ∀ (o' : HashOrd) (rest' : Bytes),
      (serializeAll o' b.1 b.2).length = (serializeAll o ix cl).length ∧
      ∃ c, deserializeAll t' n (serializeAll o' b.1 b.2 ++ rest') = .ok c := by
  have hix := gramWf_of_built hn h
  have hcl := classicWf_of_built h
  rw [deserializeAll_fit o hix hcl hf rest] at hl
  cases hl
  have key : SameButHash (reloadGram o ix, reloadClassic o cl) b ∧ Settled n (serializeAll o ix cl).length b := by
    induction hr with
    | none => exact ⟨.refl _, settled_reload o hix hcl⟩
    | again o' rest' _ hd ih =>
      obtain ⟨h1, h2⟩ := ih
      rw [deserializeAll_fit o' h2.gram h2.classic (by rw [h2.size o']; exact hf) rest'] at hd
      cases hd
      obtain ⟨h3, h4⟩ := h2.again o'
      exact ⟨h1.trans h4, h3⟩
  refine ⟨key.1, fun o' rest' => ⟨key.2.size o', _, deserializeAll_fit o' key.2.gram key.2.classic ?_ rest'⟩⟩
  rw [key.2.size o']; exact hf

/-- A catalogue whose description is cut when it is written. -/
def longText : List RawProduct := [mkRaw (List.replicate 60 'a' ++ ' ' :: List.replicate 60 'b') ['t'] ['1']]

set_option maxRecDepth 20000 in
/-- The hypotheses of `C79_bytes` and `C79_rounds` are met by `longText`, written and loaded twice; the first time the
description is cut, the second time not. -/
example : ∃ ix cl a b, buildAll .debug64 .ident (fun c => [c]) parseOne 1 longText = .ok (ix, cl) ∧
    Fits .wasm32 (serializeAll .ident ix cl).length ∧
    deserializeAll .wasm32 1 (serializeAll .ident ix cl ++ [7]) = .ok a ∧ Rewritten .wasm32 1 a b ∧
    a.1.container.products ≠ ix.container.products ∧ b.1.container.products = a.1.container.products := by
  have h : (runFile .debug64 parseOne 1 longText).map (fun b => decide (b.length < 1000)) = some true := by decide +kernel
  obtain ⟨bytes, hb, hl⟩ := Option.map_eq_some_iff.1 h
  rw [decide_eq_true_eq] at hl
  obtain ⟨ix, cl, h1, h2, _⟩ := runFile_sound (by decide) (by decide) hb
  have hf : Fits .wasm32 (serializeAll .ident ix cl).length := by
    rw [h2]
    exact Fits.of_carried ⟨Nat.lt_trans hl (by decide), Nat.lt_trans hl (by decide)⟩ fun _ _ => rfl
  obtain ⟨ix', cl', h3, hsame⟩ := C09 (by decide) h1 .ident .wasm32 hf [7]
  obtain ⟨_, h5⟩ := C79_rounds (by decide) h1 hf [7] h3 .none
  obtain ⟨_, c, hc⟩ := h5 .rev [9]
  have hr : Rewritten .wasm32 1 (ix', cl') c := .again .rev [9] .none hc
  refine ⟨ix, cl, (ix', cl'), c, h1, hf, h3, hr, ?_, (C79_rounds (by decide) h1 hf [7] h3 hr).1.products⟩
  obtain ⟨_, hc14⟩ := C14 (buildAll_container h1)
  obtain ⟨p, hp, _, _, hdesc, _, _⟩ := hc14 0 _ rfl
  intro e
  have e' := congrArg (fun l : List Product => l[0]?) e
  simp only [hsame.products, List.getElem?_map, hp, Option.map_some, Option.some.injEq] at e'
  have e2 := congrArg Product.description e'
  simp only [limited, hdesc] at e2
  revert e2
  decide +kernel

end Idx
