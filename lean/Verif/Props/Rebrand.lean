import Verif.Props.Loose
/-
C125: editing the name of a vendor inside a written file.
-/
namespace Idx

/-- Spec: products of the vendor numbered `v` show another vendor name. -/
def rebrand (v : Nat) (name : Str) (p : Product) : Product :=
  if p.vendor.id = v then { p with vendor := { p.vendor with name := name } } else p

theorem rebrand_sid (v : Nat) (name : Str) (p : Product) : (rebrand v name p).sid = p.sid := by
  unfold rebrand; split <;> rfl

theorem rebrand_id (v : Nat) (name : Str) (p : Product) : (rebrand v name p).id = p.id := by
  unfold rebrand; split <;> rfl

theorem rebrand_ser (v : Nat) (name : Str) (p : Product) : serProduct (rebrand v name p) = serProduct p := by
  unfold rebrand; split <;> rfl

theorem reload_rebrand (v : Nat) (name : Str) (p : Product) :
    reloadProduct (rebrand v name p) = rebrand v name (reloadProduct p) := by
  unfold rebrand
  by_cases h : p.vendor.id = v
  · rw [if_pos h, if_pos (show (reloadProduct p).vendor.id = v from h)]; rfl
  · rw [if_neg h, if_neg (show ¬ (reloadProduct p).vendor.id = v from h)]

theorem map_rebrand_sid (v : Nat) (name : Str) (l : List Product) : (l.map (rebrand v name)).map (·.sid) = l.map (·.sid) := by
  rw [List.map_map]; exact List.map_congr_left fun p _ => rebrand_sid v name p

theorem map_reload_rebrand (v : Nat) (name : Str) (l : List Product) :
    (l.map (rebrand v name)).map reloadProduct = (l.map reloadProduct).map (rebrand v name) := by
  rw [List.map_map, List.map_map]; exact List.map_congr_left fun p _ => reload_rebrand v name p

/-- Spec: the vendors with one renamed, keyed by their new names. -/
def rebrandVendors (v : Nat) (name : Str) (m : VendorManager) : VendorManager :=
  let byId := m.byId.map fun w => if w.id = v then { w with name := name } else w
  { tags := byId.map fun w => (w.name, w), byId }

/-- Spec: the text index with the products of vendor `v` renamed wherever they are stored. -/
def brandGram (v : Nat) (name : Str) (ix : GramIndex Char) : GramIndex Char :=
  { container := { products := ix.container.products.map (rebrand v name), vendors := rebrandVendors v name ix.container.vendors,
                   extra := ix.container.extra }
    roots := ix.roots
    data := ix.data.map fun e => (e.1, e.2.map (rebrand v name)) }

/-- Spec: the same for a tag. -/
def brandTag (v : Nat) (name : Str) (t : Tag) : Tag := { t with products := t.products.map (rebrand v name) }

/-- Spec: the same for an option. -/
def brandOption (v : Nat) (name : Str) (op : CatOption) : CatOption := { op with content := op.content.map (rebrand v name) }

/-- Spec: the same for a category. -/
def brandCategory (v : Nat) (name : Str) (c : Category) : Category := { c with options := c.options.map (brandOption v name) }

/-- Spec: the same for tags and categories together. -/
def brandClassic (v : Nat) (name : Str) (cl : Classic) : Classic :=
  { cl with categories := cl.categories.map (brandCategory v name), tags := cl.tags.map (brandTag v name) }

theorem Listed.brand {v : Nat} {name : Str} {c : Container} {l : List Product} (h : Listed c l) {vm : VendorManager} :
    Listed ⟨c.products.map (rebrand v name), vm, c.extra⟩ (l.map (rebrand v name)) := by
  refine ⟨?_, by rw [map_rebrand_sid]; exact h.sorted⟩
  intro p hp
  obtain ⟨q, hq, rfl⟩ := List.mem_map.1 hp
  have := h.mem q hq
  simp only [List.getElem?_map]
  rw [rebrand_sid, this]; rfl

theorem rebrandVendors_loose {v : Nat} {name : Str} {m : VendorManager} (h : m.Inv) : (rebrandVendors v name m).Loose := by
  refine ⟨rfl, fun i w hw => ?_⟩
  simp only [rebrandVendors, List.getElem?_map] at hw
  obtain ⟨u, hu, rfl⟩ := Option.map_eq_some_iff.1 hw
  have := h.ids i u hu
  split <;> exact this

theorem GramWf.brand {v : Nat} {name : Str} {n : Nat} {ix : GramIndex Char} (h : GramWf n ix) : GramLoose n (brandGram v name ix) := by
  refine ⟨⟨rebrandVendors_loose h.container.vendors, ?_, ?_, h.container.extra⟩, h.roots, ?_, ?_⟩
  · intro j p hp
    simp only [brandGram, List.getElem?_map] at hp
    obtain ⟨q, hq, rfl⟩ := Option.map_eq_some_iff.1 hp
    rw [rebrand_sid]; exact h.container.sid j q hq
  · intro p hp
    obtain ⟨q, hq, rfl⟩ := List.mem_map.1 hp
    have h1 := h.container.vendor q hq
    have h2 : (rebrand v name q).vendor = if q.vendor.id = v then { q.vendor with name := name } else q.vendor := by
      unfold rebrand; split <;> rfl
    have h3 : (rebrand v name q).vendor.id = q.vendor.id := by rw [h2]; split <;> rfl
    simp only [brandGram, rebrandVendors, List.getElem?_map]
    rw [h3, h1, Option.map_some, h2]
  · have := h.data
    simpa [AMap.Wf, brandGram, List.map_map, Function.comp_def] using this
  · intro e he
    obtain ⟨e', he', rfl⟩ := List.mem_map.1 he
    obtain ⟨h1, h2⟩ := h.grams e' he'
    exact ⟨h1, h2.brand⟩

theorem ClassicWf.brand {v : Nat} {name : Str} {c : Container} {cl : Classic} (h : ClassicWf c cl) {vm : VendorManager} :
    ClassicWf ⟨c.products.map (rebrand v name), vm, c.extra⟩ (brandClassic v name cl) := by
  refine ⟨?_, ?_, ?_, h.order, ?_⟩
  · intro t ht
    obtain ⟨t', ht', rfl⟩ := List.mem_map.1 ht
    exact (h.tags t' ht').brand
  · intro j t ht
    simp only [brandClassic, List.getElem?_map] at ht
    obtain ⟨t', ht', rfl⟩ := Option.map_eq_some_iff.1 ht
    exact h.tagIds j t' ht'
  · intro cat hcat op hop
    obtain ⟨cat', hc', rfl⟩ := List.mem_map.1 hcat
    obtain ⟨op', ho', rfl⟩ := List.mem_map.1 hop
    exact (h.options cat' hc' op' ho').brand
  · intro e he r hr
    simp only [List.length_map]
    exact h.ranks e he r hr

theorem reload_brandGram (v : Nat) (name : Str) (ix : GramIndex Char) :
    reloadGram .ident (brandGram v name ix) = brandGram v name (reloadGram .ident ix) := by
  have hid : ∀ {σ : Type} (site : σ) {α : Type} (l : List α), HashOrd.ident.order site l = l := fun _ _ _ => rfl
  simp only [reloadGram, brandGram, reloadContainer, hid, List.map_map, Function.comp_def, reload_rebrand]

theorem reload_brandOptions (v : Nat) (name : Str) (l : List CatOption) : ∀ j,
    reloadOptions j (l.map (brandOption v name)) = (reloadOptions j l).map (brandOption v name) := by
  induction l with
  | nil => intro _; rfl
  | cons a l ih =>
    intro j
    simp only [List.map_cons, reloadOptions, ih, reloadOption, brandOption, map_reload_rebrand, map_rebrand_sid]

theorem reload_brandCategories (v : Nat) (name : Str) (l : List Category) : ∀ j,
    reloadCategories j (l.map (brandCategory v name)) = (reloadCategories j l).map (brandCategory v name) := by
  induction l with
  | nil => intro _; rfl
  | cons a l ih =>
    intro j
    simp only [List.map_cons, reloadCategories, ih, brandCategory, reload_brandOptions, List.length_map]

theorem reload_brandClassic (v : Nat) (name : Str) (cl : Classic) :
    reloadClassic .ident (brandClassic v name cl) = brandClassic v name (reloadClassic .ident cl) := by
  simp only [reloadClassic, brandClassic, reload_brandCategories, List.map_map, Function.comp_def, reloadTag, brandTag,
    reload_rebrand, rebrand_sid]

theorem serProductSeq_brand (v : Nat) (name : Str) (l : List Product) : serProductSeq (l.map (rebrand v name)) = serProductSeq l := by
  simp only [serProductSeq, map_rebrand_sid]

theorem serClassic_brand (v : Nat) (name : Str) (cl : Classic) : serClassic .ident (brandClassic v name cl) = serClassic .ident cl := by
  simp only [serClassic, brandClassic, serCategories, serTags, serVec, List.length_map, List.flatMap_map, serTag, brandTag, serCategory,
    brandCategory, serCatOption, brandOption, serProductSeq_brand]
  rfl

theorem rebrand_split {v : Nat} {name : Str} {m : VendorManager} (h : m.Inv) {before after : List Vendor} {w : Vendor}
    (hs : m.byId = before ++ w :: after) (hv : w.id = v) :
    (rebrandVendors v name m).byId = before ++ { w with name := name } :: after := by
  have hlen : v = before.length := by
    rw [← hv]
    refine h.ids before.length w ?_
    rw [hs, List.getElem?_append_right (Nat.le_refl _), Nat.sub_self]; rfl
  have h1 : before.map (fun w : Vendor => if w.id = v then { w with name := name } else w) = before := by
    conv => rhs; rw [← List.map_id before]
    refine List.map_congr_left fun u hu => ?_
    obtain ⟨j, hj⟩ := List.getElem?_of_mem hu
    have hlt := (List.getElem?_eq_some_iff.1 hj).1
    have := h.ids j u (by rw [hs, List.getElem?_append_left hlt]; exact hj)
    rw [if_neg (by omega)]; rfl
  have h2 : after.map (fun w : Vendor => if w.id = v then { w with name := name } else w) = after := by
    conv => rhs; rw [← List.map_id after]
    refine List.map_congr_left fun u hu => ?_
    obtain ⟨j, hj⟩ := List.getElem?_of_mem hu
    have := h.ids (before.length + (j + 1)) u (by
      rw [hs, List.getElem?_append_right (by omega), Nat.add_sub_cancel_left, List.getElem?_cons_succ]; exact hj)
    rw [if_neg (by omega)]; rfl
  simp only [rebrandVendors, hs, List.map_append, List.map_cons, h1, h2, if_pos hv]

theorem reload_collected (ix : GramIndex Char) : reloadGram .ident ix.collected = (reloadGram .ident ix).collected := rfl

theorem hitsOf_collected (ix : GramIndex Char) (n : Nat) (query : List Char) : hitsOf ix.collected n query = hitsOf ix n query := by
  have hg : ∀ w, ix.collected.searchGram n w = ix.searchGram n w := fun w => searchGram_of_roots (fun _ => rfl) n w
  unfold hitsOf
  refine congrArg (fun f => (paddedWindows n query).flatMap f) (funext fun w => ?_)
  unfold hitsOfWindow
  rw [hg]
  rfl

/-- Spec: index `b` is index `a` with vendor `v` renamed, in the list of vendors on every product of it and in the table by name (where
of vendors with the same name only the last is kept), and nothing else changed. -/
structure Rebranded (v : Nat) (name : Str) (a b : GramIndex Char × Classic) : Prop where
  products : b.1.container.products = a.1.container.products.map (rebrand v name)
  vendors : b.1.container.vendors.byId = a.1.container.vendors.byId.map fun w => if w.id = v then { w with name := name } else w
  table : b.1.container.vendors.tags = AMap.collect (b.1.container.vendors.byId.map fun w => (w.name, w))
  extra : b.1.container.extra = a.1.container.extra
  roots : b.1.roots = a.1.roots
  postings : b.1.data.map (fun e => (e.1, e.2.map (·.sid))) = a.1.data.map (fun e => (e.1, e.2.map (·.sid)))
  tags : b.2.tags.map (fun t => (t.name, t.id, t.products.map (·.sid), t.ids)) =
    a.2.tags.map (fun t => (t.name, t.id, t.products.map (·.sid), t.ids))
  categories : b.2.categories.map (fun c => (c.name, c.exclusive, c.options.map fun op => (op.name, op.sid, op.content.map (·.sid), op.ids))) =
    a.2.categories.map (fun c => (c.name, c.exclusive, c.options.map fun op => (op.name, op.sid, op.content.map (·.sid), op.ids)))
  order : b.2.order = a.2.order

theorem rebranded_brand (v : Nat) (name : Str) (a : GramIndex Char × Classic) :
    Rebranded v name a ((brandGram v name a.1).collected, brandClassic v name a.2) := by
  refine ⟨rfl, rfl, rfl, rfl, rfl, ?_, ?_, ?_, rfl⟩
  · simp only [GramIndex.collected, brandGram, List.map_map]
    exact List.map_congr_left fun e _ => by simp only [Function.comp, map_rebrand_sid]
  · simp only [brandClassic, List.map_map]
    exact List.map_congr_left fun e _ => by simp only [Function.comp, brandTag, map_rebrand_sid]
  · simp only [brandClassic, List.map_map]
    refine List.map_congr_left fun e _ => ?_
    simp only [Function.comp, brandCategory, List.map_map]
    refine congrArg _ (congrArg _ (List.map_congr_left fun e _ => ?_))
    simp only [Function.comp, brandOption, map_rebrand_sid]

theorem hitsOf_brand (ix : GramIndex Char) (v : Nat) (name : Str) (n : Nat) (query : List Char) :
    hitsOf (brandGram v name ix) n query = (hitsOf ix n query).map fun h => (rebrand v name h.1, h.2) := by
  have hg : ∀ w, (brandGram v name ix).searchGram n w = ix.searchGram n w := fun w => searchGram_of_roots (fun _ => rfl) n w
  unfold hitsOf
  generalize paddedWindows n query = l
  induction l with
  | nil => rfl
  | cons w l ih =>
    simp only [List.flatMap_cons, List.map_append, ih]
    congr 1
    unfold hitsOfWindow
    rw [hg]
    split
    · rename_i found conf _
      have := AMap.get_map ix.data (fun _ l => l.map (rebrand v name)) found
      rw [show (brandGram v name ix).data = ix.data.map fun e => (e.1, e.2.map (rebrand v name)) from rfl, this]
      cases AMap.get ix.data found with
      | none => rfl
      | some l => simp [Function.comp_def]
    · rfl

/-- C125: in a written file the name of a vendor can be replaced by any name of any length that fits, also by that of another vendor. The file
loads, exactly the products of that vendor show the new name, nothing else is different, and every search finds the same products with
the same confidences. -/
theorem C125 {t t' o lower parse n input ix cl ix' cl'} (hn : 1 ≤ n) (hn2 : n ≤ 764) (h : buildAll t o lower parse n input = .ok (ix, cl))
    (hl : deserializeAll t' n (serializeAll o ix cl) = .ok (ix', cl')) (hf : Fits t' (serializeAll o ix cl).length)
    {before after : List Vendor} {w : Vendor} (hs : ix'.container.vendors.byId = before ++ w :: after) :
    ∃ pre post : Bytes, serializeAll o ix cl = pre ++ serStr w.name ++ post ∧
      ∀ (name : Str), Fits t' (pre ++ serStr name ++ post).length → ∀ (rest : Bytes),
        ∃ ix₂ cl₂, deserializeAll t' n (pre ++ serStr name ++ post ++ rest) = .ok (ix₂, cl₂) ∧ Rebranded w.id name (ix', cl') (ix₂, cl₂) ∧
          ∀ (o₁ o₂ : HashOrd) (query : List Char), ∃ r r', ix'.search o₁ n query = .ok r ∧ ix₂.search o₂ n query = .ok r' ∧
            r'.Perm (r.map fun x => (rebrand w.id name x.1, x.2)) := by
  have hix := gramWf_of_built hn h
  have hcl := classicWf_of_built h
  have hl' := deserializeAll_fit o hix hcl hf []
  rw [List.append_nil, hl] at hl'
  cases hl'
  have hw := hix.reload (o := o)
  have hc := hcl.reload (o := o)
  have hset := settled_reload o hix hcl
  have hid : ∀ {σ : Type} (site : σ) {α : Type} (l : List α), HashOrd.ident.order site l = l := fun _ _ _ => rfl
  have r1 : reloadGram .ident (reloadGram o ix) = reloadGram o ix := by
    simp only [reloadGram, reloadContainer, hid, List.map_map, Function.comp_def, reloadProduct_idem]
  have r2 : reloadClassic .ident (reloadClassic o cl) = reloadClassic o cl := by
    have g1 := hset.categories
    have g2 := hset.tags
    simp only [reloadClassic, hid] at g1 g2 ⊢
    rw [g1, g2]
  let post := after.flatMap serVendor ++ (serVec serProduct (reloadGram o ix).container.products ++ (serFeatureSet .ident (reloadGram o ix).container.extra ++
    (serMap .ident "roots" serChar serNode (reloadGram o ix).roots ++ (serUsize (reloadGram o ix).data.length ++
      ((reloadGram o ix).data.flatMap serPosting ++ serClassic .ident (reloadClassic o cl))))))
  let pre := serUsize (before.length + (after.length + 1)) ++ before.flatMap serVendor
  refine ⟨pre, post, ?_, fun name hf' rest => ?_⟩
  · rw [← serializeAll_reload o hix]
    simp only [pre, post, serializeAll, serGramIndex, serContainer, hid, serVendors_eq .ident hw.container.vendors, hs, List.flatMap_append,
      List.flatMap_cons, List.length_append, List.length_cons, List.append_assoc]
    rfl
  · have hby := rebrand_split (name := name) hw.container.vendors hs rfl
    have hpost : ∀ e : List Char × List Product, serPosting (e.1, e.2.map (rebrand w.id name)) = serPosting e := fun e => by
      simp only [serPosting, serProductSeq_brand]
    have hB : serializeAll .ident (brandGram w.id name (reloadGram o ix)) (brandClassic w.id name (reloadClassic o cl)) =
        pre ++ serStr name ++ post := by
      have hinv := rebrandVendors_loose (v := w.id) (name := name) hw.container.vendors
      have e0 : (brandGram w.id name (reloadGram o ix)).container.vendors = rebrandVendors w.id name (reloadGram o ix).container.vendors := rfl
      have e1 : serVec serProduct (brandGram w.id name (reloadGram o ix)).container.products = serVec serProduct (reloadGram o ix).container.products := by
        simp only [brandGram, serVec, List.length_map, List.flatMap_map, rebrand_ser]
      have e2 : (brandGram w.id name (reloadGram o ix)).data.flatMap serPosting = (reloadGram o ix).data.flatMap serPosting := by
        simp only [brandGram, List.flatMap_map, hpost]
      have e3 : (brandGram w.id name (reloadGram o ix)).data.length = (reloadGram o ix).data.length := by
        simp only [brandGram, List.length_map]
      have e4 : serVendor { w with name := name } = serStr name := rfl
      simp only [serializeAll, serClassic_brand]
      simp only [serGramIndex, serContainer, hid, e0, e1, e2, e3, serVendors_loose .ident hinv, hby, List.flatMap_append, List.flatMap_cons, e4,
        List.length_append, List.length_cons, pre, post, List.append_assoc]
      rfl
    rw [← hB] at hf' ⊢
    have hd := deserializeAll_fit_loose .ident hw.brand hc.brand hf' rest
    rw [reload_collected, reload_brandGram, reload_brandClassic, r1, r2] at hd
    refine ⟨_, _, hd, rebranded_brand _ _ (reloadGram o ix, reloadClassic o cl), fun o₁ o₂ query =>
      ⟨_, _, search_eq o₁ _ hn hn2 query, search_eq o₂ _ hn hn2 query, ?_⟩⟩
    rw [hitsOf_collected, hitsOf_brand, rank_map_ids _ (rebrand_id w.id name)]
    refine (export_perm _ _).trans ?_
    refine List.Perm.trans ?_ ((export_perm o₁ (rank (hitsOf (reloadGram o ix) n query))).map _).symm
    simp [List.map_map, Function.comp_def]

end Idx
