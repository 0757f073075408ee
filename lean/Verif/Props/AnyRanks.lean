import Verif.Props.AnyFile
/-
C121, continued: ranks that exceed the number of products, as files from elsewhere can have them; and what two vendors of one name do.
-/
namespace Idx

/-- The classic indexes without the orders. -/
def noOrders (cl : Classic) : Classic := { cl with order := [] }

/-- `deClassic_fit`, with nothing known about the ranks but that the machine can read them. -/
theorem deClassic_fit_ranks {t : Target} (o : HashOrd) {c c' : Container} {cl : Classic} (h : ClassicWf c (noOrders cl))
    (ho : AMap.Wf cl.order) (hr : ∀ e ∈ cl.order, ∀ r ∈ e.2, Carried t r)
    (he : c'.products = c.products.map reloadProduct) (hc : Fits t c.products.length)
    (hf : Fits t (serClassic o cl).length) :
    RT (serClassic o cl) (deClassic t c') (reloadClassic o cl) := by
  simp only [serClassic, List.length_append] at hf
  have e : serClassic o cl = serCategories cl.categories ++ (serTags cl.tags ++ serOrders o cl.order) := by
    simp [serClassic, List.append_assoc]
  rw [e]
  refine RT.bind (a := reloadCategories 0 cl.categories) ?_ ?_
  · have h1 := length_flatMap_ge (l := cl.categories) (ser := serCategory) fun a _ => serCategory_pos a
    simp only [serCategories, List.length_append] at hf
    refine RT.bind (deLen_rt (hf.mono (by omega)) _) ?_
    exact deCategoriesLoop_fit he hc cl.categories 0 h.options (hf.mono (by omega))
  refine RT.bind (deTags_fit he hc h.tags h.tagIds (hf.mono (by omega))) ?_
  refine RT.bind_pure ?_
  have := deMap_fit (t := t) o "orders" (serK := serStr) (serV := serVec serUsize) (deK := deStr t)
    (deV := deVec t (deUsize t)) (f := id) cl.order ho (hf.mono (by simp only [serOrders]; omega))
    (fun p _ => serStr_pos _) (fun p _ hh => deStr_rt' hh) (fun p hp hh => by
      have := deVec_fit (t := t) (ser := serUsize) (de := deUsize t) (f := id) p.2 hh
        (fun a _ => serUsize_pos a) (fun a ha _ => deUsize_rt (hr p hp a ha))
      rwa [List.map_id] at this)
  rw [show (o.order "orders" cl.order).map (fun p => (p.1, id p.2)) = o.order "orders" cl.order by simp] at this
  exact this

theorem deserializeAll_fit_ranks {t : Target} {n : Nat} (o : HashOrd) {ix : GramIndex Char} {cl : Classic}
    (hix : GramWf n ix) (hcl : ClassicWf ix.container (noOrders cl)) (ho : AMap.Wf cl.order)
    (hr : ∀ e ∈ cl.order, ∀ r ∈ e.2, Carried t r) (hf : Fits t (serializeAll o ix cl).length) (rest : Bytes) :
    deserializeAll t n (serializeAll o ix cl ++ rest) = .ok (reloadGram o ix, reloadClassic o cl) := by
  simp only [serializeAll, List.length_append] at hf
  have hpl : ix.container.products.length ≤ (serGramIndex o ix).length := by
    have := products_le o ix.container
    simp only [serGramIndex, List.length_append]; omega
  have h1 := deGramIndex_fit o hix (t := t) (hf.mono (by omega)) (serClassic o cl ++ rest)
  have h2 := deClassic_fit_ranks (c' := (reloadGram o ix).container) o hcl ho hr rfl (hf.mono (by omega))
    (t := t) (hf.mono (by omega)) rest
  simp only [deserializeAll, serializeAll, List.append_assoc]
  rw [h1]
  simp only [Res.bind_ok]
  rw [h2]
  rfl

/-- Spec: `Regular`, without a condition on the ranks. -/
structure RegularLists (ix : GramIndex Char) (cl : Classic) : Prop where
  vendors : (ix.container.vendors.byId.map (·.name)).Nodup
  postings : ∀ e ∈ ix.data, (e.2.map (·.sid)).Pairwise (· ≤ ·)
  tags : ∀ tag ∈ cl.tags, (tag.products.map (·.sid)).Pairwise (· ≤ ·)
  options : ∀ cat ∈ cl.categories, ∀ op ∈ cat.options, (op.content.map (·.sid)).Pairwise (· ≤ ·)

theorem RegularLists.wf {n : Nat} {ix : GramIndex Char} {cl : Classic} (h : RegularLists ix cl) (hg : GramOk n ix)
    (hc : ClassicOk ix.container.products cl) : GramWf n ix ∧ ClassicWf ix.container (noOrders cl) := by
  refine Regular.wf (cl := noOrders cl) ⟨h.vendors, h.postings, h.tags, h.options, ?_⟩ hg ⟨hc.tags, hc.optionIds, hc.options, AMap.Wf.nil⟩
  intro e he; cases he

theorem noOrders_reload (o : HashOrd) (cl : Classic) : noOrders (reloadClassic o cl) = reloadClassic .ident (noOrders cl) := rfl

/-- Loading gives ranks the loading machine can hold. -/
theorem loaded_ranks {t : Target} {n : Nat} {bytes : Bytes} {ix : GramIndex Char} {cl : Classic}
    (h : deserializeAll t n bytes = .ok (ix, cl)) : ∀ e ∈ cl.order, ∀ r ∈ e.2, r < 2 ^ t.usizeBits := by
  rw [deserializeAll_eq, Res.bind_eq_ok] at h
  obtain ⟨⟨rest, r⟩, h1, h2⟩ := h
  cases h2
  have : Good t (deBoth t n) fun r => ∀ e ∈ r.2.order, ∀ x ∈ e.2, x < 2 ^ t.usizeBits := by
    refine (good_gram t n).bind fun ix hix => ?_
    refine Good.bind (P := fun cl : Classic => ∀ e ∈ cl.order, ∀ x ∈ e.2, x < 2 ^ t.usizeBits) ?_ fun cl hcl => Good.pure hcl
    refine Good.bind ((good_len t _).bind fun len _ => good_categoriesLoop hix.container.sid len 0) fun cats _ => ?_
    refine (good_tags hix.container.sid).bind fun tags _ => ?_
    exact Good.bind (good_map (good_str t) (good_vec (good_usize t))) fun order ho => Good.pure fun e he => (ho.2 e he).2
  exact (this.ok _ _ _ h1).2

theorem carried_of_32 {t' : Target} (ht' : t'.Real) {r : Nat} (h : r < 2 ^ 32) : Carried t' r := by
  unfold Carried
  rcases ht' with e | e <;> rw [e] <;> omega

/-- C121 (32 bits): what a 32-bit machine loaded from any bytes can be written and loaded again, there or on a 64-bit machine,
whatever the ranks are, if vendors have different names and product numbers ascend. What is loaded is regular in the same sense and is
written in as many bytes, so this can be repeated any number of times. -/
theorem C121_ranks {t t' : Target} {n : Nat} {bytes : Bytes} {ix : GramIndex Char} {cl : Classic} (h32 : t.usizeBits = 32) (ht' : t'.Real)
    (h : deserializeAll t n bytes = .ok (ix, cl)) (hr : RegularLists ix cl) (o : HashOrd) (hf : Fits t' (serializeAll o ix cl).length)
    (rest : Bytes) : ∃ ix' cl', deserializeAll t' n (serializeAll o ix cl ++ rest) = .ok (ix', cl') ∧ SameData ix ix' cl cl' ∧
      RegularLists ix' cl' ∧ (∀ e ∈ cl'.order, ∀ r ∈ e.2, r < 2 ^ 32) ∧
      ∀ (o' : HashOrd), (serializeAll o' ix' cl').length = (serializeAll o ix cl).length := by
  obtain ⟨hg, hk⟩ := loaded_ok h
  obtain ⟨hw, hc⟩ := hr.wf hg hk
  have hranks := loaded_ranks h
  rw [h32] at hranks
  refine ⟨_, _, deserializeAll_fit_ranks o hw hc hk.order (fun e he r hm => carried_of_32 ht' (hranks e he r hm)) hf rest, ?_, ?_, ?_, ?_⟩
  · have := sameData_of_wf hw hc ⟨hk.tags, hk.optionIds, hk.options, AMap.Wf.nil⟩ o
    exact { this with orders := fun k => AMap.get_perm hk.order (o.perm _ _) k }
  · have hw' := hw.reload (o := o)
    have hc' := hc.reload (o := o)
    exact ⟨hw'.container.vendors.nodup, fun e he => (hw'.grams e he).2.sorted, fun tag ht => (hc'.tags tag ht).sorted,
      fun cat hcat op hop => (hc'.options cat hcat op hop).sorted⟩
  · exact fun e he => hranks e ((o.perm "orders" cl.order).mem_iff.1 he)
  · intro o'
    rw [serializeAll_length o' .ident hw.reload, serializeAll_reload o hw]

/-- C121 (checked, 32 bits): where additions are checked as well, only the names of the vendors matter. -/
theorem C121_checked {t t' : Target} {n : Nat} {bytes : Bytes} {ix : GramIndex Char} {cl : Classic} (h32 : t.usizeBits = 32)
    (hch : t.overflowChecks = true) (ht' : t'.Real) (h : deserializeAll t n bytes = .ok (ix, cl))
    (hv : (ix.container.vendors.byId.map (·.name)).Nodup) (o : HashOrd) (hf : Fits t' (serializeAll o ix cl).length)
    (rest : Bytes) : ∃ ix' cl', deserializeAll t' n (serializeAll o ix cl ++ rest) = .ok (ix', cl') ∧ SameData ix ix' cl cl' := by
  obtain ⟨h1, h2, h3⟩ := loaded_ascending hch h
  obtain ⟨ix', cl', e, hs, _⟩ := C121_ranks h32 ht' h ⟨hv, h1, h2, h3⟩ o hf rest
  exact ⟨ix', cl', e, hs⟩

/-- Two vendors without a name, a third named "a", and a product of the second. -/
def shiftedVendors : Bytes := [3, 0, 0, 1, 97, 1, 0, 0, 0, 1, 0, 0, 0, 0, 0, 0]

/-- With two vendors of one name the written file can also load, and the product be of another vendor than before. -/
theorem C121_false_vendor : ∃ (ix ix' : GramIndex Char) (cl cl' : Classic), deserializeAll .wasm32 5 shiftedVendors = .ok (ix, cl) ∧
    deserializeAll .wasm32 5 (serializeAll .ident ix cl) = .ok (ix', cl') ∧
    ix.container.products.map (·.vendor.name) = [[]] ∧ ix'.container.products.map (·.vendor.name) = [['a']] := by
  have h : ((resOption (deserializeAll .wasm32 5 shiftedVendors)).bind fun a =>
      (resOption (deserializeAll .wasm32 5 (serializeAll .ident a.1 a.2))).map fun b =>
        decide (a.1.container.products.map (·.vendor.name) = [[]] ∧ b.1.container.products.map (·.vendor.name) = [['a']])) = some true := by
    decide +kernel
  obtain ⟨a, ha, hb⟩ := Option.bind_eq_some_iff.1 h
  obtain ⟨b, hb, hx⟩ := Option.map_eq_some_iff.1 hb
  exact ⟨a.1, b.1, a.2, b.2, resOption_ok ha, resOption_ok hb, of_decide_eq_true hx⟩

/-- A regular index but for its ranks: one vendor, two products, and an order with ranks 7 and 2³² - 1. -/
def strangeRanks : Bytes := [1, 0, 2, 0, 0, 0, 0, 0, 0, 0, 0, 0, 0, 0, 0, 0, 1, 0, 2, 7, 255, 255, 255, 255, 15]

example : ∃ ix cl, deserializeAll .wasm32 5 strangeRanks = .ok (ix, cl) ∧ RegularLists ix cl ∧ ¬ Regular ix cl ∧
    Fits .wasm32 (serializeAll .ident ix cl).length ∧ cl.order = [([], [7, 4294967295])] := by
  refine ⟨_, _, rfl, ⟨?_, ?_, ?_, ?_⟩, fun h => ?_, .of_carried (by decide +kernel) fun _ _ => rfl, rfl⟩
  · decide
  · decide
  · decide
  · decide
  · have := h.ranks _ (List.mem_singleton.2 rfl) 7 (by decide)
    exact absurd this (by decide)

end Idx
