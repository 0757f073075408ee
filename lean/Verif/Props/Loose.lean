import Verif.Props.Reprice
/-
Loading a file in which vendors may share a name: the lemmas of Lemmas/File.lean without the condition that vendor names differ.
-/
namespace Idx

/-- Vendors with their positions as numbers, listed once each; names may repeat. -/
structure VendorManager.Loose (m : VendorManager) : Prop where
  tags_eq : m.tags = m.byId.map fun v => (v.name, v)
  ids : ∀ (i : Nat) (v : Vendor), m.byId[i]? = some v → v.id = i

/-- What loading makes of them: of vendors with the same name the table by name keeps the last. -/
def VendorManager.collected (m : VendorManager) : VendorManager := { tags := AMap.collect m.tags, byId := m.byId }

theorem VendorManager.Loose.pairwise {m : VendorManager} (h : m.Loose) :
    m.byId.Pairwise fun a b => a.id < b.id := by
  rw [List.pairwise_iff_getElem]
  intro i j hi hj hij
  rw [h.ids i _ (List.getElem?_eq_getElem hi), h.ids j _ (List.getElem?_eq_getElem hj)]
  exact hij

theorem serVendors_loose (o : HashOrd) {m : VendorManager} (h : m.Loose) :
    serVendors o m = serUsize m.byId.length ++ m.byId.flatMap serVendor := by
  have : stableSort (fun a b : Vendor => decide (a.id ≤ b.id)) ((o.order "vendors" m.tags).map (·.2)) =
      m.byId := by
    refine stableSort_key_perm ?_ h.pairwise
    refine ((o.perm "vendors" m.tags).map _).trans ?_
    rw [h.tags_eq]; simp [Function.comp_def]
  simp only [serVendors, this]

theorem deVendors_loose {t : Target} (o : HashOrd) {m : VendorManager} (h : m.Loose)
    (hl : Fits t m.byId.length) (hs : ∀ v ∈ m.byId, Carried t (byteLen v.name)) :
    RT (serVendors o m) (deVendors t) m.collected := by
  rw [serVendors_loose o h]
  refine RT.bind (deLen_rt hl _) ?_
  have key : RT (m.byId.flatMap serVendor) (De.timesFrom m.byId.length 0 fun id => do
      let name ← deStr t
      pure ({ name, id } : Vendor)) m.byId := by
    have := timesFrom_rt (f := id) (ser := serVendor) (de := fun id => do
      let name ← deStr t
      pure ({ name, id } : Vendor)) m.byId 0 (fun j v hv => by
        have hid := h.ids j v hv
        have := RT.bind_pure (f := fun name => ({ name, id := 0 + j } : Vendor))
          (deStr_rt (t := t) (hs v (List.mem_of_getElem? hv)))
        refine RT.congr (a := v) ?_ rfl
        have e : ({ name := v.name, id := 0 + j } : Vendor) = v := by
          cases v; simp_all
        rw [e] at this
        exact this)
    simpa using this
  have := RT.bind_pure (f := fun vs => ({ tags := AMap.collect (vs.map fun v : Vendor => (v.name, v)),
                                          byId := vs } : VendorManager)) key
  have e : ({ tags := AMap.collect (m.byId.map fun v : Vendor => (v.name, v)), byId := m.byId } :
      VendorManager) = m.collected := by
    rw [VendorManager.collected, h.tags_eq]
  rw [e] at this
  exact this

theorem deVendors_fit_loose {t : Target} (o : HashOrd) {m : VendorManager} (h : m.Loose)
    (hf : Fits t (serVendors o m).length) :
    RT (serVendors o m) (deVendors t) m.collected ∧ m.byId.length ≤ (serVendors o m).length := by
  rw [serVendors_loose o h] at hf ⊢
  simp only [List.length_append] at hf ⊢
  have h1 := length_flatMap_ge (l := m.byId) (ser := serVendor) fun a _ => serVendor_pos a
  refine ⟨?_, by omega⟩
  rw [← serVendors_loose o h]
  refine deVendors_loose o h (hf.mono (by omega)) fun v hv => hf.1.mono ?_
  have h2 := length_le_flatMap (ser := serVendor) hv
  have h3 : byteLen v.name ≤ (serVendor v).length := by
    simp only [serVendor, serStr, List.length_append, utf8_length]; omega
  omega

/-- A container as in `ContainerWf`, where vendors may share a name. -/
structure ContainerLoose (c : Container) : Prop where
  vendors : c.vendors.Loose
  sid : ∀ (i : Nat) (p : Product), c.products[i]? = some p → p.sid = i
  vendor : ∀ p ∈ c.products, c.vendors.byId[p.vendor.id]? = some p.vendor
  extra : AMap.Wf c.extra

/-- The container with the table of vendors as it is after loading. -/
def Container.collected (c : Container) : Container := { c with vendors := c.vendors.collected }

theorem deContainer_fit_loose {t : Target} (o : HashOrd) {c : Container} (h : ContainerLoose c)
    (hf : Fits t (serContainer o c).length) :
    RT (serContainer o c) (deContainer t) (reloadContainer o c.collected) := by
  simp only [serContainer, List.length_append] at hf
  obtain ⟨hv1, hv2⟩ := deVendors_fit_loose o h.vendors (t := t) (hf.mono (by omega))
  have e : serContainer o c = serVendors o c.vendors ++ (serUsize c.products.length ++
      (c.products.flatMap serProduct ++ (serFeatureSet o c.extra))) := by
    simp [serContainer, serVec, List.append_assoc]
  rw [e]
  refine RT.bind hv1 ?_
  have hpl := length_flatMap_ge (l := c.products) (ser := serProduct) fun a _ => serProduct_pos a
  have hsv : (serVec serProduct c.products).length =
      (serUsize c.products.length).length + (c.products.flatMap serProduct).length := by simp [serVec]
  refine RT.bind (deUsize_rt (hf.1.mono (by omega))) ?_
  refine RT.bind (a := c.products.map reloadProduct) ?_ ?_
  · refine timesFrom_rt c.products 0 fun j p hp => ?_
    have hs := h.sid j p hp
    have hm := List.mem_of_getElem? hp
    have hvid := (List.getElem?_eq_some_iff.1 (h.vendor p hm)).1
    have := deProduct_fit (t := t) p c.vendors.collected (h.vendor p hm) (hf.mono (by omega)) (hf.mono (by
      have := length_le_flatMap (ser := serProduct) hm
      omega))
    rw [hs] at this
    rwa [Nat.zero_add]
  · refine RT.bind_pure ?_
    have := deMap_fit (t := t) o "features" (serK := serStr) (serV := serFeature) (deK := deStr t)
      (deV := deFeature t) (f := id) c.extra h.extra (hf.mono (by simp only [serFeatureSet]; omega))
      (fun p _ => serStr_pos _) (fun p _ hh => deStr_rt' hh) (fun p _ hh => deFeature_fit _ hh)
    rw [show (o.order "features" c.extra).map (fun p => (p.1, id p.2)) = o.order "features" c.extra by simp] at this
    exact this

/-- A text index as in `GramWf`, where vendors may share a name. -/
structure GramLoose (n : Nat) (ix : GramIndex Char) : Prop where
  container : ContainerLoose ix.container
  roots : AMap.Wf ix.roots
  data : AMap.Wf ix.data
  grams : ∀ e ∈ ix.data, e.1.length = n ∧ Listed ix.container e.2

/-- The text index with the table of vendors as it is after loading. -/
def GramIndex.collected (ix : GramIndex Char) : GramIndex Char := { ix with container := ix.container.collected }

theorem deGramIndex_fit_loose {t : Target} {n : Nat} (o : HashOrd) {ix : GramIndex Char} (h : GramLoose n ix)
    (hf : Fits t (serGramIndex o ix).length) :
    RT (serGramIndex o ix) (deGramIndex t n) (reloadGram o ix.collected) := by
  simp only [serGramIndex, List.length_append] at hf
  have e : serGramIndex o ix = serContainer o ix.container ++ (serMap o "roots" serChar serNode ix.roots ++
      (serUsize ix.data.length ++ (o.order "data" ix.data).flatMap serPosting)) := by
    simp [serGramIndex, List.append_assoc]
  rw [e]
  have hpl := products_le o ix.container
  refine RT.bind (deContainer_fit_loose o h.container (hf.mono (by omega))) ?_
  refine RT.bind (a := o.order "roots" ix.roots) ?_ ?_
  · have := deMap_fit (t := t) o "roots" (serK := serChar) (serV := serNode) (deK := deChar)
      (deV := deNodeTop t) (f := id) ix.roots h.roots (hf.mono (by omega))
      (fun p _ => serU64Loop_pos 9 _) (fun p _ _ => deChar_rt _) (fun p _ hh => deNodeTop_fit _ hh)
    simpa using this
  have hpos : ∀ e : List Char × List Product, 1 ≤ (serPosting e).length := by
    intro e
    have := serProductSeq_pos e.2
    simp only [serPosting, List.length_append]; omega
  have h1 := length_flatMap_ge (l := o.order "data" ix.data) (ser := serPosting) fun a _ => hpos a
  have hperm := o.perm "data" ix.data
  have hlen := hperm.length_eq
  refine RT.bind (deLen_rt (hf.mono (by omega)) _) ?_
  have hwf : AMap.Wf ((o.order "data" ix.data).map fun e => (e.1, e.2.map reloadProduct)) := by
    have := h.data.perm hperm
    simpa [AMap.Wf, List.map_map, Function.comp_def] using this
  have key : RT ((o.order "data" ix.data).flatMap serPosting)
      (De.times ix.data.length (dePosting t n (reloadContainer o ix.container.collected)))
      ((o.order "data" ix.data).map fun e => (e.1, e.2.map reloadProduct)) := by
    rw [← hlen]
    refine times_rt _ fun e he => ?_
    obtain ⟨hn, hl⟩ := h.grams e (hperm.mem_iff.1 he)
    have hle := length_le_flatMap (ser := serPosting) he
    simp only [serPosting, List.length_append] at hle
    have harr := serArray_length e.1
    have ha : RT (serArray serChar e.1) (deArray t n deChar) e.1 := by
      rw [← hn]
      exact deArray_rt e.1 (hf.1.mono (by omega)) fun c _ => deChar_rt c
    refine RT.bind ha ?_
    exact RT.bind_pure (f := fun r : List Product × List Nat => (e.1, r.1))
      (deProductSeq_fit hl rfl (hf.mono (by omega)) (hf.mono (by omega)))
  have := RT.bind_pure (f := fun es => (⟨o.order "roots" ix.roots,
    AMap.collect es, reloadContainer o ix.container.collected⟩ : GramIndex Char)) key
  rw [AMap.collect_of_wf hwf] at this
  exact this

/-- The whole file, followed by anything, loads also if vendors share a name. -/
theorem deserializeAll_fit_loose {t : Target} {n : Nat} (o : HashOrd) {ix : GramIndex Char} {cl : Classic}
    (hix : GramLoose n ix) (hcl : ClassicWf ix.container cl) (hf : Fits t (serializeAll o ix cl).length)
    (rest : Bytes) :
    deserializeAll t n (serializeAll o ix cl ++ rest) = .ok (reloadGram o ix.collected, reloadClassic o cl) := by
  simp only [serializeAll, List.length_append] at hf
  have hpl : ix.container.products.length ≤ (serGramIndex o ix).length := by
    have := products_le o ix.container
    simp only [serGramIndex, List.length_append]; omega
  have h1 := deGramIndex_fit_loose o hix (t := t) (hf.mono (by omega)) (serClassic o cl ++ rest)
  have h2 := deClassic_fit (c' := (reloadGram o ix.collected).container) o hcl rfl (hf.mono (by omega))
    (t := t) (hf.mono (by omega)) rest
  simp only [deserializeAll, serializeAll, List.append_assoc]
  rw [h1]
  simp only [Res.bind_ok]
  rw [h2]
  rfl

end Idx
