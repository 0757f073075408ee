import Verif.Props.Rewrite
import Verif.Props.File
/-
C121: writing what any accepted bytes were loaded into. C79 is about files this program wrote; here the bytes can come from anywhere.
-/
namespace Idx

/-- Spec: what a file that loads can lack and a written file never lacks: the vendors have different names, product numbers ascend in
every list, and ranks are no larger than the number of products. -/
structure Regular (ix : GramIndex Char) (cl : Classic) : Prop where
  vendors : (ix.container.vendors.byId.map (·.name)).Nodup
  postings : ∀ e ∈ ix.data, (e.2.map (·.sid)).Pairwise (· ≤ ·)
  tags : ∀ tag ∈ cl.tags, (tag.products.map (·.sid)).Pairwise (· ≤ ·)
  options : ∀ cat ∈ cl.categories, ∀ op ∈ cat.options, (op.content.map (·.sid)).Pairwise (· ≤ ·)
  ranks : ∀ e ∈ cl.order, ∀ r ∈ e.2, r ≤ ix.container.products.length

theorem loaded_ok {t : Target} {n : Nat} {bytes : Bytes} {ix : GramIndex Char} {cl : Classic}
    (h : deserializeAll t n bytes = .ok (ix, cl)) : GramOk n ix ∧ ClassicOk ix.container.products cl := by
  rw [deserializeAll_eq, Res.bind_eq_ok] at h
  obtain ⟨⟨rest, r⟩, h1, h2⟩ := h
  cases h2
  exact ((good_both t n).ok _ _ _ h1).2

theorem Regular.wf {n : Nat} {ix : GramIndex Char} {cl : Classic} (h : Regular ix cl) (hg : GramOk n ix)
    (hc : ClassicOk ix.container.products cl) : GramWf n ix ∧ ClassicWf ix.container cl := by
  refine ⟨⟨⟨⟨?_, h.vendors, hg.container.vendorId⟩, hg.container.sid, hg.container.vendor, hg.container.extra⟩, hg.roots, hg.data,
    fun e he => ⟨(hg.postings e he).1, (hg.postings e he).2, h.postings e he⟩⟩,
    fun tag ht => ⟨hc.tags.stored tag ht, h.tags tag ht⟩, hc.tags.id,
    fun cat hcat op hop => ⟨(hc.options cat hcat op hop).stored, h.options cat hcat op hop⟩, hc.order, h.ranks⟩
  rw [hg.container.vendorTags]
  refine AMap.collect_of_wf ?_
  have := h.vendors
  simpa [AMap.Wf, List.map_map, Function.comp_def] using this

/-- An index that was loaded has the same data after it is written and loaded again. -/
theorem sameData_of_wf {n : Nat} {ix : GramIndex Char} {cl : Classic} (hw : GramWf n ix) (hc : ClassicWf ix.container cl)
    (hk : ClassicOk ix.container.products cl) (o' : HashOrd) : SameData ix (reloadGram o' ix) cl (reloadClassic o' cl) := by
  refine ⟨rfl, rfl, ?_, ?_, ?_, ?_, ?_, ?_, ?_, ?_, ?_⟩
  · exact fun k => AMap.get_perm hw.container.extra (o'.perm _ _) k
  · exact fun k => AMap.get_perm hw.roots (o'.perm _ _) k
  · intro k
    have := AMap.get_map (o'.order "data" ix.data) (fun _ l => l.map limited) k
    rw [AMap.get_perm hw.data (o'.perm _ _) k] at this
    exact this
  · simp [reloadClassic, reloadTag, Function.comp_def]
  · simp only [reloadClassic, List.map_map]; rfl
  · intro i tag tag' h1 h2 p
    simp only [reloadClassic, List.getElem?_map, h1, Option.map_some, Option.some.injEq] at h2
    rw [← h2]
    rw [Tag.contains, Tag.contains, decide_eq_decide]
    simp only [reloadTag, limited, mem_setCollect]
    rw [hk.tags.contains tag (List.mem_of_getElem? h1), List.mem_map]
  · apply List.ext_getElem?
    intro i
    simp only [reloadClassic, List.getElem?_map]
    obtain ⟨start, e⟩ := reloadCategories_get cl.categories 0 i
    rw [e]
    cases hi : cl.categories[i]? with
    | none => rfl
    | some cat =>
      simp only [Option.map_some, Option.some.injEq, categoryView, Prod.mk.injEq, true_and]
      apply List.ext_getElem?
      intro j
      simp only [List.getElem?_map, reloadOptions_get]
      cases cat.options[j]? with
      | none => rfl
      | some op => simp [reloadOption, reloadProduct, Function.comp_def]
  · intro i j c c' op op' h1 h2 h3 h4
    simp only [reloadClassic] at h2
    obtain ⟨start, e⟩ := reloadCategories_get cl.categories 0 i
    rw [e, h1] at h2
    simp only [Option.map_some, Option.some.injEq] at h2
    rw [← h2, reloadOptions_get, h3] at h4
    simp only [Option.map_some, Option.some.injEq] at h4
    have := (hk.options c (List.mem_of_getElem? h1) op (List.mem_of_getElem? h3)).contains
    rw [← h4]
    refine ⟨rfl, fun p => ?_⟩
    rw [CatOption.contains, CatOption.contains, decide_eq_decide]
    simp only [reloadOption, limited, mem_setCollect]
    rw [this, List.mem_map]
  · exact fun k => AMap.get_perm hc.order (o'.perm _ _) k

/-- C121: whatever bytes were loaded, if the index is regular then what it is written as loads, on every machine that can hold it and
whatever follows, to an index with the same data, descriptions cut to 100 bytes; and from then on writing and loading, any number of
times and with any hash orders, changes nothing any more but the order inside hash tables. -/
theorem C121 {t t' : Target} {n : Nat} {bytes : Bytes} {ix : GramIndex Char} {cl : Classic} (h : deserializeAll t n bytes = .ok (ix, cl))
    (hr : Regular ix cl) (o : HashOrd) (hf : Fits t' (serializeAll o ix cl).length) (rest : Bytes) :
    ∃ ix' cl', deserializeAll t' n (serializeAll o ix cl ++ rest) = .ok (ix', cl') ∧ SameData ix ix' cl cl' ∧
      ∀ b, Rewritten t' n (ix', cl') b → SameButHash (ix', cl') b ∧
        ∀ (o' : HashOrd), (serializeAll o' b.1 b.2).length = (serializeAll o ix cl).length := by
  obtain ⟨hg, hk⟩ := loaded_ok h
  obtain ⟨hw, hc⟩ := hr.wf hg hk
  refine ⟨_, _, deserializeAll_fit o hw hc hf rest, sameData_of_wf hw hc hk o, fun b hb => ?_⟩
  have key : SameButHash (reloadGram o ix, reloadClassic o cl) b ∧ Settled n (serializeAll o ix cl).length b := by
    induction hb with
    | none => exact ⟨.refl _, settled_reload o hw hc⟩
    | again o' rest' _ hd ih =>
      obtain ⟨h1, h2⟩ := ih
      rw [deserializeAll_fit o' h2.gram h2.classic (h2.size o' ▸ hf) rest'] at hd
      cases hd
      obtain ⟨h3, h4⟩ := h2.again o'
      exact ⟨h1.trans h4, h3⟩
  exact ⟨key.1, key.2.size⟩

/-- C121 (search): and every search finds the same products with the same confidences. -/
theorem C121_search {t t' : Target} {n : Nat} {bytes : Bytes} {ix : GramIndex Char} {cl : Classic} (h1 : 1 ≤ n) (h2 : n ≤ 764)
    (h : deserializeAll t n bytes = .ok (ix, cl)) (hr : Regular ix cl) (o : HashOrd) (hf : Fits t' (serializeAll o ix cl).length)
    (rest : Bytes) : ∃ ix' cl', deserializeAll t' n (serializeAll o ix cl ++ rest) = .ok (ix', cl') ∧
      ∀ (o₁ o₂ : HashOrd) (query : List Char), ∃ r r', ix.search o₁ n query = .ok r ∧ ix'.search o₂ n query = .ok r' ∧
        r'.Perm (r.map fun x => (limited x.1, x.2)) := by
  obtain ⟨ix', cl', e, hs, _⟩ := C121 h hr o hf rest
  refine ⟨ix', cl', e, fun o₁ o₂ query => ⟨_, _, search_eq o₁ ix h1 h2 query, search_eq o₂ ix' h1 h2 query, ?_⟩⟩
  rw [hitsOf_reload hs, rank_map]
  refine (export_perm _ _).trans ?_
  refine List.Perm.trans ?_ ((export_perm o₁ (rank (hitsOf ix n query))).map _).symm
  simp [List.map_map, Function.comp_def]

/-! ## Which parts of `Regular` always hold -/

/-- C121 (written): every file this program writes loads to a regular index. -/
theorem C121_written {t t' o lower parse n input ix cl ix' cl'} (hn : 1 ≤ n) (h : buildAll t o lower parse n input = .ok (ix, cl))
    (hf : Fits t' (serializeAll o ix cl).length) (rest : Bytes)
    (hl : deserializeAll t' n (serializeAll o ix cl ++ rest) = .ok (ix', cl')) : Regular ix' cl' := by
  have hix := gramWf_of_built hn h
  have hcl := classicWf_of_built h
  rw [deserializeAll_fit o hix hcl hf rest] at hl
  cases hl
  have hw := hix.reload (o := o)
  have hc := hcl.reload (o := o)
  exact ⟨hw.container.vendors.nodup, fun e he => (hw.grams e he).2.sorted, fun tag ht => (hc.tags tag ht).sorted,
    fun cat hcat op hop => (hc.options cat hcat op hop).sorted, hc.ranks⟩

theorem addUsize_checked {t : Target} (hc : t.overflowChecks = true) {a b c : Nat} (h : addUsize t a b = .ok c) : b ≤ c := by
  unfold addUsize at h
  rw [hc] at h
  split at h
  · cases h; omega
  · cases h

theorem asc_deltas {t : Target} (hc : t.overflowChecks = true) : ∀ (n : Nat) (prev : Option Nat), Good t (deDeltas t n prev) fun l =>
    l.Pairwise (· ≤ ·) ∧ ∀ p, prev = some p → ∀ x ∈ l, p ≤ x := by
  intro n
  induction n with
  | zero => intro prev; exact Good.pure ⟨List.Pairwise.nil, by simp⟩
  | succ n ih =>
    intro prev
    refine (good_usize t).bind fun parsed _ => ?_
    refine Good.bind (P := fun item => ∀ p, prev = some p → p ≤ item) ?_ fun item hi => (ih (some item)).bind fun l hl =>
      Good.pure ⟨List.pairwise_cons.2 ⟨hl.2 item rfl, hl.1⟩, fun p hp x hx => ?_⟩
    · cases prev with
      | none => exact Good.pure (by simp)
      | some p => exact Good.lift (fun c e q hq => by cases hq; exact addUsize_checked hc e) fun w h => addUsize_panic h
    · rcases List.mem_cons.1 hx with rfl | hx
      · exact hi p hp
      · exact Nat.le_trans (hi p hp) (hl.2 item rfl x hx)

theorem asc_productSeq {t : Target} (hc : t.overflowChecks = true) {existing : List Product}
    (hs : ∀ (k : Nat) (p : Product), existing[k]? = some p → p.sid = k) :
    Good t (deProductSeq t existing) fun r => (r.1.map (·.sid)).Pairwise (· ≤ ·) := by
  refine Good.bind (P := fun ids : List Nat => ids.Pairwise (· ≤ ·)) ((good_len t _).bind fun n _ => (asc_deltas hc n none).mono fun _ h => h.1)
    fun ids hi => ?_
  refine Good.bind (Good.ofOption (P := fun l => lookupAll existing ids = some l) fun _ h => h) fun l hl => Good.pure ?_
  obtain ⟨h1, h2⟩ := lookupAll_spec hl
  have : l.map (·.sid) = ids := by
    apply List.ext_getElem?
    intro j
    rw [List.getElem?_map]
    cases hj : l[j]? with
    | none =>
      rw [List.getElem?_eq_none_iff] at hj
      simp only [Option.map_none]
      exact (List.getElem?_eq_none (by omega)).symm
    | some p =>
      obtain ⟨id, h3, h⟩ := h2 j p hj
      simp only [Option.map_some]
      rw [h3, hs _ _ h]
  rw [this]; exact hi

theorem asc_gram {t : Target} (hc : t.overflowChecks = true) (n : Nat) : Good t (deGramIndex t n) fun ix =>
    ContainerOk ix.container ∧ ∀ e ∈ ix.data, (e.2.map (·.sid)).Pairwise (· ≤ ·) := by
  refine (good_container t).bind fun c hk => ?_
  refine Good.bind (good_map (good_char t) (good_nodeTop t)) fun roots hr => ?_
  refine (good_len t _).bind fun len _ => ?_
  refine Good.bind (Good.times (P := fun e : List Char × List Product => (e.2.map (·.sid)).Pairwise (· ≤ ·)) ?_ len)
    fun l hl => Good.pure ⟨hk, ?_⟩
  · exact Good.bind (good_array n (good_char t)) fun gram hg => (asc_productSeq hc hk.sid).bind fun r hr => Good.pure hr
  · exact collect_forall (P := fun (_ : List Char) (v : List Product) => (v.map (·.sid)).Pairwise (· ≤ ·)) hl.2

theorem asc_category {t : Target} (hc : t.overflowChecks = true) {existing : List Product}
    (hs : ∀ (k : Nat) (p : Product), existing[k]? = some p → p.sid = k) (next : Nat) :
    Good t (deCategory t existing next) fun c => ∀ op ∈ c.options, (op.content.map (·.sid)).Pairwise (· ≤ ·) := by
  refine (good_bool t).bind fun exclusive _ => (good_str t).bind fun name _ => (good_len t _).bind fun len _ => ?_
  refine Good.bind (Good.timesFrom (P := fun _ (op : CatOption) => (op.content.map (·.sid)).Pairwise (· ≤ ·)) (fun sid => ?_) len next)
    fun l hl => Good.pure fun op h => ?_
  · exact (good_str t).bind fun name _ => (asc_productSeq hc hs).bind fun r hr => Good.pure hr
  · obtain ⟨i, hi⟩ := List.getElem?_of_mem h
    exact hl.2 i op hi

theorem asc_categoriesLoop {t : Target} (hc : t.overflowChecks = true) {existing : List Product}
    (hs : ∀ (k : Nat) (p : Product), existing[k]? = some p → p.sid = k) : ∀ n next, Good t (deCategoriesLoop t existing n next) fun l =>
      ∀ c ∈ l, ∀ op ∈ c.options, (op.content.map (·.sid)).Pairwise (· ≤ ·) := by
  intro n
  induction n with
  | zero => intro next; exact Good.pure (by simp)
  | succ n ih =>
    intro next
    refine (asc_category hc hs next).bind fun c h1 => (ih _).bind fun l hl => Good.pure fun c' h => ?_
    rcases List.mem_cons.1 h with rfl | h
    · exact h1
    · exact hl c' h

theorem asc_tags {t : Target} (hc : t.overflowChecks = true) {existing : List Product}
    (hs : ∀ (k : Nat) (p : Product), existing[k]? = some p → p.sid = k) :
    Good t (deTags t existing) fun tags => ∀ tag ∈ tags, (tag.products.map (·.sid)).Pairwise (· ≤ ·) := by
  refine (good_len t _).bind fun len _ => ?_
  refine (Good.timesFrom (P := fun _ (tag : Tag) => (tag.products.map (·.sid)).Pairwise (· ≤ ·)) (fun i => ?_) len 0).mono fun l hl tag h => ?_
  · exact (good_str t).bind fun name _ => (asc_productSeq hc hs).bind fun r hr => Good.pure hr
  · obtain ⟨i, hi⟩ := List.getElem?_of_mem h
    exact hl.2 i tag hi

theorem loaded_ascending {t : Target} {n : Nat} {bytes : Bytes} {ix : GramIndex Char} {cl : Classic} (hc : t.overflowChecks = true)
    (h : deserializeAll t n bytes = .ok (ix, cl)) : (∀ e ∈ ix.data, (e.2.map (·.sid)).Pairwise (· ≤ ·)) ∧
      (∀ tag ∈ cl.tags, (tag.products.map (·.sid)).Pairwise (· ≤ ·)) ∧
      ∀ cat ∈ cl.categories, ∀ op ∈ cat.options, (op.content.map (·.sid)).Pairwise (· ≤ ·) := by
  rw [deserializeAll_eq, Res.bind_eq_ok] at h
  obtain ⟨⟨rest, r⟩, h1, h2⟩ := h
  cases h2
  have : Good t (deBoth t n) fun r => (∀ e ∈ r.1.data, (e.2.map (·.sid)).Pairwise (· ≤ ·)) ∧
      (∀ tag ∈ r.2.tags, (tag.products.map (·.sid)).Pairwise (· ≤ ·)) ∧
      ∀ cat ∈ r.2.categories, ∀ op ∈ cat.options, (op.content.map (·.sid)).Pairwise (· ≤ ·) := by
    refine (asc_gram hc n).bind fun ix hix => ?_
    refine Good.bind (P := fun cl : Classic => (∀ tag ∈ cl.tags, (tag.products.map (·.sid)).Pairwise (· ≤ ·)) ∧
      ∀ cat ∈ cl.categories, ∀ op ∈ cat.options, (op.content.map (·.sid)).Pairwise (· ≤ ·)) ?_ fun cl hcl => Good.pure ⟨hix.2, hcl⟩
    refine Good.bind ((good_len t _).bind fun len _ => asc_categoriesLoop hc hix.1.sid len 0) fun cats hcats => ?_
    refine (asc_tags hc hix.1.sid).bind fun tags ht => ?_
    exact Good.bind (good_map (good_str t) (good_vec (good_usize t))) fun order ho => Good.pure ⟨ht, hcats⟩
  exact (this.ok _ _ _ h1).2

/-- C121 (ascending): where additions are checked for overflow, product numbers ascend in every list of whatever loads, so only the
vendors and the ranks can be irregular. -/
theorem C121_ascending {t : Target} {n : Nat} {bytes : Bytes} {ix : GramIndex Char} {cl : Classic} (hc : t.overflowChecks = true)
    (h : deserializeAll t n bytes = .ok (ix, cl)) : Regular ix cl ↔
      (ix.container.vendors.byId.map (·.name)).Nodup ∧ ∀ e ∈ cl.order, ∀ r ∈ e.2, r ≤ ix.container.products.length := by
  refine ⟨fun hr => ⟨hr.vendors, hr.ranks⟩, fun hr => ?_⟩
  obtain ⟨h3, h4, h5⟩ := loaded_ascending hc h
  exact ⟨hr.1, h3, h4, h5, hr.2⟩

/-! ## What goes wrong otherwise -/

/-- The claim: what loads can be written and loaded again. -/
def C121_statement : Prop :=
  ∀ (t : Target) (n : Nat) (bytes : Bytes) (ix : GramIndex Char) (cl : Classic) (o : HashOrd), t.Real →
    deserializeAll t n bytes = .ok (ix, cl) → Fits t (serializeAll o ix cl).length →
    ∃ r, deserializeAll t n (serializeAll o ix cl) = .ok r

/-- Two vendors without a name, and a product of the second. -/
def twoVendors : Bytes := [2, 0, 0, 1, 0, 0, 0, 1, 0, 0, 0, 0, 0, 0]

/-- It is false: of two vendors with the same name one is lost in writing, and a product of the other then has no vendor. -/
theorem C121_false : ¬ C121_statement := by
  intro h
  have e : deserializeAll .wasm32 5 twoVendors = .ok (⟨[], [], ⟨[⟨[], [], ⟨[], 1⟩, [], 0⟩], ⟨[([], ⟨[], 1⟩)], [⟨[], 0⟩, ⟨[], 1⟩]⟩, []⟩⟩,
      ⟨[], [], []⟩) := rfl
  obtain ⟨r, hr⟩ := h .wasm32 5 twoVendors _ _ .ident (.inl rfl) e (.of_carried (by decide +kernel) fun _ _ => rfl)
  have : ((resOption (deserializeAll .wasm32 5 (serializeAll .ident
    ⟨[], [], ⟨[⟨[], [], ⟨[], 1⟩, [], 0⟩], ⟨[([], ⟨[], 1⟩)], [⟨[], 0⟩, ⟨[], 1⟩]⟩, []⟩⟩ ⟨[], [], []⟩))).isSome) = false := by decide +kernel
  rw [hr] at this
  cases this

/-- One vendor, two products, and a tag whose product numbers are 1 and 1 + (2³² - 1). -/
def descending : Bytes := [1, 0, 2, 0, 0, 0, 0, 0, 0, 0, 0, 0, 0, 0, 0, 1, 0, 2, 1, 255, 255, 255, 255, 15, 0]

/-- Where additions wrap around, product numbers can descend; such a list is sorted when it is written. -/
theorem C121_false_order : ∃ (ix ix' : GramIndex Char) (cl cl' : Classic), deserializeAll .wasm32 5 descending = .ok (ix, cl) ∧
    deserializeAll .wasm32 5 (serializeAll .ident ix cl) = .ok (ix', cl') ∧ (ix.container.vendors.byId.map (·.name)).Nodup ∧
    cl.order = [] ∧ cl.tags.map (fun tag => tag.products.map (·.sid)) = [[1, 0]] ∧
    cl'.tags.map (fun tag => tag.products.map (·.sid)) = [[0, 1]] := by
  have h : ((resOption (deserializeAll .wasm32 5 descending)).bind fun a =>
      (resOption (deserializeAll .wasm32 5 (serializeAll .ident a.1 a.2))).map fun b =>
        decide ((a.1.container.vendors.byId.map (·.name)).Nodup ∧ a.2.order = [] ∧
          a.2.tags.map (fun tag => tag.products.map (·.sid)) = [[1, 0]] ∧
          b.2.tags.map (fun tag => tag.products.map (·.sid)) = [[0, 1]])) = some true := by decide +kernel
  obtain ⟨a, ha, hb⟩ := Option.bind_eq_some_iff.1 h
  obtain ⟨b, hb, hx⟩ := Option.map_eq_some_iff.1 hb
  exact ⟨a.1, b.1, a.2, b.2, resOption_ok ha, resOption_ok hb, of_decide_eq_true hx⟩

/-- A loaded index that is regular: one vendor, two products, one tag with both, and an order. -/
def regularBytes : Bytes := [1, 0, 2, 0, 0, 0, 0, 0, 0, 0, 0, 0, 0, 0, 0, 1, 0, 2, 0, 1, 1, 0, 2, 1, 0]

example : ∃ ix cl, deserializeAll .wasm32 5 regularBytes = .ok (ix, cl) ∧ Regular ix cl ∧ Fits .wasm32 (serializeAll .ident ix cl).length ∧
    cl.tags.map (fun tag => tag.products.map (·.sid)) = [[0, 1]] ∧ cl.order = [([], [1, 0])] := by
  refine ⟨_, _, rfl, ⟨?_, ?_, ?_, ?_, ?_⟩, .of_carried (by decide +kernel) fun _ _ => rfl, rfl, rfl⟩ <;> decide

end Idx
