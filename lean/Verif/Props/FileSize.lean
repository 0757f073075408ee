import Verif.Props.Size
import Verif.Props.Extent
import Verif.Props.Reload

/-! # C82: a written file is at most proportional to its catalogue -/
namespace Idx

/-! ## Writers produce at most ten bytes per unit (the units of C62) -/

theorem serU64Loop_length : ∀ (fuel : Nat) (v : UInt64), (serU64Loop fuel v).length ≤ fuel
  | 0, _ => by simp [serU64Loop]
  | fuel + 1, v => by
    simp only [serU64Loop]
    split
    · simp
    · simp only [List.length_cons]
      have := serU64Loop_length fuel (v >>> 7)
      omega

theorem serUsize_length (v : Nat) : (serUsize v).length ≤ 10 := serU64Loop_length 10 _

theorem serChar_length (c : Char) : (serChar c).length ≤ 10 := serU64Loop_length 10 _

theorem serStr_length (s : Str) : (serStr s).length ≤ 10 * strUnits s := by
  have := serUsize_length (byteLen s)
  simp only [serStr, List.length_append, utf8_length, strUnits]
  omega

theorem flatMap_length_le {ser : α → Bytes} {f : α → Nat} (l : List α) (h : ∀ a ∈ l, (ser a).length ≤ 10 * f a) :
    (l.flatMap ser).length ≤ 10 * (l.map f).sum := by
  induction l with
  | nil => simp
  | cons a l ih =>
    have h1 := h a (by simp)
    have h2 := ih fun b hb => h b (by simp [hb])
    simp only [List.flatMap_cons, List.length_append, List.map_cons, List.sum_cons]
    omega

theorem counted_length_le {ser : α → Bytes} {f : α → Nat} (k : Nat) (l : List α) (h : ∀ a ∈ l, (ser a).length ≤ 10 * f a) :
    (serUsize k ++ l.flatMap ser).length ≤ 10 * listUnits f l := by
  have h1 := flatMap_length_le l h
  have h2 := serUsize_length k
  simp only [List.length_append, listUnits]
  omega

theorem listUnits_perm {f : α → Nat} {l l' : List α} (h : l.Perm l') : listUnits f l = listUnits f l' := by
  simp only [listUnits, (h.map f).sum_nat]

theorem serDeltas_length : ∀ (l : List Nat) (prev : Option Nat), (serDeltas prev l).length ≤ 10 * l.length
  | [], _ => by simp [serDeltas]
  | a :: l, prev => by
    have h1 := serDeltas_length l (some a)
    simp only [serDeltas, List.length_append, List.length_cons]
    split <;> rename_i h
    · have := serUsize_length (a - h); omega
    · have := serUsize_length a; omega

theorem serProductSeq_length (l : List Product) : (serProductSeq l).length ≤ 10 * listUnits (fun _ => 1) l := by
  simp only [serProductSeq, serSeq, List.length_append]
  have h1 := serDeltas_length (stableSort (fun a b => decide (a ≤ b)) (l.map (·.sid))) none
  have h2 := serUsize_length (stableSort (fun a b => decide (a ≤ b)) (l.map (·.sid))).length
  have h3 : (stableSort (fun a b => decide (a ≤ b)) (l.map (·.sid))).length = l.length := by
    rw [(stableSort_perm _ _).length_eq, List.length_map]
  rw [units_ones]
  omega

theorem serMap_length_le {K V σ : Type} {o : HashOrd} {site : σ} {serK : K → Bytes} {serV : V → Bytes} {f : K × V → Nat}
    (m : AMap K V) (h : ∀ e ∈ m, (serK e.1).length + (serV e.2).length ≤ 10 * f e) :
    (serMap o site serK serV m).length ≤ 10 * listUnits f m := by
  simp only [serMap, serMapEntries]
  rw [← listUnits_perm (o.perm site m)]
  refine counted_length_le _ _ fun e he => ?_
  rw [List.length_append]
  exact h e ((o.perm site m).mem_iff.1 he)

theorem byteLen_limit_le (s : Str) (L : Nat) : byteLen (limitStringLen s L) ≤ byteLen s := by
  obtain ⟨r, hr⟩ := limit_prefix s L
  have h : byteLen s = byteLen (limitStringLen s L ++ r) := by rw [hr]
  rw [h, ← utf8_length, ← utf8_length]
  simp [utf8]

theorem serProduct_length (p : Product) : (serProduct p).length ≤ 10 * p.units := by
  have h1 := serStr_length (limitStringLen p.description 100)
  have h2 := serStr_length p.title
  have h3 := serStr_length p.id
  have h4 := serUsize_length p.vendor.id
  have h5 := byteLen_limit_le p.description 100
  simp only [serProduct, serStrWithLimit, List.length_append, Product.units]
  simp only [strUnits] at *
  omega

theorem serF32_length (x : F32) : (serF32 x).length = 4 := rfl

/-- A column needs one byte for its kind. -/
theorem serFeature_length (f : Feature) : (serFeature f).length ≤ 10 * f.units + 1 := by
  cases f with
  | string l =>
    have := counted_length_le (ser := serStr) (f := strUnits) l.length l fun a _ => serStr_length a
    simp only [serFeature, serVec, serU8, List.length_append, List.length_cons, List.length_nil, Feature.units] at *
    omega
  | float l =>
    have := counted_length_le (ser := serF32) (f := fun _ => 4) l.length l fun a _ => by rw [serF32_length]; omega
    simp only [serFeature, serVec, serU8, List.length_append, List.length_cons, List.length_nil, Feature.units] at *
    omega
  | integer l =>
    have := counted_length_le (ser := serU32) (f := fun _ => 1) l.length l fun a _ => by
      have := serU64Loop_length 10 a.toUInt64
      simp only [serU32, serU64]; omega
    simp only [serFeature, serVec, serU8, List.length_append, List.length_cons, List.length_nil, Feature.units] at *
    omega

theorem serContainer_length {o : HashOrd} {c : Container} (h : c.vendors.Inv) :
    (serContainer o c).length ≤ 10 * c.units + c.extra.length := by
  have h1 := counted_length_le (ser := serVendor) (f := fun v : Vendor => strUnits v.name) c.vendors.byId.length c.vendors.byId
    fun v _ => serStr_length v.name
  have h2 := counted_length_le (ser := serProduct) (f := Product.units) c.products.length c.products fun p _ => serProduct_length p
  have h3 : (serFeatureSet o c.extra).length ≤
      10 * listUnits (fun e : Str × Feature => strUnits e.1 + e.2.units) c.extra + c.extra.length := by
    simp only [serFeatureSet, serMap, serMapEntries]
    rw [← listUnits_perm (o.perm "features" c.extra), ← (o.perm "features" c.extra).length_eq]
    have h0 := serUsize_length (o.order "features" c.extra).length
    rw [List.length_append]
    have key : ∀ l : List (Str × Feature), (l.flatMap fun p => serStr p.1 ++ serFeature p.2).length ≤
        10 * (l.map fun e => strUnits e.1 + e.2.units).sum + l.length := by
      intro l
      induction l with
      | nil => simp
      | cons e l ih =>
        have a := serStr_length e.1
        have b := serFeature_length e.2
        simp only [List.flatMap_cons, List.length_append, List.map_cons, List.sum_cons, List.length_cons]
        omega
    have := key (o.order "features" c.extra)
    simp only [listUnits]
    omega
  rw [serContainer, serVendors_eq o h]
  simp only [serVec] at *
  simp only [List.length_append, Container.units] at *
  omega

theorem serNode_length (m : GramNode Char) : (serNode m).length ≤ 10 * m.units := by
  refine GramNode.depth_induct (motive := fun m => (serNode m).length ≤ 10 * m.units) ?_ m
  intro i w l ih
  rw [GramNode.units_mk, serNode]
  have e : (l.attach.map fun x : { c // c ∈ l } => serNode x.1) = l.map serNode := by
    rw [List.attach_map_val (f := serNode)]
  have h1 := counted_length_le (ser := serNode) (f := GramNode.units) l.length l ih
  have h2 := serChar_length i
  have h3 := serF32_length w
  rw [e]
  rw [List.flatMap] at h1
  rw [List.length_append, List.length_append]
  omega

theorem serPosting_length (e : List Char × List Product) :
    (serPosting e).length ≤ 10 * (listUnits (fun _ => 1) e.1 + listUnits (fun _ => 1) e.2) := by
  have h1 := counted_length_le (ser := serChar) (f := fun _ => 1) e.1.length e.1 fun c _ => by
    have := serChar_length c; omega
  have h2 := serProductSeq_length e.2
  simp only [serPosting, serArray]
  rw [List.length_append]
  have h3 : (serU64 (UInt64.ofNat e.1.length) ++ e.1.flatMap serChar).length ≤ 10 * listUnits (fun _ => 1) e.1 := h1
  omega

theorem serGramIndex_length {o : HashOrd} {ix : GramIndex Char} (h : ix.container.vendors.Inv) :
    (serGramIndex o ix).length ≤ 10 * ix.units + ix.container.extra.length := by
  have h1 := serContainer_length (o := o) h
  have h2 := serMap_length_le (o := o) (site := "roots") (serK := serChar) (serV := serNode)
    (f := fun e : Char × GramNode Char => 1 + e.2.units) ix.roots fun e _ => by
      have := serChar_length e.1
      have := serNode_length e.2
      omega
  have h3 := counted_length_le (ser := serPosting) (f := fun e => listUnits (fun _ => 1) e.1 + listUnits (fun _ => 1) e.2)
    ix.data.length (o.order "data" ix.data) fun e _ => serPosting_length e
  rw [listUnits_perm (o.perm "data" ix.data)] at h3
  simp only [serGramIndex, GramIndex.units]
  rw [List.length_append, List.length_append]
  omega

theorem serClassic_length {o : HashOrd} (cl : Classic) : (serClassic o cl).length ≤ 10 * cl.units := by
  have h1 : (serCategories cl.categories).length ≤ 10 * listUnits (fun cat : Category => 1 + strUnits cat.name +
      listUnits (fun op : CatOption => strUnits op.name + listUnits (fun _ => 1) op.content) cat.options) cl.categories := by
    refine counted_length_le _ _ fun cat _ => ?_
    have a := serStr_length cat.name
    have b := counted_length_le (ser := serCatOption)
      (f := fun op : CatOption => strUnits op.name + listUnits (fun _ => 1) op.content) cat.options.length cat.options fun op _ => by
        have a := serStr_length op.name
        have b := serProductSeq_length op.content
        simp only [serCatOption, List.length_append]
        omega
    simp only [serCategory, serBool, List.length_append, List.length_cons, List.length_nil] at *
    omega
  have h2 : (serTags cl.tags).length ≤ 10 * listUnits (fun tag : Tag => strUnits tag.name + listUnits (fun _ => 1) tag.products) cl.tags := by
    refine counted_length_le _ _ fun tag _ => ?_
    have a := serStr_length tag.name
    have b := serProductSeq_length tag.products
    simp only [serTag, List.length_append]
    omega
  have h3 : (serOrders o cl.order).length ≤ 10 * listUnits (fun e : Str × List Nat => strUnits e.1 + listUnits (fun _ => 1) e.2) cl.order := by
    refine serMap_length_le _ fun e _ => ?_
    have a := serStr_length e.1
    have b := counted_length_le (ser := serUsize) (f := fun _ => 1) e.2.length e.2 fun v _ => by
      have := serUsize_length v; omega
    simp only [serVec]
    omega
  simp only [serClassic, Classic.units]
  simp only [List.length_append]
  omega

/-! ## What is built is at most proportional to the catalogue -/

/-- Spec: the size of a product of the catalogue: the bytes of all its texts but the price, and one per text. -/
def rawSize (raw : RawProduct) : Nat :=
  strUnits raw.description + strUnits raw.title + strUnits raw.vendor + strUnits raw.id + (raw.tags.map strUnits).sum +
    (raw.options.map fun r => strUnits r.name + (r.values.map strUnits).sum).sum + (raw.media.map strUnits).sum

/-- Spec: the size of a catalogue. -/
def catalogueSize (input : List RawProduct) : Nat := (input.map rawSize).sum

theorem nodup_sum_le {f : α → Nat} [DecidableEq α] : ∀ (l l' : List α), l.Nodup → l ⊆ l' → (l.map f).sum ≤ (l'.map f).sum
  | [], _, _, _ => by simp
  | a :: l, l', h, hs => by
    have ha : a ∈ l' := hs List.mem_cons_self
    have hp := List.perm_cons_erase ha
    rw [(hp.map f).sum_nat]
    have h1 := nodup_sum_le (f := f) l (l'.erase a) (List.nodup_cons.1 h).2 fun b hb => by
      have hne : b ≠ a := fun e => (List.nodup_cons.1 h).1 (e ▸ hb)
      exact (List.mem_erase_of_ne hne).2 (hs (List.mem_cons_of_mem _ hb))
    simp only [List.map_cons, List.sum_cons]
    omega

/-- Units of the tag table. -/
def tagPot (m : AMap Str (List Product)) : Nat := (m.map fun e => strUnits e.1 + listUnits (fun _ => 1) e.2).sum

theorem tagPot_upsert (tag : Str) (p : Product) : ∀ m : AMap Str (List Product),
    tagPot (AMap.upsert m tag (· ++ [p]) [p]) ≤ tagPot m + strUnits tag + 2
  | [] => by simp [AMap.upsert, tagPot, listUnits]
  | (k, v) :: m => by
    have ih := tagPot_upsert tag p m
    simp only [AMap.upsert]
    split
    · simp only [tagPot, List.map_cons, List.sum_cons, units_ones, List.length_append, List.length_cons, List.length_nil]
      omega
    · simp only [tagPot, List.map_cons, List.sum_cons] at *
      omega

theorem strUnits_pos (s : Str) : 1 ≤ strUnits s := by simp [strUnits]

theorem tagPot_product (p : Product) : ∀ (tags : List Str) (m : AMap Str (List Product)),
    tagPot (tagsOfProduct m p tags) ≤ tagPot m + 3 * (tags.map strUnits).sum
  | [], m => by simp [tagsOfProduct]
  | tag :: tags, m => by
    have h1 := tagPot_product p tags (AMap.upsert m tag (· ++ [p]) [p])
    have h2 := tagPot_upsert tag p m
    have h3 := strUnits_pos tag
    simp only [tagsOfProduct, List.foldl_cons, List.map_cons, List.sum_cons] at *
    omega

theorem tagPot_loop (c : Container) : ∀ (l : List (List Str)) (i : Nat) (m m' : AMap Str (List Product)),
    tagsLoop c i l m = .ok m' → tagPot m' ≤ tagPot m + 3 * (l.map fun tags => (tags.map strUnits).sum).sum
  | [], i, m, m', h => by cases h; simp
  | tags :: l, i, m, m', h => by
    obtain ⟨p, _, h⟩ := Res.bind_eq_ok.1 h
    have h1 := tagPot_loop c l (i + 1) _ m' h
    have h2 := tagPot_product p tags m
    simp only [List.map_cons, List.sum_cons]
    omega

theorem tags_units {o : HashOrd} {l : List (List Str)} {c : Container} {tags : List Tag} (h : tagIndex o l c = .ok tags) :
    listUnits (fun tag : Tag => strUnits tag.name + listUnits (fun _ => 1) tag.products) tags ≤
      3 * (l.map fun tags => (tags.map strUnits).sum).sum + 1 := by
  obtain ⟨m, hm, h⟩ := Res.bind_eq_ok.1 h
  simp only [Res.pure_eq, Res.ok.injEq] at h
  have h1 := tagPot_loop c l 0 [] m hm
  have h2 : (tags.map fun tag : Tag => strUnits tag.name + listUnits (fun _ => 1) tag.products) =
      (o.order "tags" m).map fun e => strUnits e.1 + listUnits (fun _ => 1) e.2 := by
    rw [← h]
    apply List.ext_getElem?
    intro i
    simp only [List.getElem?_mapIdx, List.getElem?_map]
    cases (o.order "tags" m)[i]? <;> rfl
  have h3 := ((o.perm "tags" m).map fun e => strUnits e.1 + listUnits (fun _ => 1) e.2).sum_nat
  simp only [listUnits] at *
  rw [h2, h3]
  simp only [tagPot, listUnits, List.map_nil, List.sum_nil] at h1
  omega

/-- Units of the options of one category. -/
def optPot (l : List CatOption) : Nat := (l.map fun op => strUnits op.name + listUnits (fun _ => 1) op.content).sum

theorem optPot_add (o : CatOption) (p : Product) :
    strUnits (o.add p).name + listUnits (fun _ => 1) (o.add p).content ≤ strUnits o.name + listUnits (fun _ => 1) o.content + 1 := by
  simp only [CatOption.add]
  split <;> simp only [units_ones, List.length_append, List.length_cons, List.length_nil] <;> omega

theorem optPot_push (v : Str) (p : Product) (new : CatOption) (hn : new.name = v) (hc : new.content = []) : ∀ l : List CatOption,
    optPot (findOrPush l (fun o => o.name == v) new (fun o => o.add p)) ≤ optPot l + strUnits v + 2
  | [] => by
    have := optPot_add new p
    rw [hn, hc] at this
    simp only [findOrPush, optPot, List.map_cons, List.map_nil, List.sum_cons, List.sum_nil, units_ones, List.length_nil] at *
    omega
  | o :: l => by
    have ih := optPot_push v p new hn hc l
    have := optPot_add o p
    simp only [findOrPush]
    split <;> simp only [optPot, List.map_cons, List.sum_cons] at * <;> omega

theorem optPot_values (p : Product) : ∀ (values : List Str) (st : List CatOption × Nat),
    optPot (addValues p values st).1 ≤ optPot st.1 + 3 * (values.map strUnits).sum
  | [], st => by simp [addValues]
  | v :: values, st => by
    have h1 := optPot_push v p (CatOption.new v st.2) rfl rfl st.1
    have h2 := fun n => optPot_values p values (findOrPush st.1 (fun o => o.name == v) (CatOption.new v st.2) (fun o => o.add p), n)
    have h3 := strUnits_pos v
    simp only [addValues, List.foldl_cons, List.map_cons, List.sum_cons] at *
    have h2 := h2 (if (!st.1.any fun o => o.name == v) = true then st.2 + 1 else st.2)
    omega

/-- Units of the categories. -/
def catPot (l : List Category) : Nat := (l.map fun cat => 1 + strUnits cat.name + (optPot cat.options + 1)).sum

theorem catPot_push (name : Str) (r : List CatOption) (k : Nat) : ∀ l : List Category,
    optPot r ≤ optPot (currentOptions l name) + k →
    catPot (findOrPush l (fun c => c.name == name) (Category.new name) (fun c => { c with options := r })) ≤
      catPot l + strUnits name + 2 + k
  | [], h => by
    simp only [currentOptions, List.find?_nil] at h
    simp only [findOrPush, catPot, Category.new, List.map_cons, List.map_nil, List.sum_cons, List.sum_nil]
    simp only [optPot, List.map_nil, List.sum_nil] at *
    omega
  | cat :: l, h => by
    have ih := catPot_push name r k l
    simp only [findOrPush]
    by_cases hc : (cat.name == name) = true
    · simp only [currentOptions, List.find?_cons, hc] at h
      rw [if_pos hc]
      simp only [catPot, List.map_cons, List.sum_cons]
      omega
    · rw [if_neg hc]
      have e : currentOptions (cat :: l) name = currentOptions l name := by
        simp only [currentOptions, List.find?_cons, hc]
      rw [e] at h
      have := ih h
      simp only [catPot, List.map_cons, List.sum_cons] at *
      omega

theorem catPot_option (p : Product) (st : List Category × Nat) (raw : RawOption) :
    catPot (addOption p st raw).1 ≤ catPot st.1 + 3 * (strUnits raw.name + (raw.values.map strUnits).sum) := by
  have h1 := optPot_values p raw.values (currentOptions st.1 raw.name, st.2)
  have h2 := catPot_push raw.name (addValues p raw.values (currentOptions st.1 raw.name, st.2)).1 _ st.1 h1
  have h3 := strUnits_pos raw.name
  simp only [addOption]
  omega

theorem catPot_options (p : Product) : ∀ (raws : List RawOption) (st : List Category × Nat),
    catPot (raws.foldl (addOption p) st).1 ≤
      catPot st.1 + 3 * (raws.map fun r => strUnits r.name + (r.values.map strUnits).sum).sum
  | [], st => by simp
  | r :: raws, st => by
    have h1 := catPot_options p raws (addOption p st r)
    have h2 := catPot_option p st r
    simp only [List.foldl_cons, List.map_cons, List.sum_cons]
    omega

theorem catPot_loop (c : Container) : ∀ (l : List (List RawOption)) (i : Nat) (st : List Category × Nat) (cats : List Category),
    categoriesLoop c i l st = .ok cats →
    catPot cats ≤ catPot st.1 + 3 * (l.map fun raws => (raws.map fun r => strUnits r.name + (r.values.map strUnits).sum).sum).sum
  | [], i, st, cats, h => by cases h; simp
  | raws :: l, i, st, cats, h => by
    obtain ⟨p, _, h⟩ := Res.bind_eq_ok.1 h
    have h1 := catPot_loop c l (i + 1) _ cats h
    have h2 := catPot_options p raws st
    simp only [List.map_cons, List.sum_cons]
    omega

theorem extra_units {extra : FeatureSet} {images : List Str} {prices : List F32} (h : ColumnsAre extra images prices) :
    listUnits (fun e : Str × Feature => strUnits e.1 + e.2.units) extra ≤ (images.map strUnits).sum + 4 * prices.length + 19 ∧
    extra.length ≤ 2 := by
  have hmem : ∀ e ∈ extra, e ∈ [(imageUrlKey, Feature.string images), (priceKey, Feature.float prices)] := by
    intro e he
    have hg := AMap.get_of_mem (k := e.1) (v := e.2) h.wf he
    by_cases h1 : e.1 = imageUrlKey
    · rw [h1, h.images] at hg
      split at hg
      · cases hg
      · simp only [Option.some.injEq] at hg
        have e' : e = (imageUrlKey, Feature.string images) := Prod.ext h1 hg.symm
        simp [e']
    · by_cases h2 : e.1 = priceKey
      · rw [h2, h.prices] at hg
        split at hg
        · cases hg
        · simp only [Option.some.injEq] at hg
          have e' : e = (priceKey, Feature.float prices) := Prod.ext h2 hg.symm
          simp [e']
      · rw [h.other _ h1 h2] at hg; cases hg
  have hnd : extra.Nodup := by
    have := h.wf
    rw [AMap.Wf, List.Nodup, List.pairwise_map] at this
    exact this.imp fun h e => h (by rw [e])
  have hfloat : ∀ l : List F32, (l.map fun _ => 4).sum = 4 * l.length := by
    intro l
    induction l with
    | nil => rfl
    | cons a l ih => simp only [List.map_cons, List.sum_cons, List.length_cons, ih]; omega
  constructor
  · have hs : (extra.map fun e : Str × Feature => strUnits e.1 + e.2.units).sum ≤
        (([(imageUrlKey, Feature.string images), (priceKey, Feature.float prices)] : List (Str × Feature)).map
          fun e => strUnits e.1 + e.2.units).sum := by
      have hk : ∀ (l l' : List (Str × Feature)), l.Nodup → l ⊆ l' →
          (l.map fun e => strUnits e.1 + e.2.units).sum ≤ (l'.map fun e => strUnits e.1 + e.2.units).sum := by
        classical exact fun l l' => nodup_sum_le l l'
      exact hk _ _ hnd hmem
    have k1 : strUnits imageUrlKey = 10 := by decide
    have k2 : strUnits priceKey = 6 := by decide
    simp only [List.map_cons, List.map_nil, List.sum_cons, List.sum_nil, Feature.units, listUnits, hfloat, k1, k2] at hs ⊢
    omega
  · exact hnd.length_le_of_subset hmem

theorem sum_map_add {f g : α → Nat} (l : List α) : (l.map fun a => f a + g a).sum = (l.map f).sum + (l.map g).sum := by
  induction l with
  | nil => rfl
  | cons a l ih => simp only [List.map_cons, List.sum_cons, ih]; omega

theorem sum_map_mul {f : α → Nat} (k : Nat) (l : List α) : (l.map fun a => k * f a).sum = k * (l.map f).sum := by
  induction l with
  | nil => simp
  | cons a l ih => simp only [List.map_cons, List.sum_cons, ih, Nat.mul_add]

theorem sum_map_one (l : List α) (k : Nat) : (l.map fun _ => k).sum = k * l.length := by
  induction l with
  | nil => simp
  | cons a l ih => simp only [List.map_cons, List.sum_cons, List.length_cons, ih, Nat.mul_add]; omega

theorem images_sum (input : List RawProduct) :
    ((imagesOf input).map strUnits).sum ≤ (input.map fun raw => (raw.media.map strUnits).sum).sum := by
  induction input with
  | nil => simp [imagesOf]
  | cons raw input ih =>
    simp only [imagesOf, List.filterMap_cons] at *
    cases hm : raw.media with
    | nil => simp only [List.head?_nil, List.map_cons, List.sum_cons, hm, List.map_nil, List.sum_nil]; omega
    | cons u us => simp only [List.head?_cons, List.map_cons, List.sum_cons, hm]; omega

theorem node_units (m : GramNode Char) : m.units = 6 * m.nodes := by
  refine GramNode.depth_induct (motive := fun m => m.units = 6 * m.nodes) ?_ m
  intro i w l ih
  rw [GramNode.units_mk, GramNode.nodes_mk, listUnits, List.map_congr_left ih, sum_map_mul]
  omega

theorem nodes_pos (m : GramNode Char) : 1 ≤ m.nodes := by
  cases m
  rw [GramNode.nodes_mk]; omega

/-- A catalogue is written to a file of at most `50 S + (80 N + 30) L + 1000` bytes, where `S` is the number of bytes of all
its texts and one per text, and `L` the number of characters of all descriptions, titles and vendor names in lower case. -/
theorem C82 {t : Target} {o o' : HashOrd} {lower : Char → List Char} {parse : Str → Option F32} {n : Nat}
    {input : List RawProduct} {ix : GramIndex Char} {cl : Classic} (hn : 1 ≤ n)
    (h : buildAll t o lower parse n input = .ok (ix, cl)) :
    (serializeAll o' ix cl).length ≤ 50 * catalogueSize input + (80 * n + 30) * totalChars lower input + 1000 := by
  have hnodes := C80_nodes_le hn h
  have hpost := C80_postings hn h
  obtain ⟨prices, b⟩ := (builtAll_of_ok h).built
  have hopt : ∃ c, optimize o parse input = .ok (c, cl) ∧ ix.container = c := by
    unfold buildAll at h
    obtain ⟨⟨c, cl'⟩, h1, h2⟩ := Res.bind_eq_ok.1 h
    simp only [Res.pure_eq, Res.ok.injEq, Prod.mk.injEq] at h2
    obtain ⟨rfl, rfl⟩ := h2
    exact ⟨c, h1, rfl⟩
  obtain ⟨c, hopt, hc⟩ := hopt
  have hp : prices.length = input.length := by
    have := congrArg List.length b.parsed
    simpa using this.symm
  -- vendors
  have hv : (ix.container.vendors.byId.map fun v => strUnits v.name).sum ≤ (input.map fun raw => strUnits raw.vendor).sum := by
    have := nodup_sum_le (f := strUnits) (ix.container.vendors.byId.map (·.name)) (input.map (·.vendor)) b.vendorInv.nodup
      fun name hname => by
        obtain ⟨raw, hr, e⟩ := (b.vendorNames name).1 hname
        exact List.mem_map.2 ⟨raw, hr, e⟩
    simpa only [List.map_map, Function.comp_def] using this
  -- products
  have hprod : (ix.container.products.map Product.units).sum =
      (input.map fun raw => strUnits raw.description + strUnits raw.title + strUnits raw.id + 1).sum := by
    congr 1
    rw [b.products]
    apply List.ext_getElem?
    intro i
    simp only [List.getElem?_map, List.getElem?_mapIdx]
    cases input[i]? <;> rfl
  -- columns
  obtain ⟨hextra, hextra2⟩ := extra_units b.columns
  have himg := images_sum input
  -- trees
  have hroots : listUnits (fun e : Char × GramNode Char => 1 + e.2.units) ix.roots ≤ 7 * (n * totalChars lower input) + 1 := by
    have : (ix.roots.map fun e : Char × GramNode Char => 1 + e.2.units).sum ≤ (ix.roots.map fun e => 7 * e.2.nodes).sum :=
      sum_le_sum _ fun e _ => by
        have := node_units e.2
        have := nodes_pos e.2
        omega
    rw [sum_map_mul] at this
    simp only [listUnits]
    omega
  -- posting lists
  have hdata : listUnits (fun e : List Char × List Product => listUnits (fun _ => 1) e.1 + listUnits (fun _ => 1) e.2) ix.data ≤
      (n + 3) * totalChars lower input + 1 := by
    have hlen : ∀ e ∈ ix.data, e.1.length = n := fun e he => ((gramWf_of_built hn h).grams e he).1
    have h1 : (ix.data.map fun e : List Char × List Product => listUnits (fun _ => 1) e.1 + listUnits (fun _ => 1) e.2).sum ≤
        (ix.data.map fun e => (n + 3) * e.2.length).sum := by
      refine sum_le_sum _ fun e he => ?_
      have a := hlen e he
      have b : 1 ≤ e.2.length := List.length_pos_iff.2 (hpost.2 e he)
      rw [units_ones, units_ones, a]
      have : (n + 3) * e.2.length = (n + 2) * e.2.length + e.2.length := by rw [← Nat.succ_mul]
      have : n + 2 ≤ (n + 2) * e.2.length := Nat.le_mul_of_pos_right _ b
      omega
    rw [sum_map_mul] at h1
    have := Nat.mul_le_mul_left (n + 3) hpost.1
    simp only [listUnits]
    simp only [listUnits] at h1
    omega
  -- tags, categories, orders
  unfold optimize at hopt
  obtain ⟨⟨products, extra⟩, hpl, hopt⟩ := Res.bind_eq_ok.1 hopt
  simp only at hopt
  obtain ⟨tags, htags, hopt⟩ := Res.bind_eq_ok.1 hopt
  obtain ⟨order, horder, hopt⟩ := Res.bind_eq_ok.1 hopt
  obtain ⟨cats, hcats, hopt⟩ := Res.bind_eq_ok.1 hopt
  simp only [Res.pure_eq, Res.ok.injEq, Prod.mk.injEq] at hopt
  obtain ⟨_, hcl⟩ := hopt
  have ht := tags_units htags
  have hk := catPot_loop _ _ _ _ _ hcats
  rw [List.map_map] at ht hk
  have hk' : listUnits (fun cat : Category => 1 + strUnits cat.name +
      listUnits (fun op : CatOption => strUnits op.name + listUnits (fun _ => 1) op.content) cat.options) cats = catPot cats + 1 := rfl
  have ho : listUnits (fun e : Str × List Nat => strUnits e.1 + listUnits (fun _ => 1) e.2) cl.order = 3 * input.length + 53 := by
    obtain ⟨r1, r2, r3, e, _, _, _, hr⟩ := b.orders
    have l1 := (hr r1 (by simp)).length_eq
    have l2 := (hr r2 (by simp)).length_eq
    have l3 := (hr r3 (by simp)).length_eq
    rw [List.length_range] at l1 l2 l3
    have e' : cl.order = [(alphabeticalKey, r1), (priceLowKey, r2), (priceHighKey, r3)] := by
      rw [e]
      have n1 : alphabeticalKey ≠ priceLowKey := by decide
      have n2 : alphabeticalKey ≠ priceHighKey := by decide
      have n3 : priceLowKey ≠ priceHighKey := by decide
      simp [AMap.insert, AMap.upsert, n1, n2, n3]
    have k1 : strUnits alphabeticalKey = 13 := by decide
    have k2 : strUnits priceLowKey = 18 := by decide
    have k3 : strUnits priceHighKey = 18 := by decide
    rw [e']
    rw [listUnits]
    simp only [List.map_cons, List.map_nil, List.sum_cons, List.sum_nil, units_ones, k1, k2, k3, l1, l2, l3]
    omega
  have hsize : catalogueSize input =
      (input.map fun raw => strUnits raw.description).sum + (input.map fun raw => strUnits raw.title).sum +
      (input.map fun raw => strUnits raw.vendor).sum + (input.map fun raw => strUnits raw.id).sum +
      (input.map fun raw => (raw.tags.map strUnits).sum).sum +
      (input.map fun raw => (raw.options.map fun r => strUnits r.name + (r.values.map strUnits).sum).sum).sum +
      (input.map fun raw => (raw.media.map strUnits).sum).sum := by
    have e : catalogueSize input = (input.map fun raw => strUnits raw.description + strUnits raw.title + strUnits raw.vendor +
      strUnits raw.id + (raw.tags.map strUnits).sum +
      (raw.options.map fun r => strUnits r.name + (r.values.map strUnits).sum).sum + (raw.media.map strUnits).sum).sum := rfl
    rw [e, sum_map_add, sum_map_add, sum_map_add, sum_map_add, sum_map_add, sum_map_add]
  have hpos : 4 * input.length ≤ (input.map fun raw => strUnits raw.description).sum + (input.map fun raw => strUnits raw.title).sum +
      (input.map fun raw => strUnits raw.vendor).sum + (input.map fun raw => strUnits raw.id).sum := by
    rw [← sum_map_add, ← sum_map_add, ← sum_map_add, ← sum_map_one]
    refine sum_le_sum _ fun raw _ => ?_
    have := strUnits_pos raw.description
    have := strUnits_pos raw.title
    have := strUnits_pos raw.vendor
    have := strUnits_pos raw.id
    omega
  have hfile : (serializeAll o' ix cl).length ≤ 10 * (ix.units + cl.units) + 2 := by
    have h1 := serGramIndex_length (o := o') (ix := ix) b.vendorInv
    have h2 := serClassic_length (o := o') cl
    rw [serializeAll, List.length_append]
    omega
  have hu1 : ix.container.units ≤ (input.map fun raw => strUnits raw.vendor).sum + 1 +
      ((input.map fun raw => strUnits raw.description).sum + (input.map fun raw => strUnits raw.title).sum +
        (input.map fun raw => strUnits raw.id).sum + input.length + 1) +
      ((input.map fun raw => (raw.media.map strUnits).sum).sum + 4 * input.length + 19) := by
    simp only [sum_map_add, sum_map_one] at hprod
    rw [hp] at hextra
    have h1 : listUnits (fun v : Vendor => strUnits v.name) ix.container.vendors.byId =
      (ix.container.vendors.byId.map fun v => strUnits v.name).sum + 1 := rfl
    have h2 : listUnits Product.units ix.container.products = (ix.container.products.map Product.units).sum + 1 := rfl
    simp only [Container.units]
    omega
  have hu2 : cl.units ≤ 3 * (input.map fun raw => (raw.options.map fun r => strUnits r.name + (r.values.map strUnits).sum).sum).sum + 1 +
      (3 * (input.map fun raw => (raw.tags.map strUnits).sum).sum + 1) + (3 * input.length + 53) := by
    have e1 : cl.categories = cats := by rw [← hcl]
    have e2 : cl.tags = tags := by rw [← hcl]
    simp only [Classic.units]
    rw [ho, e1, e2, hk']
    have e0 : catPot (([], 0) : List Category × Nat).1 = 0 := rfl
    rw [e0] at hk
    simp only [Function.comp_def] at ht hk
    omega
  have hu3 : ix.units ≤ ix.container.units + (7 * (n * totalChars lower input) + 1) + ((n + 3) * totalChars lower input + 1) := by
    simp only [GramIndex.units]
    omega
  have hm : (80 * n + 30) * totalChars lower input = 80 * (n * totalChars lower input) + 30 * totalChars lower input := by
    rw [Nat.add_mul, Nat.mul_assoc]
  have hm' : (n + 3) * totalChars lower input = n * totalChars lower input + 3 * totalChars lower input := Nat.add_mul _ _ _
  omega

/-- The hypothesis of `C82` is met by the catalogue of C80, where the bound is 2000 or less. -/
example : ∃ ix cl, buildAll .debug64 .ident (fun c => [c]) parseOne 2 aba = .ok (ix, cl) ∧
    50 * catalogueSize aba + (80 * 2 + 30) * totalChars (fun c => [c]) aba + 1000 ≤ 2000 := by
  obtain ⟨ix, cl, h⟩ := buildAll_ok .debug64 .ident (fun c => [c]) parseOne 2 aba [F32.one] rfl
  exact ⟨ix, cl, h, by decide +kernel⟩

end Idx
