import Verif.Lemmas.Vendor
import Verif.Model.RawParser
/-! Lemmas about `optimize`: products, feature columns, tags, categories. -/
namespace Idx

/-! ## Vendors -/

theorem foldl_insert_inv (input : List RawProduct) : ∀ (m : VendorManager), m.Inv →
    (input.foldl (fun m raw => m.insert raw.vendor) m).Inv ∧
    ∀ name, name ∈ (input.foldl (fun m raw => m.insert raw.vendor) m).byId.map (·.name) ↔
      name ∈ m.byId.map (·.name) ∨ ∃ raw ∈ input, raw.vendor = name := by
  induction input with
  | nil => intro m h; exact ⟨h, by simp⟩
  | cons raw rest ih =>
    intro m h
    obtain ⟨hi, hb⟩ := h.insert raw.vendor
    obtain ⟨h1, h2⟩ := ih _ hi
    refine ⟨h1, fun name => ?_⟩
    rw [List.foldl_cons, h2 name, hb]
    by_cases hm : raw.vendor ∈ m.byId.map (·.name)
    · rw [if_pos hm]
      constructor
      · rintro (h | ⟨r, hr, e⟩)
        · exact .inl h
        · exact .inr ⟨r, by simp [hr], e⟩
      · rintro (h | ⟨r, hr, e⟩)
        · exact .inl h
        · rcases List.mem_cons.1 hr with rfl | hr
          · exact .inl (e ▸ hm)
          · exact .inr ⟨r, hr, e⟩
    · rw [if_neg hm]
      simp only [List.map_append, List.mem_append, List.map_cons, List.map_nil, List.mem_singleton]
      constructor
      · rintro ((h | h) | ⟨r, hr, e⟩)
        · exact .inl h
        · exact .inr ⟨raw, by simp, h.symm⟩
        · exact .inr ⟨r, by simp [hr], e⟩
      · rintro (h | ⟨r, hr, e⟩)
        · exact .inl (.inl h)
        · rcases List.mem_cons.1 hr with rfl | hr
          · exact .inl (.inr e.symm)
          · exact .inr ⟨r, hr, e⟩

/-! ## Products and columns -/

/-- The columns hold exactly these images and prices. -/
structure ColumnsAre (extra : FeatureSet) (images : List Str) (prices : List F32) : Prop where
  wf : AMap.Wf extra
  images : AMap.get extra imageUrlKey = if images = [] then none else some (.string images)
  prices : AMap.get extra priceKey = if prices = [] then none else some (.float prices)
  other : ∀ k, k ≠ imageUrlKey → k ≠ priceKey → AMap.get extra k = none

theorem imageUrlKey_ne_priceKey : imageUrlKey ≠ priceKey := by decide

theorem ColumnsAre.nil : ColumnsAre [] [] [] := ⟨AMap.Wf.nil, rfl, rfl, fun _ _ _ => rfl⟩

theorem ColumnsAre.addImage {e : FeatureSet} {im pr} (h : ColumnsAre e im pr) (url : Str) :
    ∃ e', FeatureSet.addString e imageUrlKey url = .ok e' ∧ ColumnsAre e' (im ++ [url]) pr := by
  have hne := imageUrlKey_ne_priceKey
  have key : ∃ e', FeatureSet.addString e imageUrlKey url = .ok e' ∧
      e' = AMap.insert e imageUrlKey (.string (im ++ [url])) := by
    unfold FeatureSet.addString
    rw [h.images]
    by_cases hi : im = []
    · subst hi; exact ⟨_, rfl, rfl⟩
    · rw [if_neg hi]; exact ⟨_, rfl, rfl⟩
  obtain ⟨e', h1, rfl⟩ := key
  refine ⟨_, h1, h.wf.insert _ _, ?_, ?_, ?_⟩
  · rw [AMap.get_insert]; simp
  · rw [AMap.get_insert, if_neg hne, h.prices]
  · intro k h1 h2; rw [AMap.get_insert, if_neg (Ne.symm h1), h.other k h1 h2]

theorem ColumnsAre.addPrice {e : FeatureSet} {im pr} (h : ColumnsAre e im pr) (x : F32) :
    ∃ e', FeatureSet.addFloat e priceKey x = .ok e' ∧ ColumnsAre e' im (pr ++ [x]) := by
  have hne := imageUrlKey_ne_priceKey
  have key : ∃ e', FeatureSet.addFloat e priceKey x = .ok e' ∧
      e' = AMap.insert e priceKey (.float (pr ++ [x])) := by
    unfold FeatureSet.addFloat
    rw [h.prices]
    by_cases hi : pr = []
    · subst hi; exact ⟨_, rfl, rfl⟩
    · rw [if_neg hi]; exact ⟨_, rfl, rfl⟩
  obtain ⟨e', h1, rfl⟩ := key
  refine ⟨_, h1, h.wf.insert _ _, ?_, ?_, ?_⟩
  · rw [AMap.get_insert, if_neg (Ne.symm hne), h.images]
  · rw [AMap.get_insert]; simp
  · intro k h1 h2; rw [AMap.get_insert, if_neg (Ne.symm h2), h.other k h1 h2]

theorem ColumnsAre.addMedia {e : FeatureSet} {im pr} (h : ColumnsAre e im pr) (raw : RawProduct) :
    ∃ e1, addStrings e (mediaStrings raw) = .ok e1 ∧ ColumnsAre e1 (im ++ raw.media.head?.toList) pr := by
  unfold mediaStrings
  cases hm : raw.media with
  | nil => exact ⟨e, rfl, by simpa using h⟩
  | cons url _ =>
    obtain ⟨e1, h1, h2⟩ := h.addImage url
    exact ⟨e1, by simp [AMap.insert, AMap.upsert, addStrings, h1], by simpa using h2⟩

/-- The product made of the `i`-th input (dummy vendor when the table lacks it). -/
def productOf (vendors : VendorManager) (raw : RawProduct) (i : Nat) : Product :=
  { description := raw.description, title := raw.title,
    vendor := (vendors.get raw.vendor).getD ⟨[], 0⟩, id := raw.id, sid := i }

/-- First urls of the inputs that have media. -/
def imagesOf (input : List RawProduct) : List Str := input.filterMap (·.media.head?)

theorem productsLoop_ok {parse : Str → Option F32} {vendors : VendorManager} (input : List RawProduct) :
    ∀ (i : Nat) (ps : List Product) (e : FeatureSet) (im : List Str) (pr prices : List F32),
    ColumnsAre e im pr → (∀ raw ∈ input, (vendors.get raw.vendor).isSome) →
    input.map (fun raw => parse raw.price.min.amount) = prices.map some →
    ∃ e', productsLoop parse vendors i input (ps, e) =
        .ok (ps ++ input.mapIdx (fun j raw => productOf vendors raw (i + j)), e') ∧
      ColumnsAre e' (im ++ imagesOf input) (pr ++ prices) := by
  induction input with
  | nil =>
    intro i ps e im pr prices h _ hp
    have : prices = [] := by simpa using hp.symm
    subst this
    exact ⟨e, by simp [productsLoop], by simpa [imagesOf] using h⟩
  | cons raw rest ih =>
    intro i ps e im pr prices h hv hp
    rcases prices with _ | ⟨x, prices⟩
    · simp at hp
    simp only [List.map_cons, List.cons.injEq] at hp
    obtain ⟨hx, hp⟩ := hp
    obtain ⟨v, hvv⟩ := Option.isSome_iff_exists.1 (hv raw (by simp))
    obtain ⟨e1, he1, hc1⟩ := h.addMedia raw
    obtain ⟨e2, he2, hc2⟩ := hc1.addPrice x
    obtain ⟨e3, he3, hc3⟩ := ih (i + 1) (ps ++ [productOf vendors raw i]) e2 _ _ prices hc2
      (fun r hr => hv r (by simp [hr])) hp
    refine ⟨e3, ?_, ?_⟩
    · rw [productsLoop]
      simp only [toIntermediate, hx, Res.unwrapOption_some, Res.bind_ok, Res.pure_eq, hvv, he1]
      simp only [AMap.insert, AMap.upsert, addFloats, he2, Res.bind_ok]
      have hpo : (⟨raw.description, raw.title, v, raw.id, i⟩ : Product) = productOf vendors raw i := by
        simp [productOf, hvv]
      rw [hpo, he3]
      simp only [List.mapIdx_cons, List.append_assoc, List.singleton_append, Nat.add_zero]
      congr 6
      funext j raw; congr 1; omega
    · have e1 : imagesOf (raw :: rest) = raw.media.head?.toList ++ imagesOf rest := by
        unfold imagesOf
        rw [List.filterMap_cons]
        cases raw.media.head? <;> simp
      rw [e1]
      simpa [List.append_assoc] using hc3

/-- With an unparsable price the loop panics. -/
theorem productsLoop_panic {parse : Str → Option F32} {vendors : VendorManager} (input : List RawProduct) :
    ∀ (i : Nat) (ps : List Product) (e : FeatureSet) (im : List Str) (pr : List F32),
    ColumnsAre e im pr → (∀ raw ∈ input, (vendors.get raw.vendor).isSome) →
    (∃ raw ∈ input, parse raw.price.min.amount = none) →
    productsLoop parse vendors i input (ps, e) = .panic .unwrapNone := by
  induction input with
  | nil => intro i ps e im pr _ _ h; simp at h
  | cons raw rest ih =>
    intro i ps e im pr h hv hex
    rw [productsLoop]
    cases hx : parse raw.price.min.amount with
    | none => simp [toIntermediate, hx]
    | some x =>
      obtain ⟨v, hvv⟩ := Option.isSome_iff_exists.1 (hv raw (by simp))
      obtain ⟨e1, he1, hc1⟩ := h.addMedia raw
      obtain ⟨e2, he2, hc2⟩ := hc1.addPrice x
      have hex' : ∃ raw ∈ rest, parse raw.price.min.amount = none := by
        obtain ⟨r, hr, he⟩ := hex
        rcases List.mem_cons.1 hr with rfl | hr
        · rw [hx] at he; simp at he
        · exact ⟨r, hr, he⟩
      simp only [toIntermediate, hx, Res.unwrapOption_some, Res.bind_ok, Res.pure_eq, hvv, he1]
      simp only [AMap.insert, AMap.upsert, addFloats, he2, Res.bind_ok]
      exact ih (i + 1) _ e2 _ _ hc2 (fun r hr => hv r (by simp [hr])) hex'

/-! ## Tags -/

/-- What the tag map holds after some (product, tags) pairs: each product once per mention. -/
def mentions (done : List (Product × List Str)) (name : Str) : List Product :=
  done.flatMap fun e => List.replicate (e.2.count name) e.1

theorem mentions_eq_nil {done : List (Product × List Str)} {name : Str} :
    mentions done name = [] ↔ ∀ e ∈ done, name ∉ e.2 := by
  simp [mentions, List.flatMap_eq_nil_iff, List.replicate_eq_nil_iff, List.count_eq_zero]

structure TagMapIs (m : AMap Str (List Product)) (spec : Str → List Product) : Prop where
  wf : AMap.Wf m
  get : ∀ k, AMap.get m k = if spec k = [] then none else some (spec k)

theorem tagsOfProduct_is (p : Product) (tags : List Str) : ∀ (m : AMap Str (List Product))
    (spec : Str → List Product), TagMapIs m spec →
    TagMapIs (tagsOfProduct m p tags) (fun k => spec k ++ List.replicate (tags.count k) p) := by
  induction tags with
  | nil => intro m spec h; simpa [tagsOfProduct] using h
  | cons t tags ih =>
    intro m spec h
    have h1 : TagMapIs (AMap.upsert m t (· ++ [p]) [p])
        (fun k => spec k ++ if t = k then [p] else []) := by
      refine ⟨h.wf.upsert _ _ _, fun k => ?_⟩
      rw [AMap.get_upsert]
      by_cases hk : t = k
      · subst hk
        rw [h.get]
        by_cases hs : spec t = [] <;> simp [hs]
      · simp [hk, h.get]
    have h2 := ih _ _ h1
    have : (fun k => spec k ++ List.replicate ((t :: tags).count k) p) =
        fun k => (spec k ++ if t = k then [p] else []) ++ List.replicate (tags.count k) p := by
      funext k
      rw [List.count_cons]
      by_cases hk : t = k
      · subst hk
        simp [List.replicate_succ]
      · simp [hk]
    rw [this]
    exact h2

theorem tagsLoop_is (c : Container) (rest : List (List Str)) : ∀ (id : Nat)
    (m : AMap Str (List Product)) (done : List (Product × List Str)),
    TagMapIs m (mentions done) → id + rest.length ≤ c.products.length →
    ∃ m', tagsLoop c id rest m = .ok m' ∧
      TagMapIs m' (mentions (done ++ (c.products.drop id).zip rest)) := by
  induction rest with
  | nil => intro id m done h _; exact ⟨m, rfl, by simpa using h⟩
  | cons tags rest ih =>
    intro id m done h hl
    have hid : id < c.products.length := by simp at hl; omega
    have hidx : c.products[id]? = some c.products[id] := List.getElem?_eq_getElem hid
    have h1 := tagsOfProduct_is c.products[id] tags m _ h
    have h2 : TagMapIs (tagsOfProduct m c.products[id] tags) (mentions (done ++ [(c.products[id], tags)])) := by
      have : mentions (done ++ [(c.products[id], tags)]) =
          fun k => mentions done k ++ List.replicate (tags.count k) c.products[id] := by
        funext k; simp [mentions]
      rw [this]; exact h1
    obtain ⟨m', e, h3⟩ := ih (id + 1) _ _ h2 (by simp at hl; omega)
    refine ⟨m', ?_, ?_⟩
    · rw [tagsLoop, Res.index, hidx]; exact e
    · rw [List.drop_eq_getElem_cons hid]
      simpa only [List.zip_cons_cons, List.append_assoc, List.singleton_append] using h3

/-! ## Categories -/

/-- Lookup by name. -/
def byName (name : α → Str) (l : List α) (k : Str) : Option α := l.find? fun a => name a == k

theorem byName_findOrPush {name : α → Str} {k : Str} {new : α} {f : α → α} (hnew : name (f new) = k)
    (hf : ∀ a, name a = k → name (f a) = k) (l : List α) (k' : Str) :
    byName name (findOrPush l (fun a => name a == k) new f) k' =
      if k = k' then some (f ((byName name l k).getD new)) else byName name l k' := by
  induction l with
  | nil =>
    simp only [findOrPush, byName, List.find?_cons, List.find?_nil, hnew]
    by_cases h : k = k'
    · simp [h]
    · have : (k == k') = false := by simpa using h
      simp [this, h]
  | cons a as ih =>
    simp only [findOrPush]
    by_cases ha : name a = k
    · simp only [ha, BEq.rfl, if_true, byName, List.find?_cons, hf a ha]
      by_cases h : k = k'
      · simp [h]
      · have : (k == k') = false := by simpa using h
        simp [this, h]
    · have ha' : (name a == k) = false := by simpa using ha
      simp only [ha', Bool.false_eq_true, if_false]
      simp only [byName, List.find?_cons, ha'] at ih ⊢
      by_cases h' : name a = k'
      · have : k ≠ k' := fun e => ha (h'.trans e.symm)
        simp [h', this]
      · have : (name a == k') = false := by simpa using h'
        simp only [this]
        exact ih

theorem names_findOrPush {name : α → Str} {k : Str} {new : α} {f : α → α} (hnew : name (f new) = k)
    (hf : ∀ a, name a = k → name (f a) = k) (l : List α) :
    (findOrPush l (fun a => name a == k) new f).map name =
      if k ∈ l.map name then l.map name else l.map name ++ [k] := by
  induction l with
  | nil => simp [findOrPush, hnew]
  | cons a as ih =>
    simp only [findOrPush]
    by_cases ha : name a = k
    · simp [ha, hf a ha]
    · have ha' : (name a == k) = false := by simpa using ha
      simp only [ha', Bool.false_eq_true, if_false, List.map_cons, ih]
      by_cases hk : k ∈ as.map name
      · simp [hk]
      · have : k ∉ name a :: as.map name := by
          simp only [List.mem_cons, not_or]; exact ⟨fun h => ha h.symm, hk⟩
        rw [if_neg hk, if_neg this]; rfl

theorem names_nodup_findOrPush {name : α → Str} {k : Str} {new : α} {f : α → α} (hnew : name (f new) = k)
    (hf : ∀ a, name a = k → name (f a) = k) {l : List α} (h : (l.map name).Nodup) :
    ((findOrPush l (fun a => name a == k) new f).map name).Nodup := by
  rw [names_findOrPush hnew hf]
  split
  · exact h
  · rename_i hk
    rw [List.nodup_append]
    exact ⟨h, by simp, by rintro a ha b hb rfl; simp at hb; exact hk (hb ▸ ha)⟩

theorem byName_eq_none {name : α → Str} {l : List α} {k : Str} : byName name l k = none ↔ k ∉ l.map name := by
  simp [byName]

theorem byName_some {name : α → Str} {l : List α} {k : Str} {a : α} (h : byName name l k = some a) :
    a ∈ l ∧ name a = k := by
  refine ⟨List.mem_of_find?_eq_some h, ?_⟩
  simpa using List.find?_some h

theorem byName_of_mem {name : α → Str} {l : List α} (hn : (l.map name).Nodup) {a : α} (ha : a ∈ l) :
    byName name l (name a) = some a := by
  induction l with
  | nil => simp at ha
  | cons b l ih =>
    simp only [List.map_cons, List.nodup_cons] at hn
    simp only [byName, List.find?_cons]
    rcases List.mem_cons.1 ha with rfl | ha
    · simp
    · have : name b ≠ name a := fun e => hn.1 (e ▸ List.mem_map_of_mem ha)
      have : (name b == name a) = false := by simpa using this
      simp only [this]
      exact ih hn.2 ha

/-- `add` several products. -/
def addAll (o : CatOption) (ps : List Product) : CatOption := ps.foldl CatOption.add o

@[simp] theorem CatOption.add_name (o : CatOption) (p : Product) : (o.add p).name = o.name := by
  unfold CatOption.add; split <;> rfl

theorem CatOption.add_add (o : CatOption) (p : Product) : (o.add p).add p = o.add p := by
  unfold CatOption.add
  by_cases h : p.sid ∈ o.ids <;> simp [h]

theorem addAll_name (ps : List Product) : ∀ (o : CatOption), (addAll o ps).name = o.name := by
  induction ps with
  | nil => intro o; rfl
  | cons p ps ih => intro o; rw [addAll, List.foldl_cons]; exact (ih (o.add p)).trans (by simp)

/-- The products of the events giving value `v` for category `cn`. -/
def givers (done : List (Product × RawOption)) (cn v : Str) : List Product :=
  (done.filter fun e => e.2.name == cn && e.2.values.contains v).map (·.1)

/-- Options of one category: duplicate-free names, and what each holds. -/
structure OptionsAre (opts : List CatOption) (spec : Str → List Product) : Prop where
  nodup : (opts.map (·.name)).Nodup
  none : ∀ v, v ∉ opts.map (·.name) → spec v = []
  some : ∀ o ∈ opts, spec o.name ≠ [] ∧ ∃ sid, o = addAll (CatOption.new o.name sid) (spec o.name)

theorem addValues_is (p : Product) (values : List Str) : ∀ (opts : List CatOption) (n : Nat)
    (spec : Str → List Product) (seen : List Str),
    OptionsAre opts (fun v => spec v ++ if v ∈ seen then [p] else []) →
    OptionsAre (addValues p values (opts, n)).1
      (fun v => spec v ++ if v ∈ seen ∨ v ∈ values then [p] else []) := by
  induction values with
  | nil => intro opts n spec seen h; simpa [addValues] using h
  | cons v vs ih =>
    intro opts n spec seen h
    have hf : ∀ a : CatOption, a.name = v → (a.add p).name = v := by intro a ha; simpa using ha
    have hnew : ((CatOption.new v n).add p).name = v := by simp [CatOption.new]
    have step : OptionsAre (findOrPush opts (fun o => o.name == v) (CatOption.new v n) (fun o => o.add p))
        (fun w => spec w ++ if w ∈ v :: seen then [p] else []) := by
      have hnd := names_nodup_findOrPush (name := CatOption.name) (f := fun o => o.add p) hnew hf h.nodup
      refine ⟨hnd, ?_, ?_⟩
      · intro w hw
        have hmem := names_findOrPush (name := CatOption.name) (f := fun o => o.add p) hnew hf opts
        rw [hmem] at hw
        by_cases hv : v ∈ opts.map (·.name)
        · rw [if_pos hv] at hw
          have := h.none w hw
          have hne : w ≠ v := fun e => hw (e ▸ hv)
          simpa [hne] using this
        · rw [if_neg hv] at hw
          simp only [List.mem_append, List.mem_singleton, not_or] at hw
          have := h.none w hw.1
          simpa [hw.2] using this
      · intro o ho
        have hb := byName_of_mem hnd ho
        rw [byName_findOrPush (name := CatOption.name) (f := fun o => o.add p) hnew hf] at hb
        by_cases hk : v = o.name
        · rw [if_pos hk] at hb
          have hb := (Option.some.inj hb)
          rw [← hk]
          refine ⟨by simp, ?_⟩
          cases hg : byName CatOption.name opts v with
          | none =>
            rw [hg] at hb
            rw [byName_eq_none] at hg
            have hs := h.none v hg
            have hs' := List.append_eq_nil_iff.1 hs
            refine ⟨n, ?_⟩
            rw [← hb]
            simp [hs'.1, addAll]
          | some a =>
            rw [hg] at hb
            obtain ⟨ha, han⟩ := byName_some hg
            obtain ⟨_, sid, hs⟩ := h.some a ha
            refine ⟨sid, ?_⟩
            rw [← hb]
            simp only [Option.getD_some]
            rw [hs]
            simp only [han]
            by_cases hse : v ∈ seen
            · simp only [hse, if_true, List.mem_cons, true_or, addAll, List.foldl_append, List.foldl_cons,
                List.foldl_nil, CatOption.add_add]
            · simp [hse, addAll, List.foldl_append]
        · rw [if_neg hk] at hb
          have hb := (byName_some hb).1
          obtain ⟨h1, sid, h2⟩ := h.some o hb
          have : o.name ∈ v :: seen ↔ o.name ∈ seen := by
            simp [Ne.symm hk]
          simp only [this]
          exact ⟨h1, sid, h2⟩
    have := ih _ (if !opts.any (fun o => o.name == v) then n + 1 else n) spec (v :: seen) step
    have e : (fun w => spec w ++ if w ∈ seen ∨ w ∈ v :: vs then [p] else []) =
        fun w => spec w ++ if w ∈ v :: seen ∨ w ∈ vs then [p] else [] := by
      funext w
      congr 1
      have : (w ∈ seen ∨ w ∈ v :: vs) ↔ (w ∈ v :: seen ∨ w ∈ vs) := by
        simp only [List.mem_cons]; constructor
        · rintro (h | h | h)
          · exact .inl (.inr h)
          · exact .inl (.inl h)
          · exact .inr h
        · rintro ((h | h) | h)
          · exact .inr (.inl h)
          · exact .inl h
          · exact .inr (.inr h)
      simp only [this]
    rw [e]
    exact this

/-- What holds of the category list after some events. -/
structure CatsAre (cats : List Category) (done : List (Product × RawOption)) : Prop where
  nodup : (cats.map (·.name)).Nodup
  names : ∀ cn, cn ∈ cats.map (·.name) ↔ ∃ e ∈ done, e.2.name = cn
  options : ∀ c ∈ cats, c.exclusive = false ∧ OptionsAre c.options (givers done c.name)

theorem givers_eq_nil_of {done : List (Product × RawOption)} {cn v : Str}
    (h : ¬ ∃ e ∈ done, e.2.name = cn) : givers done cn v = [] := by
  simp only [givers, List.map_eq_nil_iff, List.filter_eq_nil_iff]
  intro e he
  have : e.2.name ≠ cn := fun e' => h ⟨e, he, e'⟩
  simp [this]

theorem addOption_is (p : Product) (raw : RawOption) {st : List Category × Nat}
    {done : List (Product × RawOption)} (h : CatsAre st.1 done) :
    CatsAre (addOption p st raw).1 (done ++ [(p, raw)]) := by
  obtain ⟨cats, n⟩ := st
  simp only [addOption]
  generalize hcur : currentOptions cats raw.name = current
  generalize hr : addValues p raw.values (current, n) = r
  have hspec : ∀ v, givers (done ++ [(p, raw)]) raw.name v =
      givers done raw.name v ++ if v ∈ raw.values then [p] else [] := by
    intro v
    simp only [givers, List.filter_append, List.map_append]
    congr 1
    by_cases hv : v ∈ raw.values <;> simp [hv]
  have hother : ∀ cn, cn ≠ raw.name → ∀ v, givers (done ++ [(p, raw)]) cn v = givers done cn v := by
    intro cn hcn v
    simp only [givers, List.filter_append, List.map_append]
    simp [Ne.symm hcn]
  have hcurIs : OptionsAre current (givers done raw.name) := by
    cases hg : byName Category.name cats raw.name with
    | some c =>
      obtain ⟨hc, hcn⟩ := byName_some hg
      unfold byName at hg
      rw [currentOptions, hg] at hcur
      subst hcur
      rw [← hcn]
      exact (h.options c hc).2
    | none =>
      have hg' := hg
      rw [byName_eq_none] at hg'
      unfold byName at hg
      rw [currentOptions, hg] at hcur
      subst hcur
      refine ⟨by simp, fun v _ => givers_eq_nil_of (fun hx => hg' ((h.names _).2 hx)), by simp⟩
  have hrIs : OptionsAre r.1 (givers (done ++ [(p, raw)]) raw.name) := by
    have := addValues_is p raw.values current n (givers done raw.name) [] (by simpa using hcurIs)
    rw [hr] at this
    have e : givers (done ++ [(p, raw)]) raw.name =
        fun v => givers done raw.name v ++ if v ∈ [] ∨ v ∈ raw.values then [p] else [] := by
      funext v; rw [hspec]; simp
    rw [e]; exact this
  have hf : ∀ a : Category, a.name = raw.name → ({ a with options := r.1 } : Category).name = raw.name :=
    fun a ha => ha
  have hnew : ({ Category.new raw.name with options := r.1 } : Category).name = raw.name := rfl
  have hnd := names_nodup_findOrPush (name := Category.name) (f := fun a : Category => { a with options := r.1 }) hnew hf h.nodup
  refine ⟨hnd, ?_, ?_⟩
  · intro cn
    have hh := names_findOrPush (name := Category.name) (f := fun a : Category => { a with options := r.1 }) hnew hf cats
    rw [hh]
    have hmem : cn ∈ (if raw.name ∈ cats.map Category.name then cats.map Category.name
        else cats.map Category.name ++ [raw.name]) ↔ cn ∈ cats.map Category.name ∨ cn = raw.name := by
      split
      · rename_i hm
        constructor
        · exact .inl
        · rintro (h | rfl)
          · exact h
          · exact hm
      · simp
    rw [hmem]
    have := h.names cn
    constructor
    · rintro (h' | rfl)
      · obtain ⟨e, he, hn⟩ := this.1 h'
        exact ⟨e, by simp [he], hn⟩
      · exact ⟨(p, raw), by simp, rfl⟩
    · rintro ⟨e, he, hn⟩
      simp only [List.mem_append, List.mem_singleton] at he
      rcases he with he | rfl
      · exact .inl (this.2 ⟨e, he, hn⟩)
      · exact .inr hn.symm
  · intro c hc
    have hb := byName_of_mem hnd hc
    rw [byName_findOrPush (name := Category.name) (f := fun a : Category => { a with options := r.1 }) hnew hf] at hb
    by_cases hk : raw.name = c.name
    · rw [if_pos hk] at hb
      have hb := Option.some.inj hb
      have ho : c.options = r.1 := by rw [← hb]
      have hx : c.exclusive = false := by
        rw [← hb]
        cases hg : byName Category.name cats raw.name with
        | none => rfl
        | some a => exact (h.options a (byName_some hg).1).1
      rw [ho, ← hk]
      exact ⟨hx, hrIs⟩
    · rw [if_neg hk] at hb
      have hc' := (byName_some hb).1
      obtain ⟨h1, h2⟩ := h.options c hc'
      have : givers (done ++ [(p, raw)]) c.name = givers done c.name := by
        funext v; exact hother c.name (Ne.symm hk) v
      rw [this]
      exact ⟨h1, h2⟩

theorem foldl_addOption_is (p : Product) (raws : List RawOption) : ∀ (st : List Category × Nat)
    (done : List (Product × RawOption)), CatsAre st.1 done →
    CatsAre (raws.foldl (addOption p) st).1 (done ++ raws.map fun r => (p, r)) := by
  induction raws with
  | nil => intro st done h; simpa using h
  | cons r raws ih =>
    intro st done h
    have := ih _ _ (addOption_is p r h)
    simpa using this

theorem categoriesLoop_is (c : Container) (rest : List (List RawOption)) : ∀ (i : Nat)
    (st : List Category × Nat) (done : List (Product × RawOption)), CatsAre st.1 done →
    i + rest.length ≤ c.products.length →
    ∃ cats, categoriesLoop c i rest st = .ok cats ∧
      CatsAre cats (done ++ ((c.products.drop i).zip rest).flatMap fun e => e.2.map fun r => (e.1, r)) := by
  induction rest with
  | nil => intro i st done h _; exact ⟨st.1, rfl, by simpa using h⟩
  | cons raws rest ih =>
    intro i st done h hl
    have hid : i < c.products.length := by simp at hl; omega
    have hidx : c.products[i]? = some c.products[i] := List.getElem?_eq_getElem hid
    have h1 := foldl_addOption_is c.products[i] raws st done h
    obtain ⟨cats, e, h2⟩ := ih (i + 1) _ _ h1 (by simp at hl; omega)
    refine ⟨cats, ?_, ?_⟩
    · rw [categoriesLoop, Res.index, hidx]; exact e
    · rw [List.drop_eq_getElem_cons hid]
      simpa only [List.zip_cons_cons, List.flatMap_cons, List.append_assoc] using h2

/-- What adding products in ascending position gives. -/
theorem addAll_spec (ps : List Product) (o : CatOption) (h0 : o.content = []) (h1 : o.ids = []) :
    (addAll o ps).ids = setCollect (ps.map (·.sid)) ∧ (addAll o ps).sid = o.sid ∧
    (addAll o ps).content.map (·.sid) = setCollect (ps.map (·.sid)) ∧
    ∀ p ∈ (addAll o ps).content, p ∈ ps := by
  have : ∀ (ps done : List Product) (o : CatOption), o.ids = setCollect (done.map (·.sid)) →
      o.content.map (·.sid) = setCollect (done.map (·.sid)) → (∀ p ∈ o.content, p ∈ done) →
      (addAll o ps).ids = setCollect ((done ++ ps).map (·.sid)) ∧ (addAll o ps).sid = o.sid ∧
      (addAll o ps).content.map (·.sid) = setCollect ((done ++ ps).map (·.sid)) ∧
      ∀ p ∈ (addAll o ps).content, p ∈ done ++ ps := by
    intro ps
    induction ps with
    | nil => intro done o a b c; simpa [addAll] using ⟨a, b, c⟩
    | cons p ps ih =>
      intro done o a b c
      have hs : setCollect ((done ++ [p]).map (·.sid)) =
          if p.sid ∈ setCollect (done.map (·.sid)) then setCollect (done.map (·.sid))
          else setCollect (done.map (·.sid)) ++ [p.sid] := by
        simp only [setCollect, List.map_append, List.map_cons, List.map_nil, List.foldl_append,
          List.foldl_cons, List.foldl_nil]
        rfl
      have := ih (done ++ [p]) (o.add p) (by
          rw [hs, ← a]; unfold CatOption.add; split <;> simp_all) (by
          rw [hs, ← a]; unfold CatOption.add; split <;> simp_all) (by
          unfold CatOption.add
          split
          · intro q hq; simp [c q hq]
          · intro q hq
            simp only [List.mem_append, List.mem_singleton] at hq
            rcases hq with hq | rfl
            · simp [c q hq]
            · simp)
      have hsid : (o.add p).sid = o.sid := by unfold CatOption.add; split <;> rfl
      rw [hsid] at this
      simpa [addAll] using this
  have := this ps [] o (by simpa [setCollect] using h1) (by simp [h0, setCollect]) (by simp [h0])
  simpa using this

end Idx
