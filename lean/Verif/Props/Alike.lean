import Verif.Props.Equality
import Verif.Props.Data
import Verif.Props.Ordering
import Verif.Props.Search
import Verif.Lemmas.Alike
/-! # C94: indexes that compare equal cannot be told apart by searching -/
namespace Idx

/-- The same number: `==`, or both NaN. -/
def SameScore (x y : F32) : Prop := (x.val = .nan ∧ y.val = .nan) ∨ F32.feq x y = true

theorem sameScore_of_like {x y : F32} (h : F32.Like x y) : SameScore x y := by
  by_cases hx : x.val = .nan
  · exact .inl ⟨hx, h.nan_iff.1 hx⟩
  · exact .inr (F32.feq_of_like h hx)

/-- The pairs of indexes this crate ever makes: built from a catalogue, or read from bytes. -/
inductive Made (ix : GramIndex Char) (cl : Classic) : Prop where
  | built {t o lower parse n input} (hn : 1 ≤ n) (h : buildAll t o lower parse n input = .ok (ix, cl))
  | loaded {t n bytes} (h : deserializeAll t n bytes = .ok (ix, cl))

/-- What both ways of making indexes give: hash tables with each key once, and sets of ids that are the ids of the
products listed. -/
structure WellMade (ix : GramIndex Char) (cl : Classic) : Prop where
  roots : AMap.Wf ix.roots
  data : AMap.Wf ix.data
  extra : AMap.Wf ix.container.extra
  order : AMap.Wf cl.order
  tags : ∀ tag ∈ cl.tags, ∀ s, s ∈ tag.ids ↔ ∃ p ∈ tag.products, p.sid = s
  options : ∀ cat ∈ cl.categories, ∀ op ∈ cat.options, ∀ s, s ∈ op.ids ↔ ∃ p ∈ op.content, p.sid = s
  tagIds : ∀ (i : Nat) (tag : Tag), cl.tags[i]? = some tag → tag.id = i
  vendorIds : ∀ (i : Nat) (v : Vendor), ix.container.vendors.byId[i]? = some v → v.id = i
  vendorTags : ix.container.vendors.tags = AMap.collect (ix.container.vendors.byId.map fun v => (v.name, v))

theorem Made.wellMade {ix cl} (h : Made ix cl) : WellMade ix cl := by
  cases h with
  | built hn h =>
    have hg := gramWf_of_built hn h
    have hc := classicWf_of_built h
    refine ⟨hg.roots, hg.data, hg.container.extra, hc.order, fun tag ht s => ?_, fun cat hcat op hop s => ?_, hc.tagIds,
      hg.container.vendors.ids, ?_⟩
    · rw [tag_ids_of_built (buildAll_container h) tag ht, mem_setCollect, List.mem_map]
    · rw [option_ids_of_built (buildAll_container h) cat hcat op hop, List.mem_map]
    · have := hg.container.vendors.nodup
      rw [AMap.collect_of_wf (by simpa [AMap.Wf, Function.comp_def] using this)]
      exact hg.container.vendors.tags_eq
  | @loaded t n bytes h =>
    rw [deserializeAll_eq] at h
    cases hb : deBoth t n bytes with
    | none => rw [hb] at h; cases h
    | panic w => rw [hb] at h; cases h
    | ok r =>
      obtain ⟨rest, a⟩ := r
      rw [hb] at h
      simp only [Res.bind_ok, Res.ok.injEq] at h
      subst h
      obtain ⟨_, hg, hc⟩ := (good_both t n).ok _ _ _ hb
      exact ⟨hg.roots, hg.data, hg.container.extra, hc.order, hc.tags.contains, fun cat hcat op hop => (hc.options cat hcat op hop).contains,
        hc.tags.id, hg.container.vendorId, hg.container.vendorTags⟩

theorem Product.eqv_sid {p q : Product} (h : p.eqv q = true) : p.sid = q.sid := ((C46_meaning p q).1 h).1.2.2.2

theorem eqIx_of_eqv {ix ix' : GramIndex Char} {cl : Classic} (hm : WellMade ix cl) (h : ix.eqv ix' = true) : EqIx ix ix' := by
  simp only [GramIndex.eqv, Bool.and_eq_true] at h
  refine ⟨get_of_mapEqv hm.roots h.1.1, fun k => ?_⟩
  have := get_of_mapEqv hm.data h.1.2 k
  revert this
  cases AMap.get ix.data k <;> cases AMap.get ix'.data k <;> intro h <;>
    first | exact h.elim | trivial | exact both_of_listEqv h

/-! ## Vendors -/

theorem eq_of_listEqv {α : Type} [BEq α] [LawfulBEq α] : ∀ {l l' : List α}, listEqv (· == ·) l l' = true ↔ l = l'
  | [], [] => by simp [listEqv]
  | [], b :: l' => by simp [listEqv]
  | a :: l, [] => by simp [listEqv]
  | a :: l, b :: l' => by rw [listEqv, Bool.and_eq_true, beq_iff_eq, eq_of_listEqv, List.cons.injEq]

/-- The vendors of two indexes compare equal exactly when the same names are listed in the same order. -/
theorem C94_vendors {ix ix' : GramIndex Char} {cl cl' : Classic} (hm : Made ix cl) (hm' : Made ix' cl') :
    ix.container.vendors.eqv ix'.container.vendors = true ↔
      ix.container.vendors.byId.map (·.name) = ix'.container.vendors.byId.map (·.name) := by
  have hw := hm.wellMade
  have hw' := hm'.wellMade
  rw [VendorManager.eqv, Bool.and_eq_true, eq_of_listEqv]
  constructor
  · rintro ⟨_, h⟩; rw [h]
  · intro h
    have e : ix.container.vendors.byId = ix'.container.vendors.byId := by
      refine List.ext_getElem? fun i => ?_
      have h2 : (ix.container.vendors.byId.map (·.name))[i]? = (ix'.container.vendors.byId.map (·.name))[i]? := by rw [h]
      rw [List.getElem?_map, List.getElem?_map] at h2
      cases ha : ix.container.vendors.byId[i]? with
      | none => cases hb : ix'.container.vendors.byId[i]? with
        | none => rfl
        | some w => rw [ha, hb] at h2; cases h2
      | some v => cases hb : ix'.container.vendors.byId[i]? with
        | none => rw [ha, hb] at h2; cases h2
        | some w =>
          rw [ha, hb] at h2
          have h3 := hw.vendorIds i v ha
          have h4 := hw'.vendorIds i w hb
          simp only [Option.map_some, Option.some.injEq] at h2
          cases v; cases w
          simp only at h2 h3 h4
          rw [h2, h3, h4]
    refine ⟨?_, e⟩
    rw [hw.vendorTags, hw'.vendorTags, e]
    have h2 := mapEqv_reload (eq := fun a b : Vendor => a == b) (f := id)
      (AMap.collect_wf (ix'.container.vendors.byId.map fun v => (v.name, v))) (List.Perm.refl _)
    simp only [id_eq, List.map_id'] at h2
    exact h2.2 fun _ _ => by simp

/-- So two indexes that compare equal list the same vendors, and find the same vendor for every name. -/
theorem C94_vendor {ix ix' : GramIndex Char} {cl cl' : Classic} (hm : Made ix cl) (hm' : Made ix' cl') (h : ix.eqv ix' = true) :
    ix.container.vendors = ix'.container.vendors := by
  have h' := h
  simp only [GramIndex.eqv, Container.eqv, Bool.and_eq_true] at h'
  have hv := h'.2.1.2
  rw [VendorManager.eqv, Bool.and_eq_true, eq_of_listEqv] at hv
  have ht := hm.wellMade.vendorTags
  rw [hv.2, ← hm'.wellMade.vendorTags] at ht
  have := hv.2
  cases hx : ix.container.vendors; cases hx' : ix'.container.vendors
  rw [hx, hx'] at ht this
  simp only at ht this
  rw [ht, this]

/-! ## What a search finds -/

/-- Two indexes that compare equal give the same results for every query and every N, under any two hash orders: the results
can be paired off so that in each pair the products compare equal and the confidences are the same number; if one search
panics, so does the other, in the same way. -/
theorem C94_results {ix ix' : GramIndex Char} {cl : Classic} (hm : Made ix cl) (h : ix.eqv ix' = true) (o o' : HashOrd) (n : Nat)
    (query : List Char) :
    match ix.search o n query, ix'.search o' n query with
    | .ok l, .ok l' => ∃ z : List ((Product × F32) × (Product × F32)), l = z.map (·.1) ∧ l'.Perm (z.map (·.2)) ∧
        ∀ e ∈ z, e.1.1.eqv e.2.1 = true ∧ SameScore e.1.2 e.2.2
    | .error w, .error w' => w = w'
    | _, _ => False := by
  have := search_alike (eqIx_of_eqv hm.wellMade h) o o' n query
  revert this
  cases ix.search o n query with
  | error w => cases ix'.search o' n query with
    | error w' => exact fun h => h
    | ok _ => exact fun h => h.elim
  | ok l => cases ix'.search o' n query with
    | error _ => exact fun h => h.elim
    | ok l' =>
      rintro ⟨z, h1, h2, h3⟩
      exact ⟨z, h1, h2, fun e he => ⟨(h3 e he).1, sameScore_of_like (h3 e he).2⟩⟩

/-! ## The scores, position by position -/

/-- Zero for both zeros. -/
def canon (x : F32) : F32 :=
  match x.val with
  | .fin _ 0 => F32.zero
  | _ => x

theorem canon_like (x : F32) : F32.Like (canon x) x := by
  unfold canon
  split
  · rename_i s h
    exact .inr ⟨false, s, by decide +kernel, h⟩
  · exact .refl _

theorem canon_eq {x y : F32} (h : F32.Like x y) (hx : ¬ x.IsNan) : canon x = canon y := by
  rcases h with h | ⟨s, t, h1, h2⟩
  · rw [F32.eq_of_val h hx]
  · unfold canon
    rw [h1, h2]
    rfl

/-- Scores that are numbers also come in the same order: position by position the confidences are `==`. -/
theorem C94_scores {ix ix' : GramIndex Char} {cl : Classic} (hm : Made ix cl) (h : ix.eqv ix' = true) (o o' : HashOrd) {n : Nat}
    (h1 : 1 ≤ n) (h2 : n ≤ 764) (query : List Char) (l l' : List (Product × F32)) (hl : ix.search o n query = .ok l)
    (hl' : ix'.search o' n query = .ok l') (hnan : ∀ r ∈ l, r.2.val ≠ .nan) :
    l.length = l'.length ∧ ∀ (i : Nat) (a b : Product × F32), l[i]? = some a → l'[i]? = some b → F32.feq a.2 b.2 = true := by
  have hs := search_alike (eqIx_of_eqv hm.wellMade h) o o' n query
  rw [hl, hl'] at hs
  obtain ⟨z, e1, e2, e3⟩ := hs
  have hnan' : ∀ r ∈ l', r.2.val ≠ .nan := by
    intro r hr hv
    obtain ⟨x, hx, rfl⟩ := List.mem_map.1 (e2.mem_iff.1 hr)
    exact hnan x.1 (by rw [e1]; exact List.mem_map.2 ⟨x, hx, rfl⟩) ((e3 x hx).2.nan_iff.2 hv)
  have isNan : ∀ x : F32, x.val ≠ .nan → ¬ x.IsNan := fun x hx h => hx h
  have s1 : l.Pairwise fun a b => F32.lt a.2 b.2 = false := by
    rw [search_eq o ix h1 h2] at hl
    cases hl
    exact export_sorted o _ fun p c hc => isNan _ (hnan (p, c) hc)
  have s2 : l'.Pairwise fun a b => F32.lt a.2 b.2 = false := by
    rw [search_eq o' ix' h1 h2] at hl'
    cases hl'
    exact export_sorted o' _ fun p c hc => isNan _ (hnan' (p, c) hc)
  have hp : (l.map fun r => canon r.2).Perm (l'.map fun r => canon r.2) := by
    have : l.map (fun r => canon r.2) = (z.map (·.2)).map fun r => canon r.2 := by
      rw [e1, List.map_map, List.map_map]
      exact List.map_congr_left fun x hx => canon_eq (e3 x hx).2
        (isNan _ (hnan x.1 (by rw [e1]; exact List.mem_map.2 ⟨x, hx, rfl⟩)))
    rw [this]
    exact (e2.map _).symm
  have heq : (l.map fun r => canon r.2) = l'.map fun r => canon r.2 := by
    refine List.Perm.eq_of_pairwise (le := fun a b => F32.lt a b = false) ?_ ?_ ?_ hp
    · intro a b ha hb hab hba
      obtain ⟨r, hr, rfl⟩ := List.mem_map.1 ha
      obtain ⟨r', hr', rfl⟩ := List.mem_map.1 hb
      rw [(canon_like r.2).lt (canon_like r'.2)] at hab
      rw [(canon_like r'.2).lt (canon_like r.2)] at hba
      refine canon_eq (F32.like_of_feq ?_) (isNan _ (hnan r hr))
      have n1 := hnan r hr
      have n2 := hnan' r' hr'
      unfold F32.feq
      rw [hab, hba]
      cases hv : r.2.val <;> cases hv' : r'.2.val <;> first | exact absurd hv n1 | exact absurd hv' n2 | rfl
    · rw [List.pairwise_map]
      exact s1.imp fun {a b} hab => by rw [(canon_like a.2).lt (canon_like b.2)]; exact hab
    · rw [List.pairwise_map]
      exact s2.imp fun {a b} hab => by rw [(canon_like a.2).lt (canon_like b.2)]; exact hab
  refine ⟨by simpa using congrArg List.length heq, fun i a b ha hb => ?_⟩
  have := congrArg (·[i]?) heq
  simp only [List.getElem?_map, ha, hb, Option.map_some, Option.some.injEq] at this
  refine F32.feq_of_like ?_ (hnan a (List.mem_of_getElem? ha))
  have l1 := canon_like a.2
  have l2 := canon_like b.2
  rw [this] at l1
  exact l1.symm.trans l2

/-! ## Features -/

/-- The same JavaScript number up to the sign of zero. -/
def NumLike (a b : JsNum) : Prop := a = b ∨ ∃ s t, a = .fin s 0 ∧ b = .fin t 0

theorem numLike_of_like {x y : F32} (h : F32.Like x y) : NumLike (jsNumOfF32 x) (jsNumOfF32 y) := by
  unfold jsNumOfF32
  rcases h with h | ⟨s, t, h1, h2⟩
  · rw [h]; exact .inl rfl
  · rw [h1, h2]
    refine .inr ⟨s, t, ?_, ?_⟩ <;> simp only [Nat.zero_mul]

theorem NumLike.le {a a' : JsNum} (h : NumLike a a') (b : JsNum) : jsLe a b = jsLe a' b ∧ jsLe b a = jsLe b a' := by
  rcases h with rfl | ⟨s, t, rfl, rfl⟩
  · exact ⟨rfl, rfl⟩
  · cases b <;> cases s <;> cases t <;> simp [jsLe, F32.Val.lt]

/-- Values JavaScript cannot tell apart with `===` and `<=`. -/
def JsLike : JsValue → JsValue → Prop
  | .num a, .num b => NumLike a b
  | .str a, .str b => a = b
  | _, _ => False

theorem feature_alike {f f' : Feature} (h : f.eqv f' = true) (i : Nat) :
    match f, f' with
    | .string l, .string l' => l[i]? = l'[i]?
    | .float l, .float l' => OptRel F32.Like l[i]? l'[i]?
    | .integer l, .integer l' => l[i]? = l'[i]?
    | _, _ => False := by
  cases f <;> cases f' <;> simp only [Feature.eqv, beq_iff_eq, Bool.false_eq_true] at h ⊢
  · rw [h]
  · exact ((both_of_listEqv h).mono fun _ _ => F32.like_of_feq).getElem? i
  · rw [h]

theorem extra_alike {ix ix' : GramIndex Char} {cl : Classic} (hm : WellMade ix cl) (h : ix.eqv ix' = true) (k : Str) :
    OptRel (fun f f' => Feature.eqv f f' = true) (AMap.get ix.container.extra k) (AMap.get ix'.container.extra k) := by
  simp only [GramIndex.eqv, Container.eqv, Bool.and_eq_true] at h
  exact get_of_mapEqv hm.extra h.2.2 k

theorem getJs_alike {ix ix' : GramIndex Char} {cl : Classic} (hm : WellMade ix cl) (h : ix.eqv ix' = true) (p : Product) (k : Str) :
    OptRel JsLike (ix.container.extra.getJs p k) (ix'.container.extra.getJs p k) := by
  have hk := extra_alike hm h k
  unfold FeatureSet.getJs
  revert hk
  cases AMap.get ix.container.extra k with
  | none => cases AMap.get ix'.container.extra k with
    | none => exact fun _ => trivial
    | some _ => exact fun h => h.elim
  | some f => cases AMap.get ix'.container.extra k with
    | none => exact fun h => h.elim
    | some f' =>
      intro hf
      have := feature_alike hf p.sid
      cases f <;> cases f' <;> simp only at this ⊢
      · rw [this]; cases (_ : List Str)[p.sid]? <;> first | trivial | exact rfl
      · revert this
        rename_i l l'
        cases l[p.sid]? <;> cases l'[p.sid]? <;> intro h <;> first | exact h.elim | trivial | exact numLike_of_like h
      · rw [this]; cases (_ : List UInt32)[p.sid]? <;> first | trivial | exact .inl rfl

theorem keeps_alike {ix ix' : GramIndex Char} {cl : Classic} (hm : WellMade ix cl) (h : ix.eqv ix' = true) (f : FeatureFilter) (p : Product) :
    f.keeps ix.container.extra p = f.keeps ix'.container.extra p := by
  have hg := getJs_alike hm h p f.feature
  unfold FeatureFilter.keeps
  revert hg
  cases ix.container.extra.getJs p f.feature with
  | none => cases ix'.container.extra.getJs p f.feature with
    | none => exact fun _ => rfl
    | some _ => exact fun h => h.elim
  | some v => cases ix'.container.extra.getJs p f.feature with
    | none => exact fun h => h.elim
    | some v' =>
      intro hv
      cases v <;> cases v' <;> first | exact hv.elim | skip
      · rename_i a b
        have hle := fun c => NumLike.le hv c
        cases f.data with
        | range lo hi =>
          cases lo <;> cases hi <;> simp [JsValue.asF64, hle]
        | exact w => cases w <;> simp [JsValue.strictEq, hle]
      · have hv : (_ : Str) = _ := hv
        rw [hv]

/-! ## Filters -/

theorem sids_alike {l l' : List Product} (h : listEqv Product.eqv l l' = true) : l.map (·.sid) = l'.map (·.sid) :=
  (both_of_listEqv h).map_eq (f := Product.sid) (g := Product.sid) fun _ _ h => Product.eqv_sid h

theorem exists_sid {l l' : List Product} (h : listEqv Product.eqv l l' = true) (s : Nat) : (∃ p ∈ l, p.sid = s) ↔ ∃ p ∈ l', p.sid = s := by
  rw [← List.mem_map (f := Product.sid), ← List.mem_map (f := Product.sid), sids_alike h]

/-- Positions hold equal tags. -/
theorem tag_alike {cl cl' : Classic} (h : cl.eqv cl' = true) (i : Nat) : OptRel (fun a b => Tag.eqv a b = true) cl.tags[i]? cl'.tags[i]? := by
  simp only [Classic.eqv, Bool.and_eq_true] at h
  exact (both_of_listEqv h.1.2).getElem? i

theorem category_alike {cl cl' : Classic} (h : cl.eqv cl' = true) (i : Nat) :
    OptRel (fun a b => Category.eqv a b = true) cl.categories[i]? cl'.categories[i]? := by
  simp only [Classic.eqv, Bool.and_eq_true] at h
  exact (both_of_listEqv h.1.1).getElem? i

theorem option_alike {c c' : Category} (h : c.eqv c' = true) (i : Nat) :
    OptRel (fun a b => CatOption.eqv a b = true) c.options[i]? c'.options[i]? := by
  simp only [Category.eqv, Bool.and_eq_true] at h
  exact (both_of_listEqv h.1.2).getElem? i

theorem OptRel.some_left {R : α → β → Prop} {x : Option α} {y : Option β} {a : α} (h : OptRel R x y) (hx : x = some a) : ∃ b, y = some b ∧ R a b := by
  subst hx
  cases y with
  | none => exact h.elim
  | some b => exact ⟨b, rfl, h⟩

theorem OptRel.some_right {R : α → β → Prop} {x : Option α} {y : Option β} {b : β} (h : OptRel R x y) (hy : y = some b) : ∃ a, x = some a ∧ R a b := by
  subst hy
  cases x with
  | none => exact h.elim
  | some a => exact ⟨a, rfl, h⟩

theorem catsAllow_alike {ix ix' cl cl'} (hm : WellMade ix cl) (hm' : WellMade ix' cl') (h : cl.eqv cl' = true) {cats cats' : CategoryHandler}
    (hc : cats.handle = cl) (hc' : cats'.handle = cl')
    (hs : ∀ k, (AMap.get cats.active k).isSome = (AMap.get cats'.active k).isSome) (sid : Nat) : cats.Allows sid ↔ cats'.Allows sid := by
  subst hc hc'
  constructor
  · intro hall a b cat' op' hact h1 h2
    obtain ⟨cat, h3, hcat⟩ := (category_alike h a).some_right h1
    obtain ⟨op, h4, hop⟩ := (option_alike hcat b).some_right h2
    have := hall a b cat op (by rw [hs]; exact hact) h3 h4
    rw [hm.options cat (List.mem_of_getElem? h3) op (List.mem_of_getElem? h4)] at this
    rw [hm'.options cat' (List.mem_of_getElem? h1) op' (List.mem_of_getElem? h2)]
    simp only [CatOption.eqv, Bool.and_eq_true] at hop
    exact (exists_sid hop.1.2 sid).1 this
  · intro hall a b cat op hact h3 h4
    obtain ⟨cat', h1, hcat⟩ := (category_alike h a).some_left h3
    obtain ⟨op', h2, hop⟩ := (option_alike hcat b).some_left h4
    have := hall a b cat' op' (by rw [← hs]; exact hact) h1 h2
    rw [hm.options cat (List.mem_of_getElem? h3) op (List.mem_of_getElem? h4)]
    rw [hm'.options cat' (List.mem_of_getElem? h1) op' (List.mem_of_getElem? h2)] at this
    simp only [CatOption.eqv, Bool.and_eq_true] at hop
    exact (exists_sid hop.1.2 sid).2 this

theorem tagsAllow_alike {ix ix' cl cl'} (hm : WellMade ix cl) (hm' : WellMade ix' cl') (h : cl.eqv cl' = true) {tags tags' : TagHandler}
    (hc : tags.handle = cl) (hc' : tags'.handle = cl')
    (hs : ∀ k, (AMap.get tags.active k).isSome = (AMap.get tags'.active k).isSome) (sid : Nat) : tags.Allows sid ↔ tags'.Allows sid := by
  subst hc hc'
  constructor
  · intro hall i t' hact h1
    obtain ⟨t, h3, ht⟩ := (tag_alike h i).some_right h1
    have := hall i t (by rw [hs]; exact hact) h3
    rw [hm.tags t (List.mem_of_getElem? h3)] at this
    rw [hm'.tags t' (List.mem_of_getElem? h1)]
    simp only [Tag.eqv, Bool.and_eq_true] at ht
    exact (exists_sid ht.1.1.2 sid).1 this
  · intro hall i t hact h3
    obtain ⟨t', h1, ht⟩ := (tag_alike h i).some_left h3
    have := hall i t' (by rw [← hs]; exact hact) h1
    rw [hm.tags t (List.mem_of_getElem? h3)]
    rw [hm'.tags t' (List.mem_of_getElem? h1)] at this
    simp only [Tag.eqv, Bool.and_eq_true] at ht
    exact (exists_sid ht.1.1.2 sid).2 this

theorem catsInRange_alike {cl cl' : Classic} (h : cl.eqv cl' = true) {cats cats' : CategoryHandler} (hc : cats.handle = cl)
    (hc' : cats'.handle = cl') (hs : ∀ k, (AMap.get cats.active k).isSome = (AMap.get cats'.active k).isSome) (hr : cats.InRange) :
    cats'.InRange := by
  subst hc hc'
  intro a b hact
  obtain ⟨cat, op, h1, h2⟩ := hr a b (by rw [hs]; exact hact)
  obtain ⟨cat', h3, hcat⟩ := (category_alike h a).some_left h1
  obtain ⟨op', h4, _⟩ := (option_alike hcat b).some_left h2
  exact ⟨cat', op', h3, h4⟩

theorem tagsInRange_alike {cl cl' : Classic} (h : cl.eqv cl' = true) {tags tags' : TagHandler} (hc : tags.handle = cl)
    (hc' : tags'.handle = cl') (hs : ∀ k, (AMap.get tags.active k).isSome = (AMap.get tags'.active k).isSome) (hr : tags.InRange) :
    tags'.InRange := by
  subst hc hc'
  intro i hact
  obtain ⟨t, h1⟩ := hr i (by rw [hs]; exact hact)
  obtain ⟨t', h3, _⟩ := (tag_alike h i).some_left h1
  exact ⟨t', h3⟩

/-! ## The whole search -/

theorem orderKeys_error {order : List Nat} : ∀ {ids : List Nat} {w : Panic}, orderKeys order ids = .error w → w = .indexOutOfBounds := by
  intro ids
  induction ids with
  | nil => intro w h; cases h
  | cons v vs ih =>
    intro w h
    simp only [orderKeys, bind, Except.bind, indexChecked] at h
    cases hv : order[v]? with
    | none => rw [hv] at h; cases h; rfl
    | some k =>
      rw [hv] at h
      simp only at h
      cases hr : orderKeys order vs with
      | error w' => rw [hr] at h; cases h; exact ih hr
      | ok _ => rw [hr] at h; cases h

theorem sortByOrder_error {order ids : List Nat} {w : Panic} (h : sortByOrder order ids = .error w) : w = .indexOutOfBounds := by
  unfold sortByOrder at h
  split at h
  · cases h
  · simp only [bind, Except.bind] at h
    split at h
    · rename_i hk; cases h; exact orderKeys_error hk
    · cases h

theorem eq_of_perm_ranked {ranks : List Nat} (hnd : ranks.Nodup) : ∀ {l l' : List Nat}, l.Perm l' → (∀ i ∈ l, i < ranks.length) →
    (l.Pairwise fun a b => ∀ ra rb, ranks[a]? = some ra → ranks[b]? = some rb → ra ≤ rb) →
    (l'.Pairwise fun a b => ∀ ra rb, ranks[a]? = some ra → ranks[b]? = some rb → ra ≤ rb) → l = l' := by
  intro l l' hp hlt h1 h2
  refine hp.eq_of_pairwise (le := fun a b => ∀ ra rb, ranks[a]? = some ra → ranks[b]? = some rb → ra ≤ rb) ?_ h1 h2
  intro a b ha hb hab hba
  have la := hlt a ha
  have lb := hlt b (hp.mem_iff.2 hb)
  have e1 := List.getElem?_eq_getElem la
  have e2 := List.getElem?_eq_getElem lb
  have := hab _ _ e1 e2
  have := hba _ _ e2 e1
  exact (List.getElem_inj hnd).1 (Nat.le_antisymm ‹_› ‹_›)

/-- The engine holds these indexes and is free. -/
def Engine.Holds (e : Engine) (ix : GramIndex Char) (cl : Classic) : Prop :=
  e.index = ⟨.free, some ix⟩ ∧ e.classic = ⟨.free, some cl⟩

/-- The same search on two engines whose indexes compare equal, with the same options and tags selected: both return nothing,
both panic in the same way, or both return the same product numbers, each once for each time the other does. If the order asked
for ranks all products differently and was made for as many products, they come in the same order too. -/
theorem C94_search {ix ix' : GramIndex Char} {cl cl' : Classic} (hm : Made ix cl) (hm' : Made ix' cl') (hix : ix.eqv ix' = true)
    (hcl : cl.eqv cl' = true) {e e' : Engine} (he : e.Holds ix cl) (he' : e'.Holds ix' cl') {cats cats' : CategoryHandler}
    {tags tags' : TagHandler} (hc : cats.handle = cl) (hc' : cats'.handle = cl') (ht : tags.handle = cl) (ht' : tags'.handle = cl')
    (hcs : ∀ k, (AMap.get cats.active k).isSome = (AMap.get cats'.active k).isSome)
    (hts : ∀ k, (AMap.get tags.active k).isSome = (AMap.get tags'.active k).isSome) (hcr : cats.InRange) (htr : tags.InRange)
    (mode mode' : PanicMode) (o o' : HashOrd) (lower : Char → List Char) (input : Str) (order : Option Str)
    (filter : List (Str × JsValue)) :
    match (e.search mode o lower input cats tags order filter).2, (e'.search mode' o' lower input cats' tags' order filter).2 with
    | .ok none, .ok none => True
    | .ok (some r), .ok (some r') => r.container = ix.container ∧ r'.container = ix'.container ∧ r.index = 0 ∧ r'.index = 0 ∧
        r.toExport.Perm r'.toExport ∧
        ∀ name ranks, order = some name → AMap.get cl.order name = some ranks → ranks.Nodup →
          (∀ i ∈ r.toExport, i < ranks.length) → r.toExport = r'.toExport
    | .error w, .error w' => w = w'
    | _, _ => False := by
  classical
  unfold Engine.search
  cases parseFilters filter with
  | none => trivial
  | some filters =>
    simp only [he.1, he.2, he'.1, he'.2, Slot.lockOk]
    have hcr' := catsInRange_alike hcl hc hc' hcs hcr
    have htr' := tagsInRange_alike hcl ht ht' hts htr
    obtain ⟨l, h1, h2⟩ := searchIds_spec o lower ix input cats tags hcr htr filters
    obtain ⟨l', h1', h2'⟩ := searchIds_spec o' lower ix' input cats' tags' hcr' htr' filters
    have hres := C94_results hm hix o o' ngramIndexSize (input.flatMap lower)
    rw [h1, h1'] at hres
    obtain ⟨z, e1, e2, e3⟩ := hres
    have hsids : (l.map (·.1.sid)).Perm (l'.map (·.1.sid)) := by
      have : l.map (·.1.sid) = (z.map (·.2)).map (·.1.sid) := by
        rw [e1, List.map_map, List.map_map]
        exact List.map_congr_left fun x hx => Product.eqv_sid (e3 x hx).1
      rw [this]
      exact (e2.map _).symm
    have hw : ∀ sid, Wanted cats tags filters ix.container.extra sid ↔ Wanted cats' tags' filters ix'.container.extra sid := by
      intro sid
      unfold Wanted
      rw [catsAllow_alike hm.wellMade hm'.wellMade hcl hc hc' hcs, tagsAllow_alike hm.wellMade hm'.wellMade hcl ht ht' hts]
      refine and_congr Iff.rfl (and_congr Iff.rfl (forall_congr' fun f => forall_congr' fun _ => ?_))
      have := keeps_alike hm.wellMade hix f ⟨[], [], ⟨[], 0⟩, [], sid⟩
      have a1 := keeps_iff f ix.container.extra ⟨[], [], ⟨[], 0⟩, [], sid⟩
      have a2 := keeps_iff f ix'.container.extra ⟨[], [], ⟨[], 0⟩, [], sid⟩
      rw [this] at a1
      exact a1.symm.trans a2
    have hperm : ((l.map (·.1.sid)).filter fun sid => decide (Wanted cats tags filters ix.container.extra sid)).Perm
        ((l'.map (·.1.sid)).filter fun sid => decide (Wanted cats' tags' filters ix'.container.extra sid)) := by
      rw [List.filter_congr (q := fun sid => decide (Wanted cats' tags' filters ix'.container.extra sid)) (fun x _ => by rw [decide_eq_decide]; exact hw x)]
      exact hsids.filter _
    rw [h2, h2']
    revert hperm
    generalize ((l.map (·.1.sid)).filter fun sid => decide (Wanted cats tags filters ix.container.extra sid)) = ids
    generalize ((l'.map (·.1.sid)).filter fun sid => decide (Wanted cats' tags' filters ix'.container.extra sid)) = ids'
    intro hperm
    cases order with
    | none => exact ⟨rfl, rfl, rfl, rfl, hperm, fun _ _ h => by cases h⟩
    | some name =>
      have hord := hcl
      simp only [Classic.eqv, Bool.and_eq_true] at hord
      have hg := get_of_mapEqv hm.wellMade.order hord.2 name
      simp only [OrderIndex.getOrders]
      revert hg
      cases hn : AMap.get cl.order name with
      | none => cases AMap.get cl'.order name with
        | none => exact fun _ => trivial
        | some _ => exact fun h => h.elim
      | some ranks => cases AMap.get cl'.order name with
        | none => exact fun h => h.elim
        | some ranks' =>
          intro hr
          have hr : ranks = ranks' := beq_iff_eq.1 hr
          subst hr
          simp only
          cases hs : sortByOrder ranks ids with
          | error w => cases hs' : sortByOrder ranks ids' with
            | error w' => simp only; rw [sortByOrder_error hs, sortByOrder_error hs']
            | ok out =>
              exfalso
              obtain ⟨p1, i, p2, p3⟩ := (sortByOrder_panics ranks ids).1 ⟨w, hs⟩
              obtain ⟨w', hw'⟩ := (sortByOrder_panics ranks ids').2 ⟨by rw [← hperm.length_eq]; exact p1, i, hperm.mem_iff.1 p2, p3⟩
              rw [hs'] at hw'; cases hw'
          | ok out => cases hs' : sortByOrder ranks ids' with
            | error w' =>
              exfalso
              obtain ⟨p1, i, p2, p3⟩ := (sortByOrder_panics ranks ids').1 ⟨w', hs'⟩
              obtain ⟨w, hw⟩ := (sortByOrder_panics ranks ids).2 ⟨by rw [hperm.length_eq]; exact p1, i, hperm.mem_iff.2 p2, p3⟩
              rw [hs] at hw; cases hw
            | ok out' =>
              obtain ⟨q1, q2⟩ := sortByOrder_ok hs
              obtain ⟨q3, q4⟩ := sortByOrder_ok hs'
              have hp := q1.trans (hperm.trans q3.symm)
              refine ⟨rfl, rfl, rfl, rfl, hp, fun name' ranks' h3 h4 h5 h6 => ?_⟩
              cases h3
              rw [hn] at h4
              cases h4
              exact eq_of_perm_ranked h5 hp h6 q2 q4

/-! ## What is shown of the products found -/

theorem products_alike {ix ix' : GramIndex Char} (h : ix.eqv ix' = true) (i : Nat) :
    OptRel (fun p q => Product.eqv p q = true) ix.container.products[i]? ix'.container.products[i]? := by
  simp only [GramIndex.eqv, Container.eqv, Bool.and_eq_true] at h
  exact (both_of_listEqv h.2.1.1).getElem? i

/-- The product number `sid` of two indexes that compare equal shows the same title, the same id, the same string features and
`===` numeric features; of the descriptions one is the beginning of the other, and both are empty if one is. A number past the
products panics on both sides. -/
theorem C94_product {ix ix' : GramIndex Char} {cl : Classic} (hm : Made ix cl) (h : ix.eqv ix' = true) (sid : Nat) (key : Str) :
    (JsProduct.mk ix.container sid).getTitle = (JsProduct.mk ix'.container sid).getTitle ∧
    (JsProduct.mk ix.container sid).getId = (JsProduct.mk ix'.container sid).getId ∧
    (JsProduct.mk ix.container sid).stringFeature key = (JsProduct.mk ix'.container sid).stringFeature key ∧
    (match (JsProduct.mk ix.container sid).numericFeature key, (JsProduct.mk ix'.container sid).numericFeature key with
      | .ok none, .ok none => True
      | .ok (some a), .ok (some b) => (a = .nan ∧ b = .nan) ∨ (JsValue.num a).strictEq (.num b) = true
      | .error w, .error w' => w = w'
      | _, _ => False) ∧
    (match (JsProduct.mk ix.container sid).getDescription, (JsProduct.mk ix'.container sid).getDescription with
      | .ok a, .ok b => (a <+: b ∨ b <+: a) ∧ (a = [] ↔ b = [])
      | .error w, .error w' => w = w'
      | _, _ => False) := by
  have hp := products_alike h sid
  simp only [JsProduct.getTitle, JsProduct.getId, JsProduct.getDescription, JsProduct.stringFeature, JsProduct.numericFeature,
    JsProduct.product, indexChecked]
  revert hp
  cases ix.container.products[sid]? with
  | none => cases ix'.container.products[sid]? with
    | none => exact fun _ => ⟨rfl, rfl, rfl, rfl, rfl⟩
    | some _ => exact fun h => h.elim
  | some p => cases ix'.container.products[sid]? with
    | none => exact fun h => h.elim
    | some q =>
      intro hpq
      obtain ⟨⟨e1, e2, e3, e4⟩, e5⟩ := (C46_meaning p q).1 hpq
      have hk := extra_alike hm.wellMade h key
      have hd : (p.description <+: q.description ∨ q.description <+: p.description) ∧ (p.description = [] ↔ q.description = []) := by
        rcases e5 with e | ⟨h1, h2, h3⟩
        · rw [e]; exact ⟨.inl (List.prefix_refl _), Iff.rfl⟩
        · exact ⟨h3, ⟨fun h => absurd h h1, fun h => absurd h h2⟩⟩
      simp only [bind, Except.bind, FeatureSet.get]
      refine ⟨by rw [e1], by rw [e3], ?_, ?_, hd⟩
      · rw [← e4]
        revert hk
        cases AMap.get ix.container.extra key with
        | none => cases AMap.get ix'.container.extra key with
          | none => exact fun _ => rfl
          | some _ => exact fun h => h.elim
        | some f => cases AMap.get ix'.container.extra key with
          | none => exact fun h => h.elim
          | some f' =>
            intro hf
            have := feature_alike hf p.sid
            cases f <;> cases f' <;> simp only [Feature.get] at this ⊢
            · rw [this]
            · rename_i l l'
              cases l[p.sid]? <;> cases l'[p.sid]? <;> rfl
            · rw [this]
      · rw [← e4]
        revert hk
        cases AMap.get ix.container.extra key with
        | none => cases AMap.get ix'.container.extra key with
          | none => exact fun _ => trivial
          | some _ => exact fun h => h.elim
        | some f => cases AMap.get ix'.container.extra key with
          | none => exact fun h => h.elim
          | some f' =>
            intro hf
            have := feature_alike hf p.sid
            cases f <;> cases f' <;> simp only [Feature.get] at this ⊢
            · rename_i l l'
              rw [this]
              cases l'[p.sid]? <;> trivial
            · revert this
              rename_i l l'
              cases l[p.sid]? <;> cases l'[p.sid]? <;> intro h <;> first | exact h.elim | trivial | skip
              have hl := numLike_of_like h
              simp only [Option.map_some]
              revert hl
              generalize jsNumOfF32 _ = a
              generalize jsNumOfF32 _ = b
              intro hl
              by_cases hn : a = .nan
              · left
                rcases hl with rfl | ⟨s, t, rfl, rfl⟩
                · exact ⟨hn, hn⟩
                · cases hn
              · right
                simp only [JsValue.strictEq, Bool.and_eq_true]
                rw [(NumLike.le hl b).1, (NumLike.le hl b).2]
                rcases hl with rfl | ⟨s, t, rfl, rfl⟩
                · cases a with
                  | nan => exact absurd rfl hn
                  | inf s => cases s <;> exact ⟨rfl, rfl⟩
                  | fin s n => cases s <;> simp [jsLe, F32.Val.lt]
                · cases t <;> simp [jsLe, F32.Val.lt]
            · rename_i l l'
              rw [this]
              cases l'[p.sid]? with
              | none => trivial
              | some x =>
                right
                simp only [JsValue.strictEq, jsNumOfNat, jsLe, F32.Val.lt]
                simp

/-! ## What is offered to choose from -/

/-- Indexes that compare equal offer the same orders with the same ranks, the same tags and categories at the same positions,
and suggest the same tag for every query. -/
theorem C94_offers {ix ix' : GramIndex Char} {cl cl' : Classic} (hm : Made ix cl) (hm' : Made ix' cl') (h : cl.eqv cl' = true) :
    (∀ o o' : HashOrd, (cl.order.options o).Perm (cl'.order.options o')) ∧
    (∀ name, cl.order.getOrders name = cl'.order.getOrders name) ∧
    (∀ i, (JsTag.mk cl i).getName = (JsTag.mk cl' i).getName ∧ (JsTag.mk cl i).getId = (JsTag.mk cl' i).getId) ∧
    (∀ i k, (CategoryOptionIter.mk cl i k).name = (CategoryOptionIter.mk cl' i k).name ∧
      (CategoryOptionIter.mk cl i k).nextItem.2 = (CategoryOptionIter.mk cl' i k).nextItem.2) ∧
    (cl.tags.length = cl'.tags.length ∧ cl.categories.length = cl'.categories.length) ∧
    ∀ query, suggestLoop cl.tags query = suggestLoop cl'.tags query := by
  have hb := h
  simp only [Classic.eqv, Bool.and_eq_true] at hb
  obtain ⟨⟨hcats, htags⟩, hord⟩ := hb
  refine ⟨fun o o' => ?_, fun name => ?_, fun i => ?_, fun i k => ?_, ⟨(both_of_listEqv htags).length, (both_of_listEqv hcats).length⟩, fun query => ?_⟩
  · have p1 : (cl.order.options o).Perm (cl.order.map (·.1)) := (o.perm _ _).map _
    have p2 : (cl'.order.options o').Perm (cl'.order.map (·.1)) := (o'.perm _ _).map _
    refine p1.trans (List.Perm.trans ?_ p2.symm)
    exact (List.perm_ext_iff_of_nodup hm.wellMade.order hm'.wellMade.order).2 (keys_of_mapEqv hm.wellMade.order hord)
  · have := get_of_mapEqv hm.wellMade.order hord name
    unfold OrderIndex.getOrders
    revert this
    cases AMap.get cl.order name <;> cases AMap.get cl'.order name <;> intro h <;>
      first | exact h.elim | rfl | exact congrArg some (beq_iff_eq.1 h)
  · have := tag_alike h i
    simp only [JsTag.getName, JsTag.getId, JsTag.tag]
    revert this
    cases cl.tags[i]? <;> cases cl'.tags[i]? <;> intro h <;> first | exact h.elim | exact ⟨rfl, rfl⟩ | skip
    simp only [OptRel, Tag.eqv, Bool.and_eq_true, beq_iff_eq] at h
    simp only [bind, Except.bind]
    rw [h.1.1.1, h.2]
    exact ⟨rfl, rfl⟩
  · have := category_alike h i
    simp only [CategoryOptionIter.name, CategoryOptionIter.nextItem, indexChecked]
    revert this
    cases cl.categories[i]? <;> cases cl'.categories[i]? <;> intro h <;> first | exact h.elim | exact ⟨rfl, rfl⟩ | skip
    rename_i c c'
    have h : c.eqv c' = true := h
    have ho := option_alike h k
    simp only [Category.eqv, Bool.and_eq_true, beq_iff_eq] at h
    refine ⟨by simp only [bind, Except.bind]; rw [h.1.1], ?_⟩
    simp only
    revert ho
    cases c.options[k]? <;> cases c'.options[k]? <;> intro h <;> first | exact h.elim | rfl | skip
    simp only [OptRel, CatOption.eqv, Bool.and_eq_true, beq_iff_eq] at h
    simp only [h.1.1.1]
  · have hstep : ∀ (kw : Str) (l l' : List Tag) (best : Likely), Both (fun a b => Tag.eqv a b = true) l l' →
        l.foldl (suggestStep kw) best = l'.foldl (suggestStep kw) best := by
      intro kw l
      induction l with
      | nil => intro l' best hl; cases l' with
        | nil => rfl
        | cons => exact hl.elim
      | cons a l ih => intro l' best hl; cases l' with
        | nil => exact hl.elim
        | cons b l' =>
          have hab := hl.1
          simp only [Tag.eqv, Bool.and_eq_true, beq_iff_eq] at hab
          have e : suggestStep kw best a = suggestStep kw best b := by unfold suggestStep; rw [hab.1.1.1, hab.2]
          rw [List.foldl_cons, List.foldl_cons, e]
          exact ih l' _ hl.2
    unfold suggestLoop
    congr 1
    funext best kw
    exact hstep kw _ _ _ (both_of_listEqv htags)

/-- Tags and categories that compare equal are written to the same bytes. -/
theorem C94_bytes {cl cl' : Classic} (h : cl.eqv cl' = true) :
    serCategories cl.categories = serCategories cl'.categories ∧ serTags cl.tags = serTags cl'.tags := by
  simp only [Classic.eqv, Bool.and_eq_true] at h
  obtain ⟨⟨hcats, htags⟩, _⟩ := h
  constructor
  · unfold serCategories
    rw [(both_of_listEqv hcats).length, (both_of_listEqv hcats).flatMap_eq (f := serCategory) (g := serCategory) fun a b hab => ?_]
    simp only [Category.eqv, Bool.and_eq_true, beq_iff_eq] at hab
    unfold serCategory
    rw [hab.1.1, hab.2, (both_of_listEqv hab.1.2).length,
      (both_of_listEqv hab.1.2).flatMap_eq (f := serCatOption) (g := serCatOption) fun x y hxy => ?_]
    simp only [CatOption.eqv, Bool.and_eq_true, beq_iff_eq] at hxy
    unfold serCatOption serProductSeq
    rw [hxy.1.1.1, sids_alike hxy.1.2]
  · unfold serTags serVec
    rw [(both_of_listEqv htags).length, (both_of_listEqv htags).flatMap_eq (f := serTag) (g := serTag) fun a b hab => ?_]
    simp only [Tag.eqv, Bool.and_eq_true, beq_iff_eq] at hab
    unfold serTag serProductSeq
    rw [hab.1.1.1, sids_alike hab.1.1.2]

/-! ## A case -/

/-- A catalogue with text, tags and options and its reloaded index: all theorems apply, with one option and one tag selected. -/
example : ∃ ix cl ix' cl', Made ix cl ∧ Made ix' cl' ∧ ix.eqv ix' = true ∧ cl.eqv cl' = true ∧
    (∀ o o' : HashOrd, ∃ l l', ix.search o 3 "hel".toList = .ok l ∧ ix'.search o' 3 "hel".toList = .ok l' ∧ l.length = l'.length) ∧
    ∀ mode o o' lower input order, ∃ r r',
      ((Engine.mk ⟨.free, some ix⟩ ⟨.free, some cl⟩).search mode o lower input
        ⟨cl, [((0, 0), ())], [], []⟩ ⟨cl, [(0, ())], [], []⟩ order []).2 = r ∧
      ((Engine.mk ⟨.free, some ix'⟩ ⟨.free, some cl'⟩).search mode o' lower input
        ⟨cl', [((0, 0), ())], [], []⟩ ⟨cl', [(0, ())], [], []⟩ order []).2 = r' ∧ ESim (fun a b => a.isSome = b.isSome) r r' := by
  obtain ⟨ix, cl, ix', cl', hb, hd, e1, e2, hcat, htag⟩ := blockwise_equal
  have m1 : Made ix cl := .built (by decide) hb
  have m2 : Made ix' cl' := .loaded hd
  refine ⟨ix, cl, ix', cl', m1, m2, e1, e2, fun o o' => ?_, fun mode o o' lower input order => ⟨_, _, rfl, rfl, ?_⟩⟩
  · obtain ⟨l, h1⟩ := C48_search_total o ix (n := 3) (by decide) (by decide) "hel".toList
    obtain ⟨l', h2⟩ := C48_search_total o' ix' (n := 3) (by decide) (by decide) "hel".toList
    have := C94_results m1 e1 o o' 3 "hel".toList
    rw [h1, h2] at this
    obtain ⟨z, z1, z2, _⟩ := this
    exact ⟨l, l', h1, h2, by rw [z1, z2.length_eq]; simp⟩
  · have := C94_search m1 m2 e1 e2 (e := Engine.mk ⟨.free, some ix⟩ ⟨.free, some cl⟩) (e' := Engine.mk ⟨.free, some ix'⟩ ⟨.free, some cl'⟩)
      ⟨rfl, rfl⟩ ⟨rfl, rfl⟩ (cats := ⟨cl, [((0, 0), ())], [], []⟩) (cats' := ⟨cl', [((0, 0), ())], [], []⟩)
      (tags := ⟨cl, [(0, ())], [], []⟩) (tags' := ⟨cl', [(0, ())], [], []⟩) rfl rfl rfl rfl (fun _ => rfl) (fun _ => rfl) ?_ ?_
      mode mode o o' lower input order []
    · revert this
      generalize (Engine.search _ _ _ _ _ _ _ _ _).2 = a
      generalize (Engine.search _ _ _ _ _ _ _ _ _).2 = b
      intro h
      cases a with
      | error w => cases b with
        | error w' => exact h
        | ok r => cases r <;> exact h.elim
      | ok r => cases b with
        | error w' => cases r <;> exact h.elim
        | ok r' => cases r <;> cases r' <;> first | exact h.elim | exact rfl
    · intro a b hab
      simp only [AMap.get] at hab
      split at hab
      · rename_i hk
        cases hk
        obtain ⟨cat, op, h1, h2⟩ := hcat
        exact ⟨cat, op, h1, h2⟩
      · cases hab
    · intro i hi
      simp only [AMap.get] at hi
      split at hi
      · rename_i hk
        cases hk
        exact htag
      · cases hi

/-- The scores, the products and what else the two engines offer. -/
example : ∃ ix cl ix' cl', ∃ (_ : Made ix cl) (_ : ix.eqv ix' = true) (_ : cl.eqv cl' = true),
    (∀ o o' l l', ix.search o 3 "hel".toList = .ok l → ix'.search o' 3 "hel".toList = .ok l' →
      l.map (fun _ => ()) = l'.map fun _ => ()) ∧
    (JsProduct.mk ix.container 1).getTitle = (JsProduct.mk ix'.container 1).getTitle ∧
    suggestLoop cl.tags "t".toList = suggestLoop cl'.tags "t".toList ∧ serTags cl.tags = serTags cl'.tags := by
  obtain ⟨ix, cl, ix', cl', hb, hd, e1, e2, _, _⟩ := blockwise_equal
  have m1 : Made ix cl := .built (by decide) hb
  have m2 : Made ix' cl' := .loaded hd
  have hs : Searchable .debug64 .ident (fun c => [c]) parseOne 3 blockwise ix cl := ⟨by decide, by decide, hb, by decide +kernel⟩
  refine ⟨ix, cl, ix', cl', m1, e1, e2, fun o o' l l' hl hl' => ?_, (C94_product m1 e1 1 []).1,
    (C94_offers m1 m2 e2).2.2.2.2.2 _, (C94_bytes e2).2⟩
  have := (C94_scores m1 e1 o o' (by decide) (by decide) _ l l' hl hl' fun r hr => (hs.result_nonNeg hl hr).notNan).1
  rw [List.map_const', List.map_const', this]

end Idx
