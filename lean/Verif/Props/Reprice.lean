import Verif.Props.Rename
import Verif.Props.Depends
/-
C124: editing a price inside a written file.
-/
namespace Idx

/-- Replacing the feature columns of an index by others with different names. -/
theorem load_columns {t' o n ix cl} (hix : GramWf n ix) (hcl : ClassicWf ix.container cl) {extra : FeatureSet} (hw : AMap.Wf extra) :
    let ix₂ : GramIndex Char := { reloadGram o ix with container := { (reloadGram o ix).container with extra := extra } }
    Fits t' (serializeAll .ident ix₂ (reloadClassic o cl)).length → ∀ (rest : Bytes),
      deserializeAll t' n (serializeAll .ident ix₂ (reloadClassic o cl) ++ rest) = .ok (ix₂, reloadClassic o cl) := by
  intro ix₂ hf rest
  have h1 := hix.reload (o := o)
  have h2 := hcl.reload (o := o)
  have hset := settled_reload o hix hcl
  have hid : ∀ {σ : Type} (site : σ) {α : Type} (l : List α), HashOrd.ident.order site l = l := fun _ _ _ => rfl
  have w1 : GramWf n ix₂ := ⟨⟨h1.container.vendors, h1.container.sid, h1.container.vendor, hw⟩, h1.roots, h1.data,
    fun e he => ⟨(h1.grams e he).1, (h1.grams e he).2.mem, (h1.grams e he).2.sorted⟩⟩
  have w2 : ClassicWf ix₂.container (reloadClassic o cl) := ⟨fun x hx => ⟨(h2.tags x hx).mem, (h2.tags x hx).sorted⟩, h2.tagIds,
    fun c hc op ho => ⟨(h2.options c hc op ho).mem, (h2.options c hc op ho).sorted⟩, h2.order, h2.ranks⟩
  rw [deserializeAll_fit .ident w1 w2 hf rest]
  have r1 : reloadGram .ident ix₂ = ix₂ := by
    simp only [ix₂, reloadGram, reloadContainer, hid, List.map_map, Function.comp_def, reloadProduct_idem]
  have r2 : reloadClassic .ident (reloadClassic o cl) = reloadClassic o cl := by
    have g1 := hset.categories
    have g2 := hset.tags
    simp only [reloadClassic, hid] at g1 g2 ⊢
    rw [g1, g2]
  rw [r1, r2]

/-- C124: in a written file the four bytes of one number of a column, such as the price of a product, can be replaced by those of any
other `f32`, also a negative one or one that is not a number. The file loads to exactly what the original loads to with that one number
replaced; in particular the stored orders, so the order by price, remain those of the old price. -/
theorem C124 {t t' o lower parse n input ix cl ix' cl'} (hn : 1 ≤ n) (h : buildAll t o lower parse n input = .ok (ix, cl))
    (hl : deserializeAll t' n (serializeAll o ix cl) = .ok (ix', cl')) (hf : Fits t' (serializeAll o ix cl).length)
    {before after : FeatureSet} {column : Str} {left right : List F32} {x : F32}
    (hx : ix'.container.extra = before ++ (column, .float (left ++ x :: right)) :: after) :
    ∃ pre post : Bytes, serializeAll o ix cl = pre ++ serF32 x ++ post ∧ ∀ (y : F32) (rest : Bytes),
      deserializeAll t' n (pre ++ serF32 y ++ post ++ rest) = .ok ({ ix' with container :=
        { ix'.container with extra := before ++ (column, .float (left ++ y :: right)) :: after } }, cl') := by
  have hix := gramWf_of_built hn h
  have hcl := classicWf_of_built h
  have hl' := deserializeAll_fit o hix hcl hf []
  rw [List.append_nil, hl] at hl'
  cases hl'
  have hid : ∀ {σ : Type} (site : σ) {α : Type} (l : List α), HashOrd.ident.order site l = l := fun _ _ _ => rfl
  have hw := (hix.reload (o := o)).container.extra
  rw [hx] at hw
  let ix₂ : F32 → GramIndex Char := fun y => { reloadGram o ix with container :=
    { (reloadGram o ix).container with extra := before ++ (column, .float (left ++ y :: right)) :: after } }
  let pre := serVendors .ident ix.container.vendors ++ (serVec serProduct (reloadGram o ix).container.products ++
    (serUsize (before.length + (after.length + 1)) ++ (before.flatMap (fun e => serStr e.1 ++ serFeature e.2) ++ (serStr column ++ (serU8 1 ++
      (serUsize (left.length + (right.length + 1)) ++ left.flatMap serF32))))))
  let post := right.flatMap serF32 ++ (after.flatMap (fun e => serStr e.1 ++ serFeature e.2) ++
    (serMap .ident "roots" serChar serNode (reloadGram o ix).roots ++ (serUsize (reloadGram o ix).data.length ++
      ((reloadGram o ix).data.flatMap serPosting ++ serClassic .ident (reloadClassic o cl)))))
  have hB : ∀ y, serializeAll .ident (ix₂ y) (reloadClassic o cl) = pre ++ serF32 y ++ post := by
    intro y
    have e1 : serFeature (.float (left ++ y :: right)) = serU8 1 ++ serVec serF32 (left ++ y :: right) := rfl
    have e2 : (reloadGram o ix).container.vendors = ix.container.vendors := rfl
    simp only [ix₂, pre, post, serializeAll, serGramIndex, serContainer, serFeatureSet, serMap, serMapEntries, hid, List.flatMap_append, List.flatMap_cons, e1,
      e2, serVec, List.length_append, List.length_cons, List.append_assoc]
  have hself : ix₂ x = reloadGram o ix := by
    simp only [ix₂]
    rw [← hx]
  refine ⟨pre, post, ?_, fun y rest => ?_⟩
  · rw [← hB, hself, serializeAll_reload o hix]
  · have hlen : (pre ++ serF32 y ++ post).length = (serializeAll o ix cl).length := by
      rw [← serializeAll_reload o hix, ← hself, hB]
      simp only [List.length_append, serF32, F32.toBeBytes, List.length_cons, List.length_nil]
    rw [← hlen, ← hB] at hf
    rw [← hB]
    refine load_columns hix hcl (extra := before ++ (column, .float (left ++ y :: right)) :: after) ?_ hf rest
    simpa [AMap.Wf] using hw

/-- C124 (search): and every search gives exactly the same answers. -/
theorem C124_search {t t' o lower parse n input ix cl ix' cl'} (hn : 1 ≤ n) (hn2 : n ≤ 764) (h : buildAll t o lower parse n input = .ok (ix, cl))
    (hl : deserializeAll t' n (serializeAll o ix cl) = .ok (ix', cl')) (hf : Fits t' (serializeAll o ix cl).length)
    {before after : FeatureSet} {column : Str} {left right : List F32} {x : F32}
    (hx : ix'.container.extra = before ++ (column, .float (left ++ x :: right)) :: after) :
    ∃ pre post : Bytes, serializeAll o ix cl = pre ++ serF32 x ++ post ∧ ∀ (y : F32) (rest : Bytes), ∃ ix₂,
      deserializeAll t' n (pre ++ serF32 y ++ post ++ rest) = .ok (ix₂, cl') ∧
        ∀ (o₁ : HashOrd) (query : List Char), ix₂.search o₁ n query = ix'.search o₁ n query := by
  obtain ⟨pre, post, e1, e2⟩ := C124 hn h hl hf hx
  refine ⟨pre, post, e1, fun y rest => ⟨_, e2 y rest, fun o₁ query => ?_⟩⟩
  rw [search_eq o₁ _ hn hn2, search_eq o₁ _ hn hn2]
  rfl

theorem get_other {K V : Type} [DecidableEq K] (before after : AMap K V) {k k' : K} (v v' : V) (h : k' ≠ k) :
    AMap.get (before ++ (k, v) :: after) k' = AMap.get (before ++ (k, v') :: after) k' := by
  induction before with
  | nil =>
    show AMap.get ((k, v) :: after) k' = AMap.get ((k, v') :: after) k'
    unfold AMap.get
    rw [if_neg fun e => h e.symm, if_neg fun e => h e.symm]
  | cons a l ih =>
    show AMap.get (a :: (l ++ (k, v) :: after)) k' = AMap.get (a :: (l ++ (k, v') :: after)) k'
    unfold AMap.get
    rw [ih]

/-- A page shows the same products for two indexes that differ in columns its filters do not use. -/
theorem page_columns (mode : PanicMode) (o : HashOrd) (lower : Char → List Char) (pix pix₂ : GramIndex Char) (pcl : Classic) (e e' : Engine)
    (hi : e.index.lockOk = .ok (some pix)) (hi' : e'.index.lockOk = .ok (some pix₂))
    (hk : e.classic.lockOk = .ok (some pcl)) (hk' : e'.classic.lockOk = .ok (some pcl))
    (hroots : pix₂.roots = pix.roots) (hdata : pix₂.data = pix.data) (cats : CategoryHandler) (tags : TagHandler)
    (order : Option Str) (filter : List (Str × JsValue))
    (hget : ∀ k, k ∈ filter.map (·.1) → AMap.get pix₂.container.extra k = AMap.get pix.container.extra k) (query : Str) :
    (e'.search mode o lower query cats tags order filter).2.map (·.map (·.toExport)) =
      (e.search mode o lower query cats tags order filter).2.map (·.map (·.toExport)) := by
  have hsearch : ∀ q, pix₂.search o ngramIndexSize q = pix.search o ngramIndexSize q := by
    intro q
    unfold GramIndex.search GramIndex.searchStep GramIndex.searchGram
    rw [hroots, hdata]
  have hids : ∀ fs, parseFilters filter = some fs → searchIds o lower pix₂ query cats tags fs = searchIds o lower pix query cats tags fs := by
    intro fs hfs
    unfold searchIds
    rw [hsearch]
    have : keepProduct o cats tags fs pix₂.container.extra = keepProduct o cats tags fs pix.container.extra := by
      funext p
      unfold keepProduct
      have hall : (fs.all fun f => f.keeps pix₂.container.extra p) = fs.all fun f => f.keeps pix.container.extra p := by
        have hk : ∀ f ∈ fs, f.keeps pix₂.container.extra p = f.keeps pix.container.extra p :=
          fun f hf => FeatureFilter.keeps_congr (hget _ (parseFilters_keys filter fs hfs f hf)) p
        rw [Bool.eq_iff_iff, List.all_eq_true, List.all_eq_true]
        exact ⟨fun h f hf => hk f hf ▸ h f hf, fun h f hf => (hk f hf).symm ▸ h f hf⟩
      rw [hall]
    rw [this]
  unfold Engine.search
  cases hfs : parseFilters filter with
  | none => rfl
  | some fs =>
    simp only [hi, hi', hids fs hfs]
    cases searchIds o lower pix query cats tags fs with
    | error w => rfl
    | ok ids =>
      cases order with
      | none => rfl
      | some name =>
        simp only [hk, hk', OrderIndex.getOrders]
        cases AMap.get pcl.order name with
        | none => rfl
        | some ranks =>
          simp only
          cases sortByOrder ranks ids <;> rfl

/-- C124 (page): a page that loaded the edited file shows, whatever is searched, selected or filtered by other columns, and in whatever
order, the same products in the same order as one that loaded the original: sorting by price still goes by the old price. -/
theorem C124_page {t t' o lower parse input ix cl ix' cl'} (h : buildAll t o lower parse ngramIndexSize input = .ok (ix, cl))
    (hl : deserializeAll t' ngramIndexSize (serializeAll o ix cl) = .ok (ix', cl')) (hf : Fits t' (serializeAll o ix cl).length)
    {before after : FeatureSet} {column : Str} {left right : List F32} {x : F32}
    (hx : ix'.container.extra = before ++ (column, .float (left ++ x :: right)) :: after) :
    ∃ pre post : Bytes, serializeAll o ix cl = pre ++ serF32 x ++ post ∧ ∀ (y : F32) (rest : Bytes), ∃ ix₂,
      deserializeAll t' ngramIndexSize (pre ++ serF32 y ++ post ++ rest) = .ok (ix₂, cl') ∧
        ∀ (mode : PanicMode) (o₁ : HashOrd) (lower' : Char → List Char) (e e' : Engine), e.index.lockOk = .ok (some ix') →
          e'.index.lockOk = .ok (some ix₂) → e.classic.lockOk = .ok (some cl') → e'.classic.lockOk = .ok (some cl') →
          ∀ (query : Str) (cats : CategoryHandler) (tags : TagHandler) (order : Option Str) (filter : List (Str × JsValue)),
            column ∉ filter.map (·.1) → (e'.search mode o₁ lower' query cats tags order filter).2.map (·.map (·.toExport)) =
              (e.search mode o₁ lower' query cats tags order filter).2.map (·.map (·.toExport)) := by
  obtain ⟨pre, post, e1, e2⟩ := C124 (by decide) h hl hf hx
  refine ⟨pre, post, e1, fun y rest => ⟨_, e2 y rest, fun mode o₁ lower' e e' hi hi' hk hk' query cats tags order filter hc => ?_⟩⟩
  refine page_columns mode o₁ lower' ix' _ cl' e e' hi hi' hk hk' rfl rfl cats tags order filter (fun k hk => ?_) query
  rw [hx]
  exact get_other _ _ _ _ fun e => hc (e ▸ hk)

end Idx
