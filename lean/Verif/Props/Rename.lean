import Verif.Props.Patch
/-
C123: editing the names of tags, categories and options inside a written file.
-/
namespace Idx

/-- Bytes written from the loaded indexes, with other classic indexes that loading would not change, load to them. -/
theorem load_replaced {t' o n ix} (hix : GramWf n ix) {cl₂ : Classic} (hc : ClassicWf (reloadGram o ix).container cl₂)
    (h₂ : reloadClassic .ident cl₂ = cl₂) (hf : Fits t' (serGramIndex o ix ++ serClassic .ident cl₂).length) (rest : Bytes) :
    deserializeAll t' n (serGramIndex o ix ++ serClassic .ident cl₂ ++ rest) = .ok (reloadGram o ix, cl₂) := by
  have hw := hix.reload (o := o)
  have hid : ∀ {σ : Type} (site : σ) {α : Type} (l : List α), HashOrd.ident.order site l = l := fun _ _ _ => rfl
  have r1 : reloadGram .ident (reloadGram o ix) = reloadGram o ix := by
    simp only [reloadGram, reloadContainer, hid, List.map_map, Function.comp_def, reloadProduct_idem]
  have e : serializeAll .ident (reloadGram o ix) cl₂ = serGramIndex o ix ++ serClassic .ident cl₂ := by
    have := serializeAll_reload o (cl := ⟨[], [], []⟩) hix
    have h0 : serClassic .ident (reloadClassic o ⟨[], [], []⟩) = serClassic o ⟨[], [], []⟩ := by
      have ho : ∀ {σ : Type} (site : σ) {α : Type}, o.order site ([] : List α) = [] := by
        intro σ site α; exact (o.perm site []).eq_nil
      simp only [serClassic, reloadClassic, reloadCategories, serOrders, serMap, ho, hid, List.map_nil]
    simp only [serializeAll] at this ⊢
    rw [h0] at this
    rw [List.append_cancel_right this]
  rw [← e] at hf ⊢
  rw [deserializeAll_fit .ident hw hc hf rest, r1, h₂]

theorem reloadOptions_append (a b : List CatOption) : ∀ k, reloadOptions k (a ++ b) = reloadOptions k a ++ reloadOptions (k + a.length) b := by
  induction a with
  | nil => intro k; rfl
  | cons x a ih =>
    intro k
    simp only [List.cons_append, reloadOptions, ih, List.length_cons, List.cons.injEq, true_and]
    rw [show k + 1 + a.length = k + (a.length + 1) by omega]

theorem reloadCategories_append (a b : List Category) : ∀ k, reloadCategories k (a ++ b) = reloadCategories k a ++
    reloadCategories (k + (a.map fun c => c.options.length).sum) b := by
  induction a with
  | nil => intro k; rfl
  | cons x a ih =>
    intro k
    simp only [List.cons_append, reloadCategories, ih, List.map_cons, List.sum_cons, Nat.add_assoc]

/-- A category that loading does not change can be replaced by another with as many options, if that is not changed either. -/
theorem reloadCategories_replace {a b : List Category} {c c₂ : Category} (h : reloadCategories 0 (a ++ c :: b) = a ++ c :: b)
    (hl : c₂.options.length = c.options.length)
    (h₂ : ∀ k, reloadOptions k c.options = c.options → reloadOptions k c₂.options = c₂.options) :
    reloadCategories 0 (a ++ c₂ :: b) = a ++ c₂ :: b := by
  rw [reloadCategories_append] at h ⊢
  obtain ⟨h1, h3⟩ := List.append_inj h (reloadCategories_length a 0)
  simp only [reloadCategories, List.cons.injEq] at h3 ⊢
  obtain ⟨h4, h5⟩ := h3
  have h6 := h₂ _ (congrArg Category.options h4)
  rw [h1, h6, hl, h5]

/-- What a built index is written as, by parts. -/
theorem written_parts (o : HashOrd) (ix : GramIndex Char) (cl : Classic) :
    serializeAll o ix cl = serGramIndex o ix ++ serClassic .ident (reloadClassic o cl) := by
  have hid : ∀ {σ : Type} (site : σ) {α : Type} (l : List α), HashOrd.ident.order site l = l := fun _ _ _ => rfl
  simp only [serializeAll, serClassic, reloadClassic, serCategories, reloadCategories_length, serCategories_reload, serTags, serVec,
    List.length_map, List.flatMap_map, serTag_reload, serOrders, serMap, hid]

/-- C123 (tag): in a written file the name of a tag can be replaced by any other, of any length that fits; the file loads, the tag has
that name, and nothing else is different. -/
theorem C123_tag {t t' o lower parse n input ix cl ix' cl'} (hn : 1 ≤ n) (h : buildAll t o lower parse n input = .ok (ix, cl))
    (hl : deserializeAll t' n (serializeAll o ix cl) = .ok (ix', cl')) (hf : Fits t' (serializeAll o ix cl).length)
    {before after : List Tag} {tag : Tag} (ht : cl'.tags = before ++ tag :: after) :
    ∃ pre post : Bytes, serializeAll o ix cl = pre ++ serStr tag.name ++ post ∧
      ∀ (name : Str), Fits t' (pre ++ serStr name ++ post).length → ∀ (rest : Bytes),
        deserializeAll t' n (pre ++ serStr name ++ post ++ rest) =
          .ok (ix', { cl' with tags := before ++ { tag with name := name } :: after }) := by
  have hix := gramWf_of_built hn h
  have hcl := classicWf_of_built h
  have hl' := deserializeAll_fit o hix hcl hf []
  rw [List.append_nil, hl] at hl'
  cases hl'
  have hset := settled_reload o hix hcl
  have hc := hcl.reload (o := o)
  have hlen : (before ++ tag :: after).length = (reloadClassic o cl).tags.length := by rw [ht]
  let B : Str → Bytes := fun name => serGramIndex o ix ++ serClassic .ident { reloadClassic o cl with tags := before ++ { tag with name := name } :: after }
  let pre := serGramIndex o ix ++ (serCategories (reloadClassic o cl).categories ++ (serUsize (reloadClassic o cl).tags.length ++ before.flatMap serTag))
  let post := serProductSeq tag.products ++ (after.flatMap serTag ++ serOrders .ident (reloadClassic o cl).order)
  have hB : ∀ name, B name = pre ++ serStr name ++ post := by
    intro name
    simp only [B, pre, post, serClassic, serTags, serVec, List.flatMap_append, List.flatMap_cons, serTag, ← hlen, List.length_append,
      List.length_cons, List.append_assoc]
  refine ⟨pre, post, ?_, fun name hf' rest => ?_⟩
  · rw [← hB, written_parts o ix]
    simp only [B]
    rw [← ht]
  · rw [← hB] at hf' ⊢
    refine load_replaced hix ?_ ?_ hf' rest
    · refine ⟨?_, ?_, hc.options, hc.order, hc.ranks⟩
      · intro x hx
        have h0 := hc.tags
        rw [ht] at h0
        simp only [List.mem_append, List.mem_cons] at hx
        rcases hx with hx | rfl | hx
        · exact h0 x (by simp [hx])
        · exact h0 tag (by simp)
        · exact h0 x (by simp [hx])
      · intro i x hx
        have h0 := hc.tagIds
        rw [ht] at h0
        have : ∃ y, (before ++ tag :: after)[i]? = some y ∧ y.id = x.id := by
          have e : (before ++ { tag with name := name } :: after).map (·.id) = (before ++ tag :: after).map (·.id) := by simp
          have e1 := congrArg (·[i]?) e
          simp only [List.getElem?_map] at e1
          simp only at hx
          rw [hx] at e1
          exact Option.map_eq_some_iff.1 e1.symm
        obtain ⟨y, h1, h2⟩ := this
        rw [← h2]; exact h0 i y h1
    · have h1 := hset.tags
      have h2 := hset.categories
      have hid : ∀ {σ : Type} (site : σ) {α : Type} (l : List α), HashOrd.ident.order site l = l := fun _ _ _ => rfl
      simp only at h1 h2
      rw [ht] at h1
      simp only [List.map_append, List.map_cons] at h1
      obtain ⟨h3, h4⟩ := List.append_inj h1 (by simp)
      simp only [List.cons.injEq] at h4
      obtain ⟨h5, h6⟩ := h4
      have h7 : reloadTag { tag with name := name } = { tag with name := name } := by
        have e1 := congrArg Tag.products h5
        have e2 := congrArg Tag.ids h5
        simp only [reloadTag] at e1 e2 ⊢
        rw [e1, e2]
      have : ∀ c : Classic, reloadClassic .ident c = ⟨reloadCategories 0 c.categories, c.tags.map reloadTag, c.order⟩ := fun _ => rfl
      rw [this]
      simp only [List.map_append, List.map_cons, h3, h6, h7, h2]

/-- The same for one category, with whatever replaces it. -/
theorem category_replaced {t t' o lower parse n input ix cl ix' cl'} (hn : 1 ≤ n) (h : buildAll t o lower parse n input = .ok (ix, cl))
    (hl : deserializeAll t' n (serializeAll o ix cl) = .ok (ix', cl')) (hf : Fits t' (serializeAll o ix cl).length)
    {before after : List Category} {cat : Category} (hcat : cl'.categories = before ++ cat :: after) :
    ∃ pre post : Bytes, serializeAll o ix cl = pre ++ serCategory cat ++ post ∧
      ∀ (cat₂ : Category), cat₂.options.map (fun op => (op.sid, op.content, op.ids)) = cat.options.map (fun op => (op.sid, op.content, op.ids)) →
        Fits t' (pre ++ serCategory cat₂ ++ post).length → ∀ (rest : Bytes), deserializeAll t' n (pre ++ serCategory cat₂ ++ post ++ rest) =
          .ok (ix', { cl' with categories := before ++ cat₂ :: after }) := by
  have hix := gramWf_of_built hn h
  have hcl := classicWf_of_built h
  have hl' := deserializeAll_fit o hix hcl hf []
  rw [List.append_nil, hl] at hl'
  cases hl'
  have hset := settled_reload o hix hcl
  have hc := hcl.reload (o := o)
  have hlen : (before ++ cat :: after).length = (reloadClassic o cl).categories.length := by rw [hcat]
  let B : Category → Bytes := fun c₂ => serGramIndex o ix ++ serClassic .ident { reloadClassic o cl with categories := before ++ c₂ :: after }
  let pre := serGramIndex o ix ++ (serUsize (reloadClassic o cl).categories.length ++ before.flatMap serCategory)
  let post := after.flatMap serCategory ++ (serTags (reloadClassic o cl).tags ++ serOrders .ident (reloadClassic o cl).order)
  have hB : ∀ c₂, B c₂ = pre ++ serCategory c₂ ++ post := by
    intro c₂
    simp only [B, pre, post, serClassic, serCategories, List.flatMap_append, List.flatMap_cons, ← hlen, List.length_append,
      List.length_cons, List.append_assoc]
  refine ⟨pre, post, ?_, fun c₂ hop hf' rest => ?_⟩
  · rw [← hB, written_parts o ix]
    simp only [B]
    rw [← hcat]
  · rw [← hB] at hf' ⊢
    have hcont : ∀ op₂ ∈ c₂.options, ∃ op ∈ cat.options, op.content = op₂.content := by
      intro op₂ h2
      have : (op₂.sid, op₂.content, op₂.ids) ∈ cat.options.map (fun op => (op.sid, op.content, op.ids)) := hop ▸ List.mem_map.2 ⟨op₂, h2, rfl⟩
      obtain ⟨op, h3, h4⟩ := List.mem_map.1 this
      exact ⟨op, h3, congrArg (fun x => x.2.1) h4⟩
    refine load_replaced hix ?_ ?_ hf' rest
    · refine ⟨hc.tags, hc.tagIds, ?_, hc.order, hc.ranks⟩
      intro x hx op ho
      have h0 := hc.options
      rw [hcat] at h0
      simp only [List.mem_append, List.mem_cons] at hx
      rcases hx with hx | rfl | hx
      · exact h0 x (by simp [hx]) op ho
      · obtain ⟨op', h3, h4⟩ := hcont op ho
        rw [← h4]; exact h0 cat (by simp) op' h3
      · exact h0 x (by simp [hx]) op ho
    · have h1 := hset.tags
      have h2 := hset.categories
      simp only at h1 h2
      rw [hcat] at h2
      have : ∀ c : Classic, reloadClassic .ident c = ⟨reloadCategories 0 c.categories, c.tags.map reloadTag, c.order⟩ := fun _ => rfl
      rw [this]
      simp only [h1]
      rw [reloadCategories_replace h2 (by simpa using congrArg List.length hop)]
      intro k hk
      clear h2 hcont hf' hcat hlen hB
      have key : ∀ (l l₂ : List CatOption), l₂.map (fun op => (op.sid, op.content, op.ids)) = l.map (fun op => (op.sid, op.content, op.ids)) →
          ∀ k, reloadOptions k l = l → reloadOptions k l₂ = l₂ := by
        intro l
        induction l with
        | nil => intro l₂ h _ _; rw [List.map_nil, List.map_eq_nil_iff] at h; subst h; rfl
        | cons a l ih =>
          intro l₂ h k hk
          cases l₂ with
          | nil => cases h
          | cons b l₂ =>
            simp only [List.map_cons, List.cons.injEq, Prod.mk.injEq] at h
            simp only [reloadOptions, List.cons.injEq] at hk ⊢
            refine ⟨?_, ih l₂ h.2 _ hk.2⟩
            have e0 := congrArg CatOption.sid hk.1
            have e1 := congrArg CatOption.content hk.1
            have e2 := congrArg CatOption.ids hk.1
            simp only [reloadOption] at e0 e1 e2 ⊢
            obtain ⟨g1, g2, g3⟩ := h.1
            rw [← g2] at e1 e2
            rw [e1, e2, e0, ← g1, ← g3]
      exact key _ _ hop k hk

/-- C123 (category): likewise the name of a category. -/
theorem C123_category {t t' o lower parse n input ix cl ix' cl'} (hn : 1 ≤ n) (h : buildAll t o lower parse n input = .ok (ix, cl))
    (hl : deserializeAll t' n (serializeAll o ix cl) = .ok (ix', cl')) (hf : Fits t' (serializeAll o ix cl).length)
    {before after : List Category} {cat : Category} (hcat : cl'.categories = before ++ cat :: after) :
    ∃ pre post : Bytes, serializeAll o ix cl = pre ++ serStr cat.name ++ post ∧
      ∀ (name : Str), Fits t' (pre ++ serStr name ++ post).length → ∀ (rest : Bytes),
        deserializeAll t' n (pre ++ serStr name ++ post ++ rest) =
          .ok (ix', { cl' with categories := before ++ { cat with name := name } :: after }) := by
  obtain ⟨pre, post, e1, e2⟩ := category_replaced hn h hl hf hcat
  have hs : ∀ name : Str, pre ++ serCategory { cat with name := name } ++ post =
      (pre ++ serBool cat.exclusive) ++ serStr name ++ (serUsize cat.options.length ++ (cat.options.flatMap serCatOption ++ post)) := by
    intro name; simp only [serCategory, List.append_assoc]
  refine ⟨_, _, e1.trans (hs cat.name), fun name hf' rest => ?_⟩
  rw [← hs] at hf' ⊢
  exact e2 { cat with name := name } rfl hf' rest

/-- C123 (option): likewise the name of an option. -/
theorem C123_option {t t' o lower parse n input ix cl ix' cl'} (hn : 1 ≤ n) (h : buildAll t o lower parse n input = .ok (ix, cl))
    (hl : deserializeAll t' n (serializeAll o ix cl) = .ok (ix', cl')) (hf : Fits t' (serializeAll o ix cl).length)
    {before after : List Category} {cat : Category} (hcat : cl'.categories = before ++ cat :: after)
    {first last : List CatOption} {op : CatOption} (hop : cat.options = first ++ op :: last) :
    ∃ pre post : Bytes, serializeAll o ix cl = pre ++ serStr op.name ++ post ∧
      ∀ (name : Str), Fits t' (pre ++ serStr name ++ post).length → ∀ (rest : Bytes),
        deserializeAll t' n (pre ++ serStr name ++ post ++ rest) =
          .ok (ix', { cl' with categories := before ++ { cat with options := first ++ { op with name := name } :: last } :: after }) := by
  obtain ⟨pre, post, e1, e2⟩ := category_replaced hn h hl hf hcat
  have hs : ∀ name : Str, pre ++ serCategory { cat with options := first ++ { op with name := name } :: last } ++ post =
      (pre ++ (serBool cat.exclusive ++ (serStr cat.name ++ (serUsize (first ++ op :: last).length ++ first.flatMap serCatOption)))) ++ serStr name ++
        (serProductSeq op.content ++ (last.flatMap serCatOption ++ post)) := by
    intro name
    have e : serCatOption { op with name := name } = serStr name ++ serProductSeq op.content := rfl
    simp only [serCategory, e, List.flatMap_append, List.flatMap_cons, List.append_assoc, List.length_append, List.length_cons]
  have hself : cat = { cat with options := first ++ { op with name := op.name } :: last } := by
    cases cat; simp only at hop; rw [hop]
  refine ⟨_, _, (e1.trans (congrArg (fun c => pre ++ serCategory c ++ post) hself)).trans (hs op.name), fun name hf' rest => ?_⟩
  · rw [← hs] at hf' ⊢
    refine e2 { cat with options := first ++ { op with name := name } :: last } ?_ hf' rest
    rw [hop]
    simp

end Idx
