import Verif.Props.Filters

/-! # C119: selections are sets -/

namespace Idx

/-- Spec: the same options are selected in two handlers of the same tables. -/
structure CategoryHandler.SameSelection (h h' : CategoryHandler) : Prop where
  handle : h'.handle = h.handle
  active : ∀ k, (AMap.get h'.active k).isSome = (AMap.get h.active k).isSome

/-- Spec: the same tags are selected in two handlers of the same tables. -/
structure TagHandler.SameSelection (h h' : TagHandler) : Prop where
  handle : h'.handle = h.handle
  active : ∀ k, (AMap.get h'.active k).isSome = (AMap.get h.active k).isSome

/-- Spec: an option is selected exactly if it is in one of two handlers of the same tables. -/
structure CategoryHandler.Joins (h h₁ h₂ : CategoryHandler) : Prop where
  left : h₁.handle = h.handle
  right : h₂.handle = h.handle
  active : ∀ k, (AMap.get h.active k).isSome = ((AMap.get h₁.active k).isSome || (AMap.get h₂.active k).isSome)

/-- Spec: a tag is selected exactly if it is in one of two handlers of the same tables. -/
structure TagHandler.Joins (h h₁ h₂ : TagHandler) : Prop where
  left : h₁.handle = h.handle
  right : h₂.handle = h.handle
  active : ∀ k, (AMap.get h.active k).isSome = ((AMap.get h₁.active k).isSome || (AMap.get h₂.active k).isSome)

theorem CategoryHandler.SameSelection.allows {h h' : CategoryHandler} (s : h.SameSelection h') (sid : Nat) : h'.Allows sid ↔ h.Allows sid := by
  unfold CategoryHandler.Allows
  simp only [s.handle, s.active]

theorem TagHandler.SameSelection.allows {h h' : TagHandler} (s : h.SameSelection h') (sid : Nat) : h'.Allows sid ↔ h.Allows sid := by
  unfold TagHandler.Allows
  simp only [s.handle, s.active]

theorem CategoryHandler.Joins.allows {h h₁ h₂ : CategoryHandler} (s : h.Joins h₁ h₂) (sid : Nat) :
    h.Allows sid ↔ h₁.Allows sid ∧ h₂.Allows sid := by
  unfold CategoryHandler.Allows
  simp only [s.left, s.right, s.active, Bool.or_eq_true]
  constructor
  · exact fun hall => ⟨fun c i cat op ha => hall c i cat op (.inl ha), fun c i cat op ha => hall c i cat op (.inr ha)⟩
  · rintro ⟨h1, h2⟩ c i cat op (ha | ha)
    · exact h1 c i cat op ha
    · exact h2 c i cat op ha

theorem TagHandler.Joins.allows {h h₁ h₂ : TagHandler} (s : h.Joins h₁ h₂) (sid : Nat) :
    h.Allows sid ↔ h₁.Allows sid ∧ h₂.Allows sid := by
  unfold TagHandler.Allows
  simp only [s.left, s.right, s.active, Bool.or_eq_true]
  constructor
  · exact fun hall => ⟨fun i tag ha => hall i tag (.inl ha), fun i tag ha => hall i tag (.inr ha)⟩
  · rintro ⟨h1, h2⟩ i tag (ha | ha)
    · exact h1 i tag ha
    · exact h2 i tag ha

/-- Nothing can be read from a filter object exactly if nothing can be read from one of its entries. -/
theorem parseFilters_none : ∀ filter : List (Str × JsValue), parseFilters filter = none ↔ ∃ x ∈ filter, parseFilter x.1 x.2 = none
  | [] => by simp [parseFilters]
  | (k, v) :: rest => by
    rw [parseFilters]
    cases hp : parseFilter k v with
    | none => simp [hp]
    | some f => simp [hp, parseFilters_none rest]

/-- What is read from a filter object is what is read from its entries. -/
theorem parseFilters_mem : ∀ (filter : List (Str × JsValue)) (fs : List FeatureFilter), parseFilters filter = some fs →
    ∀ f, f ∈ fs ↔ ∃ x ∈ filter, parseFilter x.1 x.2 = some f
  | [], fs, h, f => by cases h; simp
  | (k, v) :: rest, fs, h, f => by
    rw [parseFilters] at h
    cases hp : parseFilter k v with
    | none => rw [hp] at h; cases h
    | some g =>
      rw [hp] at h
      simp only at h
      obtain ⟨gs, hg, rfl⟩ := Option.map_eq_some_iff.1 h
      simp only [List.mem_cons, parseFilters_mem rest gs hg f, exists_eq_or_imp, hp, Option.some.injEq]
      exact or_congr ⟨Eq.symm, Eq.symm⟩ Iff.rfl

/-- **C119.** What a search call does depends on the selected options, the selected tags and the entries of the filter object only as
sets: not on the order in which they were selected or written down, nor on how often an entry is there, nor on the order in which
the tables of selections are iterated. -/
theorem C119 (mode : PanicMode) (o : HashOrd) (lower : Char → List Char) (e : Engine) (input : Str) (cats cats' : CategoryHandler)
    (tags tags' : TagHandler) (hc : cats.InRange) (ht : tags.InRange) (hcs : cats.SameSelection cats') (hts : tags.SameSelection tags')
    (order : Option Str) (filter filter' : List (Str × JsValue)) (hf : ∀ x, x ∈ filter' ↔ x ∈ filter) :
    e.search mode o lower input cats' tags' order filter' = e.search mode o lower input cats tags order filter := by
  have hc' : cats'.InRange := by
    intro a b hs
    rw [hcs.active] at hs
    rw [hcs.handle]
    exact hc a b hs
  have ht' : tags'.InRange := by
    intro a hs
    rw [hts.active] at hs
    rw [hts.handle]
    exact ht a hs
  have hnone : parseFilters filter' = none ↔ parseFilters filter = none := by
    rw [parseFilters_none, parseFilters_none]
    exact exists_congr fun x => and_congr_left fun _ => hf x
  unfold Engine.search
  cases hp : parseFilters filter with
  | none => rw [hnone.2 hp]
  | some fs =>
    cases hp' : parseFilters filter' with
    | none => rw [hnone.1 hp'] at hp; cases hp
    | some fs' =>
      have hmem : ∀ f, f ∈ fs' ↔ f ∈ fs := fun f => by
        rw [parseFilters_mem _ _ hp, parseFilters_mem _ _ hp']
        exact exists_congr fun x => and_congr_left fun _ => hf x
      have key : ∀ ix, searchIds o lower ix input cats' tags' fs' = searchIds o lower ix input cats tags fs := by
        intro ix
        obtain ⟨r, h1, h2⟩ := searchIds_spec o lower ix input cats tags hc ht fs
        obtain ⟨r', h1', h2'⟩ := searchIds_spec o lower ix input cats' tags' hc' ht' fs'
        rw [h1] at h1'
        cases h1'
        rw [h2, h2']
        have hw : ∀ sid, Wanted cats' tags' fs' ix.container.extra sid ↔ Wanted cats tags fs ix.container.extra sid := by
          intro sid
          unfold Wanted
          rw [hcs.allows, hts.allows]
          simp only [hmem]
        exact congrArg Except.ok (List.filter_congr fun sid _ => decide_eq_decide.2 (hw sid))
      simp only [key]

/-- The same for pages: two histories of clicks after which every option and every tag was clicked equally often, up to an even
number, lead to the same searches. -/
theorem C119_history (mode : PanicMode) (o : HashOrd) (lower : Char → List Char) (e : Engine) (input : Str) (c : Classic)
    (clicks clicks' : List CatOp) (hclicks : ∀ item, .toggle item ∈ clicks → item.Exists c)
    (hsame : ∀ k, togglesOf k clicks' % 2 = togglesOf k clicks % 2)
    (tagClicks tagClicks' : List TagOp) (hok : ∀ op ∈ tagClicks, op.Ok) (hok' : ∀ op ∈ tagClicks', op.Ok)
    (htag : ∀ tag, .toggle tag ∈ tagClicks → tag.handle = c)
    (hsame' : ∀ i, tagTogglesOf i tagClicks' % 2 = tagTogglesOf i tagClicks % 2)
    (order : Option Str) (filter filter' : List (Str × JsValue)) (hf : ∀ x, x ∈ filter' ↔ x ∈ filter) :
    ∃ tags tags', tagClicks.foldlM TagOp.run (TagHandler.new c) = .ok tags ∧ tagClicks'.foldlM TagOp.run (TagHandler.new c) = .ok tags' ∧
      e.search mode o lower input (clicks'.foldl CatOp.run (.new c)) tags' order filter' =
        e.search mode o lower input (clicks.foldl CatOp.run (.new c)) tags order filter := by
  obtain ⟨tags, ht, inv⟩ := tagInv_run (.new c) AMap.Wf.nil tagClicks hok
  obtain ⟨tags', ht', inv'⟩ := tagInv_run (.new c) AMap.Wf.nil tagClicks' hok'
  refine ⟨tags, tags', ht, ht', C119 mode o lower e input _ _ _ _ (C33_inRange_categories c clicks hclicks)
    (C33_inRange_tags c tagClicks tags hok htag ht) ⟨?_, ?_⟩ ⟨?_, ?_⟩ order filter filter' hf⟩
  · rw [(catInv_run (.new c) AMap.Wf.nil clicks).handle, (catInv_run (.new c) AMap.Wf.nil clicks').handle]
  · intro k
    have h1 := C37_categories c clicks ⟨[], k.1, k.2⟩
    have h2 := C37_categories c clicks' ⟨[], k.1, k.2⟩
    rw [hsame] at h2
    exact h2.trans h1.symm
  · rw [inv.handle, inv'.handle]
  · intro i
    obtain ⟨t1, e1, h1⟩ := C37_tags c tagClicks hok
    obtain ⟨t2, e2, h2⟩ := C37_tags c tagClicks' hok'
    rw [ht] at e1
    cases e1
    rw [ht'] at e2
    cases e2
    have h1 := h1 ⟨c, i⟩
    have h2 := h2 ⟨c, i⟩
    rw [hsame'] at h2
    exact h2.trans h1.symm

open Classical in
/-- What two selections together show is what both of them show, in the same order. -/
theorem C119_join (mode : PanicMode) (o : HashOrd) (lower : Char → List Char) (e : Engine) (input : Str)
    (cats cats₁ cats₂ : CategoryHandler) (tags tags₁ tags₂ : TagHandler) (hc : cats.InRange) (ht : tags.InRange)
    (hcj : cats.Joins cats₁ cats₂) (htj : tags.Joins tags₁ tags₂) (filter filter₁ filter₂ : List (Str × JsValue))
    (hf : ∀ x, x ∈ filter ↔ x ∈ filter₁ ∨ x ∈ filter₂) (e₁ e₂ : Engine) (found₁ found₂ : ProductProducer)
    (h₁ : e.search mode o lower input cats₁ tags₁ none filter₁ = (e₁, .ok (some found₁)))
    (h₂ : e.search mode o lower input cats₂ tags₂ none filter₂ = (e₂, .ok (some found₂))) :
    ∃ found, e.search mode o lower input cats tags none filter = (e, .ok (some found)) ∧ found.container = found₁.container ∧
      found.toExport = found₁.toExport.filter fun sid => decide (sid ∈ found₂.toExport) := by
  have hc₁ : cats₁.InRange := by
    intro a b hs
    rw [hcj.left]
    exact hc a b (by rw [hcj.active, hs, Bool.true_or])
  have hc₂ : cats₂.InRange := by
    intro a b hs
    rw [hcj.right]
    exact hc a b (by rw [hcj.active, hs, Bool.or_true])
  have ht₁ : tags₁.InRange := by
    intro a hs
    rw [htj.left]
    exact ht a (by rw [htj.active, hs, Bool.true_or])
  have ht₂ : tags₂.InRange := by
    intro a hs
    rw [htj.right]
    exact ht a (by rw [htj.active, hs, Bool.or_true])
  unfold Engine.search at h₁ h₂ ⊢
  cases hp₁ : parseFilters filter₁ with
  | none => rw [hp₁] at h₁; cases h₁
  | some fs₁ =>
  cases hp₂ : parseFilters filter₂ with
  | none => rw [hp₂] at h₂; cases h₂
  | some fs₂ =>
  cases hp : parseFilters filter with
  | none =>
    obtain ⟨x, hx, hn⟩ := (parseFilters_none filter).1 hp
    rcases (hf x).1 hx with hx | hx
    · rw [(parseFilters_none filter₁).2 ⟨x, hx, hn⟩] at hp₁; cases hp₁
    · rw [(parseFilters_none filter₂).2 ⟨x, hx, hn⟩] at hp₂; cases hp₂
  | some fs =>
    rw [hp₁] at h₁
    rw [hp₂] at h₂
    dsimp only at h₁ h₂ ⊢
    have hmem : ∀ f, f ∈ fs ↔ f ∈ fs₁ ∨ f ∈ fs₂ := fun f => by
      rw [parseFilters_mem _ _ hp, parseFilters_mem _ _ hp₁, parseFilters_mem _ _ hp₂, ← exists_or]
      exact exists_congr fun x => by rw [hf x, or_and_right]
    split at h₁
    · cases h₁
    · cases h₁
    · rename_i ix hix
      simp only [hix] at h₂ ⊢
      obtain ⟨r, s1, s2⟩ := searchIds_spec o lower ix input cats tags hc ht fs
      obtain ⟨r₁, s3, s4⟩ := searchIds_spec o lower ix input cats₁ tags₁ hc₁ ht₁ fs₁
      obtain ⟨r₂, s5, s6⟩ := searchIds_spec o lower ix input cats₂ tags₂ hc₂ ht₂ fs₂
      rw [s1] at s3 s5
      cases s3
      cases s5
      rw [s4] at h₁
      rw [s6] at h₂
      rw [s2]
      simp only [Prod.mk.injEq, Except.ok.injEq, Option.some.injEq] at h₁ h₂
      obtain ⟨_, rfl⟩ := h₁
      obtain ⟨_, rfl⟩ := h₂
      refine ⟨_, rfl, rfl, ?_⟩
      show List.filter _ _ = List.filter _ (List.filter _ _)
      rw [List.filter_filter]
      refine List.filter_congr fun sid hs => ?_
      have hw : Wanted cats tags fs ix.container.extra sid ↔ Wanted cats₁ tags₁ fs₁ ix.container.extra sid ∧
          Wanted cats₂ tags₂ fs₂ ix.container.extra sid := by
        unfold Wanted
        rw [hcj.allows, htj.allows]
        simp only [hmem]
        constructor
        · rintro ⟨⟨a, b⟩, ⟨c, d⟩, f⟩
          exact ⟨⟨a, c, fun g hg => f g (.inl hg)⟩, b, d, fun g hg => f g (.inr hg)⟩
        · rintro ⟨⟨a, c, f⟩, b, d, g⟩
          exact ⟨⟨a, b⟩, ⟨c, d⟩, fun x hx => hx.elim (f x) (g x)⟩
      have hin : sid ∈ (ProductProducer.new ix.container ((r.map (·.1.sid)).filter fun sid =>
          decide (Wanted cats₂ tags₂ fs₂ ix.container.extra sid))).toExport ↔ Wanted cats₂ tags₂ fs₂ ix.container.extra sid := by
        show sid ∈ List.filter _ _ ↔ _
        rw [List.mem_filter]
        simp only [decide_eq_true_eq]
        exact ⟨fun h => h.2, fun h => ⟨hs, h⟩⟩
      rw [decide_eq_decide.2 hw, Bool.decide_and, decide_eq_decide.2 hin, Bool.and_comm]

/-- Without `InRange` this is false: an option object of another file clicked besides an option that the product does not have. In
one order of the table of selections the product is left out, in another the check panics. -/
theorem C119_false : ∃ (c : Classic) (clicks : List CatOp) (p : Product), ¬ (clicks.foldl CatOp.run (.new c)).InRange ∧
    (clicks.foldl CatOp.run (.new c)).isValid .ident p = .ok false ∧
    (clicks.reverse.foldl CatOp.run (.new c)).isValid .ident p = .error .indexOutOfBounds := by
  refine ⟨exampleClassic, [.toggle ⟨['o'], 0, 0⟩, .toggle ⟨['x'], 9, 0⟩], ⟨[], [], ⟨[], 0⟩, [], 0⟩, ?_, rfl, rfl⟩
  intro h
  obtain ⟨cat, op, h1, _⟩ := h 9 0 rfl
  cases h1

end Idx
