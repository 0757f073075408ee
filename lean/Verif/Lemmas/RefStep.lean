import Verif.Lemmas.RefEngine

/-! Every call from JavaScript has the same answer on references and on values. -/

namespace Idx

variable {w : World RefEngine RefThing} {w' : World Engine Thing}

theorem OptMeans.split {f : β → Option α} {b : Option β} {a : Option α} (h : OptMeans f b a) :
    (b = none ∧ a = none) ∨ ∃ x y, b = some x ∧ a = some y ∧ f x = some y := by
  cases b <;> cases a <;> first | exact h.elim | exact .inl ⟨rfl, rfl⟩ | exact .inr ⟨_, _, rfl, rfl, h⟩

theorem search_sim {mode : PanicMode} {lower : Char → List Char} {o o' : HashOrd} (ho : o.Agree o') {input : Str} {i j : Nat}
    {order : Option Str} {filter : List (Str × JsValue)} (hr : ResultsMatch lower w.engine (.search input i j order filter) o o')
    (h : WorldMeans w w') {c : RefCatHandler} {c' : CategoryHandler} (hc : w.engine.memory.Means (.cats c) (.cats c'))
    {g : RefTagHandler} {g' : TagHandler} (hg : w.engine.memory.Means (.tags g) (.tags g')) :
    WorldMeans { w with engine := (w.engine.search mode o lower input c g order filter).1 }
      { w' with engine := (w'.engine.search mode o' lower input c' g' order filter).1 } ∧
    (w.engine.search mode o lower input c g order filter).1.memory = w.engine.memory ∧
    ESim (fun r x => (r = none ∧ x = none) ∨ ∃ a b, r = some a ∧ x = some b ∧
        w.engine.memory.Means (.producer a.1 a.2 0) (.producer b))
      (w.engine.search mode o lower input c g order filter).2 (w'.engine.search mode o' lower input c' g' order filter).2 := by
  obtain ⟨hwf, hi, hcl, hth⟩ := h
  unfold RefEngine.search Engine.search
  cases parseFilters filter with
  | none => exact ⟨⟨hwf, hi, hcl, hth⟩, rfl, .inl ⟨rfl, rfl⟩⟩
  | some filters =>
    simp only
    have h1 := hi.lockOk
    have hv : ∀ x, w.engine.index.lockOk = .ok (some x) → w.engine.index.value = some x := by
      intro x
      unfold Slot.lockOk
      split <;> intro e
      · exact Except.ok.inj e
      · cases e
      · cases e
    revert h1 hv
    cases w.engine.index.lockOk with
    | error p => cases w'.engine.index.lockOk with
      | error q => intro e _; cases e; exact ⟨⟨hwf, hi, hcl, hth⟩, rfl, rfl⟩
      | ok _ => exact fun h => h.elim
    | ok r => cases w'.engine.index.lockOk with
      | error q => exact fun h => h.elim
      | ok ix =>
        intro h1 hv
        cases r with
        | none => cases ix with
          | none => exact ⟨⟨hwf, hi, hcl, hth⟩, rfl, .inl ⟨rfl, rfl⟩⟩
          | some _ => exact h1.elim
        | some r => cases ix with
          | none => exact h1.elim
          | some ix =>
            have hix : w.engine.memory.gramIndex r = some ix := h1
            simp only
            rw [refSearchIds_eq ho hr hwf (hv r rfl) hix hc hg filters]
            cases searchIds o' lower ix input c' g' filters with
            | error p => exact ⟨⟨hwf, hi.panicked mode, hcl, hth⟩, rfl, rfl⟩
            | ok ids =>
              have hk := (Memory.gramIndex_iff.1 hix).1
              cases order with
              | none => exact ⟨⟨hwf, hi, hcl, hth⟩, rfl, .inr ⟨_, _, rfl, rfl, hk, rfl, rfl⟩⟩
              | some name =>
                simp only
                have h2 := hcl.lockOk
                revert h2
                cases w.engine.classic.lockOk with
                | error p => cases w'.engine.classic.lockOk with
                  | error q => intro e; cases e; exact ⟨⟨hwf, hi.panicked mode, hcl, hth⟩, rfl, rfl⟩
                  | ok _ => exact fun h => h.elim
                | ok k => cases w'.engine.classic.lockOk with
                  | error q => exact fun h => h.elim
                  | ok k' =>
                    intro h2
                    cases k with
                    | none => cases k' with
                      | none => exact ⟨⟨hwf, hi, hcl, hth⟩, rfl, .inl ⟨rfl, rfl⟩⟩
                      | some _ => exact h2.elim
                    | some k => cases k' with
                      | none => exact h2.elim
                      | some k' =>
                        have hod := (Memory.classic_iff.1 (show w.engine.memory.classic k = some k' from h2)).2.2
                        simp only
                        rw [hod]
                        cases k.order.getOrders name with
                        | none => exact ⟨⟨hwf, hi, hcl, hth⟩, rfl, .inl ⟨rfl, rfl⟩⟩
                        | some ranks =>
                          simp only
                          cases sortByOrder ranks ids with
                          | error p => exact ⟨⟨hwf, hi.panicked mode, hcl.panicked mode, hth⟩, rfl, rfl⟩
                          | ok ids => exact ⟨⟨hwf, hi, hcl, hth⟩, rfl, .inr ⟨_, _, rfl, rfl, hk, rfl, rfl⟩⟩

theorem refSuggestLoop_eq {m : Memory} {l : List TagRef} {tags : List Tag} (h : l.mapM m.tag = some tags) (query : Str) :
    refSuggestLoop l query = suggestLoop tags query := by
  have hs : ∀ (keyword : Str) (l : List TagRef) (tags : List Tag), l.mapM m.tag = some tags → ∀ best,
      l.foldl (refSuggestStep keyword) best = tags.foldl (suggestStep keyword) best := by
    intro keyword l
    induction l with
    | nil => intro tags h best; rw [mapM_some_nil.1 h]; rfl
    | cons x l ih =>
      intro tags h best
      obtain ⟨y, ys, h1, h2, rfl⟩ := mapM_some_cons.1 h
      obtain ⟨h3, h4, _⟩ := tag_parts h1
      have e : refSuggestStep keyword best x = suggestStep keyword best y := by
        unfold refSuggestStep suggestStep
        rw [h3, h4]
        rfl
      rw [List.foldl_cons, List.foldl_cons, ih ys h2, e]
  unfold refSuggestLoop suggestLoop
  congr 1
  funext best keyword
  exact hs keyword l tags h best

theorem ESim.split {R : β → α → Prop} {x : Except Panic β} {y : Except Panic α} (h : ESim R x y) :
    (∃ p, x = .error p ∧ y = .error p) ∨ ∃ b a, x = .ok b ∧ y = .ok a ∧ R b a := by
  cases x <;> cases y <;> first | exact h.elim | exact .inr ⟨_, _, rfl, rfl, h⟩ | (cases h; exact .inl ⟨_, rfl, rfl⟩)

/-- Texts read from both. -/
theorem answer_str {R : β → α → Prop} {f : β → Str} {g : α → Str} {x : Except Panic β} {y : Except Panic α} (h : ESim R x y)
    (hf : ∀ b a, R b a → f b = g a) : JsAnswer.of (fun b => .str (f b)) x = JsAnswer.of JsAnswer.str (y >>= fun a => .ok (g a)) := by
  rcases h.split with ⟨p, rfl, rfl⟩ | ⟨b, a, rfl, rfl, h⟩
  · rfl
  · exact congrArg JsAnswer.str (hf b a h)

theorem container_product {m : Memory} {box : Nat} {k : Container} (h : m.container box = some k) (i : Nat) :
    ESim (fun c p => m.cellProduct c = some p) (do indexChecked (← m.followContainer box).products i) (indexChecked k.products i) := by
  obtain ⟨c, h1, h2⟩ := container_followed h
  rw [h1]
  exact indexChecked_sim (mapM_means (Memory.cellContainer_iff.1 h2).1 i)

theorem cell_parts {m : Memory} {c : ProductCell} {p : Product} (h : m.cellProduct c = some p) :
    c.title = p.title ∧ c.description = p.description ∧ c.id = p.id ∧ c.sid = p.sid := by
  obtain ⟨v, _, rfl⟩ := Option.map_eq_some_iff.1 h
  exact ⟨rfl, rfl, rfl, rfl⟩

theorem container_read {m : Memory} {box : Nat} {k : Container} (h : m.container box = some k) (i : Nat) {f : FeatureSet → Product → α} :
    (do
      let c ← m.followContainer box
      let p ← m.readCell (← indexChecked c.products i)
      Except.ok (f c.extra p)) = (do
      let p ← indexChecked k.products i
      Except.ok (f k.extra p)) := by
  obtain ⟨c, h1, h2⟩ := container_followed h
  rw [h1]
  have h3 := Memory.cellContainer_iff.1 h2
  refine ESim.eq ?_
  show ESim _ (indexChecked c.products i >>= fun x => m.readCell x >>= fun p => Except.ok (f c.extra p)) _
  refine (indexChecked_sim (mapM_means h3.1 i)).bind fun x p hx => ?_
  unfold Memory.readCell
  rw [hx, h3.2.2.2]
  exact rfl

theorem step_sim {t : Target} {mode : PanicMode} {lower : Char → List Char} {o o' : HashOrd} (ho : o.Agree o') {ask : Ask}
    (hr : ResultsMatch lower w.engine ask o o') (h : WorldMeans w w') :
    StepSim (RefEngine.step t mode lower o w ask) (Engine.step t mode lower o' w' ask) := by
  have hat := h.things.at
  cases ask with
  | «initialize» file =>
    obtain ⟨h1, h2⟩ := initialize_sim t h file
    exact ⟨h1, congrArg (JsAnswer.of JsAnswer.flag) h2⟩
  | search input i j order filter =>
    unfold RefEngine.step Engine.step
    rcases hat i with ⟨h1, h2⟩ | ⟨r, x, h1, h2, h3⟩
    · simp only [h1, h2]; exact ⟨h, rfl⟩
    · rcases hat j with ⟨h4, h5⟩ | ⟨r', x', h4, h5, h6⟩
      · simp only [h1, h2, h4, h5]
        cases r <;> cases x <;> exact ⟨h, rfl⟩
      · simp only [h1, h2, h4, h5]
        cases r <;> cases x <;> first | exact h3.elim | exact ⟨h, rfl⟩ | skip
        cases r' <;> cases x' <;> first | exact h6.elim | exact ⟨h, rfl⟩ | skip
        obtain ⟨h7, h8, h9⟩ := search_sim (mode := mode) ho hr h h3 h6
        refine WorldMeans.handSome h7 ?_
        show ESim (fun r x => (r = none ∧ x = none) ∨ ∃ a b, r = some a ∧ x = some b ∧
          (w.engine.search mode o lower input _ _ order filter).1.memory.Means a b) _ _
        rw [h8]
        revert h9
        generalize (w.engine.search mode o lower input _ _ order filter).2 = a
        generalize (w'.engine.search mode o' lower input _ _ order filter).2 = b
        intro h9
        cases a <;> cases b <;> first | exact h9.elim | exact h9 | skip
        rcases h9 with ⟨rfl, rfl⟩ | ⟨a, b, rfl, rfl, hab⟩
        · exact .inl ⟨rfl, rfl⟩
        · exact .inr ⟨_, _, rfl, rfl, hab⟩
  | getCategories =>
    refine h.handSome ?_
    unfold Engine.getCategories
    have := h.classic.lockUnwrap
    revert this
    cases w.engine.classic.lockUnwrap <;> cases w'.engine.classic.lockUnwrap <;> intro h1 <;> first | exact h1.elim | exact h1 | skip
    rename_i a b
    cases a <;> cases b <;> first | exact h1.elim | exact .inl ⟨rfl, rfl⟩ | exact .inr ⟨_, _, rfl, rfl, h1, rfl, rfl, rfl⟩
  | getTags =>
    refine h.handSome ?_
    unfold Engine.getTags
    have := h.classic.lockUnwrap
    revert this
    cases w.engine.classic.lockUnwrap <;> cases w'.engine.classic.lockUnwrap <;> intro h1 <;> first | exact h1.elim | exact h1 | skip
    rename_i a b
    cases a <;> cases b <;> first | exact h1.elim | exact .inl ⟨rfl, rfl⟩ | exact .inr ⟨_, _, rfl, rfl, h1, rfl, rfl, rfl⟩
  | getOrders =>
    refine ⟨h, ?_⟩
    unfold RefEngine.step Engine.step Engine.getOrders
    have := h.classic.lockOk
    revert this
    simp only
    cases w.engine.classic.lockOk <;> cases w'.engine.classic.lockOk <;> intro h1 <;>
      first | exact h1.elim | exact congrArg JsAnswer.panic h1 | skip
    rename_i a b
    cases a <;> cases b <;> first | exact h1.elim | rfl | skip
    rename_i a b
    show JsAnswer.strs (a.order.options o) = JsAnswer.strs (b.order.options o')
    rw [(Memory.classic_iff.1 (show w.engine.memory.classic a = some b from h1)).2.2]
    unfold OrderIndex.options
    rw [ho "order keys" (by decide)]
  | suggest query =>
    unfold RefEngine.step Engine.step Engine.tagSuggestion
    have := h.classic.lockUnwrap
    revert this
    simp only
    cases w.engine.classic.lockUnwrap <;> cases w'.engine.classic.lockUnwrap <;> intro h1 <;>
      first | exact h1.elim | exact ⟨h, congrArg JsAnswer.panic h1⟩ | skip
    rename_i a b
    cases a <;> cases b <;> first | exact h1.elim | exact ⟨h, rfl⟩ | skip
    rename_i a b
    have hab : w.engine.memory.classic a = some b := h1
    show StepSim (match refSuggestLoop a.tags query with
      | none => (w, .none)
      | some l => ((w.hand (.tag a l.2.1)).1, .suggestion w.things.length l.2.2))
      (match Except.ok ((suggestLoop b.tags query).map fun l => Suggestion.mk ⟨b, l.2.1⟩ l.2.2) with
      | Except.error p => (w', .panic p)
      | Except.ok none => (w', .none)
      | Except.ok (some s) => ((w'.hand (.tag s.tag)).1, .suggestion w'.things.length s.input))
    rw [refSuggestLoop_eq (Memory.classic_iff.1 hab).2.1]
    cases suggestLoop b.tags query with
    | none => exact ⟨h, rfl⟩
    | some l =>
      refine ⟨(h.hand (r := .tag a l.2.1) (x := .tag ⟨b, l.2.1⟩) ⟨hab, rfl⟩).1, ?_⟩
      show JsAnswer.suggestion w.things.length l.2.2 = JsAnswer.suggestion w'.things.length l.2.2
      rw [h.things.1]
  | catToggle i item =>
    unfold RefEngine.step Engine.step
    rcases hat i with ⟨h1, h2⟩ | ⟨r, x, h1, h2, h3⟩
    · simp only [h1, h2]; exact ⟨h, rfl⟩
    · simp only [h1, h2]
      cases r <;> cases x <;> first | exact h3.elim | exact ⟨h, rfl⟩ | skip
      rename_i c c'
      obtain ⟨ch, ca, cg, co⟩ := c
      obtain ⟨h4, h5, h6, h7⟩ := h3
      simp only at h4 h5 h6 h7
      subst h5 h6 h7
      exact ⟨h.put (r := .cats _) (x := .cats _) ⟨h4, rfl, rfl, rfl⟩ i, rfl⟩
  | catStatus i item =>
    unfold RefEngine.step Engine.step
    rcases hat i with ⟨h1, h2⟩ | ⟨r, x, h1, h2, h3⟩
    · simp only [h1, h2]; exact ⟨h, rfl⟩
    · simp only [h1, h2]
      cases r <;> cases x <;> first | exact h3.elim | exact ⟨h, rfl⟩ | skip
      rename_i c c'
      obtain ⟨ch, ca, cg, co⟩ := c
      obtain ⟨_, h5, _⟩ := h3
      simp only at h5
      subst h5
      exact ⟨h, rfl⟩
  | catObserve i f =>
    unfold RefEngine.step Engine.step
    rcases hat i with ⟨h1, h2⟩ | ⟨r, x, h1, h2, h3⟩
    · simp only [h1, h2]; exact ⟨h, rfl⟩
    · simp only [h1, h2]
      cases r <;> cases x <;> first | exact h3.elim | exact ⟨h, rfl⟩ | skip
      rename_i c c'
      obtain ⟨ch, ca, cg, co⟩ := c
      obtain ⟨h4, h5, h6, h7⟩ := h3
      simp only at h4 h5 h6 h7
      subst h5 h6 h7
      exact ⟨h.put (r := .cats _) (x := .cats _) ⟨h4, rfl, rfl, rfl⟩ i, rfl⟩
  | catListen i item f =>
    unfold RefEngine.step Engine.step
    rcases hat i with ⟨h1, h2⟩ | ⟨r, x, h1, h2, h3⟩
    · simp only [h1, h2]; exact ⟨h, rfl⟩
    · simp only [h1, h2]
      cases r <;> cases x <;> first | exact h3.elim | exact ⟨h, rfl⟩ | skip
      rename_i c c'
      obtain ⟨ch, ca, cg, co⟩ := c
      obtain ⟨h4, h5, h6, h7⟩ := h3
      simp only at h4 h5 h6 h7
      subst h5 h6 h7
      exact ⟨h.put (r := .cats _) (x := .cats _) ⟨h4, rfl, rfl, rfl⟩ i, rfl⟩
  | catUnlisten i item f =>
    unfold RefEngine.step Engine.step
    rcases hat i with ⟨h1, h2⟩ | ⟨r, x, h1, h2, h3⟩
    · simp only [h1, h2]; exact ⟨h, rfl⟩
    · simp only [h1, h2]
      cases r <;> cases x <;> first | exact h3.elim | exact ⟨h, rfl⟩ | skip
      rename_i c c'
      obtain ⟨ch, ca, cg, co⟩ := c
      obtain ⟨h4, h5, h6, h7⟩ := h3
      simp only at h4 h5 h6 h7
      subst h5 h6 h7
      exact ⟨h.put (r := .cats _) (x := .cats _) ⟨h4, rfl, rfl, rfl⟩ i, rfl⟩
  | catIter i =>
    unfold RefEngine.step Engine.step
    rcases hat i with ⟨h1, h2⟩ | ⟨r, x, h1, h2, h3⟩
    · simp only [h1, h2]; exact ⟨h, rfl⟩
    · simp only [h1, h2]
      cases r <;> cases x <;> first | exact h3.elim | exact ⟨h, rfl⟩ | skip
      exact h.hand ⟨h3.1, rfl⟩
  | nextCategory i =>
    unfold RefEngine.step Engine.step
    rcases hat i with ⟨h1, h2⟩ | ⟨r, x, h1, h2, h3⟩
    · simp only [h1, h2]; exact ⟨h, rfl⟩
    · simp only [h1, h2]
      cases r <;> cases x <;> first | exact h3.elim | exact ⟨h, rfl⟩ | skip
      rename_i handle index it
      obtain ⟨h4, rfl⟩ := h3
      unfold CategoryIter.nextItem
      rcases (category_at h4 it.index).split with ⟨h5, h6⟩ | ⟨c, c', h5, h6, _⟩
      · simp only [h5, h6]; rw [WorldMeans.put_self w' h2]; exact ⟨h, rfl⟩
      · simp only [h5, h6]
        exact (h.put (r := .catIter handle (it.index + 1)) (x := .catIter { it with index := it.index + 1 }) ⟨h4, rfl⟩ i).hand
          (r := .optIter _ _ _) (x := .optIter _) ⟨h4, rfl, rfl⟩
  | nextOption i =>
    unfold RefEngine.step Engine.step
    rcases hat i with ⟨h1, h2⟩ | ⟨r, x, h1, h2, h3⟩
    · simp only [h1, h2]; exact ⟨h, rfl⟩
    · simp only [h1, h2]
      cases r <;> cases x <;> first | exact h3.elim | exact ⟨h, rfl⟩ | skip
      rename_i handle category index it
      obtain ⟨h4, rfl, rfl⟩ := h3
      unfold CategoryOptionIter.nextItem optionAt
      rcases (category_at h4 it.categoryIndex).split with ⟨h5, h6⟩ | ⟨c, c', h5, h6, h7⟩
      · simp only [h5, h6]; rw [WorldMeans.put_self w' h2]; exact ⟨h, rfl⟩
      · rcases (mapM_means (category_parts h7).1 it.index).split with ⟨h8, h9⟩ | ⟨x, x', h8, h9, h10⟩
        · simp only [h5, h6, h8, h9]; rw [WorldMeans.put_self w' h2]; exact ⟨h, rfl⟩
        · simp only [h5, h6, h8, h9]
          refine ⟨h.put (r := .optIter handle it.categoryIndex (it.index + 1)) (x := .optIter { it with index := it.index + 1 }) ⟨h4, rfl, rfl⟩ i, ?_⟩
          simp only
          rw [(option_parts h10).1]
  | categoryName i =>
    unfold RefEngine.step Engine.step
    rcases hat i with ⟨h1, h2⟩ | ⟨r, x, h1, h2, h3⟩
    · simp only [h1, h2]; exact ⟨h, rfl⟩
    · simp only [h1, h2]
      cases r <;> cases x <;> first | exact h3.elim | exact ⟨h, rfl⟩ | skip
      rename_i handle category index it
      obtain ⟨h4, rfl, rfl⟩ := h3
      refine ⟨h, ?_⟩
      exact answer_str (indexChecked_sim (category_at h4 it.categoryIndex)) fun c c' hc => (category_parts hc).2.1
  | tagToggle i j =>
    unfold RefEngine.step Engine.step
    rcases hat i with ⟨h1, h2⟩ | ⟨r, x, h1, h2, h3⟩
    · simp only [h1, h2]; exact ⟨h, rfl⟩
    · rcases hat j with ⟨h4, h5⟩ | ⟨r', x', h4, h5, h6⟩
      · simp only [h1, h2, h4, h5]
        cases r <;> cases x <;> exact ⟨h, rfl⟩
      · simp only [h1, h2, h4, h5]
        cases r <;> cases x <;> first | exact h3.elim | exact ⟨h, rfl⟩ | skip
        cases r' <;> cases x' <;> first | exact h6.elim | exact ⟨h, rfl⟩ | skip
        rename_i g g' handle index tag
        obtain ⟨h6, rfl⟩ := h6
        unfold TagHandler.toggle JsTag.getId
        rcases (show ESim _ (tagAt handle tag.index) tag.tag from tagAt_sim h6 tag.index).split with ⟨p, h7, h8⟩ | ⟨x, y, h7, h8, h12⟩
        · simp only [h7, h8]; exact ⟨h, rfl⟩
        simp only [h7, h8]
        have e := (tag_parts h12).2.1
        obtain ⟨ch, ca, cg, co⟩ := g
        obtain ⟨h8, h9, h10, h11⟩ := h3
        simp only at h8 h9 h10 h11
        subst h9 h10 h11
        refine ⟨h.put (r := .tags _) (x := .tags _) ⟨h8, ?_, ?_, ?_⟩ i, ?_⟩ <;> simp only [e] <;> rfl
  | tagStatus i j =>
    unfold RefEngine.step Engine.step
    rcases hat i with ⟨h1, h2⟩ | ⟨r, x, h1, h2, h3⟩
    · simp only [h1, h2]; exact ⟨h, rfl⟩
    · rcases hat j with ⟨h4, h5⟩ | ⟨r', x', h4, h5, h6⟩
      · simp only [h1, h2, h4, h5]
        cases r <;> cases x <;> exact ⟨h, rfl⟩
      · simp only [h1, h2, h4, h5]
        cases r <;> cases x <;> first | exact h3.elim | exact ⟨h, rfl⟩ | skip
        cases r' <;> cases x' <;> first | exact h6.elim | exact ⟨h, rfl⟩ | skip
        rename_i c c' handle index tag
        obtain ⟨ch, ca, cg, co⟩ := c
        obtain ⟨_, h7, _⟩ := h3
        simp only at h7
        obtain ⟨_, rfl⟩ := h6
        subst h7
        exact ⟨h, rfl⟩
  | tagObserve i f =>
    unfold RefEngine.step Engine.step
    rcases hat i with ⟨h1, h2⟩ | ⟨r, x, h1, h2, h3⟩
    · simp only [h1, h2]; exact ⟨h, rfl⟩
    · simp only [h1, h2]
      cases r <;> cases x <;> first | exact h3.elim | exact ⟨h, rfl⟩ | skip
      rename_i c c'
      obtain ⟨ch, ca, cg, co⟩ := c
      obtain ⟨h4, h5, h6, h7⟩ := h3
      simp only at h4 h5 h6 h7
      subst h5 h6 h7
      exact ⟨h.put (r := .tags _) (x := .tags _) ⟨h4, rfl, rfl, rfl⟩ i, rfl⟩
  | tagListen i j f =>
    unfold RefEngine.step Engine.step
    rcases hat i with ⟨h1, h2⟩ | ⟨r, x, h1, h2, h3⟩
    · simp only [h1, h2]; exact ⟨h, rfl⟩
    · rcases hat j with ⟨h4, h5⟩ | ⟨r', x', h4, h5, h6⟩
      · simp only [h1, h2, h4, h5]
        cases r <;> cases x <;> exact ⟨h, rfl⟩
      · simp only [h1, h2, h4, h5]
        cases r <;> cases x <;> first | exact h3.elim | exact ⟨h, rfl⟩ | skip
        cases r' <;> cases x' <;> first | exact h6.elim | exact ⟨h, rfl⟩ | skip
        rename_i g g' handle index tag
        obtain ⟨h6, rfl⟩ := h6
        unfold TagHandler.addTagListener JsTag.getId
        rcases (show ESim _ (tagAt handle tag.index) tag.tag from tagAt_sim h6 tag.index).split with ⟨p, h7, h8⟩ | ⟨x, y, h7, h8, h12⟩
        · simp only [h7, h8]; exact ⟨h, rfl⟩
        simp only [h7, h8]
        have e := (tag_parts h12).2.1
        obtain ⟨ch, ca, cg, co⟩ := g
        obtain ⟨h8, h9, h10, h11⟩ := h3
        simp only at h8 h9 h10 h11
        subst h9 h10 h11
        refine ⟨h.put (r := .tags _) (x := .tags _) ⟨h8, ?_, ?_, ?_⟩ i, ?_⟩ <;> simp only [e] <;> rfl
  | tagUnlisten i j f =>
    unfold RefEngine.step Engine.step
    rcases hat i with ⟨h1, h2⟩ | ⟨r, x, h1, h2, h3⟩
    · simp only [h1, h2]; exact ⟨h, rfl⟩
    · rcases hat j with ⟨h4, h5⟩ | ⟨r', x', h4, h5, h6⟩
      · simp only [h1, h2, h4, h5]
        cases r <;> cases x <;> exact ⟨h, rfl⟩
      · simp only [h1, h2, h4, h5]
        cases r <;> cases x <;> first | exact h3.elim | exact ⟨h, rfl⟩ | skip
        cases r' <;> cases x' <;> first | exact h6.elim | exact ⟨h, rfl⟩ | skip
        rename_i g g' handle index tag
        obtain ⟨h6, rfl⟩ := h6
        unfold TagHandler.removeTagListener JsTag.getId
        rcases (show ESim _ (tagAt handle tag.index) tag.tag from tagAt_sim h6 tag.index).split with ⟨p, h7, h8⟩ | ⟨x, y, h7, h8, h12⟩
        · simp only [h7, h8]; exact ⟨h, rfl⟩
        simp only [h7, h8]
        have e := (tag_parts h12).2.1
        obtain ⟨ch, ca, cg, co⟩ := g
        obtain ⟨h8, h9, h10, h11⟩ := h3
        simp only at h8 h9 h10 h11
        subst h9 h10 h11
        refine ⟨h.put (r := .tags _) (x := .tags _) ⟨h8, ?_, ?_, ?_⟩ i, ?_⟩ <;> simp only [e] <;> rfl
  | tagIter i =>
    unfold RefEngine.step Engine.step
    rcases hat i with ⟨h1, h2⟩ | ⟨r, x, h1, h2, h3⟩
    · simp only [h1, h2]; exact ⟨h, rfl⟩
    · simp only [h1, h2]
      cases r <;> cases x <;> first | exact h3.elim | exact ⟨h, rfl⟩ | skip
      exact h.hand ⟨h3.1, rfl⟩
  | nextTag i =>
    unfold RefEngine.step Engine.step
    rcases hat i with ⟨h1, h2⟩ | ⟨r, x, h1, h2, h3⟩
    · simp only [h1, h2]; exact ⟨h, rfl⟩
    · simp only [h1, h2]
      cases r <;> cases x <;> first | exact h3.elim | exact ⟨h, rfl⟩ | skip
      rename_i handle index it
      obtain ⟨h4, rfl⟩ := h3
      unfold TagIter.nextTag
      rcases (tag_at h4 it.index).split with ⟨h5, h6⟩ | ⟨c, c', h5, h6, _⟩
      · simp only [h5, h6]; rw [WorldMeans.put_self w' h2]; exact ⟨h, rfl⟩
      · simp only [h5, h6]
        exact (h.put (r := .tagIter handle (it.index + 1)) (x := .tagIter { it with index := it.index + 1 }) ⟨h4, rfl⟩ i).hand
          (r := .tag _ _) (x := .tag _) ⟨h4, rfl⟩
  | tagName i =>
    unfold RefEngine.step Engine.step
    rcases hat i with ⟨h1, h2⟩ | ⟨r, x, h1, h2, h3⟩
    · simp only [h1, h2]; exact ⟨h, rfl⟩
    · simp only [h1, h2]
      cases r <;> cases x <;> first | exact h3.elim | exact ⟨h, rfl⟩ | skip
      rename_i handle index tag
      obtain ⟨h4, rfl⟩ := h3
      refine ⟨h, ?_⟩
      exact answer_str (show ESim _ (tagAt handle tag.index) tag.tag from tagAt_sim h4 tag.index) fun c c' hc => (tag_parts hc).1
  | nextProduct i =>
    unfold RefEngine.step Engine.step
    rcases hat i with ⟨h1, h2⟩ | ⟨r, x, h1, h2, h3⟩
    · simp only [h1, h2]; exact ⟨h, rfl⟩
    · simp only [h1, h2]
      cases r <;> cases x <;> first | exact h3.elim | exact ⟨h, rfl⟩ | skip
      rename_i container toExport index pp
      obtain ⟨h4, rfl, rfl⟩ := h3
      unfold ProductProducer.nextProduct
      cases hx : pp.toExport[pp.index]? with
      | none =>
        simp only [hx]
        rw [WorldMeans.put_self w' h2]; exact ⟨h, rfl⟩
      | some id =>
        obtain ⟨c, h5, h6⟩ := container_followed h4
        rcases (mapM_means (Memory.cellContainer_iff.1 h6).1 id).split with ⟨h7, h8⟩ | ⟨c, c', h7, h8, _⟩
        · simp only [hx, h5, h7, h8]; rw [WorldMeans.put_self w' h2]; exact ⟨h, rfl⟩
        · simp only [hx, h5, h7, h8]
          exact (h.put (r := .producer container pp.toExport (pp.index + 1)) (x := .producer { pp with index := pp.index + 1 })
            ⟨h4, rfl, rfl⟩ i).hand (r := .product _ _) (x := .product _) ⟨h4, rfl⟩
  | title i =>
    unfold RefEngine.step Engine.step
    rcases hat i with ⟨h1, h2⟩ | ⟨r, x, h1, h2, h3⟩
    · simp only [h1, h2]; exact ⟨h, rfl⟩
    · simp only [h1, h2]
      cases r <;> cases x <;> first | exact h3.elim | exact ⟨h, rfl⟩ | skip
      rename_i container sid j
      obtain ⟨h4, rfl⟩ := h3
      refine ⟨h, ?_⟩
      exact answer_str (container_product h4 j.sid) fun c p hc => (cell_parts hc).1
  | description i =>
    unfold RefEngine.step Engine.step
    rcases hat i with ⟨h1, h2⟩ | ⟨r, x, h1, h2, h3⟩
    · simp only [h1, h2]; exact ⟨h, rfl⟩
    · simp only [h1, h2]
      cases r <;> cases x <;> first | exact h3.elim | exact ⟨h, rfl⟩ | skip
      rename_i container sid j
      obtain ⟨h4, rfl⟩ := h3
      refine ⟨h, ?_⟩
      exact answer_str (container_product h4 j.sid) fun c p hc => (cell_parts hc).2.1
  | productId i =>
    unfold RefEngine.step Engine.step
    rcases hat i with ⟨h1, h2⟩ | ⟨r, x, h1, h2, h3⟩
    · simp only [h1, h2]; exact ⟨h, rfl⟩
    · simp only [h1, h2]
      cases r <;> cases x <;> first | exact h3.elim | exact ⟨h, rfl⟩ | skip
      rename_i container sid j
      obtain ⟨h4, rfl⟩ := h3
      refine ⟨h, ?_⟩
      exact answer_str (container_product h4 j.sid) fun c p hc => (cell_parts hc).2.2.1
  | numeric i key =>
    unfold RefEngine.step Engine.step
    rcases hat i with ⟨h1, h2⟩ | ⟨r, x, h1, h2, h3⟩
    · simp only [h1, h2]; exact ⟨h, rfl⟩
    · simp only [h1, h2]
      cases r <;> cases x <;> first | exact h3.elim | exact ⟨h, rfl⟩ | skip
      rename_i container sid j
      obtain ⟨h4, rfl⟩ := h3
      exact ⟨h, congrArg (JsAnswer.of JsAnswer.ofNum) (container_read h4 j.sid (f := fun extra p => match FeatureSet.get extra p key with
          | some (.float f) => some (jsNumOfF32 f)
          | some (.integer i) => some (jsNumOfNat i.toNat)
          | some (.string _) => none
          | none => none))⟩
  | text i key =>
    unfold RefEngine.step Engine.step
    rcases hat i with ⟨h1, h2⟩ | ⟨r, x, h1, h2, h3⟩
    · simp only [h1, h2]; exact ⟨h, rfl⟩
    · simp only [h1, h2]
      cases r <;> cases x <;> first | exact h3.elim | exact ⟨h, rfl⟩ | skip
      rename_i container sid j
      obtain ⟨h4, rfl⟩ := h3
      exact ⟨h, congrArg (JsAnswer.of JsAnswer.ofText) (container_read h4 j.sid (f := fun extra p => match FeatureSet.get extra p key with
          | some (.string s) => some s
          | _ => none))⟩

end Idx
