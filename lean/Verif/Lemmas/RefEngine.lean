import Verif.Lemmas.RefSearch
import Verif.Props.Arena

/-! The engine on references and the engine on values take the same steps. -/

namespace Idx

/-! ## Orders of hash tables of references and of values -/

/-- Both orders agree away from the table of results. -/
def HashOrd.Agree (o o' : HashOrd) : Prop := ∀ s : String, s ≠ "results" → ∀ {α : Type} (l : List α), o'.order s l = o.order s l

open Classical in
/-- An order that is as given, but for one table of results. -/
noncomputable def HashOrd.withResults (o : HashOrd) {T : Type} (L L' : List T) (hp : L'.Perm L) : HashOrd where
  order := fun {σ} s {α} l =>
    if h : (⟨σ, s⟩ : Sigma fun σ : Type => σ) = ⟨String, "results"⟩ ∧ (⟨α, l⟩ : Sigma List) = ⟨T, L⟩ then
      cast (congrArg (fun x : Sigma List => List x.1) h.2).symm L'
    else o.order s l
  perm := by
    intro σ s α l
    split
    · rename_i h
      obtain ⟨_, h⟩ := h
      cases h
      exact hp
    · exact o.perm s l

theorem HashOrd.withResults_at (o : HashOrd) {T : Type} {L L' : List T} (hp : L'.Perm L) :
    (o.withResults L L' hp).order "results" L = L' := by
  unfold HashOrd.withResults
  simp

theorem HashOrd.withResults_agree (o : HashOrd) {T : Type} {L L' : List T} (hp : L'.Perm L) : o.Agree (o.withResults L L' hp) := by
  intro s hs α l
  unfold HashOrd.withResults
  simp only
  rw [dif_neg]
  rintro ⟨h, _⟩
  simp at h
  exact hs h

variable {m : Memory}

theorem export_zip {z : List ((Str × ProductRef × F32) × (Str × Product × F32))}
    (hz : ∀ e ∈ z, (m.ranked e.1.2).map (fun v => (e.1.1, v)) = some e.2) {o o' : HashOrd} {r : RefRanker} {r' : Ranker}
    (h : o.order "results" r = z.map (·.1)) (h' : o'.order "results" r' = z.map (·.2)) :
    (RefRanker.export o r).mapM m.ranked = some (Ranker.export o' r') := by
  have hr : ∀ e ∈ z, m.ranked e.1.2 = some e.2.2 := by
    intro e he
    obtain ⟨v, h1, h2⟩ := Option.map_eq_some_iff.1 (hz e he)
    rw [h1, ← h2]
  let y := z.map fun e => ((e.1.2.1, e.2.2.1), e.1.2.2)
  have e1 : RefRanker.export o r = (stableSort (fun a b => (F32.cmpOrEq a.2 b.2).swap != .gt) y).map fun x => (x.1.1, x.2) := by
    unfold RefRanker.export
    rw [stableSort_map (f := fun x : (ProductRef × Product) × F32 => (x.1.1, x.2))
      (le := fun a b => (F32.cmpOrEq a.2 b.2).swap != .gt) (fun a b => rfl), h, List.map_map, List.map_map]
    rfl
  have e2 : Ranker.export o' r' = (stableSort (fun a b => (F32.cmpOrEq a.2 b.2).swap != .gt) y).map fun x => (x.1.2, x.2) := by
    unfold Ranker.export
    rw [stableSort_map (f := fun x : (ProductRef × Product) × F32 => (x.1.2, x.2))
      (le := fun a b => (F32.cmpOrEq a.2 b.2).swap != .gt) (fun a b => rfl), h', List.map_map, List.map_map]
    refine congrArg _ (List.map_congr_left fun e he => ?_)
    obtain ⟨p, _, h2⟩ := Option.map_eq_some_iff.1 (hr e he)
    show e.2.2 = (e.2.2.1, e.1.2.2)
    rw [← h2]
  rw [e1, e2]
  have := zip_mapM (f := m.ranked) (z := (stableSort (fun a b => (F32.cmpOrEq a.2 b.2).swap != .gt) y).map
    fun x => ((x.1.1, x.2), (x.1.2, x.2))) (by
      intro e he
      obtain ⟨x, hx, rfl⟩ := List.mem_map.1 he
      obtain ⟨e, hez, rfl⟩ := List.mem_map.1 (mem_stableSort.1 hx)
      obtain ⟨p, h1, h2⟩ := Option.map_eq_some_iff.1 (hr e hez)
      show (m.product e.1.2.1).map (fun p => (p, e.1.2.2)) = some (e.2.2.1, e.1.2.2)
      rw [h1, ← h2]
      rfl)
  rw [List.map_map, List.map_map] at this
  exact this

/-- For every order of the results on references there is one of the values that gives the same list. -/
theorem export_to {r : RefRanker} {r' : Ranker} (h : readValues m.ranked r = some r') (o : HashOrd) :
    ∃ o', o.Agree o' ∧ (RefRanker.export o r).mapM m.ranked = some (Ranker.export o' r') := by
  obtain ⟨z, h1, h2, h3⟩ := mapM_zip h
  obtain ⟨z', h4, h5⟩ := perm_map_back (f := Prod.fst) (l := z) (o.perm "results" r) h1
  have hp : (z'.map (·.2)).Perm r' := by rw [h2]; exact h4.map _
  exact ⟨o.withResults r' _ hp, o.withResults_agree hp, export_zip (fun e he => h3 e (h4.mem_iff.1 he)) h5 (o.withResults_at hp)⟩

/-- And the other way round. -/
theorem export_back {r : RefRanker} {r' : Ranker} (h : readValues m.ranked r = some r') (o' : HashOrd) :
    ∃ o, o.Agree o' ∧ (RefRanker.export o r).mapM m.ranked = some (Ranker.export o' r') := by
  obtain ⟨z, h1, h2, h3⟩ := mapM_zip h
  obtain ⟨z', h4, h5⟩ := perm_map_back (f := Prod.snd) (l := z) (o'.perm "results" r') h2
  have hp : (z'.map (·.1)).Perm r := by rw [h1]; exact h4.map _
  exact ⟨o'.withResults r _ hp, fun s hs α l => ((o'.withResults_agree hp) s hs l).symm,
    export_zip (fun e he => h3 e (h4.mem_iff.1 he)) (o'.withResults_at hp) h5⟩

/-! ## What objects mean -/

/-- An object on references means an object on values. -/
def Memory.Means (m : Memory) : RefThing → Thing → Prop
  | .cats h, .cats h' => m.classic h.handle = some h'.handle ∧ h.active = h'.active ∧ h.general = h'.general ∧ h.observers = h'.observers
  | .catIter c i, .catIter it => m.classic c = some it.handle ∧ i = it.index
  | .optIter c k i, .optIter it => m.classic c = some it.handle ∧ k = it.categoryIndex ∧ i = it.index
  | .tags h, .tags h' => m.classic h.handle = some h'.handle ∧ h.active = h'.active ∧ h.general = h'.general ∧ h.observers = h'.observers
  | .tagIter c i, .tagIter it => m.classic c = some it.handle ∧ i = it.index
  | .tag c i, .tag t => m.classic c = some t.handle ∧ i = t.index
  | .producer c l i, .producer p => m.container c = some p.container ∧ l = p.toExport ∧ i = p.index
  | .product c s, .product p => m.container c = some p.container ∧ s = p.sid
  | _, _ => False

theorem Memory.Means.mono {m m' : Memory} (h : m.Le m') {r : RefThing} {x : Thing} (hr : m.Means r x) : m'.Means r x := by
  unfold Memory.Means at *
  split at hr <;>
    first
    | exact ⟨Memory.classic_mono h hr.1, hr.2⟩
    | exact ⟨Memory.container_mono h hr.1, hr.2⟩
    | exact hr.elim

/-- The objects handed out, one by one. -/
def Memory.AllMean (m : Memory) (l : List RefThing) (l' : List Thing) : Prop :=
  l.length = l'.length ∧ ∀ (i : Nat) (r : RefThing) (x : Thing), l[i]? = some r → l'[i]? = some x → m.Means r x

theorem Memory.AllMean.mono {m m' : Memory} (h : m.Le m') {l : List RefThing} {l' : List Thing} (hl : m.AllMean l l') : m'.AllMean l l' :=
  ⟨hl.1, fun i r x h1 h2 => (hl.2 i r x h1 h2).mono h⟩

theorem Memory.AllMean.append {l : List RefThing} {l' : List Thing} (hl : m.AllMean l l') {r : RefThing} {x : Thing} (h : m.Means r x) :
    m.AllMean (l ++ [r]) (l' ++ [x]) := by
  refine ⟨by simp [hl.1], fun i r' x' h1 h2 => ?_⟩
  by_cases hi : i < l.length
  · rw [List.getElem?_append_left hi] at h1
    rw [List.getElem?_append_left (hl.1 ▸ hi)] at h2
    exact hl.2 i _ _ h1 h2
  · have hlt := (List.getElem?_eq_some_iff.1 h1).1
    simp at hlt
    have : i = l.length := by omega
    subst this
    simp at h1
    rw [hl.1] at h2
    simp at h2
    subst h1 h2
    exact h

theorem Memory.AllMean.set {l : List RefThing} {l' : List Thing} (hl : m.AllMean l l') {r : RefThing} {x : Thing} (h : m.Means r x) (k : Nat) :
    m.AllMean (l.set k r) (l'.set k x) := by
  refine ⟨by simp [hl.1], fun i r' x' h1 h2 => ?_⟩
  rw [List.getElem?_set] at h1 h2
  by_cases hk : k = i
  · subst hk
    simp only [if_true] at h1 h2
    split at h1
    · split at h2
      · cases h1; cases h2; exact h
      · cases h2
    · cases h1
  · rw [if_neg hk] at h1 h2
    exact hl.2 i _ _ h1 h2

/-- A number refers to an object on both sides or on neither. -/
theorem Memory.AllMean.at {l : List RefThing} {l' : List Thing} (hl : m.AllMean l l') (i : Nat) :
    (l[i]? = none ∧ l'[i]? = none) ∨ ∃ r x, l[i]? = some r ∧ l'[i]? = some x ∧ m.Means r x := by
  cases h : l[i]? with
  | none =>
    refine .inl ⟨rfl, ?_⟩
    rw [List.getElem?_eq_none_iff] at h ⊢
    rw [← hl.1]; exact h
  | some r =>
    have hlt := (List.getElem?_eq_some_iff.1 h).1
    rw [hl.1] at hlt
    exact .inr ⟨r, l'[i], rfl, List.getElem?_eq_getElem hlt, hl.2 i _ _ h (List.getElem?_eq_getElem hlt)⟩

/-- Slots in the same state, with values that mean each other. -/
def SlotMeans (f : β → Option α) (s : Slot β) (s' : Slot α) : Prop := s.state = s'.state ∧ OptMeans f s.value s'.value

/-- The processes mean each other. -/
structure WorldMeans (w : World RefEngine RefThing) (w' : World Engine Thing) : Prop where
  wf : w.engine.memory.Wf
  index : SlotMeans w.engine.memory.gramIndex w.engine.index w'.engine.index
  classic : SlotMeans w.engine.memory.classic w.engine.classic w'.engine.classic
  things : w.engine.memory.AllMean w.things w'.things

theorem SlotMeans.lockUnwrap {f : β → Option α} {s : Slot β} {s' : Slot α} (h : SlotMeans f s s') :
    ESim (OptMeans f) s.lockUnwrap s'.lockUnwrap := by
  unfold Slot.lockUnwrap
  rw [h.1]
  cases s'.state
  · exact h.2
  · rfl
  · rfl

theorem SlotMeans.lockOk {f : β → Option α} {s : Slot β} {s' : Slot α} (h : SlotMeans f s s') :
    ESim (OptMeans f) s.lockOk s'.lockOk := by
  unfold Slot.lockOk
  rw [h.1]
  cases s'.state
  · exact h.2
  · trivial
  · rfl

theorem SlotMeans.panicked {f : β → Option α} {s : Slot β} {s' : Slot α} (h : SlotMeans f s s') (mode : PanicMode) :
    SlotMeans f (s.panicked mode) (s'.panicked mode) := ⟨rfl, h.2⟩

theorem SlotMeans.mono {f g : β → Option α} (hfg : ∀ b a, f b = some a → g b = some a) {s : Slot β} {s' : Slot α} (h : SlotMeans f s s') :
    SlotMeans g s s' := ⟨h.1, h.2.mono hfg⟩

/-! ## Lookups in classic indexes -/

theorem category_at {r : ClassicRef} {c : Classic} (h : m.classic r = some c) (i : Nat) :
    OptMeans m.category r.categories[i]? c.categories[i]? := mapM_means (Memory.classic_iff.1 h).1 i

theorem tag_at {r : ClassicRef} {c : Classic} (h : m.classic r = some c) (i : Nat) :
    OptMeans m.tag r.tags[i]? c.tags[i]? := mapM_means (Memory.classic_iff.1 h).2.1 i

theorem category_parts {r : CategoryRef} {c : Category} (h : m.category r = some c) :
    r.options.mapM m.option = some c.options ∧ r.name = c.name ∧ r.exclusive = c.exclusive := by
  obtain ⟨l, h1, rfl⟩ := Option.map_eq_some_iff.1 h
  exact ⟨h1, rfl, rfl⟩

theorem option_parts {r : OptionRef} {c : CatOption} (h : m.option r = some c) : r.name = c.name ∧ r.sid = c.sid ∧ r.ids = c.ids := by
  obtain ⟨l, h1, rfl⟩ := Option.map_eq_some_iff.1 h
  exact ⟨rfl, rfl, rfl⟩

theorem tag_parts {r : TagRef} {c : Tag} (h : m.tag r = some c) : r.name = c.name ∧ r.id = c.id ∧ r.ids = c.ids := by
  obtain ⟨l, h1, rfl⟩ := Option.map_eq_some_iff.1 h
  exact ⟨rfl, rfl, rfl⟩

theorem indexChecked_sim {f : β → Option α} {l : List β} {l' : List α} {i : Nat} (h : OptMeans f l[i]? l'[i]?) :
    ESim (fun b a => f b = some a) (indexChecked l i) (indexChecked l' i) := by
  unfold indexChecked
  revert h
  cases l[i]? <;> cases l'[i]? <;> intro h <;> first | exact h.elim | exact h | rfl

theorem tagAt_sim {r : ClassicRef} {c : Classic} (h : m.classic r = some c) (i : Nat) :
    ESim (fun b a => m.tag b = some a) (tagAt r i) (JsTag.tag ⟨c, i⟩) := by
  unfold tagAt JsTag.tag
  have := tag_at h i
  revert this
  simp only
  cases r.tags[i]? <;> cases c.tags[i]? <;> intro h <;> first | exact h.elim | exact h | rfl

theorem ESim.eq {x y : Except Panic α} (h : ESim (fun b a => b = a) x y) : x = y := by
  cases x <;> cases y <;> first | exact h.elim | (cases h; rfl)

theorem allActive_eq {K : Type} {f g : K → Except Panic Bool} (h : ∀ k, f k = g k) (l : List K) : allActive f l = allActive g l := by
  have : f = g := funext h
  rw [this]

theorem catsValid_eq {o o' : HashOrd} (ho : o.Agree o') {h : RefCatHandler} {h' : CategoryHandler} (hh : m.Means (.cats h) (.cats h'))
    (p : Product) : h.isValid o p.sid = h'.isValid o' p := by
  obtain ⟨h1, h2, _⟩ := hh
  unfold RefCatHandler.isValid CategoryHandler.isValid
  rw [h2, ho "active categories" (by decide)]
  refine allActive_eq (fun k => ESim.eq ?_) _
  refine (indexChecked_sim (category_at h1 k.1)).bind fun c c' hc => ?_
  refine (indexChecked_sim (mapM_means (category_parts hc).1 k.2)).bind fun x x' hx => ?_
  show decide (p.sid ∈ x.ids) = _
  rw [(option_parts hx).2.2]
  rfl

theorem tagsValid_eq {o o' : HashOrd} (ho : o.Agree o') {h : RefTagHandler} {h' : TagHandler} (hh : m.Means (.tags h) (.tags h'))
    (p : Product) : h.isValid o p.sid = h'.isValid o' p := by
  obtain ⟨h1, h2, _⟩ := hh
  unfold RefTagHandler.isValid TagHandler.isValid
  rw [h2, ho "active tags" (by decide)]
  refine allActive_eq (fun k => ?_) _
  have := tag_at h1 k
  revert this
  cases h.handle.tags[k]? <;> cases h'.handle.tags[k]? <;> intro hk <;> first | exact hk.elim | rfl | skip
  rename_i x x'
  show Except.ok (decide (p.sid ∈ x.ids)) = Except.ok (x'.contains p)
  rw [(tag_parts hk).2.2]
  rfl

/-! ## Search -/

/-- The orders of the results on both sides give lists that mean each other, if this call is a search. -/
def ResultsMatch (lower : Char → List Char) (e : RefEngine) (ask : Ask) (o o' : HashOrd) : Prop :=
  match ask with
  | .search input _ _ _ _ => ∀ (r : IndexRef) (ix : GramIndex Char) (st : RefRanker × List Char) (st' : Ranker × List Char),
      e.index.value = some r → e.memory.gramIndex r = some ix →
      (input.flatMap lower).foldlM (e.memory.refSearchStep r ngramIndexSize) (([] : RefRanker), List.replicate ngramIndexSize dflt) = .ok st →
      (input.flatMap lower).foldlM (ix.searchStep ngramIndexSize) (([] : Ranker), List.replicate ngramIndexSize dflt) = .ok st' →
      (RefRanker.export o st.1).mapM e.memory.ranked = some (Ranker.export o' st'.1)
  | _ => True

theorem filterE_sim {f : β → Option α} {p : β → Except Panic Bool} {q : α → Except Panic Bool} (hpq : ∀ b a, f b = some a → p b = q a) :
    ∀ {l : List β} {r : List α}, l.mapM f = some r → ESim (fun l r => l.mapM f = some r) (filterE p l) (filterE q r) := by
  intro l
  induction l with
  | nil => intro r h; rw [mapM_some_nil.1 h]; exact mapM_some_nil.2 rfl
  | cons b l ih =>
    intro r h
    obtain ⟨x, xs, h1, h2, rfl⟩ := mapM_some_cons.1 h
    unfold filterE
    rw [hpq _ _ h1]
    refine (ESim.refl _).bind fun k k' e => ?_
    subst e
    refine (ih h2).bind fun l' r' hl => ?_
    cases k
    · exact hl
    · exact mapM_some_cons.2 ⟨x, r', h1, hl, rfl⟩

theorem sidsOf_eq : ∀ {l : List ProductRef} {r : List Product}, l.mapM m.product = some r → m.sidsOf l = .ok (r.map (·.sid)) := by
  intro l
  induction l with
  | nil => intro r h; rw [mapM_some_nil.1 h]; rfl
  | cons b l ih =>
    intro r h
    obtain ⟨x, xs, h1, h2, rfl⟩ := mapM_some_cons.1 h
    obtain ⟨c, h3, _, _, h4⟩ := product_cell h1
    unfold Memory.sidsOf
    rw [h3, ih h2]
    show Except.ok (c.sid :: xs.map (·.sid)) = _
    rw [h4]
    rfl

theorem keepRef_eq {o o' : HashOrd} (ho : o.Agree o') {c : RefCatHandler} {c' : CategoryHandler} (hc : m.Means (.cats c) (.cats c'))
    {g : RefTagHandler} {g' : TagHandler} (hg : m.Means (.tags g) (.tags g')) (filters : List FeatureFilter) (features : FeatureSet)
    (r : ProductRef) (p : Product) (h : m.product r = some p) :
    m.keepRef o c g filters features r = keepProduct o' c' g' filters features p := by
  obtain ⟨x, h1, h2, _, h3⟩ := product_cell h
  unfold Memory.keepRef keepProduct
  rw [h1]
  show (c.isValid o x.sid >>= fun b => _) = _
  rw [h3, catsValid_eq ho hc]
  refine bind_congr_ok rfl fun b => ?_
  cases b with
  | false => rfl
  | true =>
    simp only [Bool.true_eq_false, if_false]
    rw [tagsValid_eq ho hg]
    refine bind_congr_ok rfl fun b => ?_
    cases b with
    | false => rfl
    | true =>
      simp only [Bool.true_eq_false, if_false]
      unfold Memory.readCell
      rw [h2]
      rfl

theorem container_followed {box : Nat} {k : Container} (h : m.container box = some k) :
    ∃ c, m.followContainer box = .ok c ∧ m.cellContainer c = some k := by
  obtain ⟨c, h1, h2⟩ := Memory.container_iff.1 h
  refine ⟨c, ?_, h2⟩
  unfold Memory.followContainer
  rw [h1]

theorem refSearchIds_eq {lower : Char → List Char} {e : RefEngine} {o o' : HashOrd} (ho : o.Agree o') {input : Str} {i j : Nat}
    {order : Option Str} {filter : List (Str × JsValue)} (hr : ResultsMatch lower e (.search input i j order filter) o o')
    (hm : e.memory.Wf) {r : IndexRef} {ix : GramIndex Char} (hv : e.index.value = some r) (h : e.memory.gramIndex r = some ix)
    {c : RefCatHandler} {c' : CategoryHandler} (hc : e.memory.Means (.cats c) (.cats c'))
    {g : RefTagHandler} {g' : TagHandler} (hg : e.memory.Means (.tags g) (.tags g')) (filters : List FeatureFilter) :
    e.memory.refSearchIds o lower r input c g filters = searchIds o' lower ix input c' g' filters := by
  obtain ⟨k, h1, h2⟩ := container_followed (Memory.gramIndex_iff.1 h).1
  have hex := (Memory.cellContainer_iff.1 h2).2.2.2
  have hs := refSearchFold_sim hm h ngramIndexSize (input.flatMap lower)
    (s := (([] : RefRanker), List.replicate ngramIndexSize dflt)) (s' := (([] : Ranker), List.replicate ngramIndexSize dflt))
    ⟨mapM_some_nil.2 rfl, rfl⟩
  have hr := hr r ix
  unfold Memory.refSearchIds searchIds Memory.searchRefs GramIndex.search
  rw [h1]
  refine ESim.eq ?_
  show ESim _ (((input.flatMap lower).foldlM (e.memory.refSearchStep r ngramIndexSize) _ >>= fun st => Except.ok (RefRanker.export o st.1)) >>= _) _
  revert hs hr
  generalize (input.flatMap lower).foldlM (e.memory.refSearchStep r ngramIndexSize) (([] : RefRanker), List.replicate ngramIndexSize dflt) = x
  generalize (input.flatMap lower).foldlM (ix.searchStep ngramIndexSize) (([] : Ranker), List.replicate ngramIndexSize dflt) = y
  cases x with
  | error w => cases y with
    | error w' => intro hs _; exact hs
    | ok s => intro hs _; exact hs.elim
  | ok s => cases y with
    | error w' => intro hs _; exact hs.elim
    | ok s' =>
      intro hs hr
      have hr := hr s s' hv h rfl rfl
      have hr1 : ((RefRanker.export o s.1).map (·.1)).mapM e.memory.product = some ((Ranker.export o' s'.1).map (·.1)) := by
        clear hs
        generalize RefRanker.export o s.1 = l at hr
        generalize Ranker.export o' s'.1 = l' at hr
        obtain ⟨z, rfl, rfl, hz⟩ := mapM_zip hr
        rw [List.map_map, List.map_map]
        have := zip_mapM (f := e.memory.product) (z := z.map fun e => (e.1.1, e.2.1)) (by
          intro x hx
          obtain ⟨y, hy, rfl⟩ := List.mem_map.1 hx
          obtain ⟨p, hp, e1⟩ := Option.map_eq_some_iff.1 (hz y hy)
          show e.memory.product y.1.1 = some y.2.1
          rw [hp, ← e1])
        rw [List.map_map, List.map_map] at this
        exact this
      show ESim _ (filterE (e.memory.keepRef o c g filters k.extra) ((RefRanker.export o s.1).map (·.1)) >>= fun kept => e.memory.sidsOf kept)
        (filterE (keepProduct o' c' g' filters ix.container.extra) ((Ranker.export o' s'.1).map (·.1)) >>= fun kept => Except.ok (kept.map (·.sid)))
      rw [hex]
      refine (filterE_sim (fun b a hb => keepRef_eq ho hc hg filters k.extra b a hb) hr1).bind fun l l' hl => ?_
      rw [sidsOf_eq hl]
      rfl

/-! ## All calls -/

/-- Both sides go on to worlds that mean each other, with the same answer. -/
def StepSim (r : World RefEngine RefThing × JsAnswer) (s : World Engine Thing × JsAnswer) : Prop := WorldMeans r.1 s.1 ∧ r.2 = s.2

variable {w : World RefEngine RefThing} {w' : World Engine Thing}

theorem WorldMeans.hand (h : WorldMeans w w') {r : RefThing} {x : Thing} (hr : w.engine.memory.Means r x) : StepSim (w.hand r) (w'.hand x) :=
  ⟨⟨h.wf, h.index, h.classic, h.things.append hr⟩, congrArg JsAnswer.made h.things.1⟩

theorem WorldMeans.put (h : WorldMeans w w') {r : RefThing} {x : Thing} (hr : w.engine.memory.Means r x) (i : Nat) :
    WorldMeans (w.put i r) (w'.put i x) := ⟨h.wf, h.index, h.classic, h.things.set hr i⟩

theorem WorldMeans.handSome (h : WorldMeans w w') {r : Except Panic (Option RefThing)} {x : Except Panic (Option Thing)}
    (hr : ESim (fun r x => (r = none ∧ x = none) ∨ ∃ a b, r = some a ∧ x = some b ∧ w.engine.memory.Means a b) r x) :
    StepSim (w.handSome r) (w'.handSome x) := by
  cases r with
  | error p => cases x with
    | error q => cases hr; exact ⟨h, rfl⟩
    | ok q => exact hr.elim
  | ok r => cases x with
    | error q => exact hr.elim
    | ok x =>
      rcases hr with ⟨rfl, rfl⟩ | ⟨a, b, rfl, rfl, hab⟩
      · exact ⟨h, rfl⟩
      · exact h.hand hab

theorem WorldMeans.put_self (w : World Engine Thing) {i : Nat} {x : Thing} (h : w.things[i]? = some x) : w.put i x = w := by
  obtain ⟨e, l⟩ := w
  unfold World.put
  simp only at h ⊢
  obtain ⟨hi, h⟩ := List.getElem?_eq_some_iff.1 h
  rw [← h, List.set_getElem_self]

theorem initialize_sim (t : Target) (h : WorldMeans w w') (file : Bytes) :
    WorldMeans { w with engine := (w.engine.initialize t file).1 } { w' with engine := (w'.engine.initialize t file).1 } ∧
    (w.engine.initialize t file).2 = (w'.engine.initialize t file).2 := by
  obtain ⟨hle, hwf⟩ := load_wf (t := t) (n := ngramIndexSize) h.wf file
  have hl := load_listed t ngramIndexSize h.wf file
  have hi := h.index.mono fun b a => Memory.gramIndex_mono hle (r := b) (ix := a)
  have hc := h.classic.mono fun b a => Memory.classic_mono hle (r := b) (x := a)
  have hth := h.things.mono hle
  unfold RefEngine.initialize Engine.initialize
  rw [deserializeAll_listed]
  simp only
  revert hl
  cases (w.engine.memory.load t ngramIndexSize file).2 with
  | none => cases deAllListed t ngramIndexSize file with
    | none => exact fun _ => ⟨⟨hwf, hi, hc, hth⟩, rfl⟩
    | panic w => exact fun h => h.elim
    | ok r => exact fun h => h.elim
  | panic p => cases deAllListed t ngramIndexSize file with
    | none => exact fun h => h.elim
    | panic w => intro e; cases e; exact ⟨⟨hwf, hi, hc, hth⟩, rfl⟩
    | ok r => exact fun h => h.elim
  | ok r => cases deAllListed t ngramIndexSize file with
    | none => exact fun h => h.elim
    | panic w => exact fun h => h.elim
    | ok p =>
      intro hl
      obtain ⟨ix, cl⟩ := r
      obtain ⟨_, _, vx, vc⟩ := p
      simp only at hl
      have h1 := hi.lockUnwrap
      have h2 := hc.lockUnwrap
      show WorldMeans { w with engine := (match w.engine.index.lockUnwrap with
          | .error x => ({ w.engine with memory := (w.engine.memory.load t ngramIndexSize file).1 }, .error x)
          | .ok _ => _ : RefEngine × Except Panic Bool).1 } { w' with engine := (match w'.engine.index.lockUnwrap with
          | .error x => (w'.engine, .error x)
          | .ok _ => _ : Engine × Except Panic Bool).1 } ∧ _
      revert h1
      cases w.engine.index.lockUnwrap with
      | error p => cases w'.engine.index.lockUnwrap with
        | error q => intro e; cases e; exact ⟨⟨hwf, hi, hc, hth⟩, rfl⟩
        | ok _ => exact fun h => h.elim
      | ok x => cases w'.engine.index.lockUnwrap with
        | error q => exact fun h => h.elim
        | ok x' =>
          intro _
          simp only
          revert h2
          cases w.engine.classic.lockUnwrap with
          | error p => cases w'.engine.classic.lockUnwrap with
            | error q => intro e; cases e; exact ⟨⟨hwf, ⟨hi.1, hl.1⟩, hc, hth⟩, rfl⟩
            | ok _ => exact fun h => h.elim
          | ok x => cases w'.engine.classic.lockUnwrap with
            | error q => exact fun h => h.elim
            | ok x' => exact fun _ => ⟨⟨hwf, ⟨hi.1, hl.1⟩, ⟨hc.1, hl.2.1⟩, hth⟩, rfl⟩

end Idx
