import Verif.Props.Catalogue
import Verif.Props.Ordering
/-! # C59, C60: how confidences add up while a query is typed -/
namespace Idx

/-! ## C59: typing more never loses a result -/

theorem hitsOf_append (ix : GramIndex Char) {n : Nat} (h1 : 1 ≤ n) (query more : List Char) :
    ∃ later, hitsOf ix n (query ++ more) = hitsOf ix n query ++ later := by
  have : ∀ (more query : List Char), ∃ later, hitsOf ix n (query ++ more) = hitsOf ix n query ++ later := by
    intro more
    induction more with
    | nil => intro query; exact ⟨[], by simp⟩
    | cons g more ih =>
      intro query
      obtain ⟨later, e⟩ := ih (query ++ [g])
      rw [List.append_assoc, List.singleton_append, hitsOf_snoc ix h1, List.append_assoc] at e
      exact ⟨_, e⟩
  exact this more query

/-- On any index: what a query finds, every longer query starting with it finds too. -/
theorem C59_kept (ix : GramIndex Char) {n : Nat} (h1 : 1 ≤ n) (h2 : n ≤ 764) (query more : List Char) (o o' : HashOrd)
    (r r' : List (Product × F32)) (h : ix.search o n query = .ok r) (h' : ix.search o' n (query ++ more) = .ok r')
    (p : Product) (hp : p ∈ r.map (·.1)) : p ∈ r'.map (·.1) := by
  rw [search_eq o ix h1 h2] at h
  rw [search_eq o' ix h1 h2] at h'
  cases h; cases h'
  obtain ⟨later, e⟩ := hitsOf_append ix h1 query more
  obtain ⟨⟨p, c⟩, hpc, rfl⟩ := List.mem_map.1 hp
  obtain ⟨⟨x, hx, he⟩, hs⟩ := mem_export_iff.1 hpc
  simp only [List.mem_map, Prod.exists, exists_and_right, exists_eq_right]
  have hf : (hitsOf ix n (query ++ more)).find? (fun h => h.1.id = p.id) = some x := by
    rw [e, List.find?_append, hx]; rfl
  have hne : scoresOf p.id (hitsOf ix n (query ++ more)) ≠ [] := by
    intro h0
    simp only [scoresOf, List.map_eq_nil_iff, List.filter_eq_nil_iff] at h0
    exact h0 x (List.mem_of_find?_eq_some hf) (List.find?_some (p := fun h : Product × F32 => decide (h.1.id = p.id)) hf)
  cases hl : scoresOf p.id (hitsOf ix n (query ++ more)) with
  | nil => exact absurd hl hne
  | cons a l => exact ⟨_, mem_export_iff.2 ⟨⟨x, hf, he⟩, by rw [hl, sumScores]⟩⟩

theorem foldl_add_ge : ∀ (l : List F32) (a : F32), F32.NonNeg a → (∀ x ∈ l, F32.NonNeg x) →
    F32.NonNeg (l.foldl F32.add a) ∧ F32.lt (l.foldl F32.add a) a = false := by
  intro l
  induction l with
  | nil => intro a ha _; exact ⟨ha, lt_self_false⟩
  | cons b l ih =>
    intro a ha hl
    have hb := hl b (by simp)
    obtain ⟨h1, h2⟩ := ih (F32.add a b) (ha.add hb) fun x hx => hl x (by simp [hx])
    exact ⟨h1, F32.le_trans ha.notNan (ha.add hb).notNan h1.notNan (ha.add_ge hb) h2⟩

/-- On an index built from a catalogue no confidence gets smaller either. -/
theorem C59_confidence {t o lower parse n input ix cl} (h : Searchable t o lower parse n input ix cl)
    (query more : List Char) (o₁ o₂ : HashOrd) (r r' : List (Product × F32)) (hr : ix.search o₁ n query = .ok r)
    (hr' : ix.search o₂ n (query ++ more) = .ok r') (p : Product) (c c' : F32) (hp : (p, c) ∈ r) (hp' : (p, c') ∈ r') :
    F32.lt c' c = false := by
  obtain ⟨_, hs⟩ := result_score h.pos h.le hr hp
  obtain ⟨_, hs'⟩ := result_score h.pos h.le hr' hp'
  obtain ⟨later, e⟩ := hitsOf_append ix h.pos query more
  have hnn : ∀ x ∈ scoresOf p.id (hitsOf ix n (query ++ more)), F32.NonNeg x := by
    intro x hx
    obtain ⟨p', hp', _⟩ := mem_scores hx
    obtain ⟨w, _, found, l, hg, _⟩ := mem_hitsOf.1 hp'
    exact (h.conf_unit hg).nonNeg
  rw [e] at hs' hnn
  simp only [scoresOf, List.filter_append, List.map_append] at hs hs' hnn
  generalize ((hitsOf ix n query).filter fun h => h.1.id = p.id).map (·.2) = a at *
  generalize (later.filter fun h => h.1.id = p.id).map (·.2) = b at *
  cases a with
  | nil => cases hs
  | cons x a =>
    simp only [sumScores, List.cons_append, List.foldl_append, Option.some.injEq] at hs hs'
    rw [← hs, ← hs']
    have h0 := foldl_add_ge a x (hnn x (by simp)) fun y hy => hnn y (by simp [hy])
    exact (foldl_add_ge b _ h0.1 fun y hy => hnn y (by simp [hy])).2

set_option maxRecDepth 10000 in
/-- The hypotheses of `C59_kept` and `C59_confidence` are met: "abcde" finds the first of three products, and so does
"abcdex". -/
example : ∃ ix cl r r', Searchable .debug64 .ident (fun c => [c]) parseOne 5 tied ix cl ∧
    ix.search .ident 5 ['a', 'b', 'c', 'd', 'e'] = .ok r ∧ ix.search .ident 5 (['a', 'b', 'c', 'd', 'e'] ++ ['x']) = .ok r' ∧
    r.map (·.1.id) = [['1']] := by
  have h : ((runSearch .debug64 .ident 5 tied ['a', 'b', 'c', 'd', 'e']).map fun l => l.map (·.1)) = some [['1']] := by
    decide +kernel
  obtain ⟨l, h, e⟩ := Option.map_eq_some_iff.1 h
  obtain ⟨ix, cl, r, b, s, f⟩ := runSearch_sound h
  obtain ⟨r', s'⟩ := C48_search_total .ident ix (n := 5) (by decide) (by decide) (['a', 'b', 'c', 'd', 'e'] ++ ['x'])
  refine ⟨ix, cl, r, r', ⟨by omega, by omega, b, by decide⟩, s, s', ?_⟩
  rw [← e, ← f]; simp

/-- As seen from JavaScript: with the same handlers and filters, typing more keeps every product, whatever file is
loaded. -/
theorem C59_engine (mode : PanicMode) (o o' : HashOrd) (lower : Char → List Char) (e : Engine) (ix : GramIndex Char)
    (hi : e.index = ⟨.free, some ix⟩) (input more : Str) (cats : CategoryHandler) (tags : TagHandler) (hc : cats.InRange)
    (ht : tags.InRange) (filter : List (Str × JsValue)) (e₁ e₂ : Engine) (found found' : ProductProducer)
    (h : e.search mode o lower input cats tags none filter = (e₁, .ok (some found)))
    (h' : e.search mode o' lower (input ++ more) cats tags none filter = (e₂, .ok (some found'))) :
    ∀ sid ∈ found.toExport, sid ∈ found'.toExport := by
  unfold Engine.search at h h'
  cases hf : parseFilters filter with
  | none => rw [hf] at h; cases h
  | some filters =>
    simp only [hf, hi, Slot.lockOk] at h h'
    obtain ⟨r, h1, h2⟩ := searchIds_spec o lower ix input cats tags hc ht filters
    obtain ⟨r', h3, h4⟩ := searchIds_spec o' lower ix (input ++ more) cats tags hc ht filters
    simp only [h2, Prod.mk.injEq, Except.ok.injEq, Option.some.injEq] at h
    simp only [h4, Prod.mk.injEq, Except.ok.injEq, Option.some.injEq] at h'
    rw [← h.2, ← h'.2]
    simp only [ProductProducer.new]
    intro sid hs
    rw [List.mem_filter] at hs ⊢
    refine ⟨?_, hs.2⟩
    obtain ⟨x, hx, rfl⟩ := List.mem_map.1 hs.1
    rw [List.flatMap_append] at h3
    have := C59_kept ix (by decide) (by decide) _ _ o o' r r' h1 h3 x.1 (List.mem_map_of_mem hx)
    obtain ⟨y, hy, e⟩ := List.mem_map.1 this
    exact List.mem_map.2 ⟨y, hy, by rw [e]⟩

/-! ## C60: the confidence of a result -/

/-- How often the n-gram `k` occurs in the padded texts of the products with this id. -/
def occurrencesFor (lower : Char → List Char) (n : Nat) (input : List RawProduct) (id : Str) (k : List Char) : Nat :=
  ((input.filter fun raw => raw.id = id).map fun raw => (paddedWindows n (textOf lower raw)).count k).sum

/-- How often it occurs in all padded texts. -/
def occurrencesAll (lower : Char → List Char) (n : Nat) (input : List RawProduct) (k : List Char) : Nat :=
  (input.map fun raw => (paddedWindows n (textOf lower raw)).count k).sum

/-- What a looked-up window adds to the confidence of an id: the confidence of the lookup, once for every occurrence
of the n-gram found in the texts with that id; nothing if that n-gram is too frequent. -/
def windowScores (t : Target) (lower : Char → List Char) (n : Nat) (input : List RawProduct) (id : Str) :
    Option (List Char × F32) → List F32
  | none => []
  | some (found, conf) =>
    if occurrencesAll lower n input found < maximumProductAmount t input.length then
      List.replicate (occurrencesFor lower n input id found) conf
    else []

/-- The answer to one n-gram. -/
def lookup (ix : GramIndex Char) (n : Nat) (w : List Char) : Option (List Char × F32) :=
  match ix.searchGram n w with
  | .ok r => r
  | .error _ => none

theorem count_replicate_flatMap (input : List RawProduct) (f : RawProduct → Nat) (id : Str) :
    (input.flatMap fun raw => List.replicate (f raw) raw.id).countP (fun d => decide (d = id)) =
      ((input.filter fun raw => raw.id = id).map f).sum := by
  induction input with
  | nil => rfl
  | cons raw input ih =>
    rw [List.flatMap_cons, List.countP_append, ih, List.countP_replicate]
    by_cases e : raw.id = id
    · simp [e]
    · simp [e]

theorem length_replicate_flatMap (input : List RawProduct) (f : RawProduct → Nat) :
    (input.flatMap fun raw => List.replicate (f raw) raw.id).length = (input.map f).sum := by
  induction input with
  | nil => rfl
  | cons raw input ih => rw [List.flatMap_cons, List.length_append, ih]; simp

/-- The reported confidence of an id is the left-to-right f32 sum, over the windows of the query in order, of what
each adds; ids to which no window adds anything are not reported, and all others are. -/
theorem C60 {t o lower parse n input ix cl} (h1 : 1 ≤ n) (h2 : n ≤ 764) (h : buildAll t o lower parse n input = .ok (ix, cl))
    (o' : HashOrd) (query : List Char) (r : List (Product × F32)) (hr : ix.search o' n query = .ok r) (id : Str) (c : F32) :
    (id, c) ∈ r.map (fun e => (e.1.id, e.2)) ↔
      ∃ x xs, ((paddedWindows n query).flatMap fun w => windowScores t lower n input id (lookup ix n w)) = x :: xs ∧
        c = xs.foldl F32.add x := by
  rw [search_eq o' ix h1 h2] at hr
  cases hr
  rw [mem_scored]
  have key : scoresOf id (hitsOf ix n query) =
      (paddedWindows n query).flatMap fun w => windowScores t lower n input id (lookup ix n w) := by
    unfold hitsOf
    generalize paddedWindows n query = l
    induction l with
    | nil => rfl
    | cons w l ih =>
      simp only [scoresOf, List.flatMap_cons, List.filter_append, List.map_append] at ih ⊢
      rw [ih]
      congr 1
      unfold hitsOfWindow lookup
      obtain ⟨res, e⟩ := C48_gram_total ix h1 h2 w
      rw [e]
      cases res with
      | none => rfl
      | some x =>
        obtain ⟨found, conf⟩ := x
        simp only [windowScores]
        rw [C22_postings h1 h]
        have hd := expected_ids h found
        rw [List.flatMap_map] at hd
        simp only [searchedOf] at hd
        generalize expectedPostings lower n ix.container.products input found = ps at hd
        have hlen : ps.length = occurrencesAll lower n input found := by
          have := congrArg List.length hd
          rwa [List.length_map, length_replicate_flatMap] at this
        have hcount : ps.countP (fun p => decide (p.id = id)) = occurrencesFor lower n input id found := by
          have := congrArg (List.countP fun d => decide (d = id)) hd
          rw [count_replicate_flatMap, List.countP_map] at this
          exact this
        have hdata : (((ps.map fun p => (p, conf)).filter fun h => decide (h.1.id = id)).map (·.2)) =
            List.replicate (occurrencesFor lower n input id found) conf := by
          rw [← hcount, ← filter_map_const]
          simp only [List.filter_map, List.map_map, Function.comp_def]
        simp only [hlen]
        by_cases hlt : occurrencesAll lower n input found < maximumProductAmount t input.length
        · by_cases hne : ps = []
          · rw [hne] at hdata
            simp only [hne, hlt, if_true, ne_eq, not_true_eq_false, false_and, if_false]
            simpa using hdata
          · simp only [ne_eq, hne, not_false_eq_true, hlt, and_self, if_true, Option.getD_some]
            exact hdata
        · simp [hlt]
  rw [key]
  cases (paddedWindows n query).flatMap fun w => windowScores t lower n input id (lookup ix n w) with
  | nil => simp [sumScores]
  | cons x xs =>
    simp only [sumScores, Option.some.injEq, List.cons.injEq]
    constructor
    · intro e; exact ⟨x, xs, ⟨rfl, rfl⟩, e.symm⟩
    · rintro ⟨y, ys, ⟨rfl, rfl⟩, rfl⟩; rfl

set_option maxRecDepth 10000 in
/-- The hypotheses of `C60` are met, with something to add up: the windows of "abcde" add one confidence to the first
product. -/
example : ∃ ix cl r c, buildAll .debug64 .ident (fun c => [c]) parseOne 5 tied = .ok (ix, cl) ∧
    ix.search .ident 5 ['a', 'b', 'c', 'd', 'e'] = .ok r ∧ (['1'], c) ∈ r.map (fun e => (e.1.id, e.2)) := by
  have h : ((runSearch .debug64 .ident 5 tied ['a', 'b', 'c', 'd', 'e']).map fun l => l.map (·.1)) = some [['1']] := by
    decide +kernel
  obtain ⟨l, h, e⟩ := Option.map_eq_some_iff.1 h
  obtain ⟨ix, cl, r, b, s, f⟩ := runSearch_sound h
  have : ['1'] ∈ r.map (·.1.id) := by
    have : r.map (·.1.id) = [['1']] := by rw [← e, ← f]; simp
    rw [this]; simp
  obtain ⟨x, hx, hxe⟩ := List.mem_map.1 this
  exact ⟨ix, cl, r, x.2, b, s, List.mem_map.2 ⟨x, hx, by rw [hxe]⟩⟩

end Idx
