import Verif.Props.Handlers
import Verif.Props.Search
/-! # C33, C35, C36: categories, tags and feature filters of a search -/
namespace Idx

/-! ## Numbers -/

/-- Spec: the order of numbers as JavaScript sees it, on exact integers (units of `2^-1074`) and infinities. -/
inductive NumLe : JsNum → JsNum → Prop
  | low (b : JsNum) : b ≠ .nan → NumLe (.inf true) b
  | high (a : JsNum) : a ≠ .nan → NumLe a (.inf false)
  | fin (s r : Bool) (m n : Nat) :
      (if s then -(m : Int) else (m : Int)) ≤ (if r then -(n : Int) else (n : Int)) → NumLe (.fin s m) (.fin r n)

theorem jsLe_iff (a b : JsNum) : jsLe a b = true ↔ NumLe a b := by
  constructor
  · intro h
    cases a with
    | nan => simp [jsLe] at h
    | inf s =>
      cases b with
      | nan => simp [jsLe] at h
      | inf r => cases s <;> cases r <;> first | (exact .low _ (by simp)) | (exact .high _ (by simp)) | (exact absurd h (by decide))
      | fin r n => cases s <;> first | (exact .low _ (by simp)) | (cases r <;> simp [jsLe, F32.Val.lt] at h)
    | fin s m =>
      cases b with
      | nan => simp [jsLe] at h
      | inf r => cases r <;> first | (exact .high _ (by simp)) | (cases s <;> simp [jsLe, F32.Val.lt] at h)
      | fin r n =>
        refine .fin _ _ _ _ ?_
        cases s <;> cases r <;> simp [jsLe, F32.Val.lt] at h ⊢ <;> omega
  · intro h
    cases h with
    | low b hb =>
      cases b with
      | nan => exact absurd rfl hb
      | inf r => cases r <;> rfl
      | fin r n => cases r <;> rfl
    | high a ha =>
      cases a with
      | nan => exact absurd rfl ha
      | inf r => cases r <;> rfl
      | fin r n => cases r <;> rfl
    | fin s r m n h =>
      cases s <;> cases r <;> simp [jsLe, F32.Val.lt] at h ⊢ <;> omega

/-- Spec: JavaScript's `===`. NaN is not equal to anything, 0 and -0 are equal, objects are equal only to themselves. -/
inductive StrictlyEqual : JsValue → JsValue → Prop
  | undefined : StrictlyEqual .undefined .undefined
  | null : StrictlyEqual .null .null
  | bool (b : Bool) : StrictlyEqual (.bool b) (.bool b)
  | num (a b : JsNum) : NumLe a b → NumLe b a → StrictlyEqual (.num a) (.num b)
  | str (s : Str) : StrictlyEqual (.str s) (.str s)
  | obj (id : Nat) (p q : List (Str × JsValue)) : StrictlyEqual (.obj id p) (.obj id q)

theorem strictEq_iff (a b : JsValue) : a.strictEq b = true ↔ StrictlyEqual a b := by
  constructor
  · intro h
    cases a <;> cases b <;> try (simp [JsValue.strictEq] at h; done)
    · exact .undefined
    · exact .null
    · simp only [JsValue.strictEq, beq_iff_eq] at h
      subst h
      exact .bool _
    · simp only [JsValue.strictEq, Bool.and_eq_true, jsLe_iff] at h
      exact .num _ _ h.1 h.2
    · simp only [JsValue.strictEq, beq_iff_eq] at h
      subst h
      exact .str _
    · simp only [JsValue.strictEq, beq_iff_eq] at h
      subst h
      exact .obj _ _ _
  · intro h
    cases h with
    | num a b h1 h2 => simp [JsValue.strictEq, jsLe_iff, h1, h2]
    | _ => simp [JsValue.strictEq]

/-! ## C35, C36 — one feature filter -/

/-- Spec: product number `sid` has feature `key` with value `v`. -/
def Reported (features : FeatureSet) (key : Str) (sid : Nat) (v : JsValue) : Prop :=
  (∃ l s, AMap.get features key = some (.string l) ∧ l[sid]? = some s ∧ v = .str s) ∨
  (∃ l x, AMap.get features key = some (.float l) ∧ l[sid]? = some x ∧ ∃ n, v = .num n ∧ SameNumber x n) ∨
  (∃ l x, AMap.get features key = some (.integer l) ∧ l[sid]? = some x ∧ ∃ n, v = .num n ∧ SameInteger x.toNat n)

theorem getJs_iff (features : FeatureSet) (key : Str) (p : Product) (v : JsValue) :
    features.getJs p key = some v ↔ Reported features key p.sid v := by
  unfold FeatureSet.getJs Reported
  cases AMap.get features key with
  | none => simp
  | some f =>
    cases f with
    | string l => simp; constructor <;> (rintro ⟨s, h1, h2⟩; exact ⟨s, h1, h2.symm⟩)
    | float l =>
      simp only [Option.map_eq_some_iff, Option.some.injEq, reduceCtorEq, false_and, exists_const, false_or, or_false,
        Feature.float.injEq, sameNumber_iff]
      constructor
      · rintro ⟨x, h1, rfl⟩; exact ⟨l, x, rfl, h1, _, rfl, rfl⟩
      · rintro ⟨l, x, rfl, h1, _, rfl, rfl⟩; exact ⟨x, h1, rfl⟩
    | integer l =>
      simp only [Option.map_eq_some_iff, Option.some.injEq, reduceCtorEq, false_and, exists_const, exists_false, false_or,
        Feature.integer.injEq, sameInteger_iff]
      constructor
      · rintro ⟨x, h1, rfl⟩; exact ⟨l, x, rfl, h1, _, rfl, rfl⟩
      · rintro ⟨l, x, rfl, h1, _, rfl, rfl⟩; exact ⟨x, h1, rfl⟩

theorem getJs_none (features : FeatureSet) (key : Str) (p : Product) (h : features.getJs p key = none) (v : JsValue) :
    ¬ Reported features key p.sid v := by
  intro hr
  rw [← getJs_iff, h] at hr
  cases hr

/-- The value of a property of a JavaScript object, `undefined` if it has none. -/
def property (props : List (Str × JsValue)) (key : Str) : JsValue :=
  ((props.find? fun p => p.1 == key).map (·.2)).getD .undefined

theorem parseFilter_obj (feature : Str) (id : Nat) (props : List (Str × JsValue)) :
    parseFilter feature (.obj id props) =
      some ⟨.range (property props "from".toList) (property props "to".toList), feature⟩ := rfl

/-- Spec: within the bounds that are numbers. -/
def InBounds (lo hi : JsValue) (x : JsNum) : Prop :=
  (∀ a, lo = .num a → NumLe a x) ∧ ∀ b, hi = .num b → NumLe x b

/-- Spec: at least one bound is a number. -/
def Bounded (lo hi : JsValue) : Prop := (∃ a, lo = .num a) ∨ ∃ b, hi = .num b

theorem asF64_some {v : JsValue} {n : JsNum} (h : v.asF64 = some n) : v = .num n := by
  cases v <;> simp [JsValue.asF64] at h
  rw [h]

theorem asF64_none {v : JsValue} (h : v.asF64 = none) (n : JsNum) : v ≠ .num n := by
  rintro rfl
  cases h

theorem numeric_cases (features : FeatureSet) (key : Str) (p : Product) (P : JsNum → Bool) :
    (match (features.getJs p key).bind JsValue.asF64 with
      | some found => P found
      | none => false) = true ↔ ∃ x, Reported features key p.sid (.num x) ∧ P x = true := by
  cases h : features.getJs p key with
  | none => simp [getJs_none features key p h]
  | some v =>
    have hv := (getJs_iff features key p v).1 h
    have huniq : ∀ w, Reported features key p.sid w → w = v := by
      intro w hw
      rw [← getJs_iff, h] at hw
      exact (Option.some.inj hw).symm
    simp only [Option.bind_some]
    cases hn : v.asF64 with
    | none =>
      simp only [Bool.false_eq_true, false_iff, not_exists, not_and]
      intro x hx
      exact absurd (huniq _ hx).symm (asF64_none hn x)
    | some n =>
      rw [asF64_some hn] at hv huniq
      constructor
      · exact fun h => ⟨n, hv, h⟩
      · rintro ⟨x, hx, hp⟩
        have := huniq _ hx
        cases this
        exact hp

theorem keeps_range (lo hi : JsValue) (feature : Str) (features : FeatureSet) (p : Product) :
    (⟨.range lo hi, feature⟩ : FeatureFilter).keeps features p = true ↔
      (Bounded lo hi → ∃ x, Reported features feature p.sid (.num x) ∧ InBounds lo hi x) := by
  unfold FeatureFilter.keeps
  simp only
  cases hlo : lo.asF64 with
  | none =>
    have hl := asF64_none hlo
    cases hhi : hi.asF64 with
    | none =>
      have hh := asF64_none hhi
      simp [Bounded, hl, hh]
    | some b =>
      have hh := asF64_some hhi
      refine (numeric_cases features feature p fun found => jsLe found b).trans ?_
      simp [Bounded, InBounds, hl, hh, jsLe_iff]
  | some a =>
    have hl := asF64_some hlo
    cases hhi : hi.asF64 with
    | none =>
      have hh := asF64_none hhi
      refine (numeric_cases features feature p fun found => jsLe a found).trans ?_
      simp [Bounded, InBounds, hl, hh, jsLe_iff]
    | some b =>
      have hh := asF64_some hhi
      refine (numeric_cases features feature p fun found => jsLe a found && jsLe found b).trans ?_
      simp [Bounded, InBounds, hl, hh, jsLe_iff]

/-- A filter given by an object keeps a product iff its feature is a number within those of the bounds `from` and
`to` that are numbers (both inclusive), or neither bound is a number. A missing bound reads as `undefined`. -/
theorem C36 (feature : Str) (id : Nat) (props : List (Str × JsValue)) (features : FeatureSet) (p : Product) :
    ∃ f, parseFilter feature (.obj id props) = some f ∧
      (f.keeps features p = true ↔
        (Bounded (property props "from".toList) (property props "to".toList) →
          ∃ x, Reported features feature p.sid (.num x) ∧
            InBounds (property props "from".toList) (property props "to".toList) x)) :=
  ⟨_, parseFilter_obj feature id props, keeps_range _ _ _ _ _⟩

theorem parseFilter_not_object (feature : Str) (v : JsValue) (h : ∀ id props, v ≠ .obj id props) :
    parseFilter feature v = none := by
  cases v <;> first | rfl | exact absurd rfl (h _ _)

/-- One filter that is not an object makes the whole search return nothing, whatever the others are and whatever is
loaded; the engine is left as it was. -/
theorem C36_not_object (mode : PanicMode) (o : HashOrd) (lower : Char → List Char) (e : Engine) (input : Str)
    (cats : CategoryHandler) (tags : TagHandler) (order : Option Str) (filter : List (Str × JsValue))
    (entry : Str × JsValue) (he : entry ∈ filter) (h : ∀ id props, entry.2 ≠ .obj id props) :
    e.search mode o lower input cats tags order filter = (e, .ok none) := by
  have : parseFilters filter = none := by
    induction filter with
    | nil => cases he
    | cons x filter ih =>
      obtain ⟨k, v⟩ := x
      simp only [parseFilters]
      rcases List.mem_cons.1 he with rfl | he
      · rw [parseFilter_not_object k v h]
      · rw [ih he]
        cases parseFilter k v <;> rfl
  unfold Engine.search
  rw [this]

/-- 2.5 <= 3 <= 3 with a missing lower bound, a price column of 3 and 1. -/
example : ∃ (features : FeatureSet) (p : Product) (x : JsNum), Reported features ['k'] p.sid (.num x) ∧
    InBounds (property [("to".toList, .num (jsNumOfNat 3))] "from".toList)
      (property [("to".toList, .num (jsNumOfNat 3))] "to".toList) x := by
  refine ⟨[(['k'], .integer [3, 1])], ⟨[], [], ⟨[], 0⟩, [], 0⟩, jsNumOfNat 3, .inr (.inr ⟨[3, 1], 3, rfl, rfl, _, rfl, (sameInteger_iff _ _).2 (congrArg jsNumOfNat rfl)⟩), ?_, ?_⟩
  · intro a h
    simp [property] at h
  · intro b h
    rw [show property [("to".toList, .num (jsNumOfNat 3))] "to".toList = .num (jsNumOfNat 3) from rfl] at h
    cases h
    exact .fin _ _ _ _ (Int.le_refl _)

/-- The constructor `new_exactly` gives a filter that keeps exactly the products whose feature is `===` to the value. -/
theorem C35_partial (feature : Str) (v : JsValue) (features : FeatureSet) (p : Product) :
    (⟨.exact v, feature⟩ : FeatureFilter).keeps features p = true ↔
      ∃ d, Reported features feature p.sid d ∧ StrictlyEqual d v := by
  simp only [← strictEq_iff]
  unfold FeatureFilter.keeps
  simp only
  cases h : features.getJs p feature with
  | none => simp [getJs_none features feature p h]
  | some d =>
    have hd := (getJs_iff features feature p d).1 h
    constructor
    · exact fun h => ⟨d, hd, h⟩
    · rintro ⟨w, hw, hs⟩
      rw [← getJs_iff, h] at hw
      cases hw
      exact hs

/-- But no such filter is ever made from a JavaScript object: `{exact: v}` keeps every product, whatever `v` is,
because reading the missing `from` and `to` gives `undefined` instead of failing. -/
theorem C35_ignored (feature : Str) (id : Nat) (v : JsValue) (features : FeatureSet) (p : Product) :
    ∃ f, parseFilter feature (.obj id [("exact".toList, v)]) = some f ∧ f.keeps features p = true := by
  refine ⟨_, parseFilter_obj _ _ _, ?_⟩
  rw [keeps_range]
  intro h
  have h1 : property [("exact".toList, v)] "from".toList = .undefined := by
    simp [property]
  have h2 : property [("exact".toList, v)] "to".toList = .undefined := by
    simp [property]
  rw [h1, h2] at h
  rcases h with ⟨a, h⟩ | ⟨a, h⟩ <;> cases h

/-- No object at all yields an exact filter. -/
theorem C35_never (feature : Str) (v : JsValue) (f : FeatureFilter) (h : parseFilter feature v = some f) :
    ∃ lo hi, f = ⟨.range lo hi, feature⟩ := by
  cases v with
  | obj id props =>
    rw [parseFilter_obj] at h
    cases h
    exact ⟨_, _, rfl⟩
  | _ => cases h

/-- So the claim is false: a product with colour `b` is kept by `{exact: 'a'}`. -/
theorem C35_false : ∃ (feature : Str) (v : JsValue) (features : FeatureSet) (p : Product) (f : FeatureFilter),
    parseFilter feature (.obj 0 [("exact".toList, v)]) = some f ∧ f.keeps features p = true ∧
      Reported features feature p.sid (.str ['b']) ∧ v = .str ['a'] := by
  refine ⟨['k'], .str ['a'], [(['k'], .string [['b']])], ⟨[], [], ⟨[], 0⟩, [], 0⟩, ?_⟩
  obtain ⟨f, h1, h2⟩ := C35_ignored ['k'] 0 (.str ['a']) [(['k'], .string [['b']])] ⟨[], [], ⟨[], 0⟩, [], 0⟩
  exact ⟨f, h1, h2, .inl ⟨[['b']], ['b'], rfl, rfl, rfl⟩, rfl⟩

/-! ## C33 — all filters together -/

/-- The selected options exist in the index the handler was made from. -/
def CategoryHandler.InRange (h : CategoryHandler) : Prop :=
  ∀ c i, (AMap.get h.active (c, i)).isSome = true →
    ∃ cat op, h.handle.categories[c]? = some cat ∧ cat.options[i]? = some op

/-- The selected tags exist in the index the handler was made from. -/
def TagHandler.InRange (h : TagHandler) : Prop :=
  ∀ i, (AMap.get h.active i).isSome = true → ∃ tag, h.handle.tags[i]? = some tag

/-- Spec: product number `sid` has every selected option. -/
def CategoryHandler.Allows (h : CategoryHandler) (sid : Nat) : Prop :=
  ∀ c i cat op, (AMap.get h.active (c, i)).isSome = true → h.handle.categories[c]? = some cat →
    cat.options[i]? = some op → sid ∈ op.ids

/-- Spec: product number `sid` has every selected tag. -/
def TagHandler.Allows (h : TagHandler) (sid : Nat) : Prop :=
  ∀ i tag, (AMap.get h.active i).isSome = true → h.handle.tags[i]? = some tag → sid ∈ tag.ids

/-- Spec: product number `sid` satisfies a feature filter. -/
def FeatureFilter.Accepts (f : FeatureFilter) (features : FeatureSet) (sid : Nat) : Prop :=
  match f.data with
  | .range lo hi => Bounded lo hi → ∃ x, Reported features f.feature sid (.num x) ∧ InBounds lo hi x
  | .exact v => ∃ d, Reported features f.feature sid d ∧ StrictlyEqual d v

/-- Spec: everything that was asked for. -/
def Wanted (cats : CategoryHandler) (tags : TagHandler) (filters : List FeatureFilter) (features : FeatureSet)
    (sid : Nat) : Prop :=
  cats.Allows sid ∧ tags.Allows sid ∧ ∀ f ∈ filters, f.Accepts features sid

theorem keeps_iff (f : FeatureFilter) (features : FeatureSet) (p : Product) :
    f.keeps features p = true ↔ f.Accepts features p.sid := by
  obtain ⟨data, feature⟩ := f
  cases data with
  | range lo hi => exact keeps_range lo hi feature features p
  | exact v => exact C35_partial feature v features p

open Classical in
theorem allActive_spec {K : Type} {contains : K → Except Panic Bool} {P : K → Prop} (l : List K)
    (h : ∀ k ∈ l, contains k = .ok (decide (P k))) : allActive contains l = .ok (decide (∀ k ∈ l, P k)) := by
  induction l with
  | nil => simp [allActive]
  | cons k l ih =>
    simp only [allActive, h k (by simp), bind, Except.bind]
    by_cases hk : P k
    · simp only [hk, decide_true, Bool.true_eq_false, if_false]
      rw [ih fun x hx => h x (by simp [hx])]
      simp [hk]
    · simp [hk]

theorem order_keys {K : Type} [DecidableEq K] (o : HashOrd) {σ : Type} (site : σ) (m : AMap K Unit) (k : K) :
    k ∈ (o.order site m).map (·.1) ↔ (AMap.get m k).isSome = true := by
  rw [AMap.get_isSome_iff]
  exact ((o.perm site m).map _).mem_iff

open Classical in
theorem isValid_categories (o : HashOrd) (h : CategoryHandler) (hr : h.InRange) (p : Product) :
    h.isValid o p = .ok (decide (h.Allows p.sid)) := by
  unfold CategoryHandler.isValid
  rw [allActive_spec (P := fun k : Nat × Nat => ∀ cat op, h.handle.categories[k.1]? = some cat →
    cat.options[k.2]? = some op → p.sid ∈ op.ids)]
  · congr 1
    rw [decide_eq_decide]
    constructor
    · intro hall c i cat op hg h1 h2
      exact hall (c, i) ((order_keys o _ _ _).2 hg) cat op h1 h2
    · intro hall k hk cat op h1 h2
      exact hall k.1 k.2 cat op ((order_keys o _ _ _).1 hk) h1 h2
  · intro k hk
    obtain ⟨cat, op, h1, h2⟩ := hr k.1 k.2 ((order_keys o _ _ _).1 hk)
    simp only [indexChecked, h1, h2, bind, Except.bind, CatOption.contains]
    congr 1
    rw [decide_eq_decide]
    constructor
    · intro h cat' op' e1 e2
      cases e1
      rw [h2] at e2
      cases e2
      exact h
    · exact fun h => h cat op rfl h2

open Classical in
theorem isValid_tags (o : HashOrd) (h : TagHandler) (hr : h.InRange) (p : Product) :
    h.isValid o p = .ok (decide (h.Allows p.sid)) := by
  unfold TagHandler.isValid
  rw [allActive_spec (P := fun i : Nat => ∀ tag, h.handle.tags[i]? = some tag → p.sid ∈ tag.ids)]
  · congr 1
    rw [decide_eq_decide]
    constructor
    · intro hall i tag hg h1
      exact hall i ((order_keys o _ _ _).2 hg) tag h1
    · intro hall i hi tag h1
      exact hall i tag ((order_keys o _ _ _).1 hi) h1
  · intro i hi
    obtain ⟨tag, h1⟩ := hr i ((order_keys o _ _ _).1 hi)
    simp [h1, Tag.contains]

open Classical in
theorem keepProduct_spec (o : HashOrd) (cats : CategoryHandler) (tags : TagHandler) (hc : cats.InRange)
    (ht : tags.InRange) (filters : List FeatureFilter) (features : FeatureSet) (p : Product) :
    keepProduct o cats tags filters features p = .ok (decide (Wanted cats tags filters features p.sid)) := by
  unfold keepProduct Wanted
  rw [isValid_categories o cats hc, isValid_tags o tags ht]
  simp only [bind, Except.bind]
  by_cases h1 : cats.Allows p.sid
  · by_cases h2 : tags.Allows p.sid
    · simp only [h1, h2, decide_true, Bool.true_eq_false, if_false, true_and]
      congr 1
      rw [Bool.eq_iff_iff]
      simp [keeps_iff]
    · simp [h1, h2]
  · simp [h1]

open Classical in
theorem filterE_spec {α : Type} {P : α → Prop} {p : α → Except Panic Bool} (l : List α)
    (h : ∀ a ∈ l, p a = .ok (decide (P a))) : filterE p l = .ok (l.filter fun a => decide (P a)) := by
  induction l with
  | nil => rfl
  | cons a l ih =>
    simp only [filterE, h a (by simp), ih fun x hx => h x (by simp [hx]), bind, Except.bind]
    by_cases ha : P a <;> simp [ha]

theorem inRange_new_categories (c : Classic) : (CategoryHandler.new c).InRange := by
  intro a b h
  simp [CategoryHandler.new] at h

theorem inRange_new_tags (c : Classic) : (TagHandler.new c).InRange := by
  intro a h
  simp [TagHandler.new] at h

theorem wanted_new (c c' : Classic) (features : FeatureSet) (sid : Nat) :
    Wanted (.new c) (.new c') [] features sid := by
  refine ⟨?_, ?_, by simp⟩
  · intro a b cat op h
    simp [CategoryHandler.new] at h
  · intro a tag h
    simp [TagHandler.new] at h

open Classical in
/-- The ids a search finds, before ordering: the ids of what the index finds, filtered. -/
theorem searchIds_spec (o : HashOrd) (lower : Char → List Char) (ix : GramIndex Char) (input : Str)
    (cats : CategoryHandler) (tags : TagHandler) (hc : cats.InRange) (ht : tags.InRange)
    (filters : List FeatureFilter) :
    ∃ results, ix.search o ngramIndexSize (input.flatMap lower) = .ok results ∧
      searchIds o lower ix input cats tags filters =
        .ok ((results.map (·.1.sid)).filter fun sid => decide (Wanted cats tags filters ix.container.extra sid)) := by
  obtain ⟨results, hr⟩ := C48_search_total o ix (n := ngramIndexSize) (by decide) (by decide) (input.flatMap lower)
  refine ⟨results, hr, ?_⟩
  unfold searchIds
  rw [hr]
  simp only [bind, Except.bind]
  rw [filterE_spec (P := fun p : Product => Wanted cats tags filters ix.container.extra p.sid) _
    (fun p _ => keepProduct_spec o cats tags hc ht filters _ p)]
  simp only [List.filter_map, List.map_map, Function.comp_def]

open Classical in
/-- `C33` for filters already parsed. -/
theorem C33_parsed (mode : PanicMode) (o : HashOrd) (lower : Char → List Char) (e : Engine) (input : Str)
    (cats : CategoryHandler) (tags : TagHandler) (hc : cats.InRange) (ht : tags.InRange)
    (filter : List (Str × JsValue)) (filters : List FeatureFilter) (hf : parseFilters filter = some filters)
    (c₁ c₂ : Classic) (e₁ : Engine) (whole : ProductProducer)
    (h : e.search mode o lower input (.new c₁) (.new c₂) none [] = (e₁, .ok (some whole))) :
    e.search mode o lower input cats tags none filter =
      (e, .ok (some ⟨whole.container,
        whole.toExport.filter fun sid => decide (Wanted cats tags filters whole.container.extra sid), 0⟩)) := by
  unfold Engine.search at h ⊢
  rw [hf]
  simp only [parseFilters] at h ⊢
  split at h
  · cases h
  · cases h
  · rename_i ix hix
    obtain ⟨r1, h1, h2⟩ := searchIds_spec o lower ix input (.new c₁) (.new c₂) (inRange_new_categories _)
      (inRange_new_tags _) []
    obtain ⟨r2, h3, h4⟩ := searchIds_spec o lower ix input cats tags hc ht filters
    rw [h1] at h3
    cases h3
    rw [h2] at h
    rw [h4]
    rw [List.filter_eq_self.2 fun sid _ => by simp [wanted_new]] at h
    cases h
    rfl

/-- Spec: product number `sid` has the feature named by this entry of the filter object as a number within its bounds, if
it has any. -/
def EntryAccepts (features : FeatureSet) (sid : Nat) (entry : Str × JsValue) : Prop :=
  ∀ id props, entry.2 = .obj id props → Bounded (property props "from".toList) (property props "to".toList) →
    ∃ x, Reported features entry.1 sid (.num x) ∧
      InBounds (property props "from".toList) (property props "to".toList) x

theorem parseFilters_objects (filter : List (Str × JsValue)) (h : ∀ entry ∈ filter, ∃ id props, entry.2 = .obj id props) :
    ∃ filters, parseFilters filter = some filters ∧
      ∀ features sid, (∀ f ∈ filters, f.Accepts features sid) ↔ ∀ entry ∈ filter, EntryAccepts features sid entry := by
  induction filter with
  | nil => exact ⟨[], rfl, by simp⟩
  | cons x filter ih =>
    obtain ⟨k, v⟩ := x
    obtain ⟨id, props, hv⟩ := h (k, v) (by simp)
    simp only at hv
    subst hv
    obtain ⟨filters, h1, h2⟩ := ih fun entry he => h entry (by simp [he])
    refine ⟨⟨.range (property props "from".toList) (property props "to".toList), k⟩ :: filters, ?_, ?_⟩
    · simp only [parseFilters, parseFilter_obj, h1, Option.map_some]
    · intro features sid
      rw [List.forall_mem_cons, List.forall_mem_cons, h2]
      refine and_congr ?_ Iff.rfl
      constructor
      · intro ha id' props' e
        cases e
        exact ha
      · exact fun ha => ha id props rfl

open Classical in
/-- The products of a filtered search are exactly those of the unfiltered search, in the same order, that have every
selected option, every selected tag and every feature named in the filter object within its bounds. -/
theorem C33 (mode : PanicMode) (o : HashOrd) (lower : Char → List Char) (e : Engine) (input : Str)
    (cats : CategoryHandler) (tags : TagHandler) (hc : cats.InRange) (ht : tags.InRange)
    (filter : List (Str × JsValue)) (hf : ∀ entry ∈ filter, ∃ id props, entry.2 = .obj id props)
    (c₁ c₂ : Classic) (e₁ : Engine) (whole : ProductProducer)
    (h : e.search mode o lower input (.new c₁) (.new c₂) none [] = (e₁, .ok (some whole))) :
    e.search mode o lower input cats tags none filter =
      (e, .ok (some ⟨whole.container, whole.toExport.filter fun sid => decide (cats.Allows sid ∧ tags.Allows sid ∧
        ∀ entry ∈ filter, EntryAccepts whole.container.extra sid entry), 0⟩)) := by
  obtain ⟨filters, h1, h2⟩ := parseFilters_objects filter hf
  rw [C33_parsed mode o lower e input cats tags hc ht filter filters h1 c₁ c₂ e₁ whole h]
  simp only [Wanted, h2]

/-- Selecting more never adds a product. -/
theorem C33_more (mode : PanicMode) (o : HashOrd) (lower : Char → List Char) (e : Engine) (input : Str)
    (cats cats' : CategoryHandler) (tags tags' : TagHandler) (hc : cats.InRange) (ht : tags.InRange)
    (hc' : cats'.InRange) (ht' : tags'.InRange) (hch : cats'.handle = cats.handle) (hth : tags'.handle = tags.handle)
    (hca : ∀ k, (AMap.get cats.active k).isSome = true → (AMap.get cats'.active k).isSome = true)
    (hta : ∀ k, (AMap.get tags.active k).isSome = true → (AMap.get tags'.active k).isSome = true)
    (filter filter' : List (Str × JsValue)) (hobj : ∀ entry ∈ filter', ∃ id props, entry.2 = .obj id props)
    (hsub : ∀ entry ∈ filter, entry ∈ filter') (e₁ : Engine) (some₁ : ProductProducer)
    (h : e.search mode o lower input cats tags none filter = (e₁, .ok (some some₁))) :
    ∃ fewer, e.search mode o lower input cats' tags' none filter' = (e, .ok (some fewer)) ∧
      fewer.container = some₁.container ∧ fewer.toExport.Sublist some₁.toExport := by
  classical
  obtain ⟨filters, hf, ha⟩ := parseFilters_objects filter fun entry he => hobj entry (hsub entry he)
  obtain ⟨filters', hf', ha'⟩ := parseFilters_objects filter' hobj
  unfold Engine.search at h ⊢
  rw [hf] at h
  rw [hf']
  simp only at h ⊢
  split at h
  · cases h
  · cases h
  · rename_i ix hix
    obtain ⟨r1, h1, h2⟩ := searchIds_spec o lower ix input cats tags hc ht filters
    obtain ⟨r2, h3, h4⟩ := searchIds_spec o lower ix input cats' tags' hc' ht' filters'
    rw [h1] at h3
    cases h3
    rw [h2] at h
    rw [h4]
    cases h
    refine ⟨_, rfl, rfl, ?_⟩
    simp only [ProductProducer.new]
    have : ∀ sid, Wanted cats' tags' filters' ix.container.extra sid → Wanted cats tags filters ix.container.extra sid := by
      rintro sid ⟨w1, w2, w3⟩
      refine ⟨fun c i cat op ha hb hd => w1 c i cat op (hca _ ha) (by rw [hch]; exact hb) hd,
        fun i tag ha hb => w2 i tag (hta _ ha) (by rw [hth]; exact hb), (ha _ _).2 fun entry he => (ha' _ _).1 w3 entry (hsub entry he)⟩
    rw [show (r1.map (·.1.sid)).filter (fun sid => decide (Wanted cats' tags' filters' ix.container.extra sid)) =
      ((r1.map (·.1.sid)).filter fun sid => decide (Wanted cats tags filters ix.container.extra sid)).filter
        fun sid => decide (Wanted cats' tags' filters' ix.container.extra sid) from ?_]
    · exact List.filter_sublist
    · rw [List.filter_filter]
      apply List.filter_congr
      intro sid _
      by_cases hw : Wanted cats' tags' filters' ix.container.extra sid
      · simp [hw, this sid hw]
      · simp [hw]

/-! The handlers' own calls keep the selections in range. -/

/-- The item names an option of the index. -/
def ExportOption.Exists (c : Classic) (item : ExportOption) : Prop :=
  ∃ cat op, c.categories[item.catId]? = some cat ∧ cat.options[item.optionId]? = some op

/-- A handler that only toggled options of its own index is in range. -/
theorem C33_inRange_categories (c : Classic) (ops : List CatOp)
    (h : ∀ item, .toggle item ∈ ops → item.Exists c) : (ops.foldl CatOp.run (.new c)).InRange := by
  intro a b hs
  have hst := C37_categories c ops ⟨[], a, b⟩
  rw [show (ops.foldl CatOp.run (.new c)).getStatus ⟨[], a, b⟩ =
    (AMap.get (ops.foldl CatOp.run (.new c)).active (a, b)).isSome from rfl, hs] at hst
  have hpos : 0 < togglesOf (a, b) ops := by
    have : togglesOf (a, b) ops % 2 = 1 := of_decide_eq_true hst.symm
    omega
  rw [(catInv_run (.new c) AMap.Wf.nil ops).handle]
  unfold togglesOf at hpos
  rw [List.countP_pos_iff] at hpos
  obtain ⟨op, hop, hk⟩ := hpos
  cases op with
  | toggle item =>
    simp only [beq_iff_eq] at hk
    obtain ⟨cat, o, h1, h2⟩ := h item hop
    simp only [Prod.mk.injEq] at hk
    rw [hk.1] at h1
    rw [hk.2] at h2
    exact ⟨cat, o, h1, h2⟩
  | _ => simp at hk

/-- A handler that only toggled tags of its own index is in range. -/
theorem C33_inRange_tags (c : Classic) (ops : List TagOp) (h : TagHandler)
    (hops : ∀ op ∈ ops, op.Ok) (htog : ∀ tag, .toggle tag ∈ ops → tag.handle = c)
    (e : ops.foldlM TagOp.run (TagHandler.new c) = .ok h) : h.InRange := by
  obtain ⟨h', e', hst⟩ := C37_tags c ops hops
  rw [e] at e'
  cases e'
  obtain ⟨h', e', inv⟩ := tagInv_run (.new c) AMap.Wf.nil ops hops
  rw [e] at e'
  cases e'
  intro i hs
  have := hst ⟨c, i⟩
  rw [show h.getStatus ⟨c, i⟩ = (AMap.get h.active i).isSome from rfl, hs] at this
  have hpos : 0 < tagTogglesOf i ops := by
    have := of_decide_eq_true this.symm
    simp only at this
    omega
  unfold tagTogglesOf at hpos
  rw [List.countP_pos_iff] at hpos
  obtain ⟨op, hop, hk⟩ := hpos
  cases op with
  | toggle tag =>
    simp only [beq_iff_eq] at hk
    have h1 := hops _ hop
    have h2 := htog tag hop
    rw [inv.handle]
    have : i < c.tags.length := by rw [← hk, ← h2]; exact h1.2
    exact ⟨c.tags[i], List.getElem?_eq_getElem this⟩
  | _ => simp at hk

open Classical in
/-- Filtering by what was clicked: after any histories of the two handlers, which toggled only options and tags of their
own index, a filtered search returns exactly those products of the unfiltered search, in the same order, that have every
option and every tag toggled an odd number of times and every feature within its bounds. -/
theorem C33_history (mode : PanicMode) (o : HashOrd) (lower : Char → List Char) (e : Engine) (input : Str) (c : Classic)
    (clicks : List CatOp) (hclicks : ∀ item, .toggle item ∈ clicks → item.Exists c)
    (tagClicks : List TagOp) (hok : ∀ op ∈ tagClicks, op.Ok) (htag : ∀ tag, .toggle tag ∈ tagClicks → tag.handle = c)
    (filter : List (Str × JsValue)) (hf : ∀ entry ∈ filter, ∃ id props, entry.2 = .obj id props)
    (c₁ c₂ : Classic) (e₁ : Engine) (whole : ProductProducer)
    (h : e.search mode o lower input (.new c₁) (.new c₂) none [] = (e₁, .ok (some whole))) :
    ∃ tags, tagClicks.foldlM TagOp.run (TagHandler.new c) = .ok tags ∧
      e.search mode o lower input (clicks.foldl CatOp.run (.new c)) tags none filter =
        (e, .ok (some ⟨whole.container, whole.toExport.filter fun sid => decide (
          (∀ i k cat op, togglesOf (i, k) clicks % 2 = 1 → c.categories[i]? = some cat → cat.options[k]? = some op →
            sid ∈ op.ids) ∧
          (∀ i tag, tagTogglesOf i tagClicks % 2 = 1 → c.tags[i]? = some tag → sid ∈ tag.ids) ∧
          ∀ entry ∈ filter, EntryAccepts whole.container.extra sid entry), 0⟩)) := by
  obtain ⟨tags, ht, hst⟩ := C37_tags c tagClicks hok
  have hr2 := C33_inRange_tags c tagClicks tags hok htag ht
  have hr1 := C33_inRange_categories c clicks hclicks
  obtain ⟨tags', e', inv⟩ := tagInv_run (.new c) AMap.Wf.nil tagClicks hok
  rw [ht] at e'
  cases e'
  have hcats : ∀ sid, (clicks.foldl CatOp.run (.new c)).Allows sid ↔
      ∀ i k cat op, togglesOf (i, k) clicks % 2 = 1 → c.categories[i]? = some cat → cat.options[k]? = some op →
        sid ∈ op.ids := by
    intro sid
    have hk : ∀ i k, (AMap.get (clicks.foldl CatOp.run (.new c)).active (i, k)).isSome =
        decide (togglesOf (i, k) clicks % 2 = 1) := fun i k => C37_categories c clicks ⟨[], i, k⟩
    unfold CategoryHandler.Allows
    simp only [hk, decide_eq_true_eq, (catInv_run (.new c) AMap.Wf.nil clicks).handle]
    exact Iff.rfl
  have htags : ∀ sid, tags.Allows sid ↔
      ∀ i tag, tagTogglesOf i tagClicks % 2 = 1 → c.tags[i]? = some tag → sid ∈ tag.ids := by
    intro sid
    have hk : ∀ i, (AMap.get tags.active i).isSome = decide (tagTogglesOf i tagClicks % 2 = 1) := fun i => hst ⟨c, i⟩
    unfold TagHandler.Allows
    simp only [hk, decide_eq_true_eq, inv.handle]
    exact Iff.rfl
  refine ⟨tags, ht, ?_⟩
  rw [C33 mode o lower e input _ tags hr1 hr2 filter hf c₁ c₂ e₁ whole h]
  simp only [hcats, htags]

/-- A loaded index with a selected option, a selected tag and a filter, on which the hypotheses of `C33` hold and the
filters matter: of three matching products 0, 1, 2 only product 2 has all of them. -/
def exampleClassic : Classic :=
  { categories := [⟨['c'], [⟨['o'], 0, [], [1, 2]⟩], false⟩], tags := [⟨['t'], [], [0, 2], 0⟩], order := [] }

example :
    let cats := [CatOp.toggle ⟨['o'], 0, 0⟩].foldl CatOp.run (.new exampleClassic)
    let tags : TagHandler := { TagHandler.new exampleClassic with active := [(0, ())] }
    cats.InRange ∧ tags.InRange ∧ Wanted cats tags [] [] 2 ∧ ¬ Wanted cats tags [] [] 0 ∧ ¬ Wanted cats tags [] [] 1 := by
  refine ⟨?_, ?_, ⟨?_, ?_, by simp⟩, ?_, ?_⟩
  · refine C33_inRange_categories _ _ fun item h => ?_
    simp only [List.mem_cons, List.not_mem_nil, or_false, CatOp.toggle.injEq] at h
    subst h
    exact ⟨_, _, rfl, rfl⟩
  · intro i h
    have : i = 0 := by
      simp only [AMap.get] at h
      split at h
      · rename_i h0; simpa using h0.symm
      · simp at h
    subst this
    exact ⟨_, rfl⟩
  · intro c i cat op h h1 h2
    rcases c with _ | c
    · rcases i with _ | i
      · simp [exampleClassic, CatOp.run, CategoryHandler.toggle, CategoryHandler.new] at h1
        subst h1
        simp at h2
        subst h2
        simp
      · simp [exampleClassic, CatOp.run, CategoryHandler.toggle, CategoryHandler.new] at h1
        subst h1
        simp at h2
    · simp [exampleClassic, CatOp.run, CategoryHandler.toggle, CategoryHandler.new] at h1
  · intro i tag h h1
    rcases i with _ | i
    · simp [exampleClassic, TagHandler.new] at h1
      subst h1
      simp
    · simp [exampleClassic, TagHandler.new] at h1
  · intro h
    have := h.1 0 0 ⟨['c'], [⟨['o'], 0, [], [1, 2]⟩], false⟩ ⟨['o'], 0, [], [1, 2]⟩ rfl rfl rfl
    simp at this
  · intro h
    have := h.2.1 0 ⟨['t'], [], [0, 2], 0⟩ rfl rfl
    simp at this

end Idx
