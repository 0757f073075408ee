import Verif.Props.Story
import Verif.Props.Depends
/-
C120: what one file tells about the catalogue it was written from. Two catalogues from which the same index can be loaded agree in
everything listed here, whatever machines, hash orders, lower-casing and price parsers they were indexed with.
-/
namespace Idx

/-- How often a posting list names the product at a position. -/
theorem count_expected (lower : Char → List Char) (n : Nat) (k : List Char) : ∀ (ps : List Product) (rs : List RawProduct) (s i : Nat)
    (raw : RawProduct), ps.map (·.sid) = List.range' s ps.length → rs[i]? = some raw → ps.length = rs.length →
    ((expectedPostings lower n ps rs k).map (·.sid)).count (s + i) = (paddedWindows n (textOf lower raw)).count k := by
  intro ps
  induction ps with
  | nil =>
    intro rs s i raw _ h hl
    cases rs with
    | nil => simp at h
    | cons r rs => simp at hl
  | cons p ps ih =>
    intro rs s i raw hs h hl
    cases rs with
    | nil => simp at h
    | cons r rs =>
      simp only [List.map_cons, List.length_cons, List.range'_succ, List.cons.injEq] at hs
      simp only [List.length_cons, Nat.add_right_cancel_iff] at hl
      have hx : (expectedPostings lower n (p :: ps) (r :: rs) k).map (·.sid) =
          List.replicate ((paddedWindows n (textOf lower r)).count k) s ++ (expectedPostings lower n ps rs k).map (·.sid) := by
        simp only [expectedPostings, List.zip_cons_cons, List.flatMap_cons, List.map_append, List.map_replicate, hs.1]
      rw [hx, List.count_append, List.count_replicate]
      cases i with
      | zero =>
        simp only [List.getElem?_cons_zero, Option.some.injEq] at h
        subst h
        have hz : ((expectedPostings lower n ps rs k).map (·.sid)).count (s + 0) = 0 := by
          apply List.count_eq_zero_of_not_mem
          intro hm
          obtain ⟨q, hq, he⟩ := List.mem_map.1 hm
          obtain ⟨e, he1, he2⟩ := List.mem_flatMap.1 hq
          obtain ⟨_, rfl⟩ := List.mem_replicate.1 he2
          have := List.mem_map_of_mem (f := (·.sid)) (List.of_mem_zip he1).1
          rw [hs.2, List.mem_range'_1] at this
          omega
        rw [hz]
        simp
      | succ i =>
        simp only [List.getElem?_cons_succ] at h
        have := ih rs (s + 1) i raw hs.2 h hl
        rw [show s + 1 + i = s + (i + 1) by omega] at this
        rw [this, if_neg (by simp), Nat.zero_add]

/-- A kept posting list of a loaded file names a product as often as the sequence occurs in its padded text. -/
theorem LoadedFrom.posting {lower parse input ix cl} (h : LoadedFrom lower parse input ix cl) {k : List Char} {l : List Product}
    (hk : AMap.get ix.data k = some l) {i : Nat} {raw : RawProduct} (hi : input[i]? = some raw) :
    (l.map (·.sid)).count i = (paddedWindows ngramIndexSize (textOf lower raw)).count k := by
  obtain ⟨t₀, o₀, ix₀, cl₀, hb, hs⟩ := h.sameData
  obtain ⟨prices, b⟩ := built_of_ok (buildAll_container hb)
  rw [hs.postings] at hk
  obtain ⟨l₀, h0, rfl⟩ := Option.map_eq_some_iff.1 hk
  rw [C22_postings (by decide) hb] at h0
  simp only at h0
  split at h0
  · cases h0
    have := count_expected lower ngramIndexSize k ix₀.container.products input 0 i raw
      (by rw [b.sids, List.range_eq_range', b.length]) hi b.length
    rw [Nat.zero_add] at this
    rw [← this, List.map_map]
    rfl
  · cases h0

/-- The columns of a loaded file. -/
theorem LoadedFrom.columns {lower parse input ix cl} (h : LoadedFrom lower parse input ix cl) :
    ∃ prices, input.map (fun raw => parse raw.price.min.amount) = prices.map some ∧
      AMap.get ix.container.extra imageUrlKey = (if imagesOf input = [] then none else some (.string (imagesOf input))) ∧
      AMap.get ix.container.extra priceKey = if prices = [] then none else some (.float prices) := by
  obtain ⟨t₀, o₀, ix₀, cl₀, hb, hs⟩ := h.sameData
  obtain ⟨prices, b⟩ := built_of_ok (buildAll_container hb)
  exact ⟨prices, b.parsed, by rw [hs.extra, b.columns.images], by rw [hs.extra, b.columns.prices]⟩

/-- The tags of a loaded file are those of the catalogue. -/
theorem LoadedFrom.tagNames {lower parse input ix cl} (h : LoadedFrom lower parse input ix cl) (name : Str) :
    name ∈ cl.tags.map (·.name) ↔ ∃ raw ∈ input, name ∈ raw.tags := by
  obtain ⟨t₀, o₀, ix₀, cl₀, hb, hs⟩ := h.sameData
  rw [← (C18 (buildAll_container hb)).2.1 name]
  have : cl.tags.map (·.name) = cl₀.tags.map (·.name) := by
    have := congrArg (List.map Prod.fst) hs.tags
    rw [List.map_map, List.map_map] at this
    exact this
  rw [this]

/-- The options of a loaded file are those of the catalogue. -/
theorem LoadedFrom.optionNames {lower parse input ix cl} (h : LoadedFrom lower parse input ix cl) (c v : Str) :
    (∃ raw ∈ input, Gives raw c v) → ∃ (k j : Nat) (cat : Category) (op : CatOption), cl.categories[k]? = some cat ∧ cat.options[j]? = some op ∧
      cat.name = c ∧ op.name = v := by
  obtain ⟨t₀, o₀, ix₀, cl₀, hb, hs⟩ := h.sameData
  obtain ⟨_, hc, ho⟩ := C19 (buildAll_container hb)
  rintro ⟨raw, hr, r, hr1, hr2, hr3⟩
  obtain ⟨cat₀, hcat, rfl⟩ := List.mem_map.1 ((hc c).2 ⟨raw, hr, r, hr1, hr2⟩)
  obtain ⟨op₀, hop, rfl⟩ := List.mem_map.1 (((ho cat₀ hcat).2.1 v).2 ⟨raw, hr, r, hr1, hr2, hr3⟩)
  obtain ⟨k, hk⟩ := List.mem_iff_getElem?.1 hcat
  obtain ⟨j, hj⟩ := List.mem_iff_getElem?.1 hop
  have hm := congrArg (fun l => l[k]?) hs.categories
  simp only [List.getElem?_map, hk, Option.map_some] at hm
  obtain ⟨cat, hkc, hv⟩ := Option.map_eq_some_iff.1 hm
  simp only [categoryView, Prod.mk.injEq] at hv
  have hm2 := congrArg (fun l => l[j]?) hv.2.2
  simp only [List.getElem?_map, hj, Option.map_some] at hm2
  obtain ⟨op, hjo, hv2⟩ := Option.map_eq_some_iff.1 hm2
  simp only [Prod.mk.injEq] at hv2
  exact ⟨k, j, cat, op, hkc, hjo, hv.1, hv2.1⟩

section
variable {lower₁ lower₂ : Char → List Char} {parse₁ parse₂ : Str → Option F32} {a b : List RawProduct} {ix : GramIndex Char}
  {cl : Classic}

/-- C120: catalogues behind one file have equally many products, and position by position the same id, title, vendor, price, kept
part of the description, tags and values of options. -/
theorem C120 (h₁ : LoadedFrom lower₁ parse₁ a ix cl) (h₂ : LoadedFrom lower₂ parse₂ b ix cl) : a.length = b.length ∧
    ∀ (i : Nat) (r₁ r₂ : RawProduct), a[i]? = some r₁ → b[i]? = some r₂ →
      r₁.id = r₂.id ∧ r₁.title = r₂.title ∧ r₁.vendor = r₂.vendor ∧
      parse₁ r₁.price.min.amount = parse₂ r₂.price.min.amount ∧
      limitStringLen r₁.description 100 = limitStringLen r₂.description 100 ∧
      (∀ name, name ∈ r₁.tags ↔ name ∈ r₂.tags) ∧
      ∀ category value, Gives r₁ category value ↔ Gives r₂ category value := by
  refine ⟨by rw [← h₁.length, ← h₂.length], fun i r₁ r₂ g₁ g₂ => ?_⟩
  obtain ⟨t₁, o₁, ix₁, cl₁, b₁, s₁⟩ := h₁.sameData
  obtain ⟨t₂, o₂, ix₂, cl₂, b₂, s₂⟩ := h₂.sameData
  obtain ⟨p, hp, p1, p2, p3, p4, _⟩ := (C14 (buildAll_container b₁)).2 i r₁ g₁
  obtain ⟨q, hq, q1, q2, q3, q4, _⟩ := (C14 (buildAll_container b₂)).2 i r₂ g₂
  have e : limited p = limited q := by
    have := s₁.products.symm.trans s₂.products
    have := congrArg (fun l => l[i]?) this
    simpa [List.getElem?_map, hp, hq] using this
  have c1 := congrArg (·.id) e
  have c2 := congrArg (·.title) e
  have c3 := congrArg (·.description) e
  have c4 := congrArg (·.vendor.name) e
  simp only [limited] at c1 c2 c3 c4
  refine ⟨by rw [← p1, c1, q1], by rw [← p2, c2, q2], by rw [← p4, c4, q4], ?_, by rw [← p3, c3, q3], fun name => ?_, fun c v => ?_⟩
  · obtain ⟨x, hx, fx⟩ := price_of (buildAll_container b₁) i r₁ g₁ p hp
    obtain ⟨y, hy, fy⟩ := price_of (buildAll_container b₂) i r₂ g₂ q hq
    have fx' : FeatureSet.get ix.container.extra (limited p) priceKey = some (.float x) := by
      rw [← fx]; unfold FeatureSet.get; rw [s₁.extra]; rfl
    have fy' : FeatureSet.get ix.container.extra (limited q) priceKey = some (.float y) := by
      rw [← fy]; unfold FeatureSet.get; rw [s₂.extra]; rfl
    rw [e, fy'] at fx'
    cases fx'
    rw [hx, hy]
  · constructor
    · intro hm
      obtain ⟨tag, ht, rfl⟩ := List.mem_map.1 ((h₁.tagNames name).2 ⟨r₁, List.mem_of_getElem? g₁, hm⟩)
      obtain ⟨k, hk⟩ := List.mem_iff_getElem?.1 ht
      exact (h₂.tag k tag hk i r₂ g₂).1 ((h₁.tag k tag hk i r₁ g₁).2 hm)
    · intro hm
      obtain ⟨tag, ht, rfl⟩ := List.mem_map.1 ((h₂.tagNames name).2 ⟨r₂, List.mem_of_getElem? g₂, hm⟩)
      obtain ⟨k, hk⟩ := List.mem_iff_getElem?.1 ht
      exact (h₁.tag k tag hk i r₁ g₁).1 ((h₂.tag k tag hk i r₂ g₂).2 hm)
  · constructor
    · intro hm
      obtain ⟨k, j, cat, op, hk, hj, rfl, rfl⟩ := h₁.optionNames c v ⟨r₁, List.mem_of_getElem? g₁, hm⟩
      exact (h₂.option k j cat op hk hj i r₂ g₂).1 ((h₁.option k j cat op hk hj i r₁ g₁).2 hm)
    · intro hm
      obtain ⟨k, j, cat, op, hk, hj, rfl, rfl⟩ := h₂.optionNames c v ⟨r₂, List.mem_of_getElem? g₂, hm⟩
      exact (h₁.option k j cat op hk hj i r₁ g₁).1 ((h₂.option k j cat op hk hj i r₂ g₂).2 hm)

/-- C120 (pictures): and the same first pictures, of those products that have one; not which product each belongs to. -/
theorem C120_pictures (h₁ : LoadedFrom lower₁ parse₁ a ix cl) (h₂ : LoadedFrom lower₂ parse₂ b ix cl) :
    (a.filterMap fun raw => raw.media.head?) = b.filterMap fun raw => raw.media.head? := by
  obtain ⟨_, _, e₁, _⟩ := h₁.columns
  obtain ⟨_, _, e₂, _⟩ := h₂.columns
  rw [e₁] at e₂
  show imagesOf a = imagesOf b
  by_cases ha : imagesOf a = [] <;> by_cases hb : imagesOf b = []
  · rw [ha, hb]
  · rw [if_pos ha, if_neg hb] at e₂; cases e₂
  · rw [if_neg ha, if_pos hb] at e₂; cases e₂
  · rw [if_neg ha, if_neg hb] at e₂
    simpa using e₂

/-- C120 (texts): and every sequence of characters that has a posting list occurs equally often in the padded texts at each position,
also in those parts of descriptions that are not kept. -/
theorem C120_texts (h₁ : LoadedFrom lower₁ parse₁ a ix cl) (h₂ : LoadedFrom lower₂ parse₂ b ix cl) (k : List Char)
    (hk : AMap.get ix.data k ≠ none) (i : Nat) (r₁ r₂ : RawProduct) (g₁ : a[i]? = some r₁) (g₂ : b[i]? = some r₂) :
    (paddedWindows ngramIndexSize (textOf lower₁ r₁)).count k = (paddedWindows ngramIndexSize (textOf lower₂ r₂)).count k := by
  obtain ⟨l, hl⟩ := Option.ne_none_iff_exists'.1 hk
  rw [← h₁.posting hl g₁, h₂.posting hl g₂]

end

/-! ## What a file does not tell -/

/-- A product with this title and these media. -/
def pictured (title : Str) (media : List Str) : RawProduct :=
  { description := [], tags := [], title := title, vendor := [], id := title, options := [],
    price := ⟨⟨['1'], []⟩, ⟨['1'], []⟩⟩, media := media }

/-- The second picture belongs to the second product, … -/
def secondHas : List RawProduct := [pictured ['a'] [['x']], pictured ['b'] [['y']], pictured ['c'] []]

/-- … or to the third. -/
def thirdHas : List RawProduct := [pictured ['a'] [['x']], pictured ['b'] [], pictured ['c'] [['y']]]

/-- The same bytes are written from both. -/
theorem both_loaded : ∃ ix cl, LoadedFrom (fun c => [c]) parseOne secondHas ix cl ∧ LoadedFrom (fun c => [c]) parseOne thirdHas ix cl := by
  have e : runFile .wasm32 parseOne 5 secondHas = runFile .wasm32 parseOne 5 thirdHas := by decide +kernel
  have l : ((runFile .wasm32 parseOne 5 secondHas).map fun b => decide (b.length ≤ 1000)) = some true := by decide +kernel
  obtain ⟨bytes, h1, hl⟩ := Option.map_eq_some_iff.1 l
  rw [decide_eq_true_eq] at hl
  obtain ⟨ix₁, cl₁, b₁, s₁, w₁⟩ := runFile_sound (by decide) (by decide) h1
  obtain ⟨_, _, _, _, w₂⟩ := runFile_sound (by decide) (by decide) (e.symm.trans h1)
  have hf : Fits .wasm32 bytes.length := .of_carried (by unfold Carried; simp only [Target.wasm32]; omega) fun _ _ => rfl
  obtain ⟨_, _, ix, cl, _, load, _⟩ := C09_file (by decide) w₁ .wasm32 hf
  exact ⟨ix, cl, ⟨.wasm32, .wasm32, .ident, bytes, w₁, hf, load⟩, ⟨.wasm32, .wasm32, .ident, bytes, w₂, hf, load⟩⟩

/-- The claim: a file tells the first picture of every product. -/
def C120_owner_statement : Prop :=
  ∀ (lower : Char → List Char) (parse : Str → Option F32) (a b : List RawProduct) (ix : GramIndex Char) (cl : Classic),
    LoadedFrom lower parse a ix cl → LoadedFrom lower parse b ix cl → a.map (·.media.head?) = b.map (·.media.head?)

/-- It does not: the same bytes are written whichever product the second picture belongs to. -/
theorem C120_owner_false : ¬ C120_owner_statement := by
  intro h
  obtain ⟨ix, cl, h₁, h₂⟩ := both_loaded
  have := h _ _ _ _ _ _ h₁ h₂
  revert this
  decide

/-- The hypotheses of the theorems above are met by these two catalogues. -/
example : ∃ ix cl, (LoadedFrom (fun c => [c]) parseOne secondHas ix cl ∧ LoadedFrom (fun c => [c]) parseOne thirdHas ix cl) ∧
    secondHas ≠ thirdHas :=
  both_loaded.imp fun _ h => h.imp fun _ h => ⟨h, by decide⟩

end Idx
