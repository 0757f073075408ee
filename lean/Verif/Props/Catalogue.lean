import Verif.Props.Reload
/-! # C58: indexing the same products in another order

`index` and `main` read the catalogue into a hash table, so the order of the products is arbitrary. -/
namespace Idx

/-- Id and searched text of an input product: all that a search depends on. -/
def searchedOf (lower : Char → List Char) (raw : RawProduct) : Str × List Char := (raw.id, textOf lower raw)

/-- Two runs of the indexer on catalogues with the same ids and searched texts in perhaps different orders, with hash
tables iterating in different orders. -/
structure SameTexts (t : Target) (o₁ o₂ : HashOrd) (lower : Char → List Char) (parse : Str → Option F32) (n : Nat)
    (input₁ input₂ : List RawProduct) (ix₁ ix₂ : GramIndex Char) (cl₁ cl₂ : Classic) : Prop where
  perm : (input₁.map (searchedOf lower)).Perm (input₂.map (searchedOf lower))
  one : Searchable t o₁ lower parse n input₁ ix₁ cl₁
  two : Searchable t o₂ lower parse n input₂ ix₂ cl₂

theorem SameTexts.symm {t o₁ o₂ lower parse n input₁ input₂ ix₁ ix₂ cl₁ cl₂}
    (h : SameTexts t o₁ o₂ lower parse n input₁ input₂ ix₁ ix₂ cl₁ cl₂) :
    SameTexts t o₂ o₁ lower parse n input₂ input₁ ix₂ ix₁ cl₂ cl₁ := ⟨h.perm.symm, h.two, h.one⟩

theorem SameTexts.texts {t o₁ o₂ lower parse n input₁ input₂ ix₁ ix₂ cl₁ cl₂}
    (h : SameTexts t o₁ o₂ lower parse n input₁ input₂ ix₁ ix₂ cl₁ cl₂) :
    (input₁.map (textOf lower)).Perm (input₂.map (textOf lower)) := by
  have := h.perm.map (·.2)
  simpa [List.map_map, Function.comp_def, searchedOf] using this

theorem SameTexts.length {t o₁ o₂ lower parse n input₁ input₂ ix₁ ix₂ cl₁ cl₂}
    (h : SameTexts t o₁ o₂ lower parse n input₁ input₂ ix₁ ix₂ cl₁ cl₂) : input₁.length = input₂.length := by
  have := h.perm.length_eq
  simpa using this

theorem totalChars_texts (lower : Char → List Char) (input : List RawProduct) :
    totalChars lower input = ((input.map (textOf lower)).map List.length).sum := by
  simp [totalChars, List.map_map, Function.comp_def]

theorem totalChars_perm (lower : Char → List Char) {input₁ input₂ : List RawProduct} (h : input₁.Perm input₂) :
    totalChars lower input₁ = totalChars lower input₂ := (h.map _).sum_nat

theorem occurrencesIn_perm (path : List Char) {texts₁ texts₂ : List (List Char)} (h : texts₁.Perm texts₂) :
    occurrencesIn path texts₁ = occurrencesIn path texts₂ := (h.map _).sum_nat

theorem SameTexts.paths {t o₁ o₂ lower parse n input₁ input₂ ix₁ ix₂ cl₁ cl₂}
    (h : SameTexts t o₁ o₂ lower parse n input₁ input₂ ix₁ ix₂ cl₁ cl₂) : PathsIn ix₁ ix₂ := by
  have k1 : ix₁.Keyed := by rw [(builtAll_of_ok h.one.built).index]; exact indexFrom_keyed t o₁ h.one.pos _ _
  have k2 : ix₂.Keyed := by rw [(builtAll_of_ok h.two.built).index]; exact indexFrom_keyed t o₂ h.two.pos _ _
  intro path m hm
  have hne := nodeAt_nonempty hm
  have hm' := (k1.has_iff _ _).2 hm
  obtain ⟨hle, raw, hraw, hin⟩ := (C21_path_iff_substring h.one.pos h.one.built path hne).1 ⟨m, hm'⟩
  obtain ⟨raw', hraw', e⟩ := List.mem_map.1 (h.texts.mem_iff.1 (List.mem_map_of_mem hraw))
  obtain ⟨m', hm''⟩ := (C21_path_iff_substring h.two.pos h.two.built path hne).2 ⟨hle, raw', hraw', by rw [e]; exact hin⟩
  refine ⟨m', (k2.has_iff _ _).1 hm'', ?_⟩
  rw [(C21_weight h.one.pos h.one.built _ _ hm').2, (C21_weight h.two.pos h.two.built _ _ hm'').2]
  unfold parentCount
  rw [occurrencesIn_perm path h.texts, occurrencesIn_perm path.dropLast h.texts, totalChars_texts, totalChars_texts,
    (h.texts.map _).sum_nat]

/-- The trees have the same paths with bit-identical weights. -/
theorem C58_trees {t o₁ o₂ lower parse n input₁ input₂ ix₁ ix₂ cl₁ cl₂}
    (h : SameTexts t o₁ o₂ lower parse n input₁ input₂ ix₁ ix₂ cl₁ cl₂) : Twin ix₁ ix₂ := by
  refine ⟨?_, ?_, h.paths, h.symm.paths⟩
  · rw [(builtAll_of_ok h.one.built).index]; exact indexFrom_keyed t o₁ h.one.pos _ _
  · rw [(builtAll_of_ok h.two.built).index]; exact indexFrom_keyed t o₂ h.two.pos _ _

/-- The posting list a catalogue calls for, as ids. -/
theorem expected_ids {t o lower parse n input ix cl} (h : buildAll t o lower parse n input = .ok (ix, cl)) (k : List Char) :
    (expectedPostings lower n ix.container.products input k).map (·.id) =
      (input.map (searchedOf lower)).flatMap fun e => List.replicate ((paddedWindows n e.2).count k) e.1 := by
  obtain ⟨prices, b⟩ := (builtAll_of_ok h).built
  have hd : ix.container.products.map (·.id) = input.map (·.id) := by
    apply List.ext_getElem?
    intro i
    simp only [List.getElem?_map, b.getElem?]
    cases hi : input[i]? with
    | none => rfl
    | some raw => rfl
  have : ∀ (ps : List Product) (rs : List RawProduct), ps.map (·.id) = rs.map (·.id) →
      (expectedPostings lower n ps rs k).map (·.id) =
        (rs.map (searchedOf lower)).flatMap fun e => List.replicate ((paddedWindows n e.2).count k) e.1 := by
    intro ps
    induction ps with
    | nil =>
      intro rs hh
      cases rs with
      | nil => rfl
      | cons r rs => simp at hh
    | cons p ps ih =>
      intro rs hh
      cases rs with
      | nil => simp at hh
      | cons r rs =>
        simp only [List.map_cons, List.cons.injEq] at hh
        have := ih rs hh.2
        simp only [expectedPostings, List.zip_cons_cons, List.map_cons, List.flatMap_cons, List.map_append,
          List.map_replicate] at this ⊢
        rw [this, hh.1]
        rfl
  exact this _ _ hd

/-- The n-grams with a posting list are the same, and each lists the same ids equally often. -/
theorem C58_postings {t o₁ o₂ lower parse n input₁ input₂ ix₁ ix₂ cl₁ cl₂}
    (h : SameTexts t o₁ o₂ lower parse n input₁ input₂ ix₁ ix₂ cl₁ cl₂) (k : List Char) :
    (AMap.get ix₁.data k = none ∧ AMap.get ix₂.data k = none) ∨
    ∃ l₁ l₂, AMap.get ix₁.data k = some l₁ ∧ AMap.get ix₂.data k = some l₂ ∧ (l₁.map (·.id)).Perm (l₂.map (·.id)) := by
  have hp : ((expectedPostings lower n ix₁.container.products input₁ k).map (·.id)).Perm
      ((expectedPostings lower n ix₂.container.products input₂ k).map (·.id)) := by
    rw [expected_ids h.one.built, expected_ids h.two.built]
    exact h.perm.flatMap_right _
  rw [C22_postings h.one.pos h.one.built, C22_postings h.two.pos h.two.built]
  have hl := hp.length_eq
  simp only [List.length_map] at hl
  simp only [← List.length_pos_iff, hl, h.length]
  split
  · exact .inr ⟨_, _, rfl, rfl, hp⟩
  · exact .inl ⟨rfl, rfl⟩

/-- Every n-gram is answered with bit-identical confidence in both, or in neither. -/
theorem C58_lookups {t o₁ o₂ lower parse n input₁ input₂ ix₁ ix₂ cl₁ cl₂}
    (h : SameTexts t o₁ o₂ lower parse n input₁ input₂ ix₁ ix₂ cl₁ cl₂) (w : List Char) :
    ∃ res₁ res₂, ix₁.searchGram n w = .ok res₁ ∧ ix₂.searchGram n w = .ok res₂ ∧ res₁.map (·.2) = res₂.map (·.2) :=
  (C58_trees h).searchGram h.one.pos h.one.le (fun path c hc => (h.one.unit path c hc).unit) w

theorem filter_map_const {α : Type} (p : α → Bool) (c : F32) (l : List α) :
    ((l.filter p).map fun _ => c) = List.replicate (l.countP p) c := by
  rw [List.map_const', List.countP_eq_length_filter]

theorem scores_reordered {t o₁ o₂ lower parse n input₁ input₂ ix₁ ix₂ cl₁ cl₂}
    (h : SameTexts t o₁ o₂ lower parse n input₁ input₂ ix₁ ix₂ cl₁ cl₂) (id : Str) (query : List Char)
    (hg : ∀ w ∈ paddedWindows n query, ix₁.searchGram n w = ix₂.searchGram n w) :
    scoresOf id (hitsOf ix₁ n query) = scoresOf id (hitsOf ix₂ n query) := by
  unfold hitsOf
  generalize paddedWindows n query = l at hg
  induction l with
  | nil => rfl
  | cons w l ih =>
    have ih := ih fun x hx => hg x (by simp [hx])
    simp only [scoresOf, List.flatMap_cons, List.filter_append, List.map_append] at ih ⊢
    rw [ih]
    congr 1
    unfold hitsOfWindow
    rw [hg w (by simp)]
    split
    · rename_i found conf _
      rcases C58_postings h found with ⟨e1, e2⟩ | ⟨l₁, l₂, e1, e2, hp⟩
      · rw [e1, e2]
      · rw [e1, e2]
        simp only [Option.getD_some, List.filter_map, List.map_map, Function.comp_def]
        rw [filter_map_const, filter_map_const]
        congr 1
        have := (hp.countP_eq fun d => decide (d = id))
        simp only [List.countP_map, Function.comp_def] at this
        exact this
    · rfl

/-- Ids and confidences of the results. -/
theorem mem_scored {o : HashOrd} {hits : List (Product × F32)} {id : Str} {c : F32} :
    (id, c) ∈ ((rank hits).export o).map (fun e => (e.1.id, e.2)) ↔ sumScores (scoresOf id hits) = some c := by
  simp only [List.mem_map, Prod.mk.injEq, Prod.exists]
  constructor
  · rintro ⟨p, c', hm, rfl, rfl⟩
    exact (mem_export_iff.1 hm).2
  · intro hs
    cases hf : hits.find? (fun h => h.1.id = id) with
    | none =>
      have : hits.filter (fun h => h.1.id = id) = [] := by
        rw [List.filter_eq_nil_iff]; exact List.find?_eq_none.1 hf
      rw [scoresOf, this] at hs
      cases hs
    | some x =>
      have hx : x.1.id = id := by simpa using List.find?_some hf
      subst hx
      exact ⟨x.1, c, mem_export_iff.2 ⟨⟨x, hf, rfl⟩, hs⟩, rfl, rfl⟩

theorem scored_perm {o o' : HashOrd} {hits hits' : List (Product × F32)}
    (h : ∀ id, scoresOf id hits = scoresOf id hits') :
    (((rank hits).export o).map fun e => (e.1.id, e.2)).Perm (((rank hits').export o').map fun e => (e.1.id, e.2)) := by
  have nd : ∀ (o : HashOrd) (hits : List (Product × F32)),
      (((rank hits).export o).map fun e => (e.1.id, e.2)).Nodup := by
    intro o hits
    have e : ((rank hits).export o).map (·.1.id) = (((rank hits).export o).map fun e => (e.1.id, e.2)).map (·.1) := by
      simp [List.map_map, Function.comp_def]
    have := export_ids o hits
    rw [e] at this
    exact List.Pairwise.of_map (f := (·.1)) (fun a b hne hab => hne (by rw [hab])) this
  rw [List.perm_ext_iff_of_nodup (nd _ _) (nd _ _)]
  rintro ⟨id, c⟩
  rw [mem_scored, mem_scored, h]

/-- If both look every window of the query up alike, they return the same product ids with bit-identical
confidences, up to the order of equal confidences. -/
theorem C58_results {t o₁ o₂ lower parse n input₁ input₂ ix₁ ix₂ cl₁ cl₂}
    (h : SameTexts t o₁ o₂ lower parse n input₁ input₂ ix₁ ix₂ cl₁ cl₂) (query : List Char)
    (hg : ∀ w ∈ paddedWindows n query, ix₁.searchGram n w = ix₂.searchGram n w) (o o' : HashOrd)
    (r₁ r₂ : List (Product × F32)) (h₁ : ix₁.search o n query = .ok r₁) (h₂ : ix₂.search o' n query = .ok r₂) :
    (r₁.map fun e => (e.1.id, e.2)).Perm (r₂.map fun e => (e.1.id, e.2)) := by
  rw [search_eq o ix₁ h.one.pos h.one.le] at h₁
  rw [search_eq o' ix₂ h.two.pos h.two.le] at h₂
  cases h₁; cases h₂
  exact scored_perm fun id => scores_reordered h id query hg

/-- For N ≤ 2 they always do. -/
theorem C58_small_n {t o₁ o₂ lower parse n input₁ input₂ ix₁ ix₂ cl₁ cl₂}
    (h : SameTexts t o₁ o₂ lower parse n input₁ input₂ ix₁ ix₂ cl₁ cl₂) (hn : n ≤ 2) (query : List Char) (o o' : HashOrd)
    (r₁ r₂ : List (Product × F32)) (h₁ : ix₁.search o n query = .ok r₁) (h₂ : ix₂.search o' n query = .ok r₂) :
    (r₁.map fun e => (e.1.id, e.2)).Perm (r₂.map fun e => (e.1.id, e.2)) :=
  C58_results h query (fun w hw => same_lookup_small h.one.pos hn (paddedWindows_length h.one.pos hw)
    (C58_lookups h w)) o o' r₁ r₂ h₁ h₂

/-- From the catalogue table to the loaded files: two runs of `index` on the same table, whatever order the hash
tables iterate in, give files whose loaded indexes answer every n-gram with bit-identical confidence, and every query
whose windows they look up alike with the same product ids and bit-identical confidences. -/
theorem C58_files {t t' : Target} {o₁ o₂ : HashOrd} {lower : Char → List Char} {parse : Str → Option F32} {n : Nat}
    {catalogue : AMap Str RawProduct} {bytes₁ bytes₂ : Bytes} (h1 : 1 ≤ n) (h2 : n ≤ 764)
    (hsize : totalChars lower (catalogue.map (·.2)) ≤ 2 ^ 32)
    (b₁ : indexCatalogue t o₁ lower parse n catalogue = .ok bytes₁)
    (b₂ : indexCatalogue t o₂ lower parse n catalogue = .ok bytes₂)
    (f₁ : Fits t' bytes₁.length) (f₂ : Fits t' bytes₂.length) :
    ∃ ix₁ cl₁ ix₂ cl₂, deserializeAll t' n bytes₁ = .ok (ix₁, cl₁) ∧ deserializeAll t' n bytes₂ = .ok (ix₂, cl₂) ∧
      (∀ w, ∃ res₁ res₂, ix₁.searchGram n w = .ok res₁ ∧ ix₂.searchGram n w = .ok res₂ ∧
        res₁.map (·.2) = res₂.map (·.2)) ∧
      ∀ (query : List Char), (n ≤ 2 ∨ ∀ w ∈ paddedWindows n query, ix₁.searchGram n w = ix₂.searchGram n w) →
        ∀ (o o' : HashOrd), ∃ r₁ r₂, ix₁.search o n query = .ok r₁ ∧ ix₂.search o' n query = .ok r₂ ∧
          (r₁.map fun e => (e.1.id, e.2)).Perm (r₂.map fun e => (e.1.id, e.2)) := by
  obtain ⟨jx₁, dl₁, g₁, rfl⟩ := indexAndSerialize_ok b₁
  obtain ⟨jx₂, dl₂, g₂, rfl⟩ := indexAndSerialize_ok b₂
  have p₁ : ((o₁.order "catalogue" catalogue).map (·.2)).Perm (catalogue.map (·.2)) := (o₁.perm _ _).map _
  have p₂ : ((o₂.order "catalogue" catalogue).map (·.2)).Perm (catalogue.map (·.2)) := (o₂.perm _ _).map _
  have hr : SameTexts t o₁ o₂ lower parse n _ _ jx₁ jx₂ dl₁ dl₂ :=
    ⟨(p₁.trans p₂.symm).map _, ⟨h1, h2, g₁, by rwa [totalChars_perm lower p₁]⟩, ⟨h1, h2, g₂, by rwa [totalChars_perm lower p₂]⟩⟩
  obtain ⟨ix₁, cl₁, e₁, s₁⟩ := C09 h1 g₁ o₁ t' f₁ []
  obtain ⟨ix₂, cl₂, e₂, s₂⟩ := C09 h1 g₂ o₂ t' f₂ []
  rw [List.append_nil] at e₁ e₂
  have q₁ : ∀ w, ix₁.searchGram n w = jx₁.searchGram n w := fun w => searchGram_of_roots s₁.roots n w
  have q₂ : ∀ w, ix₂.searchGram n w = jx₂.searchGram n w := fun w => searchGram_of_roots s₂.roots n w
  refine ⟨ix₁, cl₁, ix₂, cl₂, e₁, e₂, ?_, ?_⟩
  · intro w
    rw [q₁, q₂]
    exact C58_lookups hr w
  · intro query hg o o'
    have hg' : ∀ w ∈ paddedWindows n query, jx₁.searchGram n w = jx₂.searchGram n w := by
      intro w hw
      rcases hg with hn | hg
      · exact same_lookup_small h1 hn (paddedWindows_length h1 hw) (C58_lookups hr w)
      · rw [← q₁, ← q₂]; exact hg w hw
    refine ⟨_, _, search_eq o ix₁ h1 h2 query, search_eq o' ix₂ h1 h2 query, scored_perm ?_⟩
    intro id
    rw [hitsOf_reload s₁, hitsOf_reload s₂]
    have e : ∀ hits : List (Product × F32), scoresOf id (hits.map fun h => (limited h.1, h.2)) = scoresOf id hits := by
      intro hits
      simp only [scoresOf, List.filter_map, List.map_map, Function.comp_def]
      rfl
    rw [e, e]
    exact scores_reordered hr id query hg'

set_option maxRecDepth 20000 in
/-- The hypotheses of `C58_files` are met by a table of three products iterated in both directions. The two files have
the same length but differ. -/
example : ∃ bytes₁ bytes₂, indexCatalogue .debug64 .ident (fun c => [c]) parseOne 3 (tied.map fun r => (r.id, r)) = .ok bytes₁ ∧
    indexCatalogue .debug64 .rev (fun c => [c]) parseOne 3 (tied.map fun r => (r.id, r)) = .ok bytes₂ ∧
    Fits .wasm32 bytes₁.length ∧ Fits .wasm32 bytes₂.length ∧ bytes₁ ≠ bytes₂ ∧
    totalChars (fun c => [c]) ((tied.map fun r => (r.id, r)).map (·.2)) ≤ 2 ^ 32 := by
  have h : ((runFileO .debug64 .ident parseOne 3 tied).bind fun a => (runFileO .debug64 .rev parseOne 3 tied.reverse).map
      fun b => (a.length, b.length, a == b)) = some (223, 223, false) := by decide +kernel
  obtain ⟨a, ha, h⟩ := Option.bind_eq_some_iff.1 h
  obtain ⟨b, hb, h⟩ := Option.map_eq_some_iff.1 h
  simp only [Prod.mk.injEq, beq_eq_false_iff_ne] at h
  obtain ⟨_, _, _, _, h3⟩ := runFileO_sound (by decide) (by decide) ha
  obtain ⟨_, _, _, _, h4⟩ := runFileO_sound (by decide) (by decide) hb
  exact ⟨a, b, h3, h4, .of_carried (by rw [h.1]; decide) fun _ _ => rfl, .of_carried (by rw [h.2.1]; decide) fun _ _ => rfl,
    h.2.2, by decide⟩

/-! ## C61: letter case of the catalogue -/

/-- Two catalogues whose products differ at most in the letter case of their texts, and in what is not searched. -/
def SameButCase (lower : Char → List Char) (input₁ input₂ : List RawProduct) : Prop :=
  input₁.length = input₂.length ∧ ∀ (i : Nat) (a b : RawProduct), input₁[i]? = some a → input₂[i]? = some b →
    a.id = b.id ∧ a.description.flatMap lower = b.description.flatMap lower ∧
      a.title.flatMap lower = b.title.flatMap lower ∧ a.vendor.flatMap lower = b.vendor.flatMap lower

theorem SameButCase.searched {lower : Char → List Char} {input₁ input₂ : List RawProduct}
    (h : SameButCase lower input₁ input₂) : input₁.map (searchedOf lower) = input₂.map (searchedOf lower) := by
  apply List.ext_getElem?
  intro i
  simp only [List.getElem?_map]
  cases h1 : input₁[i]? with
  | none =>
    have : input₂[i]? = none := by
      rw [List.getElem?_eq_none_iff] at h1 ⊢; have := h.1; omega
    rw [this]
  | some a =>
    cases h2 : input₂[i]? with
    | none =>
      rw [List.getElem?_eq_none_iff] at h2
      have := (List.getElem?_eq_some_iff.1 h1).1
      have := h.1
      omega
    | some b =>
      obtain ⟨e1, e2, e3, e4⟩ := h.2 i a b h1 h2
      simp [searchedOf, textOf, e1, e2, e3, e4]

/-- Indexes of catalogues differing only in letter case give every n-gram the same confidence, and every query whose
windows they look up alike (always, for N ≤ 2) the same ids with bit-identical confidences. -/
theorem C61 {t o₁ o₂ lower parse n input₁ input₂ ix₁ ix₂ cl₁ cl₂} (hc : SameButCase lower input₁ input₂)
    (h₁ : Searchable t o₁ lower parse n input₁ ix₁ cl₁) (h₂ : Searchable t o₂ lower parse n input₂ ix₂ cl₂) :
    (∀ w, ∃ res₁ res₂, ix₁.searchGram n w = .ok res₁ ∧ ix₂.searchGram n w = .ok res₂ ∧
      res₁.map (·.2) = res₂.map (·.2)) ∧
    ∀ (query : List Char), (n ≤ 2 ∨ ∀ w ∈ paddedWindows n query, ix₁.searchGram n w = ix₂.searchGram n w) →
      ∀ (o o' : HashOrd) (r₁ r₂ : List (Product × F32)), ix₁.search o n query = .ok r₁ → ix₂.search o' n query = .ok r₂ →
        (r₁.map fun e => (e.1.id, e.2)).Perm (r₂.map fun e => (e.1.id, e.2)) := by
  have h : SameTexts t o₁ o₂ lower parse n input₁ input₂ ix₁ ix₂ cl₁ cl₂ := ⟨.of_eq hc.searched, h₁, h₂⟩
  refine ⟨C58_lookups h, ?_⟩
  intro query hg o o' r₁ r₂ e₁ e₂
  rcases hg with hn | hg
  · exact C58_small_n h hn query o o' r₁ r₂ e₁ e₂
  · exact C58_results h query hg o o' r₁ r₂ e₁ e₂

/-- The hypotheses of `C61` are met: "Ab" and "aB" under ASCII lower-casing. -/
example : ∃ ix₁ cl₁ ix₂ cl₂, SameButCase (fun c => [c.toLower]) [mkRaw ['A', 'b'] [] ['1']] [mkRaw ['a', 'B'] [] ['1']] ∧
    Searchable .debug64 .ident (fun c => [c.toLower]) parseOne 3 [mkRaw ['A', 'b'] [] ['1']] ix₁ cl₁ ∧
    Searchable .debug64 .rev (fun c => [c.toLower]) parseOne 3 [mkRaw ['a', 'B'] [] ['1']] ix₂ cl₂ := by
  obtain ⟨ix₁, cl₁, h₁⟩ := buildAll_ok .debug64 .ident (fun c => [c.toLower]) parseOne 3 [mkRaw ['A', 'b'] [] ['1']] [F32.one] rfl
  obtain ⟨ix₂, cl₂, h₂⟩ := buildAll_ok .debug64 .rev (fun c => [c.toLower]) parseOne 3 [mkRaw ['a', 'B'] [] ['1']] [F32.one] rfl
  refine ⟨ix₁, cl₁, ix₂, cl₂, ⟨rfl, ?_⟩, ⟨by omega, by omega, h₁, by decide⟩, ⟨by omega, by omega, h₂, by decide⟩⟩
  intro i a b ha hb
  cases i with
  | zero =>
    simp only [List.getElem?_cons_zero, Option.some.injEq] at ha hb
    subst ha hb
    exact ⟨rfl, rfl, rfl, rfl⟩
  | succ i => simp at ha

end Idx
