import Verif.Props.Search
import Verif.Lemmas.Run
/-! # C28 and C54: which products a search finds -/
namespace Idx

/-! ## C54: exactly which products are found -/

/-- Product ids among the results: those of the products on the kept posting list of what some window of the padded
query is looked up as. -/
theorem C54_found_iff {t o lower parse n input ix cl} (h1 : 1 ≤ n) (h2 : n ≤ 764)
    (hb : buildAll t o lower parse n input = .ok (ix, cl)) (o' : HashOrd) (query : List Char)
    (results : List (Product × F32)) (hs : ix.search o' n query = .ok results) (id : Str) :
    (∃ p c, (p, c) ∈ results ∧ p.id = id) ↔
      ∃ w ∈ paddedWindows n query, ∃ found conf, ix.searchGram n w = .ok (some (found, conf)) ∧
        (expectedPostings lower n ix.container.products input found).length < maximumProductAmount t input.length ∧
        ∃ (p : Product) (raw : RawProduct), ix.container.products[p.sid]? = some p ∧ input[p.sid]? = some raw ∧ raw.id = id ∧ p.id = id ∧
          found ∈ paddedWindows n (textOf lower raw) := by
  obtain ⟨prices, b⟩ := (builtAll_of_ok hb).built
  have hid : ∀ (p : Product) raw, ix.container.products[p.sid]? = some p → input[p.sid]? = some raw → p.id = raw.id := by
    intro p raw hp hr
    rw [b.getElem?, hr] at hp
    simp only [Option.map_some, Option.some.injEq] at hp
    rw [← hp]; rfl
  constructor
  · rintro ⟨p, c, hp, rfl⟩
    obtain ⟨⟨c', hhit⟩, _⟩ := result_score h1 h2 hs hp
    obtain ⟨w, hw, found, l, hg, hdata, hpl⟩ := mem_hitsOf.1 hhit
    rw [C22_postings h1 hb] at hdata
    simp only at hdata
    split at hdata
    · rename_i hc
      cases hdata
      obtain ⟨h3, raw, h4, h5⟩ := b.expected_mem hpl
      exact ⟨w, hw, found, c', hg, hc.2, p, raw, h3, h4, (hid p raw h3 h4).symm, rfl, h5⟩
    · cases hdata
  · rintro ⟨w, hw, found, conf, hg, hlen, p, raw, hp, hr, hrid, rfl, hmem⟩
    have hpl : p ∈ expectedPostings lower n ix.container.products input found := by
      unfold expectedPostings
      refine List.mem_flatMap.2 ⟨(p, raw), ?_, ?_⟩
      · apply List.mem_of_getElem? (i := p.sid)
        rw [List.getElem?_zip_eq_some]
        exact ⟨hp, hr⟩
      · exact List.mem_replicate.2 ⟨by have := List.count_pos_iff.2 hmem; simp only; omega, rfl⟩
    have hhit : (p, conf) ∈ hitsOf ix n query := by
      refine mem_hitsOf.2 ⟨w, hw, found, _, hg, ?_, hpl⟩
      rw [C22_postings h1 hb]
      simp only
      rw [if_pos ⟨List.ne_nil_of_mem hpl, hlen⟩]
    rw [search_eq o' ix h1 h2] at hs
    cases hs
    cases hf : (hitsOf ix n query).find? (fun h => h.1.id = p.id) with
    | none =>
      have := List.find?_eq_none.1 hf _ hhit
      simp at this
    | some x =>
      have hx : x.1.id = p.id := by simpa using List.find?_some hf
      cases hsum : sumScores (scoresOf p.id (hitsOf ix n query)) with
      | none =>
        have : conf ∈ scoresOf p.id (hitsOf ix n query) := by
          simp only [scoresOf, List.mem_map, List.mem_filter, decide_eq_true_eq]
          exact ⟨_, ⟨hhit, rfl⟩, rfl⟩
        cases hsc : scoresOf p.id (hitsOf ix n query) with
        | nil => rw [hsc] at this; cases this
        | cons a l => rw [hsc] at hsum; cases hsum
      | some c =>
        refine ⟨x.1, c, mem_export_iff.2 ⟨⟨x, ?_, rfl⟩, ?_⟩, hx⟩
        · rw [hx]; exact hf
        · rw [hx]; exact hsum

/-! ## C28 -/

theorem Edits.zero_eq {G : Type} {a b : List G} {k : Nat} (h : Edits k a b) (hk : k = 0) : a = b := by
  induction h with
  | nil => rfl
  | keep x _ ih => rw [ih hk]
  | subst => omega
  | insert => omega
  | delete => omega

/-- The condition under which C28 holds: no other n-gram of the catalogue has the same first gram and is within N/3
edits of (a prefix of) this one. -/
def OnlyMatch (lower : Char → List Char) (n : Nat) (input : List RawProduct) (w : List Char) : Prop :=
  ∀ (q : Char) (rest f seen : List Char) (e : Nat), w = q :: rest → (q :: f).length = n →
    (∃ raw ∈ input, (q :: f) <:+: textOf lower raw) → seen <+: rest → e ≤ n / 3 → Edits e seen f → q :: f = w

/-- Missing for C28 as stated: n-grams that resemble others of the catalogue, where it fails (`C28_false`). -/
theorem C28_partial {t o lower parse n input ix cl} (h : Searchable t o lower parse n input ix cl) (o' : HashOrd)
    (query : List Char) (results : List (Product × F32)) (hs : ix.search o' n query = .ok results)
    (w : List Char) (hl : w.length = n) (hw : w <:+: query) (i : Nat) (raw : RawProduct) (hi : input[i]? = some raw)
    (hr : w <:+: textOf lower raw)
    (hkept : (expectedPostings lower n ix.container.products input w).length < maximumProductAmount t input.length)
    (only : OnlyMatch lower n input w) :
    ∃ p c, (p, c) ∈ results ∧ p.id = raw.id := by
  rw [C54_found_iff h.pos h.le h.built o' query results hs]
  obtain ⟨found, conf, hg, _⟩ := C27_exact h w hl raw (List.mem_of_getElem? hi) hr
  obtain ⟨q, rest, seen, f, node, e1, e2, hlen, hhas, hpre, e, he, hed⟩ := searchGram_sound h.pos h.le hg
  obtain ⟨hle, hocc⟩ := (C21_path_iff_substring h.pos h.built found (by rw [e2]; simp)).1 ⟨node, hhas⟩
  have hfw : found = w := by
    rw [e2]
    exact only q rest f seen e e1 (by rw [← e2]; exact hlen) (by rw [← e2]; exact hocc) hpre he hed
  rw [hfw] at hg
  obtain ⟨prices, b⟩ := (builtAll_of_ok h.built).built
  have hp := b.getElem? i
  rw [hi] at hp
  simp only [Option.map_some] at hp
  exact ⟨w, infix_paddedWindow h.pos hl hw, w, conf, hg, hkept, productOf ix.container.vendors raw i, raw, hp, hi, rfl,
    rfl, infix_paddedWindow h.pos hl hr⟩

/-- For N ≤ 2 no edits are allowed and the condition always holds. -/
theorem onlyMatch_small {lower : Char → List Char} {n : Nat} (h2 : n ≤ 2) (input : List RawProduct) (w : List Char)
    (hl : w.length = n) : OnlyMatch lower n input w := by
  rintro q rest f seen e rfl hf _ hpre he hed
  have h0 : e = 0 := by omega
  have := hed.zero_eq h0
  subst this
  have : seen = rest := hpre.eq_of_length (by simp at hl hf; omega)
  rw [this]

/-- C28 as stated, for N ≤ 2. -/
theorem C28_small_n {t o lower parse n input ix cl} (h : Searchable t o lower parse n input ix cl) (h2 : n ≤ 2)
    (o' : HashOrd) (query : List Char) (results : List (Product × F32)) (hs : ix.search o' n query = .ok results)
    (w : List Char) (hl : w.length = n) (hw : w <:+: query) (i : Nat) (raw : RawProduct) (hi : input[i]? = some raw)
    (hr : w <:+: textOf lower raw)
    (hkept : (expectedPostings lower n ix.container.products input w).length < maximumProductAmount t input.length) :
    ∃ p c, (p, c) ∈ results ∧ p.id = raw.id :=
  C28_partial h o' query results hs w hl hw i raw hi hr hkept (onlyMatch_small h2 input w hl)

set_option maxRecDepth 10000

/-- Texts "abcde", "abcdf", "abcdf". -/
def masked : List RawProduct := [mkRaw ['a', 'b', 'c', 'd', 'e'] [] ['1'], mkRaw ['a', 'b', 'c', 'd', 'f'] [] ['2'],
  mkRaw ['a', 'b', 'c', 'd', 'f'] [] ['3']]

/-- C28 fails for N = 5: the query is the whole text of product 1 and its posting list is kept (one entry, cut-off two),
yet nothing is found: the lookup prefers "abcdf", whose list is not kept. -/
theorem C28_false : ∃ ix cl, buildAll .debug64 .ident (fun c => [c]) parseOne 5 masked = .ok (ix, cl) ∧
    ix.search .ident 5 ['a', 'b', 'c', 'd', 'e'] = .ok [] ∧
    (∃ l, AMap.get ix.data ['a', 'b', 'c', 'd', 'e'] = some l) ∧
    (∃ raw, masked[0]? = some raw ∧ ['a', 'b', 'c', 'd', 'e'] <:+: textOf (fun c => [c]) raw) := by
  have h : runSearch .debug64 .ident 5 masked ['a', 'b', 'c', 'd', 'e'] = some [] := by decide +kernel
  obtain ⟨ix, cl, results, hb, hs, e⟩ := runSearch_sound h
  have e : results = [] := by simpa using e
  subst e
  refine ⟨ix, cl, hb, hs, ?_, _, rfl, List.infix_refl _⟩
  rw [C22_postings (by omega) hb]
  obtain ⟨prices, b⟩ := (builtAll_of_ok hb).built
  have hlen := b.length
  rw [C22_cutoff _ (.inr rfl) _ (by decide)]
  rw [← b.postings_eq]
  have hc : (postings 5 (ix.container.products.map (feedOf fun c => [c])) ['a', 'b', 'c', 'd', 'e']).length = 1 := by
    have : ∀ (ps : List Product), (postings 5 (ps.map (feedOf fun c => [c])) ['a', 'b', 'c', 'd', 'e']).length =
        ((ps.map (feedOf fun c => [c])).map fun f => (paddedWindows 5 f.1).count ['a', 'b', 'c', 'd', 'e']).sum := by
      intro ps
      induction ps with
      | nil => rfl
      | cons p ps ih =>
        simp only [List.map_cons, postings, List.flatMap_cons, List.length_append, List.sum_cons] at ih ⊢
        rw [ih]; simp [postingOf]
    rw [this]
    have ht := b.texts (fun c => [c])
    have : ∀ fs : List (List Char × Product), (fs.map fun f => (paddedWindows 5 f.1).count ['a', 'b', 'c', 'd', 'e']) =
        (fs.map (·.1)).map fun f => (paddedWindows 5 f).count ['a', 'b', 'c', 'd', 'e'] := by
      intro fs; simp
    rw [this, ht]
    decide +kernel
  generalize postings 5 (ix.container.products.map (feedOf fun c => [c])) ['a', 'b', 'c', 'd', 'e'] = l at hc
  refine ⟨l, ?_⟩
  simp only
  rw [if_pos]
  refine ⟨by rintro rfl; simp at hc, by rw [hc]; decide⟩

/-- Non-trivial instance of `C28_partial`: the word is found when nothing else resembles it. -/
example : ∃ ix cl, Searchable .debug64 .ident (fun c => [c]) parseOne 5 masked ix cl := by
  have h : runSearch .debug64 .ident 5 masked [] = some [] := by decide +kernel
  obtain ⟨ix, cl, results, hb, _⟩ := runSearch_sound h
  exact ⟨ix, cl, by omega, by omega, hb, by decide⟩

/-! ## The NUL hypotheses of C26 and C29 are needed -/

/-- Texts "\0\0\0\0a", "a", "" and "". -/
def withNul : List RawProduct := [mkRaw ['\x00', '\x00', '\x00', '\x00', 'a'] [] ['1'], mkRaw ['a'] [] ['2'],
  mkRaw [] [] ['3'], mkRaw [] [] ['4']]

/-- With NUL characters in the catalogue the one-character query "a" finds products, one of them (id 2) with a
one-character text. -/
theorem C29_nul_needed : ∃ ix cl results, buildAll .debug64 .ident (fun c => [c]) parseOne 5 withNul = .ok (ix, cl) ∧
    ix.search .ident 5 ['a'] = .ok results ∧ ['2'] ∈ results.map (·.1.id) := by
  have h : ∃ l, runSearch .debug64 .ident 5 withNul ['a'] = some l ∧ ['2'] ∈ l.map (·.1) := by
    have : ((runSearch .debug64 .ident 5 withNul ['a']).map fun l => l.map (·.1)) = some [['1'], ['2']] := by decide +kernel
    cases hr : runSearch .debug64 .ident 5 withNul ['a'] with
    | none => rw [hr] at this; cases this
    | some l => rw [hr] at this; refine ⟨l, rfl, ?_⟩; simp at this; simp [this]
  obtain ⟨l, h, hm⟩ := h
  obtain ⟨ix, cl, results, hb, hs, e⟩ := runSearch_sound h
  refine ⟨ix, cl, results, hb, hs, ?_⟩
  rw [← e] at hm
  simpa using hm

end Idx
