import Verif.Props.Found
import Verif.Lemmas.Twin
/-! # C49: indexing the same catalogue twice -/
namespace Idx

/-- What does not depend on the hash table: the container of `optimize`. -/
theorem optimize_container {o : HashOrd} {parse : Str → Option F32} {input : List RawProduct} {c : Container} {cl : Classic}
    (h : optimize o parse input = .ok (c, cl)) :
    let vendors := input.foldl (fun m raw => m.insert raw.vendor) VendorManager.new
    productsLoop parse vendors 0 input ([], []) = .ok (c.products, c.extra) ∧ c.vendors = vendors := by
  unfold optimize at h
  obtain ⟨⟨products, extra⟩, h1, h⟩ := Res.bind_eq_ok.1 h
  obtain ⟨tags, _, h⟩ := Res.bind_eq_ok.1 h
  obtain ⟨order, _, h⟩ := Res.bind_eq_ok.1 h
  obtain ⟨cats, _, h⟩ := Res.bind_eq_ok.1 h
  simp only [Res.pure_eq, Res.ok.injEq, Prod.mk.injEq] at h
  obtain ⟨rfl, _⟩ := h
  exact ⟨h1, rfl⟩

theorem buildAll_container {t o lower parse n input ix cl} (h : buildAll t o lower parse n input = .ok (ix, cl)) :
    optimize o parse input = .ok (ix.container, cl) := by
  unfold buildAll at h
  obtain ⟨⟨c, cl'⟩, h1, h2⟩ := Res.bind_eq_ok.1 h
  simp only [Res.pure_eq, Res.ok.injEq, Prod.mk.injEq] at h2
  obtain ⟨rfl, rfl⟩ := h2
  exact h1

/-- Two runs on the same catalogue, with hash tables iterating in different orders. -/
structure TwoBuilds (t : Target) (o₁ o₂ : HashOrd) (lower : Char → List Char) (parse : Str → Option F32) (n : Nat)
    (input : List RawProduct) (ix₁ ix₂ : GramIndex Char) (cl₁ cl₂ : Classic) : Prop where
  one : Searchable t o₁ lower parse n input ix₁ cl₁
  two : Searchable t o₂ lower parse n input ix₂ cl₂

/-- Products, vendors and features are the same. -/
theorem C49_container {t o₁ o₂ lower parse n input ix₁ ix₂ cl₁ cl₂}
    (h : TwoBuilds t o₁ o₂ lower parse n input ix₁ ix₂ cl₁ cl₂) : ix₁.container = ix₂.container := by
  obtain ⟨h1, h2⟩ := optimize_container (buildAll_container h.one.built)
  obtain ⟨h3, h4⟩ := optimize_container (buildAll_container h.two.built)
  rw [h1] at h3
  simp only [Res.ok.injEq, Prod.mk.injEq] at h3
  generalize e1 : ix₁.container = c1 at *
  generalize e2 : ix₂.container = c2 at *
  cases c1; cases c2
  simp_all

/-- The posting lists are the same. -/
theorem C49_postings {t o₁ o₂ lower parse n input ix₁ ix₂ cl₁ cl₂}
    (h : TwoBuilds t o₁ o₂ lower parse n input ix₁ ix₂ cl₁ cl₂) (k : List Char) :
    AMap.get ix₁.data k = AMap.get ix₂.data k := by
  rw [C22_postings h.one.pos h.one.built, C22_postings h.two.pos h.two.built, C49_container h]

theorem pathsIn_of {t o₁ o₂ lower parse n input ix₁ ix₂ cl₁ cl₂}
    (h : TwoBuilds t o₁ o₂ lower parse n input ix₁ ix₂ cl₁ cl₂) : PathsIn ix₁ ix₂ := by
  have k1 : ix₁.Keyed := by rw [(builtAll_of_ok h.one.built).index]; exact indexFrom_keyed t o₁ h.one.pos _ _
  have k2 : ix₂.Keyed := by rw [(builtAll_of_ok h.two.built).index]; exact indexFrom_keyed t o₂ h.two.pos _ _
  intro path m hm
  have hne := nodeAt_nonempty hm
  have hm' := (k1.has_iff _ _).2 hm
  obtain ⟨m', hm''⟩ := (C21_path_iff_substring h.two.pos h.two.built path hne).2
    ((C21_path_iff_substring h.one.pos h.one.built path hne).1 ⟨m, hm'⟩)
  refine ⟨m', (k2.has_iff _ _).1 hm'', ?_⟩
  rw [(C21_weight h.one.pos h.one.built _ _ hm').2, (C21_weight h.two.pos h.two.built _ _ hm'').2]

/-- The trees have the same paths with bit-identical weights; only the order of equally frequent children may differ. -/
theorem C49_trees {t o₁ o₂ lower parse n input ix₁ ix₂ cl₁ cl₂}
    (h : TwoBuilds t o₁ o₂ lower parse n input ix₁ ix₂ cl₁ cl₂) : Twin ix₁ ix₂ := by
  refine ⟨?_, ?_, pathsIn_of h, pathsIn_of ⟨h.two, h.one⟩⟩
  · rw [(builtAll_of_ok h.one.built).index]; exact indexFrom_keyed t o₁ h.one.pos _ _
  · rw [(builtAll_of_ok h.two.built).index]; exact indexFrom_keyed t o₂ h.two.pos _ _

/-- Missing for C49 as stated: the n-gram found (and hence the results) may differ, see `C49_false`. Its confidence
cannot: both builds answer every n-gram with bit-identical confidence, or both not at all. -/
theorem C49_partial {t o₁ o₂ lower parse n input ix₁ ix₂ cl₁ cl₂}
    (h : TwoBuilds t o₁ o₂ lower parse n input ix₁ ix₂ cl₁ cl₂) (w : List Char) :
    ∃ res₁ res₂, ix₁.searchGram n w = .ok res₁ ∧ ix₂.searchGram n w = .ok res₂ ∧ res₁.map (·.2) = res₂.map (·.2) :=
  (C49_trees h).searchGram h.one.pos h.one.le (fun path c hc => (h.one.unit path c hc).unit) w

theorem hitsOf_congr {ix₁ ix₂ : GramIndex Char} {n : Nat} {query : List Char}
    (hg : ∀ w ∈ paddedWindows n query, ix₁.searchGram n w = ix₂.searchGram n w)
    (hd : ∀ k, AMap.get ix₁.data k = AMap.get ix₂.data k) : hitsOf ix₁ n query = hitsOf ix₂ n query := by
  unfold hitsOf
  have : ∀ l : List (List Char), (∀ w ∈ l, ix₁.searchGram n w = ix₂.searchGram n w) →
      l.flatMap (hitsOfWindow ix₁ n) = l.flatMap (hitsOfWindow ix₂ n) := by
    intro l
    induction l with
    | nil => intro _; rfl
    | cons w l ih =>
      intro h
      simp only [List.flatMap_cons]
      rw [ih fun x hx => h x (by simp [hx])]
      congr 1
      unfold hitsOfWindow
      rw [h w (by simp)]
      simp only [hd]
  exact this _ hg

/-- If both builds look every window of the query up alike, they return the same products with bit-identical
confidences, up to the order of equal confidences. -/
theorem C49_same_lookups {t o₁ o₂ lower parse n input ix₁ ix₂ cl₁ cl₂}
    (h : TwoBuilds t o₁ o₂ lower parse n input ix₁ ix₂ cl₁ cl₂) (query : List Char)
    (hg : ∀ w ∈ paddedWindows n query, ix₁.searchGram n w = ix₂.searchGram n w) (o o' : HashOrd)
    (r₁ r₂ : List (Product × F32)) (h₁ : ix₁.search o n query = .ok r₁) (h₂ : ix₂.search o' n query = .ok r₂) :
    r₁.Perm r₂ := by
  rw [search_eq o ix₁ h.one.pos h.one.le] at h₁
  rw [search_eq o' ix₂ h.two.pos h.two.le, ← hitsOf_congr hg (C49_postings h)] at h₂
  cases h₁; cases h₂
  exact (export_perm _ _).trans (export_perm _ _).symm

/-- For N ≤ 2 a lookup finds the n-gram itself or nothing, so equal confidences mean equal answers. -/
theorem same_lookup_small {ix₁ ix₂ : GramIndex Char} {n : Nat} (h1 : 1 ≤ n) (hn : n ≤ 2) {w : List Char}
    (hlen : w.length = n) (h : ∃ res₁ res₂, ix₁.searchGram n w = .ok res₁ ∧ ix₂.searchGram n w = .ok res₂ ∧
      res₁.map (·.2) = res₂.map (·.2)) : ix₁.searchGram n w = ix₂.searchGram n w := by
  obtain ⟨res₁, res₂, e1, e2, e3⟩ := h
  rw [e1, e2]
  have key : ∀ {ix : GramIndex Char} {found : List Char} {conf : F32},
      ix.searchGram n w = .ok (some (found, conf)) → found = w := by
    intro ix found conf hs
    obtain ⟨q, rest, seen, f, node, rfl, rfl, hl, _, hpre, e, he, hed⟩ := searchGram_sound h1 (by omega) hs
    have := hed.zero_eq (by omega)
    subst this
    have : seen = rest := hpre.eq_of_length (by simp at hl hlen; omega)
    rw [this]
  cases res₁ with
  | none =>
    cases res₂ with
    | none => rfl
    | some r => cases e3
  | some r =>
    cases res₂ with
    | none => cases e3
    | some r' =>
      obtain ⟨f, c⟩ := r
      obtain ⟨f', c'⟩ := r'
      rw [key e1, key e2]
      simp only [Option.map_some, Option.some.injEq] at e3
      rw [e3]

/-- For N ≤ 2 the two builds always agree. -/
theorem C49_small_n {t o₁ o₂ lower parse n input ix₁ ix₂ cl₁ cl₂}
    (h : TwoBuilds t o₁ o₂ lower parse n input ix₁ ix₂ cl₁ cl₂) (hn : n ≤ 2) (query : List Char) (o o' : HashOrd)
    (r₁ r₂ : List (Product × F32)) (h₁ : ix₁.search o n query = .ok r₁) (h₂ : ix₂.search o' n query = .ok r₂) :
    r₁.Perm r₂ :=
  C49_same_lookups h query (fun w hw => same_lookup_small h.one.pos hn (paddedWindows_length h.one.pos hw)
    (C49_partial h w)) o o' r₁ r₂ h₁ h₂

set_option maxRecDepth 10000

/-- Texts "abcde", "abcdf" and "". -/
def tied : List RawProduct := [mkRaw ['a', 'b', 'c', 'd', 'e'] [] ['1'], mkRaw ['a', 'b', 'c', 'd', 'f'] [] ['2'],
  mkRaw [] [] ['3']]

/-- C49 fails for N = 5: the query "abcdx" finds product 1 or product 2, depending on the hash table's order. -/
theorem C49_false : ∃ ix₁ cl₁ ix₂ cl₂ r₁ r₂,
    TwoBuilds .debug64 .ident .rev (fun c => [c]) parseOne 5 tied ix₁ ix₂ cl₁ cl₂ ∧
    ix₁.search .ident 5 ['a', 'b', 'c', 'd', 'x'] = .ok r₁ ∧ ix₂.search .rev 5 ['a', 'b', 'c', 'd', 'x'] = .ok r₂ ∧
    r₁.map (·.1.id) = [['1']] ∧ r₂.map (·.1.id) = [['2']] := by
  have h1 : ∃ l, runSearch .debug64 .ident 5 tied ['a', 'b', 'c', 'd', 'x'] = some l ∧ l.map (·.1) = [['1']] := by
    have : ((runSearch .debug64 .ident 5 tied ['a', 'b', 'c', 'd', 'x']).map fun l => l.map (·.1)) = some [['1']] := by
      decide +kernel
    simpa [Option.map_eq_some_iff] using this
  have h2 : ∃ l, runSearch .debug64 .rev 5 tied ['a', 'b', 'c', 'd', 'x'] = some l ∧ l.map (·.1) = [['2']] := by
    have : ((runSearch .debug64 .rev 5 tied ['a', 'b', 'c', 'd', 'x']).map fun l => l.map (·.1)) = some [['2']] := by
      decide +kernel
    simpa [Option.map_eq_some_iff] using this
  obtain ⟨l1, h1, e1⟩ := h1
  obtain ⟨l2, h2, e2⟩ := h2
  obtain ⟨ix1, cl1, r1, b1, s1, f1⟩ := runSearch_sound h1
  obtain ⟨ix2, cl2, r2, b2, s2, f2⟩ := runSearch_sound h2
  refine ⟨ix1, cl1, ix2, cl2, r1, r2, ⟨⟨by omega, by omega, b1, by decide⟩, ⟨by omega, by omega, b2, by decide⟩⟩, s1, s2, ?_, ?_⟩
  · rw [← e1, ← f1]; simp
  · rw [← e2, ← f2]; simp

end Idx
