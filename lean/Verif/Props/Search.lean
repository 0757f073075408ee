import Verif.Props.Index
import Verif.Lemmas.Rank
import Verif.Lemmas.NonNeg
import Verif.Lemmas.Eval
import Verif.Model.Engine
/-! # C25–C32, C48, C49: searching an index built from a catalogue -/
namespace Idx

/-- Everything a theorem about searching a built index assumes: sizes for which the search cannot overflow. -/
structure Searchable (t : Target) (o : HashOrd) (lower : Char → List Char) (parse : Str → Option F32) (n : Nat)
    (input : List RawProduct) (ix : GramIndex Char) (cl : Classic) : Prop where
  pos : 1 ≤ n
  le : n ≤ 764
  built : buildAll t o lower parse n input = .ok (ix, cl)
  size : totalChars lower input ≤ 2 ^ 32

theorem Searchable.unit {t o lower parse n input ix cl} (h : Searchable t o lower parse n input ix cl)
    (path : List Char) (c : GramNode Char) (hc : ix.Has path c) : F32.InUnit 117 c.weight :=
  (C23_weights h.pos h.built h.size path c hc).1

theorem Searchable.conf_unit {t o lower parse n input ix cl} (h : Searchable t o lower parse n input ix cl)
    {w found : List Char} {conf : F32} (hg : ix.searchGram n w = .ok (some (found, conf))) : F32.Unit conf :=
  searchGram_weight h.pos h.le (fun _ x => F32.Unit x)
    (fun _ _ path c _ _ hx hc => hx.mul (h.unit path c hc).unit) F32.inUnit_one.unit hg

theorem mem_scores {id : Str} {hits : List (Product × F32)} {x : F32} (h : x ∈ scoresOf id hits) :
    ∃ p, (p, x) ∈ hits ∧ p.id = id := by
  simp only [scoresOf, List.mem_map, List.mem_filter, decide_eq_true_eq] at h
  obtain ⟨⟨p, c⟩, ⟨h1, h2⟩, rfl⟩ := h
  exact ⟨p, h1, h2⟩

theorem sumScores_class {P : F32 → Prop} (hadd : ∀ x y, P x → P y → P (F32.add x y)) {l : List F32}
    (h : ∀ x ∈ l, P x) {s : F32} (hs : sumScores l = some s) : P s := by
  cases l with
  | nil => simp [sumScores] at hs
  | cons a l =>
    simp only [sumScores, Option.some.injEq] at hs
    subst hs
    have : ∀ (l : List F32) (a : F32), P a → (∀ x ∈ l, P x) → P (l.foldl F32.add a) := by
      intro l
      induction l with
      | nil => intro a ha _; exact ha
      | cons b l ih =>
        intro a ha hl
        exact ih _ (hadd _ _ ha (hl b (by simp))) (fun x hx => hl x (by simp [hx]))
    exact this l a (h a (by simp)) (fun x hx => h x (by simp [hx]))

/-- Where a reported confidence comes from. -/
theorem result_score {o : HashOrd} {ix : GramIndex Char} {n : Nat} (h1 : 1 ≤ n) (h2 : n ≤ 764) {query : List Char}
    {results : List (Product × F32)} (h : ix.search o n query = .ok results) {p : Product} {c : F32}
    (hp : (p, c) ∈ results) :
    (∃ c', (p, c') ∈ hitsOf ix n query) ∧ sumScores (scoresOf p.id (hitsOf ix n query)) = some c := by
  rw [search_eq o ix h1 h2] at h
  cases h
  obtain ⟨⟨⟨p', c'⟩, hx, rfl⟩, hs⟩ := mem_export_iff.1 hp
  exact ⟨⟨c', List.mem_of_find?_eq_some hx⟩, hs⟩

theorem Searchable.result_nonNeg {t o lower parse n input ix cl} (h : Searchable t o lower parse n input ix cl)
    {o' : HashOrd} {query : List Char} {results : List (Product × F32)} (hs : ix.search o' n query = .ok results)
    {p : Product} {c : F32} (hp : (p, c) ∈ results) : F32.NonNeg c := by
  obtain ⟨_, hsum⟩ := result_score h.pos h.le hs hp
  refine sumScores_class (fun _ _ => F32.NonNeg.add) ?_ hsum
  intro x hx
  obtain ⟨p', hp', _⟩ := mem_scores hx
  obtain ⟨w, _, found, l, hg, _⟩ := mem_hitsOf.1 hp'
  exact (h.conf_unit hg).nonNeg

/-! ## C48 -/

/-- On any index whatever, the search terminates normally for 1 ≤ N ≤ 764. -/
theorem C48_search_total (o : HashOrd) (ix : GramIndex Char) {n : Nat} (h1 : 1 ≤ n) (h2 : n ≤ 764) (query : List Char) :
    ∃ results, ix.search o n query = .ok results :=
  ⟨_, search_eq o ix h1 h2 query⟩

/-- The same for a single n-gram. -/
theorem C48_gram_total (ix : GramIndex Char) {n : Nat} (h1 : 1 ≤ n) (h2 : n ≤ 764) (w : List Char) :
    ∃ res, ix.searchGram n w = .ok res := by
  obtain ⟨res, e, _⟩ := searchGram_best ix h1 h2 w
  exact ⟨res, e⟩

/-! ## C25 -/

/-- No two results have the same id (on any index). -/
theorem C25_distinct (o : HashOrd) (ix : GramIndex Char) {n : Nat} (h1 : 1 ≤ n) (h2 : n ≤ 764) (query : List Char)
    (results : List (Product × F32)) (h : ix.search o n query = .ok results) : (results.map (·.1.id)).Nodup := by
  rw [search_eq o ix h1 h2] at h
  cases h
  exact export_ids o _

/-- Results come in non-increasing confidence. -/
theorem C25_best_first {t o lower parse n input ix cl} (h : Searchable t o lower parse n input ix cl) (o' : HashOrd)
    (query : List Char) (results : List (Product × F32)) (hs : ix.search o' n query = .ok results) :
    results.Pairwise fun a b => F32.lt a.2 b.2 = false := by
  have hn := fun p c (hp : (p, c) ∈ results) => (h.result_nonNeg hs hp).notNan
  rw [search_eq o' ix h.pos h.le] at hs
  cases hs
  exact export_sorted o' _ hn

/-! ## C26 -/

theorem Built.expected_mem {parse o input c cl prices} (b : Built parse o input c cl prices) {lower : Char → List Char}
    {n : Nat} {k : List Char} {p : Product} (h : p ∈ expectedPostings lower n c.products input k) :
    c.products[p.sid]? = some p ∧ ∃ raw, input[p.sid]? = some raw ∧ k ∈ paddedWindows n (textOf lower raw) := by
  unfold expectedPostings at h
  obtain ⟨⟨p', raw⟩, hm, hr⟩ := List.mem_flatMap.1 h
  have hne := List.mem_replicate.1 hr
  obtain ⟨hc, rfl⟩ := hne
  obtain ⟨i, hi⟩ := List.getElem?_of_mem hm
  rw [List.getElem?_zip_eq_some] at hi
  have hs := b.sid i p hi.1
  subst hs
  exact ⟨hi.1, raw, hi.2, List.count_pos_iff.1 (Nat.pos_of_ne_zero hc)⟩

/-- Every result is justified: an n-gram of its front-padded text is within N/3 edits of a prefix of a window of the
front-padded query, the first gram being the same. -/
theorem C26_padded {t o lower parse n input ix cl} (h1 : 1 ≤ n) (h2 : n ≤ 764)
    (hb : buildAll t o lower parse n input = .ok (ix, cl)) (o' : HashOrd)
    (query : List Char) (results : List (Product × F32)) (hs : ix.search o' n query = .ok results)
    (p : Product) (c : F32) (hp : (p, c) ∈ results) :
    ∃ raw, input[p.sid]? = some raw ∧ ∃ q w f seen e,
      (q :: w) ∈ paddedWindows n query ∧ (q :: f) ∈ paddedWindows n (textOf lower raw) ∧
      (∃ other ∈ input, (q :: f) <:+: textOf lower other) ∧
      seen <+: w ∧ e ≤ n / 3 ∧ Edits e seen f := by
  obtain ⟨⟨c', hhit⟩, _⟩ := result_score h1 h2 hs hp
  obtain ⟨win, hwin, found, l, hg, hdata, hpl⟩ := mem_hitsOf.1 hhit
  obtain ⟨q, w, seen, f, node, rfl, rfl, hlen, hhas, hpre, e, he, hed⟩ := searchGram_sound h1 h2 hg
  obtain ⟨prices, b⟩ := (builtAll_of_ok hb).built
  rw [C22_postings h1 hb] at hdata
  simp only at hdata
  split at hdata
  · cases hdata
    obtain ⟨_, raw, hraw, hmem⟩ := b.expected_mem hpl
    have := ((C21_path_iff_substring h1 hb (q :: f) (by simp)).1 ⟨node, hhas⟩).2
    exact ⟨raw, hraw, q, w, f, seen, e, hwin, hmem, this, hpre, he, hed⟩
  · cases hdata

/-- A window that does not begin with padding is made of consecutive grams. -/
theorem paddedWindow_infix {n : Nat} {text : List Char} {q : Char} {w : List Char} (hq : q ≠ dflt)
    (h : (q :: w) ∈ paddedWindows n text) : (q :: w) <:+: text := by
  simp only [paddedWindows, List.mem_map, List.mem_range] at h
  obtain ⟨i, hi, e⟩ := h
  by_cases hlt : i < n - 1
  · have h0 := congrArg (fun l => l[0]?) e
    simp only [List.getElem?_take, List.getElem?_drop, Nat.add_zero, List.getElem?_cons_zero] at h0
    rw [if_pos (by omega), List.getElem?_append_left (by simpa using hlt), List.getElem?_replicate, if_pos hlt] at h0
    exact absurd (Option.some.inj h0).symm hq
  · rw [List.drop_append, List.drop_eq_nil_of_le (by simp; omega), List.nil_append] at e
    rw [← e]
    exact (List.take_prefix _ _).isInfix.trans (List.drop_suffix _ _).isInfix

theorem infix_paddedWindow {n : Nat} {text w : List Char} (hn : 1 ≤ n) (hl : w.length = n) (h : w <:+: text) :
    w ∈ paddedWindows n text := by
  obtain ⟨s, e, rfl⟩ := h
  simp only [paddedWindows, List.mem_map, List.mem_range]
  refine ⟨n - 1 + s.length, by simp; omega, ?_⟩
  rw [List.drop_append, List.drop_eq_nil_of_le (by simp), List.nil_append]
  have : n - 1 + s.length - (List.replicate (n - 1) (dflt : Char)).length = s.length := by simp
  rw [this, List.append_assoc, List.drop_left]
  rw [← hl]; simp

/-- No text of the catalogue contains the NUL character (`char::default()`, used as padding). -/
def NoNul (lower : Char → List Char) (input : List RawProduct) : Prop := ∀ raw ∈ input, '\x00' ∉ textOf lower raw

/-- Every result is justified by consecutive characters of its text and of the query; the catalogue contains no NUL
character (see `C29_nul_needed`). -/
theorem C26_justified {t o lower parse n input ix cl} (h1 : 1 ≤ n) (h2 : n ≤ 764)
    (hb : buildAll t o lower parse n input = .ok (ix, cl))
    (hnul : NoNul lower input) (o' : HashOrd)
    (query : List Char) (results : List (Product × F32)) (hs : ix.search o' n query = .ok results)
    (p : Product) (c : F32) (hp : (p, c) ∈ results) :
    ∃ raw, input[p.sid]? = some raw ∧ ∃ q w f seen e,
      (q :: w) <:+: query ∧ (q :: w).length = n ∧ (q :: f) <:+: textOf lower raw ∧ (q :: f).length = n ∧
      seen <+: w ∧ e ≤ n / 3 ∧ Edits e seen f := by
  obtain ⟨raw, hraw, q, w, f, seen, e, g1, g2, ⟨other, ho, hi⟩, h3, h4, h5⟩ := C26_padded h1 h2 hb o' query results hs p c hp
  have hq : q ≠ dflt := by
    rintro rfl
    exact hnul other ho (hi.subset List.mem_cons_self)
  exact ⟨raw, hraw, q, w, f, seen, e, paddedWindow_infix hq g1, paddedWindows_length h1 g1,
    paddedWindow_infix hq g2, paddedWindows_length h1 g2, h3, h4, h5⟩

/-! ## C29 -/

/-- A query shorter than N finds nothing in a catalogue without NUL characters. -/
theorem C29_short_query {t o lower parse n input ix cl} (h1 : 1 ≤ n) (h2 : n ≤ 764)
    (hb : buildAll t o lower parse n input = .ok (ix, cl))
    (hnul : NoNul lower input) (o' : HashOrd) (query : List Char) (hq : query.length < n) :
    ix.search o' n query = .ok [] := by
  obtain ⟨results, hs⟩ := C48_search_total o' ix h1 h2 query
  cases results with
  | nil => exact hs
  | cons r results =>
    obtain ⟨p, c⟩ := r
    obtain ⟨raw, _, q, w, f, seen, e, g1, g2, _⟩ := C26_justified h1 h2 hb hnul o' query _ hs p c (by simp)
    have := g1.length_le
    omega

/-! ## C30 -/

/-- A catalogue of at most two products answers every query with nothing. -/
theorem C30_two_products {t o lower parse n input ix cl} (ht : t.Real) (h1 : 1 ≤ n) (h2 : n ≤ 764)
    (hb : buildAll t o lower parse n input = .ok (ix, cl)) (hl : input.length ≤ 2) (o' : HashOrd) (query : List Char) :
    ix.search o' n query = .ok [] := by
  obtain ⟨results, hs⟩ := C48_search_total o' ix h1 h2 query
  cases results with
  | nil => exact hs
  | cons r results =>
    obtain ⟨p, c⟩ := r
    obtain ⟨⟨c', hhit⟩, _⟩ := result_score h1 h2 hs (p := p) (c := c) (by simp)
    obtain ⟨win, hwin, found, l, hg, hdata, hpl⟩ := mem_hitsOf.1 hhit
    rw [C30_no_postings ht h1 hb hl] at hdata
    cases hdata

/-! ## C31 -/

/-- The whole answer of `search` depends on the query only through its lower-casing. -/
theorem C31_case (mode : PanicMode) (o : HashOrd) (lower : Char → List Char) (e : Engine) (a b : Str)
    (h : a.flatMap lower = b.flatMap lower) (cats : CategoryHandler) (tags : TagHandler) (order : Option Str)
    (filter : List (Str × JsValue)) :
    e.search mode o lower a cats tags order filter = e.search mode o lower b cats tags order filter := by
  simp only [Engine.search, searchIds, h]

/-- In particular a query and its lower-cased form give the same answer, when lower-casing a lower-cased character
leaves it alone. -/
theorem C31_lowercased (mode : PanicMode) (o : HashOrd) (lower : Char → List Char)
    (hl : ∀ c, ∀ d ∈ lower c, lower d = [d]) (e : Engine) (a : Str) (cats : CategoryHandler) (tags : TagHandler)
    (order : Option Str) (filter : List (Str × JsValue)) :
    e.search mode o lower a cats tags order filter = e.search mode o lower (a.flatMap lower) cats tags order filter := by
  apply C31_case
  rw [List.flatMap_assoc]
  congr 1
  funext c
  have : ∀ l : List Char, (∀ d ∈ l, lower d = [d]) → l.flatMap lower = l := by
    intro l
    induction l with
    | nil => intro _; rfl
    | cons d l ih => intro h; rw [List.flatMap_cons, h d (by simp), ih fun x hx => h x (by simp [hx])]; rfl
  exact (this _ (hl c)).symm

/-- ASCII lower-casing is such a function. -/
example : ∀ c, ∀ d ∈ [Char.toLower c], [Char.toLower d] = [d] := by
  intro c d hd
  simp only [List.mem_singleton] at hd
  subst hd
  simp only [Char.toLower]
  split
  · rename_i h
    rw [dif_neg]
    simp only [ge_iff_le, UInt32.le_iff_toNat_le, UInt32.toNat_add] at h ⊢
    simp only [Char.reduceVal, UInt32.reduceSub, UInt32.reduceToNat] at h ⊢
    omega
  · rfl

/-! ## C32 -/

/-- For N ≤ 5 every confidence is positive and not NaN (a number in (0,1] for a single n-gram). -/
theorem C32_gram {t o lower parse n input ix cl} (h : Searchable t o lower parse n input ix cl) (h5 : n ≤ 5)
    (w found : List Char) (conf : F32) (hg : ix.searchGram n w = .ok (some (found, conf))) :
    ∃ m, conf.val = .fin false m ∧ 1 ≤ m ∧ m ≤ 2 ^ 149 := by
  have := searchGram_weight h.pos h.le (fun i x => F32.InUnit (149 - 32 * (i - 1)) x) (by
    intro i x path c h1 hi hx hc
    have := hx.mul (h.unit path c hc) (by omega)
    have e : 149 - 32 * (i - 1) + 117 - 149 = 149 - 32 * (i + 1 - 1) := by omega
    rw [e] at this; exact this) F32.inUnit_one hg
  obtain ⟨m, h1, h2, h3⟩ := this
  exact ⟨m, h1, Nat.le_trans (Nat.two_pow_pos _) h2, h3⟩

/-- Every reported confidence is positive: a positive number, or +∞ after an overflowing sum; never NaN. -/
theorem C32_results {t o lower parse n input ix cl} (h : Searchable t o lower parse n input ix cl) (h5 : n ≤ 5)
    (o' : HashOrd) (query : List Char) (results : List (Product × F32)) (hs : ix.search o' n query = .ok results)
    (p : Product) (c : F32) (hp : (p, c) ∈ results) :
    (∃ m, c.val = .fin false m ∧ 1 ≤ m) ∨ c.val = .inf false := by
  obtain ⟨_, hsum⟩ := result_score h.pos h.le hs hp
  refine sumScores_pos ?_ hsum
  intro x hx
  obtain ⟨p', hp', _⟩ := mem_scores hx
  obtain ⟨w, _, found, l, hg, _⟩ := mem_hitsOf.1 hp'
  obtain ⟨m, h1, h2, _⟩ := C32_gram h h5 w found x hg
  exact .inl ⟨m, h1, h2⟩

/-! ## C27 -/

/-- The confidence of an n-gram found as it is: the product of the weights of its prefixes of 2, …, N grams. -/
def exactConfidence (lower : Char → List Char) (input : List RawProduct) (w : List Char) : F32 :=
  (List.range' 2 (w.length - 1)).foldl (fun acc k =>
    F32.mul acc (F32.div (F32.ofNat (occurrencesIn (w.take k) (input.map (textOf lower))))
      (F32.ofNat (occurrencesIn (w.take (k - 1)) (input.map (textOf lower)))))) F32.one

theorem pathWeight_exact {t o lower parse n input ix cl} (h : Searchable t o lower parse n input ix cl)
    (rest : List Char) : ∀ (pre : List Char) (node : GramNode Char) (acc : F32), pre ≠ [] → ix.Has pre node →
    (∃ last, ix.Has (pre ++ rest) last) →
    pathWeight node acc rest = some ((List.range' (pre.length + 1) rest.length).foldl (fun acc k =>
      F32.mul acc (F32.div (F32.ofNat (occurrencesIn ((pre ++ rest).take k) (input.map (textOf lower))))
      (F32.ofNat (occurrencesIn ((pre ++ rest).take (k - 1)) (input.map (textOf lower)))))) acc) := by
  have hk : ix.Keyed := by rw [(builtAll_of_ok h.built).index]; exact indexFrom_keyed t o h.pos _ _
  induction rest with
  | nil => intro pre node acc _ _ _; rfl
  | cons g rest ih =>
    intro pre node acc hne hhas hlast
    -- the child exists
    have hchild : ∃ c, ix.Has (pre ++ [g]) c := by
      have hlast' := (C21_path_iff_substring h.pos h.built (pre ++ g :: rest) (by simp)).1 hlast
      obtain ⟨hle, raw, hr, hi⟩ := hlast'
      refine (C21_path_iff_substring h.pos h.built (pre ++ [g]) (by simp)).2 ⟨?_, raw, hr, ?_⟩
      · simp only [List.length_append, List.length_cons] at hle ⊢; simp; omega
      · refine List.IsInfix.trans ?_ hi
        exact ⟨[], rest, by simp⟩
    obtain ⟨c, hc⟩ := hchild
    have hcn := (hk.has_iff _ _).1 hc
    rw [GramIndex.nodeAt_snoc _ _ hne, (hk.has_iff _ _).1 hhas] at hcn
    simp only [Option.bind_some] at hcn
    rw [pathWeight, hcn]
    simp only [Option.bind_some]
    have := ih (pre ++ [g]) c (F32.mul acc c.weight) (by simp) hc (by simpa using hlast)
    rw [this]
    have hw := (C21_weight h.pos h.built _ _ hc).2
    have hp : parentCount lower input (pre ++ [g]) = occurrencesIn pre (input.map (textOf lower)) := by
      unfold parentCount
      rw [if_neg, List.dropLast_concat]
      have := List.length_pos_iff.2 hne
      simp; omega
    rw [hp] at hw
    refine congrArg some ?_
    rw [List.length_cons, List.range'_succ, List.foldl_cons]
    have e1 : (pre ++ g :: rest).take (pre.length + 1) = pre ++ [g] := by
      rw [List.take_append, List.take_of_length_le (by omega)]; simp
    have e2 : (pre ++ g :: rest).take (pre.length + 1 - 1) = pre := by simp
    have e3 : (pre ++ [g]).length = pre.length + 1 := by simp
    have e4 : pre ++ [g] ++ rest = pre ++ g :: rest := by simp
    rw [e1, e2, ← hw, e3, e4]

/-- If the query n-gram occurs in some text, the fuzzy lookup answers, with at least its confidence. -/
theorem C27_exact {t o lower parse n input ix cl} (h : Searchable t o lower parse n input ix cl)
    (w : List Char) (hl : w.length = n) (raw : RawProduct) (hr : raw ∈ input) (hi : w <:+: textOf lower raw) :
    ∃ found conf, ix.searchGram n w = .ok (some (found, conf)) ∧
      F32.lt conf (exactConfidence lower input w) = false := by
  have hk : ix.Keyed := by rw [(builtAll_of_ok h.built).index]; exact indexFrom_keyed t o h.pos _ _
  have hpos := h.pos
  cases w with
  | nil => simp at hl; omega
  | cons q rest =>
    have hlast := (C21_path_iff_substring h.pos h.built (q :: rest) (by simp)).2 ⟨by omega, raw, hr, hi⟩
    obtain ⟨root, hroot⟩ := (C21_path_iff_substring h.pos h.built [q] (by simp)).2
      ⟨by simpa using hpos, raw, hr, List.IsInfix.trans ⟨[], rest, by simp⟩ hi⟩
    have hget : AMap.get ix.roots q = some root := by
      have := (hk.has_iff _ _).1 hroot
      simp only [GramIndex.nodeAt] at this
      cases hg : AMap.get ix.roots q with
      | none => rw [hg] at this; simp at this
      | some r => rw [hg] at this; simpa [GramNode.walk] using this
    have hp := pathWeight_exact h rest [q] root F32.one (by simp) hroot hlast
    exact searchGram_exact h.pos h.le (fun path c hc => (h.unit path c hc).unit) hl hget hp

end Idx
