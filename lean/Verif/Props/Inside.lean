import Verif.Props.Rank
/-! # C108: whatever contains a query finds what it finds -/
namespace Idx

theorem Has.root_mem {ix : GramIndex Char} {path : List Char} {nd : GramNode Char} (h : ix.Has path nd) :
    ∃ g rest r, path = g :: rest ∧ (g, r) ∈ ix.roots := by
  induction h with
  | root hr => exact ⟨_, [], _, rfl, hr⟩
  | child _ _ ih =>
    obtain ⟨g, rest, r, rfl, hr⟩ := ih
    exact ⟨g, rest ++ [_], r, rfl, hr⟩

/-- Nothing in the index begins with the padding. -/
def NoPadding (ix : GramIndex Char) : Prop := ∀ r, (dflt, r) ∉ ix.roots

theorem NoPadding.hits {ix : GramIndex Char} (h : NoPadding ix) {n : Nat} (h1 : 1 ≤ n) (h2 : n ≤ 764) (w : List Char) :
    hitsOfWindow ix n (dflt :: w) = [] := by
  unfold hitsOfWindow
  obtain ⟨res, e⟩ := C48_gram_total ix h1 h2 (dflt :: w)
  rw [e]
  cases res with
  | none => rfl
  | some kc =>
    obtain ⟨k, conf⟩ := kc
    obtain ⟨q, rest, seen, path, node, hq, rfl, _, hhas, _⟩ := searchGram_sound h1 h2 e
    cases hq
    obtain ⟨g, rest', r, hg, hr⟩ := Has.root_mem hhas
    cases hg
    exact absurd hr (h r)

theorem flatMap_range_congr {α : Type} {f g : Nat → List α} {k : Nat} (h : ∀ i < k, f i = g i) :
    (List.range k).flatMap f = (List.range k).flatMap g := by
  rw [List.flatMap_def, List.flatMap_def]
  congr 1
  exact List.map_congr_left fun i hi => h i (List.mem_range.1 hi)

theorem flatMap_range_nil {α : Type} {f : Nat → List α} {k : Nat} (h : ∀ i < k, f i = []) :
    (List.range k).flatMap f = [] := by
  rw [List.flatMap_eq_nil_iff]
  exact fun i hi => h i (List.mem_range.1 hi)

/-- What a query adds to the ranking is added by every longer query that contains it, in one piece. -/
theorem hitsOf_infix {ix : GramIndex Char} (h : NoPadding ix) {n : Nat} (h1 : 1 ≤ n) (h2 : n ≤ 764)
    {query query' : List Char} (hin : query <:+: query') :
    ∃ before after, hitsOf ix n query' = before ++ hitsOf ix n query ++ after := by
  obtain ⟨pre, suf, rfl⟩ := hin
  obtain ⟨after, e⟩ := hitsOf_append ix h1 (pre ++ query) suf
  rw [e]
  suffices ∃ before, hitsOf ix n (pre ++ query) = before ++ hitsOf ix n query by
    obtain ⟨before, e⟩ := this
    exact ⟨before, after, by rw [e]⟩
  have key : ∀ m k : Nat, query.length = m + k → (∀ j < m, j < n - 1) → (0 < k → n - 1 ≤ m) →
      ∃ before, hitsOf ix n (pre ++ query) = before ++ hitsOf ix n query := by
    intro m k hmk hm hk
    unfold hitsOf paddedWindows
    rw [List.flatMap_map, List.flatMap_map, List.length_append, hmk, List.range_add (n := pre.length), List.flatMap_append,
      List.range_add (n := m), List.flatMap_append, List.map_append, List.flatMap_append]
    have hnil : (List.range m).flatMap (fun a => hitsOfWindow ix n (List.take n (List.drop a
        (List.replicate (n - 1) (dflt : Char) ++ query)))) = [] := by
      apply flatMap_range_nil
      intro i hi
      have hlt := hm i hi
      have e1 : (List.replicate (n - 1) (dflt : Char) ++ query).drop i =
          dflt :: (List.replicate (n - 1) (dflt : Char) ++ query).drop (i + 1) := by
        rw [List.drop_eq_getElem_cons (by simp; omega)]
        congr 1
        rw [List.getElem_append_left (by simpa using hlt), List.getElem_replicate]
      have e2 : ∀ l : List Char, (dflt :: l).take n = dflt :: l.take (n - 1) := by
        intro l
        obtain ⟨m, rfl⟩ : ∃ m, n = m + 1 := ⟨n - 1, by omega⟩
        rfl
      rw [e1, e2]
      exact h.hits h1 h2 _
    rw [hnil, List.nil_append, ← List.append_assoc]
    refine ⟨_, congrArg _ ?_⟩
    rw [List.flatMap_map, List.flatMap_map, List.flatMap_map]
    apply flatMap_range_congr
    intro i hi
    have hge := hk (by omega)
    congr 2
    have hd : ∀ (a : Nat) (l : List Char), n - 1 ≤ a → (List.replicate (n - 1) dflt ++ l).drop a = l.drop (a - (n - 1)) := by
      intro a l ha
      rw [List.drop_append, List.drop_eq_nil_of_le (by simpa using ha), List.nil_append, List.length_replicate]
    rw [hd _ _ (by omega), hd _ _ (by omega)]
    have e2 : pre.length + (m + i) - (n - 1) = pre.length + (m + i - (n - 1)) := by omega
    rw [e2, ← List.drop_drop, List.drop_left]
  rcases Nat.lt_or_ge query.length (n - 1) with hlt | hge
  · exact key query.length 0 rfl (fun j hj => by omega) (fun h0 => absurd h0 (by omega))
  · exact key (n - 1) (query.length - (n - 1)) (by omega) (fun j hj => hj) (fun _ => Nat.le_refl _)

/-- In any index in which nothing begins with the padding: what is found by a query is found by every query containing it. -/
theorem C108_kept {ix : GramIndex Char} (hp : NoPadding ix) {n : Nat} (h1 : 1 ≤ n) (h2 : n ≤ 764) (query query' : List Char)
    (hin : query <:+: query') (o o' : HashOrd) (r r' : List (Product × F32)) (h : ix.search o n query = .ok r)
    (h' : ix.search o' n query' = .ok r') : ∀ id ∈ r.map (·.1.id), id ∈ r'.map (·.1.id) := by
  rw [search_eq o ix h1 h2] at h
  rw [search_eq o' ix h1 h2] at h'
  cases h; cases h'
  obtain ⟨before, after, e⟩ := hitsOf_infix hp h1 h2 hin
  intro id hid
  obtain ⟨⟨p, c⟩, hpc, rfl⟩ := List.mem_map.1 hid
  obtain ⟨⟨x, hx, he⟩, _⟩ := mem_export_iff.1 hpc
  have hm : x ∈ hitsOf ix n query' := by
    rw [e]; simp [List.mem_of_find?_eq_some hx]
  have hxid : x.1.id = p.id := by rw [he]
  have hne : scoresOf p.id (hitsOf ix n query') ≠ [] := by
    intro h0
    simp only [scoresOf, List.map_eq_nil_iff, List.filter_eq_nil_iff] at h0
    exact h0 x hm (by simpa using hxid)
  cases hl : scoresOf p.id (hitsOf ix n query') with
  | nil => exact absurd hl hne
  | cons a l =>
    obtain ⟨y, hy, hye⟩ := List.mem_map.1 (mem_scored (o := o').2 (show sumScores (scoresOf p.id (hitsOf ix n query')) =
      some (l.foldl F32.add a) by rw [hl, sumScores]))
    exact List.mem_map.2 ⟨y, hy, congrArg (·.1) hye⟩

/-- An index built from a catalogue without NUL characters is such an index. -/
theorem C108_built {t o lower parse n input ix cl} (h1 : 1 ≤ n) (h : buildAll t o lower parse n input = .ok (ix, cl))
    (hnul : NoNul lower input) : NoPadding ix := by
  intro r hr
  obtain ⟨_, other, hother, hocc⟩ := (C21_path_iff_substring h1 h [dflt] (by simp)).1 ⟨r, .root hr⟩
  exact hnul other hother (hocc.subset (by simp [dflt]))

theorem foldl_right : ∀ (l : List F32), (∀ x ∈ l, F32.NonNeg x) → ∀ (a b : Option F32), SumOk a → SumOk b →
    SumLe a b → SumOk (l.foldl addTo b) ∧ SumLe a (l.foldl addTo b)
  | [], _, _, _, _, hb, hab => ⟨hb, hab⟩
  | x :: l, h, a, _, ha, hb, hab =>
    foldl_right l (fun y hy => h y (by simp [hy])) a _ ha (hb.addTo (h x (by simp)))
      (hab.addRight ha hb (h x (by simp)))

theorem foldl_both : ∀ (l : List F32), (∀ x ∈ l, F32.NonNeg x) → ∀ (a b : Option F32), SumOk a → SumOk b →
    SumLe a b → SumOk (l.foldl addTo a) ∧ SumOk (l.foldl addTo b) ∧ SumLe (l.foldl addTo a) (l.foldl addTo b)
  | [], _, _, _, ha, hb, hab => ⟨ha, hb, hab⟩
  | x :: l, h, _, _, ha, hb, hab =>
    foldl_both l (fun y hy => h y (by simp [hy])) _ _ (ha.addTo (h x (by simp))) (hb.addTo (h x (by simp)))
      (hab.addBoth ha hb (h x (by simp)))

theorem sumScores_foldl (l : List F32) : sumScores l = l.foldl addTo none := by
  cases l with
  | nil => rfl
  | cons x l => exact (foldl_addTo l x).symm

/-- In an index built from a catalogue without NUL characters no confidence gets smaller when more is typed, before or after. -/
theorem C108_confidence {t o lower parse n input ix cl} (h : Searchable t o lower parse n input ix cl) (hnul : NoNul lower input)
    (query query' : List Char) (hin : query <:+: query') (o₁ o₂ : HashOrd) (r r' : List (Product × F32))
    (hr : ix.search o₁ n query = .ok r) (hr' : ix.search o₂ n query' = .ok r') (id : Str) (c : F32)
    (hc : (id, c) ∈ r.map (fun e => (e.1.id, e.2))) :
    ∃ c', (id, c') ∈ r'.map (fun e => (e.1.id, e.2)) ∧ F32.lt c' c = false := by
  rw [search_eq o₁ ix h.pos h.le] at hr
  rw [search_eq o₂ ix h.pos h.le] at hr'
  cases hr; cases hr'
  rw [mem_scored] at hc
  obtain ⟨before, after, e⟩ := hitsOf_infix (C108_built h.pos h.built hnul) h.pos h.le hin
  have hnn : ∀ x ∈ scoresOf id (hitsOf ix n query'), F32.NonNeg x := by
    intro x hx
    obtain ⟨p', hp', _⟩ := mem_scores hx
    obtain ⟨w, _, found, l, hg, _⟩ := mem_hitsOf.1 hp'
    exact (h.conf_unit hg).nonNeg
  rw [e] at hnn
  have hsplit : scoresOf id (hitsOf ix n query') = scoresOf id before ++ scoresOf id (hitsOf ix n query) ++ scoresOf id after := by
    rw [e]; simp only [scoresOf, List.filter_append, List.map_append]
  rw [← e, hsplit] at hnn
  have h0 : SumOk none := fun _ e => nomatch e
  have s1 := foldl_right (scoresOf id before) (fun x hx => hnn x (by simp [hx])) none none h0 h0 trivial
  have s2 := foldl_both (scoresOf id (hitsOf ix n query)) (fun x hx => hnn x (by simp [hx])) none _ h0 s1.1 s1.2
  have s3 := foldl_right (scoresOf id after) (fun x hx => hnn x (by simp [hx])) _ _ s2.1 s2.2.1 s2.2.2
  have hle := s3.2
  rw [← List.foldl_append, ← List.foldl_append, ← List.append_assoc, ← hsplit, ← sumScores_foldl, ← sumScores_foldl, hc] at hle
  cases hs : sumScores (scoresOf id (hitsOf ix n query')) with
  | none => rw [hs] at hle; exact hle.elim
  | some c' => rw [hs] at hle; exact ⟨c', mem_scored.2 hs, hle⟩

theorem nodup_ids {ps : List Product} (hid : (ps.map (·.id)).Nodup) {p q : Product} (hp : p ∈ ps) (hq : q ∈ ps)
    (h : p.id = q.id) : p = q := by
  induction ps with
  | nil => cases hp
  | cons a ps ih =>
    rw [List.map_cons, List.nodup_cons] at hid
    rcases List.mem_cons.1 hp with rfl | hp'
    · rcases List.mem_cons.1 hq with rfl | hq'
      · rfl
      · exact absurd (List.mem_map.2 ⟨q, hq', h.symm⟩) hid.1
    · rcases List.mem_cons.1 hq with rfl | hq'
      · exact absurd (List.mem_map.2 ⟨p, hp', h⟩) hid.1
      · exact ih hid.2 hp' hq'

/-- As seen from JavaScript: with the same handlers and filters, typing more, before or after, keeps every product, whatever file is
loaded, if no two of its products have the same id. -/
theorem C108_engine (mode : PanicMode) (o o' : HashOrd) (lower : Char → List Char) (e : Engine) (ix : GramIndex Char)
    (hi : e.index = ⟨.free, some ix⟩) (hpad : NoPadding ix) (hid : (ix.container.products.map (·.id)).Nodup)
    (hdata : ∀ k l, (k, l) ∈ ix.data → ∀ p ∈ l, ix.container.products[p.sid]? = some p)
    (pre input suf : Str) (cats : CategoryHandler) (tags : TagHandler) (hc : cats.InRange)
    (ht : tags.InRange) (filter : List (Str × JsValue)) (e₁ e₂ : Engine) (found found' : ProductProducer)
    (h : e.search mode o lower input cats tags none filter = (e₁, .ok (some found)))
    (h' : e.search mode o' lower (pre ++ input ++ suf) cats tags none filter = (e₂, .ok (some found'))) :
    ∀ sid ∈ found.toExport, sid ∈ found'.toExport := by
  unfold Engine.search at h h'
  cases hf : parseFilters filter with
  | none => rw [hf] at h; cases h
  | some filters =>
    simp only [hf, hi, Slot.lockOk] at h h'
    obtain ⟨r, h1, h2⟩ := searchIds_spec o lower ix input cats tags hc ht filters
    obtain ⟨r', h3, h4⟩ := searchIds_spec o' lower ix (pre ++ input ++ suf) cats tags hc ht filters
    simp only [h2, Prod.mk.injEq, Except.ok.injEq, Option.some.injEq] at h
    simp only [h4, Prod.mk.injEq, Except.ok.injEq, Option.some.injEq] at h'
    rw [← h.2, ← h'.2]
    simp only [ProductProducer.new]
    have hin : input.flatMap lower <:+: (pre ++ input ++ suf).flatMap lower :=
      ⟨pre.flatMap lower, suf.flatMap lower, by simp [List.flatMap_append]⟩
    have hmem : ∀ {o : HashOrd} {q : List Char} {r : List (Product × F32)}, ix.search o ngramIndexSize q = .ok r →
        ∀ x ∈ r, x.1 ∈ ix.container.products := by
      intro o q r hr x hx
      obtain ⟨⟨c', hhit⟩, _⟩ := result_score (by decide) (by decide) hr (p := x.1) (c := x.2) hx
      obtain ⟨_, _, k, l, _, hd, hpl⟩ := mem_hitsOf.1 hhit
      exact List.mem_of_getElem? (hdata k l (AMap.mem_of_get hd) _ hpl)
    intro sid hs
    rw [List.mem_filter] at hs ⊢
    refine ⟨?_, hs.2⟩
    obtain ⟨x, hx, rfl⟩ := List.mem_map.1 hs.1
    obtain ⟨y, hy, hye⟩ := List.mem_map.1
      (C108_kept hpad (by decide) (by decide) _ _ hin o o' r r' h1 h3 x.1.id (List.mem_map.2 ⟨x, hx, rfl⟩))
    have := nodup_ids hid (hmem h3 y hy) (hmem h1 x hx) hye
    exact List.mem_map.2 ⟨y, hy, by rw [this]⟩

/-! ## Padding in the texts -/

/-- Four products, of which the first has NUL characters in its title. -/
def padded : List RawProduct :=
  [mkRaw [] "\x00\x00\x00ab".toList ['1'], mkRaw [] "vase".toList ['2'], mkRaw [] "lampe".toList ['3'],
   mkRaw [] "stol".toList ['4']]

set_option maxRecDepth 10000 in
/-- With NUL characters in the catalogue it is false: "ab" finds the first product, "xyzwab" finds nothing. -/
theorem C108_false : ∃ (ix : GramIndex Char) (cl : Classic) (r : List (Product × F32)),
    buildAll .debug64 .ident (fun c => [c]) parseOne 5 padded = .ok (ix, cl) ∧
    ix.search .ident 5 "ab".toList = .ok r ∧ r.map (·.1.id) = [['1']] ∧ ix.search .ident 5 "xyzwab".toList = .ok [] := by
  have h : ((runSearch .debug64 .ident 5 padded "ab".toList).map fun l => l.map (·.1)) = some [['1']] := by
    decide +kernel
  have h' : runSearch .debug64 .ident 5 padded "xyzwab".toList = some [] := by decide +kernel
  obtain ⟨l, hl, e⟩ := Option.map_eq_some_iff.1 h
  obtain ⟨ix, cl, r, b, s, f⟩ := runSearch_sound hl
  obtain ⟨ix', cl', r', b', s', f'⟩ := runSearch_sound h'
  rw [b] at b'
  cases b'
  rw [List.map_eq_nil_iff] at f'
  subst f'
  exact ⟨ix, cl, r, b, s, by rw [← e, ← f]; simp, s'⟩

/-- The hypotheses of `C108_confidence` and `C108_kept` are met: "kunst" finds the first product, so "ny kunst nu" does. -/
example : ∃ ix cl r r', Searchable .debug64 .ident (fun c => [c]) parseOne 5 fuller ix cl ∧
    ix.search .ident 5 "kunst".toList = .ok r ∧ ix.search .rev 5 "ny kunst nu".toList = .ok r' ∧ ['1'] ∈ r.map (·.1.id) ∧
    ['1'] ∈ r'.map (·.1.id) ∧ ∃ c c', (['1'], c) ∈ r.map (fun e => (e.1.id, e.2)) ∧
      (['1'], c') ∈ r'.map (fun e => (e.1.id, e.2)) ∧ F32.lt c' c = false := by
  obtain ⟨ix, cl, r, i, p, c, h, hs, hi, hp⟩ := fuller_found
  obtain ⟨r', s'⟩ := C48_search_total .rev ix (n := 5) (by decide) (by decide) "ny kunst nu".toList
  have hnul : NoNul (fun c => [c]) fuller := by unfold NoNul; decide +kernel
  have hin : "kunst".toList <:+: "ny kunst nu".toList := by decide +kernel
  have hm : ['1'] ∈ r.map (·.1.id) := List.mem_map.2 ⟨(p, c), List.mem_of_getElem? hi, hp⟩
  have hm' : (['1'], c) ∈ r.map (fun e => (e.1.id, e.2)) := List.mem_map.2 ⟨(p, c), List.mem_of_getElem? hi, by rw [hp]⟩
  exact ⟨ix, cl, r, r', h, hs, s', hm, C108_kept (C108_built (by decide) h.built hnul) (by decide) (by decide) _ _ hin _ _ r r' hs s' _ hm,
    c, (C108_confidence h hnul _ _ hin _ _ r r' hs s' _ c hm').imp fun _ h => ⟨hm', h⟩⟩

end Idx
