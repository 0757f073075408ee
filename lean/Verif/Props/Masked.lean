import Verif.Props.Lookup
/-! # C115: products that no query finds, and those found only when misspelt -/
namespace Idx

/-- Spec: at each place after the first another character makes it an n-gram of the catalogue with more confidence. -/
def Masked (lower : Char → List Char) (input : List RawProduct) (v : List Char) : Prop :=
  ∃ q rest, v = q :: rest ∧ ∀ a y b, rest = a ++ y :: b → ∃ y', Occurs lower input (q :: (a ++ y' :: b)) ∧
    F32.lt (exactConfidence lower input v) (exactConfidence lower input (q :: (a ++ y' :: b))) = true

/-- A masked n-gram is not what any n-gram typed is looked up as, not even itself. -/
theorem C115_masked {t o lower parse n input ix cl} (h : Searchable t o lower parse n input ix cl) (h3 : 3 ≤ n) (h5 : n ≤ 5)
    (v : List Char) (hv : Masked lower input v) (w : List Char) (hl : w.length = n) (conf : F32) :
    ix.searchGram n w ≠ .ok (some (v, conf)) := by
  intro hs
  rcases C83_lookup h h3 h5 w hl with ⟨hg, _⟩ | ⟨f, hg, h1, h2, hmax⟩
  · rw [hg] at hs; cases hs
  · rw [hg] at hs
    simp only [Except.ok.injEq, Option.some.injEq, Prod.mk.injEq] at hs
    obtain ⟨rfl, _⟩ := hs
    obtain ⟨q, rest', e, hm⟩ := hv
    obtain ⟨q', r, r', hw, hf, ho⟩ := h1
    rw [e] at hf
    simp only [List.cons.injEq] at hf
    obtain ⟨rfl, rfl⟩ := hf
    have key : ∀ a y b, rest' = a ++ y :: b → (∀ y', OneOff r (a ++ y' :: b)) → False := by
      intro a y b he hoo
      obtain ⟨y', hy, hlt⟩ := hm a y b he
      rw [hmax _ ⟨q, r, _, hw, rfl, hoo y'⟩ hy] at hlt
      cases hlt
    cases ho with
    | same =>
      cases rest' with
      | nil => rw [hw] at hl; simp at hl; omega
      | cons y b => exact key [] y b rfl fun y' => .mistyped [] b y y'
    | mistyped a b x y => exact key a y b rfl fun y' => .mistyped a b x y'
    | leftOut a b y z => exact key a y b rfl fun y' => .leftOut a b y' z

/-- A product all of whose n-grams are masked or too common is found by no query. -/
theorem C115_never {t o lower parse n input ix cl} (h : Searchable t o lower parse n input ix cl) (h3 : 3 ≤ n) (h5 : n ≤ 5) (id : Str)
    (hid : ∀ raw ∈ input, raw.id = id → ∀ v ∈ paddedWindows n (textOf lower raw), Masked lower input v ∨ ¬ Occurs lower input v ∨
      maximumProductAmount t input.length ≤ (input.map fun raw => (paddedWindows n (textOf lower raw)).count v).sum)
    (o' : HashOrd) (query : List Char) (results : List (Product × F32)) (hs : ix.search o' n query = .ok results)
    (p : Product) (c : F32) (hp : (p, c) ∈ results) : p.id ≠ id := by
  intro e
  obtain ⟨w, hw, found, conf, hg, hlen, p', raw, _, hr, hrid, _, hmem⟩ :=
    (C54_found_iff h.pos h.le h.built o' query results hs id).1 ⟨p, c, hp, e⟩
  have hwl := paddedWindows_length h.pos hw
  rcases hid raw (List.mem_of_getElem? hr) hrid found hmem with hm | hno | hmax
  · exact C115_masked h h3 h5 found hm w hwl conf hg
  · rcases C83_lookup h h3 h5 w hwl with ⟨hg', _⟩ | ⟨f, hg', _, h2, _⟩
    · rw [hg'] at hg; cases hg
    · rw [hg'] at hg
      simp only [Except.ok.injEq, Option.some.injEq, Prod.mk.injEq] at hg
      exact hno (hg.1 ▸ h2)
  · have hlen' := congrArg List.length (expected_ids h.built found)
    simp only [List.length_map, List.length_flatMap, List.length_replicate, List.map_map] at hlen'
    have e2 : (expectedPostings lower n ix.container.products input found).length =
        (input.map fun raw => (paddedWindows n (textOf lower raw)).count found).sum := by rw [hlen']; rfl
    omega

/-- What differs in one character from a text with a character it has not itself differs in that character. -/
theorem changed_there {r r' : List Char} (ho : OneOff r r') : ∀ {a x b}, r = a ++ x :: b → x ∉ r' → b ≠ [] → ∃ y', r' = a ++ y' :: b := by
  cases ho with
  | same => intro a x b e hx; subst e; simp at hx
  | mistyped a' b' x' y =>
    intro a x b e hx hb
    simp only [List.mem_append, List.mem_cons, not_or] at hx
    rcases List.append_eq_append_iff.1 e with ⟨as, h1, h2⟩ | ⟨bs, h1, h2⟩
    · cases as with
      | nil => simp at h1 h2; exact ⟨y, by rw [h1, h2.2]⟩
      | cons c as =>
        simp only [List.cons_append, List.cons.injEq] at h2
        exact absurd (by rw [h2.2]; simp) hx.2.2
    · cases bs with
      | nil => simp at h1 h2; exact ⟨y, by rw [h1, h2.2]⟩
      | cons c bs =>
        simp only [List.cons_append, List.cons.injEq] at h2
        exact absurd (by rw [h1, h2.1]; simp) hx.1
  | leftOut a' b' y z =>
    intro a x b e hx hb
    obtain ⟨b0, l, rfl⟩ : ∃ b0 l, b = b0 ++ [l] := ⟨_, _, (List.dropLast_concat_getLast hb).symm⟩
    have e' : (a' ++ b') ++ [z] = (a ++ x :: b0) ++ [l] := by simpa using e
    have e2 : a' ++ b' = a ++ x :: b0 := (List.append_inj' e' rfl).1
    have : x ∈ a' ++ b' := by rw [e2]; simp
    simp only [List.mem_append, List.mem_cons, not_or] at hx this
    rcases this with h | h
    · exact absurd h hx.1
    · exact absurd h hx.2.2

/-- A character nobody uses, typed in a place where no other character makes a match at least as good, finds the product,
even if what the product is called does not. -/
theorem C115_typo {t o lower parse n input ix cl} (h : Searchable t o lower parse n input ix cl) (h3 : 3 ≤ n) (h5 : n ≤ 5)
    (q : Char) (a : List Char) (y : Char) (b : List Char) (hb : b ≠ []) (hl : (q :: (a ++ y :: b)).length = n)
    (raw : RawProduct) (hi : raw ∈ input) (hr : (q :: (a ++ y :: b)) <:+: textOf lower raw)
    (hkept : (expectedPostings lower n ix.container.products input (q :: (a ++ y :: b))).length < maximumProductAmount t input.length)
    (hbest : ∀ y', y' ≠ y → Occurs lower input (q :: (a ++ y' :: b)) →
      F32.lt (exactConfidence lower input (q :: (a ++ y' :: b))) (exactConfidence lower input (q :: (a ++ y :: b))) = true)
    (x : Char) (hx : ∀ raw ∈ input, x ∉ textOf lower raw) (o' : HashOrd) (query : List Char) (hq : (q :: (a ++ x :: b)) <:+: query)
    (results : List (Product × F32)) (hs : ix.search o' n query = .ok results) : ∃ p c, (p, c) ∈ results ∧ p.id = raw.id := by
  rw [C54_found_iff h.pos h.le h.built o' query results hs]
  obtain ⟨i, hi⟩ := List.mem_iff_getElem?.1 hi
  have hwl : (q :: (a ++ x :: b)).length = n := by rw [← hl]; simp
  have hocc : Occurs lower input (q :: (a ++ y :: b)) := ⟨raw, List.mem_of_getElem? hi, hr⟩
  have hnot : ∀ v, Occurs lower input v → x ∉ v := by
    rintro v ⟨r, hr', hv⟩ hxv
    exact hx r hr' (hv.subset hxv)
  rcases C83_lookup h h3 h5 _ hwl with ⟨_, hno⟩ | ⟨found, hg, h1, h2, hmax⟩
  · exact absurd hocc (hno _ ⟨q, _, _, rfl, rfl, .mistyped a b x y⟩)
  · have hfw : found = q :: (a ++ y :: b) := by
      obtain ⟨q', r, r', e1, e2, ho⟩ := h1
      simp only [List.cons.injEq] at e1
      obtain ⟨rfl, rfl⟩ := e1
      have hxn := hnot found h2
      -- the unused character must be the one that is changed
      have hform : ∃ y', r' = a ++ y' :: b := by
        rw [e2] at hxn
        simp only [List.mem_cons, not_or] at hxn
        exact changed_there ho rfl hxn.2 hb
      obtain ⟨y', rfl⟩ := hform
      by_cases hy : y' = y
      · rw [e2, hy]
      · have h6 := hmax _ ⟨q, _, _, rfl, rfl, .mistyped a b x y⟩ hocc
        rw [e2] at h2 h6
        rw [hbest y' hy h2] at h6
        cases h6
    rw [hfw] at hg
    obtain ⟨prices, bb⟩ := (builtAll_of_ok h.built).built
    have hp := bb.getElem? i
    rw [hi] at hp
    simp only [Option.map_some] at hp
    exact ⟨_, infix_paddedWindow h.pos hwl hq, _, _, hg, hkept, productOf ix.container.vendors raw i, raw, hp, hi, rfl,
      rfl, infix_paddedWindow h.pos hl hr⟩

/-! ## Instances -/

set_option maxRecDepth 10000

/-- In the catalogue where "abcde" finds nothing although product 1 is called so, the misspelt "axcde" finds it. -/
theorem C115_misspelt : ∃ ix cl, buildAll .debug64 .ident (fun c => [c]) parseOne 5 masked = .ok (ix, cl) ∧
    ix.search .ident 5 ['a', 'b', 'c', 'd', 'e'] = .ok [] ∧
    ∃ results, ix.search .ident 5 ['a', 'x', 'c', 'd', 'e'] = .ok results ∧ results.map (fun e => e.1.id) = [['1']] := by
  have h : runSearch .debug64 .ident 5 masked ['a', 'b', 'c', 'd', 'e'] = some [] := by decide +kernel
  have h' : (runSearch .debug64 .ident 5 masked ['a', 'x', 'c', 'd', 'e']).map (fun r => r.map (·.1)) = some [['1']] := by
    decide +kernel
  obtain ⟨ix, cl, results, hb, hs, e⟩ := runSearch_sound h
  have e : results = [] := by simpa using e
  subst e
  obtain ⟨l, h1, h2⟩ := Option.map_eq_some_iff.1 h'
  obtain ⟨ix', cl', results', hb', hs', e'⟩ := runSearch_sound h1
  rw [hb] at hb'
  obtain ⟨rfl, rfl⟩ : ix = ix' ∧ cl = cl' := by simpa using hb'
  refine ⟨ix, cl, hb, hs, results', hs', ?_⟩
  rw [← h2, ← e']
  simp

/-- Product 1 is called "abcde"; for each of the last four places two others are called the same but for that place. -/
def outshone : List RawProduct := [mkRaw ['a', 'b', 'c', 'd', 'e'] [] ['1'],
  mkRaw ['a', 'b', 'c', 'd', 'f'] [] ['2'], mkRaw ['a', 'b', 'c', 'd', 'f'] [] ['3'],
  mkRaw ['a', 'b', 'c', 'z', 'e'] [] ['4'], mkRaw ['a', 'b', 'c', 'z', 'e'] [] ['5'],
  mkRaw ['a', 'b', 'y', 'd', 'e'] [] ['6'], mkRaw ['a', 'b', 'y', 'd', 'e'] [] ['7'],
  mkRaw ['a', 'x', 'c', 'd', 'e'] [] ['8'], mkRaw ['a', 'x', 'c', 'd', 'e'] [] ['9']]

theorem outshone_searchable : ∃ ix cl, Searchable .debug64 .ident (fun c => [c]) parseOne 5 outshone ix cl := by
  obtain ⟨ix, cl, hb⟩ := buildAll_ok .debug64 .ident (fun c => [c]) parseOne 5 outshone (List.replicate 9 F32.one) rfl
  exact ⟨ix, cl, by omega, by omega, hb, by decide⟩

theorem outshone_masked : Masked (fun c => [c]) outshone ['a', 'b', 'c', 'd', 'e'] := by
  have occ : ∀ raw ∈ outshone, Occurs (fun c => [c]) outshone (textOf (fun c => [c]) raw) :=
    fun raw h => ⟨raw, h, List.infix_refl _⟩
  refine ⟨'a', _, rfl, fun a y b e => ?_⟩
  match a, e with
  | [], e =>
    simp only [List.nil_append, List.cons.injEq] at e
    obtain ⟨rfl, rfl⟩ := e
    exact ⟨'x', occ (mkRaw ['a', 'x', 'c', 'd', 'e'] [] ['8']) (by simp [outshone]), by decide +kernel⟩
  | [_], e =>
    simp only [List.cons_append, List.nil_append, List.cons.injEq] at e
    obtain ⟨rfl, rfl, rfl⟩ := e
    exact ⟨'y', occ (mkRaw ['a', 'b', 'y', 'd', 'e'] [] ['6']) (by simp [outshone]), by decide +kernel⟩
  | [_, _], e =>
    simp only [List.cons_append, List.nil_append, List.cons.injEq] at e
    obtain ⟨rfl, rfl, rfl, rfl⟩ := e
    exact ⟨'z', occ (mkRaw ['a', 'b', 'c', 'z', 'e'] [] ['4']) (by simp [outshone]), by decide +kernel⟩
  | [_, _, _], e =>
    simp only [List.cons_append, List.nil_append, List.cons.injEq] at e
    obtain ⟨rfl, rfl, rfl, rfl, rfl⟩ := e
    exact ⟨'f', occ (mkRaw ['a', 'b', 'c', 'd', 'f'] [] ['2']) (by simp [outshone]), by decide +kernel⟩
  | _ :: _ :: _ :: _ :: a, e => simp at e

theorem outshone_hidden (raw : RawProduct) (hr : raw ∈ outshone) (he : raw.id = ['1']) (v : List Char)
    (hv : v ∈ paddedWindows 5 (textOf (fun c => [c]) raw)) :
    Masked (fun c => [c]) outshone v ∨ ¬ Occurs (fun c => [c]) outshone v := by
  have hfirst : raw = mkRaw ['a', 'b', 'c', 'd', 'e'] [] ['1'] := by
    simp only [outshone, List.mem_cons, List.not_mem_nil, or_false] at hr
    rcases hr with rfl | rfl | rfl | rfl | rfl | rfl | rfl | rfl | rfl <;> first | rfl | (exact absurd he (by decide))
  rw [hfirst] at hv
  have hl := paddedWindows_length (by omega) hv
  have hcase : v = ['a', 'b', 'c', 'd', 'e'] ∨ v.head? = some '\x00' := by
    have : ∀ u ∈ paddedWindows 5 (textOf (fun c => [c]) (mkRaw ['a', 'b', 'c', 'd', 'e'] [] ['1'])),
      u = ['a', 'b', 'c', 'd', 'e'] ∨ u.head? = some '\x00' := by decide +kernel
    exact this v hv
  rcases hcase with rfl | h0
  · exact .inl outshone_masked
  · refine .inr ?_
    rintro ⟨r, hr, hi⟩
    have hall : ∀ r ∈ outshone, (textOf (fun c => [c]) r).length = 5 ∧ (textOf (fun c => [c]) r).head? = some 'a' := by
      decide +kernel
    obtain ⟨h5, ha⟩ := hall r hr
    rw [hi.eq_of_length (by omega), ha] at h0
    exact absurd h0 (by decide)

/-- No query whatever finds product 1 of that catalogue, though its n-gram is kept. -/
theorem C115_unfindable : ∃ ix cl, buildAll .debug64 .ident (fun c => [c]) parseOne 5 outshone = .ok (ix, cl) ∧
    (expectedPostings (fun c => [c]) 5 ix.container.products outshone ['a', 'b', 'c', 'd', 'e']).length <
      maximumProductAmount .debug64 outshone.length ∧
    ∀ (o' : HashOrd) (query : List Char) (results : List (Product × F32)), ix.search o' 5 query = .ok results →
      ∀ p c, (p, c) ∈ results → p.id ≠ ['1'] := by
  obtain ⟨ix, cl, h⟩ := outshone_searchable
  refine ⟨ix, cl, h.built, ?_, fun o' query results hs p c hp =>
    C115_never h (by omega) (by omega) ['1'] (fun raw hr he v hv => ?_) o' query results hs p c hp⟩
  · have := congrArg List.length (expected_ids h.built ['a', 'b', 'c', 'd', 'e'])
    rw [List.length_map] at this
    rw [this]
    decide +kernel
  · rcases outshone_hidden raw hr he v hv with h | h
    · exact .inl h
    · exact .inr (.inl h)

/-- The hypotheses of `C115_typo` are met: in the catalogue `masked` any query with "axcde" in it finds product 1. -/
example : ∃ ix cl, Searchable .debug64 .ident (fun c => [c]) parseOne 5 masked ix cl ∧
    ∀ (o' : HashOrd) (query : List Char), ['a', 'x', 'c', 'd', 'e'] <:+: query → ∀ results, ix.search o' 5 query = .ok results →
      ∃ p c, (p, c) ∈ results ∧ p.id = ['1'] := by
  obtain ⟨ix, cl, hb⟩ := buildAll_ok .debug64 .ident (fun c => [c]) parseOne 5 masked (List.replicate 3 F32.one) rfl
  have h : Searchable .debug64 .ident (fun c => [c]) parseOne 5 masked ix cl := ⟨by omega, by omega, hb, by decide⟩
  refine ⟨ix, cl, h, fun o' query hq results hs => C115_typo h (by omega) (by omega) 'a' [] 'b' ['c', 'd', 'e'] (by simp) rfl
    (mkRaw ['a', 'b', 'c', 'd', 'e'] [] ['1']) (by simp [masked]) (List.infix_refl _) ?_ ?_ 'x' (by decide +kernel) o' query hq results hs⟩
  · have := congrArg List.length (expected_ids hb ['a', 'b', 'c', 'd', 'e'])
    rw [List.length_map] at this
    simp only [List.nil_append]
    rw [this]
    decide +kernel
  · rintro y' hy ⟨r, hr, hi⟩
    have hall : ∀ r ∈ masked, (textOf (fun c => [c]) r).length = 5 ∧ (textOf (fun c => [c]) r)[1]? = some 'b' := by
      decide +kernel
    obtain ⟨h5, h1⟩ := hall r hr
    have := hi.eq_of_length (by rw [h5]; rfl)
    rw [← this] at h1
    simp at h1
    exact absurd h1 hy

end Idx
