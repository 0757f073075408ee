import Verif.Props.Catalogue
/-! # C83: which n-gram a lookup finds, for N from 3 to 5 (the crate uses 5) -/
namespace Idx

/-! ## Specification -/

/-- Spec: what was typed and what was meant differ in at most one character: it was mistyped, or left out, so that the
last character typed belongs to what comes later. -/
inductive OneOff {α : Type} : List α → List α → Prop
  | same (w : List α) : OneOff w w
  | mistyped (a b : List α) (x y : α) : OneOff (a ++ x :: b) (a ++ y :: b)
  | leftOut (a b : List α) (y z : α) : OneOff (a ++ (b ++ [z])) (a ++ y :: b)

/-- Spec: n-grams with the same first character that otherwise differ in at most one. -/
def Resembles (w v : List Char) : Prop := ∃ q rest rest', w = q :: rest ∧ v = q :: rest' ∧ OneOff rest rest'

/-- Spec: a text occurs inside the searched text of some product. -/
def Occurs (lower : Char → List Char) (input : List RawProduct) (v : List Char) : Prop :=
  ∃ raw ∈ input, v <:+: textOf lower raw

theorem OneOff.length {α : Type} {w v : List α} (h : OneOff w v) : w.length = v.length := by
  cases h <;> simp

theorem OneOff.cons {α : Type} (x : α) {w v : List α} (h : OneOff w v) : OneOff (x :: w) (x :: v) := by
  cases h with
  | same => exact .same _
  | mistyped a b y z => exact .mistyped (x :: a) b y z
  | leftOut a b y z => exact .leftOut (x :: a) b y z

theorem Resembles.length {w v : List Char} (h : Resembles w v) : w.length = v.length := by
  obtain ⟨q, r, r', rfl, rfl, h⟩ := h
  simp [h.length]

theorem Resembles.refl {w : List Char} (h : w ≠ []) : Resembles w w := by
  cases w with
  | nil => exact absurd rfl h
  | cons q r => exact ⟨q, r, r, rfl, rfl, .same r⟩

/-! ## Candidates with at most one change -/

section
variable {G : Type} [DecidableEq G] [RDefault G]

/-- Without changes left a walk only follows what was typed. -/
theorem Cand.straight {n limit : Nat} {input : List G} {node : GramNode G} {prev : Option (GramNode G)} {changes : Nat}
    {weight : F32} {buf : List G} {index : Nat} {r : List G × F32}
    (h : Cand n limit input node prev changes weight buf index r) (hc : limit ≤ changes) (hb : buf.length = n) :
    index ≤ n ∧ n - index ≤ input.length ∧ r.1 = buf.take index ++ input.take (n - index) ∧
      pathWeight node weight (input.take (n - index)) = some r.2 := by
  induction h with
  | done hi =>
    subst hi
    simp [pathWeight, ← hb]
  | @follow g input node prev changes weight buf index u r hlt hget _ ih =>
    obtain ⟨h1, h2, h3, h4⟩ := ih hc (by simpa using hb)
    have e : n - index = (n - (index + 1)) + 1 := by omega
    have hi := (items_get_sound hget).2
    refine ⟨by omega, by simp only [List.length_cons]; omega, ?_, ?_⟩
    · rw [h3, take_set_snoc _ (by omega), e, List.take_succ_cons, hi]
      simp
    · rw [e, List.take_succ_cons, pathWeight, hget]
      exact h4
  | replace _ hlt => omega
  | forgotten _ hlt => omega
  | ignorePrevious _ hlt => omega

/-- With one change left the walk ends at what was typed or one change from it. -/
theorem Cand.oneOff {n : Nat} {ix : GramIndex G} (hk : ix.Keyed) {input : List G} {node : GramNode G}
    {prev : Option (GramNode G)} {changes : Nat} {weight : F32} {buf : List G} {index : Nat} {r : List G × F32}
    (h : Cand n 1 input node prev changes weight buf index r) (hc : changes = 0) (hb : buf.length = n)
    (hi : input.length + index = n) (pre : List G) (hp : pre ≠ []) (hn : ix.nodeAt pre = some node) :
    ∃ path, OneOff input path ∧ r.1 = buf.take index ++ path ∧ pathWeight node weight path = some r.2 := by
  induction h generalizing pre with
  | done hi' =>
    rename_i input _ _ _ _ buf index
    have : input = [] := List.length_eq_zero_iff.1 (by omega)
    subst this
    subst hi'
    exact ⟨[], .same _, by simp [← hb], rfl⟩
  | @follow g input node prev changes weight buf index u r hlt hget _ ih =>
    have hu := (items_get_sound hget).2
    have hn' : ix.nodeAt (pre ++ [g]) = some u := by rw [GramIndex.nodeAt_snoc _ _ hp, hn]; exact hget
    obtain ⟨path, h1, h2, h3⟩ := ih hc (by simpa using hb) (by simp only [List.length_cons] at hi; omega) (pre ++ [g])
      (by simp) hn'
    refine ⟨g :: path, h1.cons g, ?_, ?_⟩
    · rw [h2, take_set_snoc _ (by omega), hu]; simp
    · rw [pathWeight, hget]; exact h3
  | @replace input node prev changes weight buf index c r hlt _ hc' _ hcand _ =>
    obtain ⟨_, h2, h3, h4⟩ := hcand.straight (by omega) (by simpa using hb)
    cases input with
    | nil => simp only [List.length_nil] at hi; omega
    | cons x b =>
      simp only [List.length_cons] at hi
      simp only [List.tail_cons] at h2 h3 h4
      have ht : b.take (n - (index + 1)) = b := List.take_of_length_le (by omega)
      rw [ht] at h3 h4
      refine ⟨c.item :: b, .mistyped [] b x c.item, ?_, ?_⟩
      · rw [h3, take_set_snoc _ (by omega)]; simp
      · rw [pathWeight, (items_get_iff (hk.siblings _ _ hn)).2 ⟨hc', rfl⟩]; exact h4
  | @forgotten input node prev changes weight buf index c r hlt _ hc' _ hcand _ =>
    obtain ⟨_, h2, h3, h4⟩ := hcand.straight (by omega) (by simpa using hb)
    rcases List.eq_nil_or_concat input with rfl | ⟨b, z, rfl⟩
    · simp only [List.length_nil] at hi; omega
    · simp only [List.length_append, List.length_cons, List.length_nil, List.concat_eq_append] at hi
      have ht : (b ++ [z]).take (n - (index + 1)) = b := by
        rw [List.take_append_of_le_length (by omega), List.take_of_length_le (by omega)]
      rw [List.concat_eq_append, ht] at h3 h4
      rw [List.concat_eq_append]
      refine ⟨c.item :: b, .leftOut [] b c.item z, ?_, ?_⟩
      · rw [h3, take_set_snoc _ (by omega)]; simp
      · rw [pathWeight, (items_get_iff (hk.siblings _ _ hn)).2 ⟨hc', rfl⟩]; exact h4
  | @ignorePrevious g input node p changes weight buf index last r hlt _ hget hcand _ =>
    obtain ⟨_, h2, _, _⟩ := hcand.straight (by omega) (by simpa using hb)
    simp only [List.length_cons] at hi
    omega

/-- Following what was typed, possibly without the end of it. -/
theorem Cand.exact' {n limit : Nat} (rest more : List G) : ∀ {node : GramNode G} {prev : Option (GramNode G)} {changes : Nat}
    {weight w : F32} {buf : List G} {index : Nat}, pathWeight node weight rest = some w → index + rest.length = n →
    buf.length = n →
    Cand n limit (rest ++ more) node prev changes weight buf index (buf.take index ++ rest, w) := by
  induction rest with
  | nil =>
    intro node prev changes weight w buf index hw hi hb
    simp only [pathWeight, Option.some.injEq] at hw
    simp only [List.length_nil, Nat.add_zero] at hi
    subst hw
    rw [List.append_nil, hi, ← hb, List.take_length]
    exact .done (by omega)
  | cons g rest ih =>
    intro node prev changes weight w buf index hw hi hb
    simp only [pathWeight, Option.bind_eq_some_iff] at hw
    obtain ⟨c, hc, hw⟩ := hw
    simp only [List.length_cons] at hi
    have hitem := (items_get_sound hc).2
    have := ih (node := c) (prev := some node) (changes := changes) (buf := buf.set index c.item) (index := index + 1)
      hw (by omega) (by simpa using hb)
    rw [take_set_snoc _ (by omega), hitem, List.append_assoc] at this
    rw [← hitem] at this
    refine .follow (u := c) (by omega) hc ?_
    rw [hitem] at this ⊢
    exact this

/-- A walk that follows what was typed before its change. -/
theorem Cand.after {n limit : Nat} (a input path : List G)
    (step : ∀ {node : GramNode G} {prev : Option (GramNode G)} {weight w : F32} {buf : List G} {index : Nat},
      pathWeight node weight path = some w → index + path.length = n → buf.length = n →
      Cand n limit input node prev 0 weight buf index (buf.take index ++ path, w)) :
    ∀ {node : GramNode G} {prev : Option (GramNode G)} {weight w : F32} {buf : List G} {index : Nat},
      pathWeight node weight (a ++ path) = some w → index + (a ++ path).length = n → buf.length = n →
      Cand n limit (a ++ input) node prev 0 weight buf index (buf.take index ++ (a ++ path), w) := by
  induction a with
  | nil => intro node prev weight w buf index; simpa using step
  | cons g a ih =>
    intro node prev weight w buf index hw hi hb
    simp only [List.cons_append, pathWeight, Option.bind_eq_some_iff] at hw
    obtain ⟨c, hc, hw⟩ := hw
    simp only [List.cons_append, List.length_cons] at hi
    have hitem := (items_get_sound hc).2
    have := ih (node := c) (prev := some node) (buf := buf.set index c.item) (index := index + 1)
      hw (by omega) (by simpa using hb)
    rw [take_set_snoc _ (by omega), hitem] at this
    rw [← hitem] at this
    refine .follow (u := c) (by omega) hc ?_
    rw [hitem] at this ⊢
    simpa using this

theorem entered_ne {node : GramNode G} {x y : G} (h : y ≠ x) (input : List G) :
    some y ≠ ((x :: input).head?.bind fun g => AMap.get node.items g).map (·.item) := by
  simp only [List.head?_cons, Option.bind_some]
  intro e
  cases hg : AMap.get node.items x with
  | none => rw [hg] at e; simp at e
  | some u =>
    rw [hg] at e
    simp only [Option.map_some, Option.some.injEq] at e
    exact h (e.trans (items_get_sound hg).2)

/-- A left out character is found, even if it is the same as the next one. -/
theorem Cand.left_out {n : Nat} (y z : G) : ∀ (b : List G) {node : GramNode G} {prev : Option (GramNode G)} {weight w : F32}
    {buf : List G} {index : Nat}, pathWeight node weight (y :: b) = some w → index + (y :: b).length = n → buf.length = n →
    Cand n 1 (b ++ [z]) node prev 0 weight buf index (buf.take index ++ y :: b, w) := by
  intro b
  induction b with
  | nil =>
    intro node prev weight w buf index hw hi hb
    simp only [List.nil_append]
    by_cases hyz : y = z
    · subst hyz
      simpa using Cand.exact' (limit := 1) [y] [] hw hi hb
    · simp only [pathWeight, Option.bind_eq_some_iff] at hw
      obtain ⟨c, hc, hw⟩ := hw
      simp only [List.length_cons, List.length_nil] at hi
      obtain ⟨hm, hitem⟩ := items_get_sound hc
      refine .forgotten (c := c) (by omega) (by omega) hm (by rw [hitem]; exact entered_ne hyz []) ?_
      have := Cand.exact' (n := n) (limit := 1) (node := c) (prev := some node) (changes := 2) (buf := buf.set index c.item)
        (index := index + 1) [] [z] (by simpa [pathWeight] using hw) (by simp; omega) (by simpa using hb)
      rw [take_set_snoc _ (by omega), hitem] at this
      rw [hitem]
      simpa using this
  | cons x b ih =>
    intro node prev weight w buf index hw hi hb
    simp only [List.length_cons] at hi
    by_cases hyx : y = x
    · subst hyx
      rw [pathWeight] at hw
      obtain ⟨c, hc, hw⟩ := Option.bind_eq_some_iff.1 hw
      obtain ⟨hm, hitem⟩ := items_get_sound hc
      have := ih (node := c) (prev := some node) (buf := buf.set index c.item) (index := index + 1) hw
        (by simp only [List.length_cons]; omega) (by simpa using hb)
      rw [take_set_snoc _ (by omega), hitem] at this
      refine .follow (u := c) (by omega) hc ?_
      rw [hitem]
      simpa using this
    · rw [pathWeight] at hw
      obtain ⟨c, hc, hw⟩ := Option.bind_eq_some_iff.1 hw
      obtain ⟨hm, hitem⟩ := items_get_sound hc
      refine .forgotten (c := c) (by omega) (by omega) hm (by rw [hitem]; exact entered_ne hyx _) ?_
      have := Cand.exact' (n := n) (limit := 1) (node := c) (prev := some node) (changes := 2) (buf := buf.set index c.item)
        (index := index + 1) (x :: b) [z] hw (by simp only [List.length_cons]; omega) (by simpa using hb)
      rw [take_set_snoc _ (by omega), hitem] at this
      rw [hitem]
      simpa using this

theorem Cand.mistyped {n : Nat} (x y : G) (b : List G) {node : GramNode G} {prev : Option (GramNode G)} {weight w : F32}
    {buf : List G} {index : Nat} (hw : pathWeight node weight (y :: b) = some w) (hi : index + (y :: b).length = n)
    (hb : buf.length = n) : Cand n 1 (x :: b) node prev 0 weight buf index (buf.take index ++ y :: b, w) := by
  by_cases hyx : y = x
  · subst hyx
    simpa using Cand.exact' (limit := 1) (y :: b) [] hw hi hb
  · rw [pathWeight] at hw
    obtain ⟨c, hc, hw⟩ := Option.bind_eq_some_iff.1 hw
    obtain ⟨hm, hitem⟩ := items_get_sound hc
    simp only [List.length_cons] at hi
    refine .replace (c := c) (by omega) (by omega) hm (by rw [hitem]; exact entered_ne hyx _) ?_
    have := Cand.exact' (n := n) (limit := 1) (node := c) (prev := some node) (changes := 1) (buf := buf.set index c.item)
      (index := index + 1) b [] hw (by omega) (by simpa using hb)
    rw [take_set_snoc _ (by omega), hitem] at this
    rw [hitem]
    simpa using this

theorem Cand.of_oneOff {n : Nat} {input path : List G} (h : OneOff input path) {node : GramNode G}
    {prev : Option (GramNode G)} {weight w : F32} {buf : List G} {index : Nat} (hw : pathWeight node weight path = some w)
    (hi : index + path.length = n) (hb : buf.length = n) :
    Cand n 1 input node prev 0 weight buf index (buf.take index ++ path, w) := by
  cases h with
  | same => simpa using Cand.exact' (limit := 1) input [] hw hi hb
  | mistyped a b x y => exact Cand.after a (x :: b) (y :: b) (fun h1 h2 h3 => Cand.mistyped x y b h1 h2 h3) hw hi hb
  | leftOut a b y z => exact Cand.after a (b ++ [z]) (y :: b) (fun h1 h2 h3 => Cand.left_out y z b h1 h2 h3) hw hi hb

end

/-! ## The lookup -/

theorem confidence_eq {t o lower parse n input ix cl} (h : Searchable t o lower parse n input ix cl)
    {q : Char} {rest : List Char} {root : GramNode Char} (hr : ix.nodeAt [q] = some root) {x : F32}
    (hx : pathWeight root F32.one rest = some x) :
    Occurs lower input (q :: rest) ∧ x = exactConfidence lower input (q :: rest) := by
  have hk : ix.Keyed := by rw [(builtAll_of_ok h.built).index]; exact indexFrom_keyed t o h.pos _ _
  have walk : ∀ (rest pre : List Char) (node : GramNode Char) (acc x : F32), pre ≠ [] → ix.Has pre node →
      pathWeight node acc rest = some x → ∃ last, ix.Has (pre ++ rest) last := by
    intro rest
    induction rest with
    | nil => intro pre node acc x _ hh _; exact ⟨node, by simpa using hh⟩
    | cons g rest ih =>
      intro pre node acc x hne hh hx
      rw [pathWeight] at hx
      obtain ⟨c, hc, hx⟩ := Option.bind_eq_some_iff.1 hx
      have := ih (pre ++ [g]) c _ x (by simp) ((hk.has_iff _ _).2 (by
        rw [GramIndex.nodeAt_snoc _ _ hne, (hk.has_iff _ _).1 hh]; exact hc)) hx
      simpa using this
  have hroot := (hk.has_iff _ _).2 hr
  have hlast := walk rest [q] root F32.one x (by simp) hroot hx
  refine ⟨((C21_path_iff_substring h.pos h.built (q :: rest) (by simp)).1 hlast).2, ?_⟩
  have hp := pathWeight_exact h rest [q] root F32.one (by simp) hroot hlast
  rw [hx] at hp
  simp only [Option.some.injEq] at hp
  rw [hp]
  rfl

/-- The candidates of a lookup are the n-grams of the catalogue that resemble the one looked up. -/
theorem cands_iff_resembles {t o lower parse n input ix cl} (h : Searchable t o lower parse n input ix cl)
    (w : List Char) (hl : w.length = n) (r : List Char × F32) :
    (∃ q rest root, w = q :: rest ∧ AMap.get ix.roots q = some root ∧
      Cand n 1 rest root none 0 F32.one ((List.replicate n dflt).set 0 q) 1 r) ↔
    Resembles w r.1 ∧ Occurs lower input r.1 ∧ r.2 = exactConfidence lower input r.1 := by
  have hpos := h.pos
  have hk : ix.Keyed := by rw [(builtAll_of_ok h.built).index]; exact indexFrom_keyed t o h.pos _ _
  have htake : ∀ q : Char, ((List.replicate n dflt).set 0 q).take 1 = [q] := by
    intro q
    cases n with
    | zero => omega
    | succ n => simp [List.replicate_succ]
  have sound : ∀ r, (∃ q rest root, w = q :: rest ∧ AMap.get ix.roots q = some root ∧
      Cand n 1 rest root none 0 F32.one ((List.replicate n dflt).set 0 q) 1 r) →
      Resembles w r.1 ∧ Occurs lower input r.1 ∧ r.2 = exactConfidence lower input r.1 := by
    rintro r ⟨q, rest, root, rfl, hr, hc⟩
    rw [← nodeAt_single] at hr
    simp only [List.length_cons] at hl
    obtain ⟨path, h1, h2, hw⟩ := hc.oneOff hk rfl (by simp) (by omega) [q] (by simp) hr
    rw [htake] at h2
    have := confidence_eq h hr hw
    rw [h2]
    exact ⟨⟨q, rest, path, rfl, rfl, h1⟩, this⟩
  have complete : ∀ v, Resembles w v → Occurs lower input v → ∃ q rest root, w = q :: rest ∧ AMap.get ix.roots q = some root ∧
      Cand n 1 rest root none 0 F32.one ((List.replicate n dflt).set 0 q) 1 (v, exactConfidence lower input v) := by
    rintro v ⟨q, rest, rest', rfl, rfl, hoff⟩ ⟨raw, hraw, hin⟩
    simp only [List.length_cons] at hl
    have hlen := hoff.length
    have hlast := (C21_path_iff_substring h.pos h.built (q :: rest') (by simp)).2
      ⟨by simp only [List.length_cons]; omega, raw, hraw, hin⟩
    obtain ⟨root, hroot⟩ := (C21_path_iff_substring h.pos h.built [q] (by simp)).2
      ⟨by simp; omega, raw, hraw, List.IsInfix.trans ⟨[], rest', by simp⟩ hin⟩
    have hp := pathWeight_exact h rest' [q] root F32.one (by simp) hroot hlast
    have hget := (hk.has_iff _ _).1 hroot
    rw [nodeAt_single] at hget
    have := Cand.of_oneOff (n := n) hoff (prev := none) (index := 1) (buf := (List.replicate n dflt).set 0 q) hp (by omega)
      (by simp)
    rw [htake] at this
    exact ⟨q, rest, root, rfl, hget, this⟩
  refine ⟨sound r, fun ⟨h1, h2, h3⟩ => ?_⟩
  have := complete r.1 h1 h2
  rw [← h3] at this
  exact this

/-- Which n-gram a lookup finds: one of those of the catalogue that resemble the one looked up, and none of them has a
higher confidence; nothing is found exactly if there are none. -/
theorem C83_lookup {t o lower parse n input ix cl} (h : Searchable t o lower parse n input ix cl) (h3 : 3 ≤ n) (h5 : n ≤ 5)
    (w : List Char) (hl : w.length = n) :
    (ix.searchGram n w = .ok none ∧ ∀ v, Resembles w v → ¬ Occurs lower input v) ∨
    ∃ found, ix.searchGram n w = .ok (some (found, exactConfidence lower input found)) ∧ Resembles w found ∧
      Occurs lower input found ∧
      ∀ v, Resembles w v → Occurs lower input v →
        F32.lt (exactConfidence lower input found) (exactConfidence lower input v) = false := by
  have hlim : n / 3 = 1 := by omega
  obtain ⟨res, e, hb⟩ := searchGram_best ix h.pos h.le w
  rw [hlim] at hb
  have sound := fun r => (cands_iff_resembles h w hl r).1
  have complete := fun v hv ho => (cands_iff_resembles h w hl (v, exactConfidence lower input v)).2 ⟨hv, ho, rfl⟩
  have hunit : ∀ r, (∃ q rest root, w = q :: rest ∧ AMap.get ix.roots q = some root ∧
      Cand n 1 rest root none 0 F32.one ((List.replicate n dflt).set 0 q) 1 r) → ¬ r.2.IsNan := by
    rintro r ⟨q, rest, root, rfl, hr, hc⟩
    exact (hc.weight (ix := ix) (fun _ x => F32.Unit x) (fun i x path c _ _ hx hh => hx.mul (h.unit path c hh).unit) _
      (.root (AMap.mem_of_get hr)) (by simp) (Nat.le_refl _) F32.inUnit_one.unit).notNan
  cases res with
  | none =>
    refine .inl ⟨e, fun v hv ho => ?_⟩
    obtain ⟨_, hn⟩ := hb.answered _ (complete v hv ho)
    cases hn
  | some r =>
    obtain ⟨h1, h2, h4⟩ := sound r (hb.mem r rfl)
    refine .inr ⟨r.1, ?_, h1, h2, fun v hv ho => ?_⟩
    · rw [← h4]; exact e
    · rw [← h4]
      exact hb.best hunit _ (complete v hv ho) _ rfl

/-! ## What follows for searches -/

/-- Spec: of the n-grams of the catalogue that resemble `w`, `v` is one with the highest confidence. -/
def BestMatch (lower : Char → List Char) (input : List RawProduct) (w v : List Char) : Prop :=
  Resembles w v ∧ Occurs lower input v ∧ ∀ v', Resembles w v' → Occurs lower input v' →
    F32.lt (exactConfidence lower input v) (exactConfidence lower input v') = false

/-- Spec: no window of the query has two best matches. -/
def NoTies (lower : Char → List Char) (n : Nat) (input : List RawProduct) (query : List Char) : Prop :=
  ∀ w ∈ paddedWindows n query, ∀ v v', BestMatch lower input w v → BestMatch lower input w v' → v = v'

/-- A product containing an n-gram of the query is found if the n-gram is kept and all n-grams of the catalogue
resembling it have a lower confidence. -/
theorem C83_found {t o lower parse n input ix cl} (h : Searchable t o lower parse n input ix cl) (h3 : 3 ≤ n) (h5 : n ≤ 5)
    (o' : HashOrd) (query : List Char) (results : List (Product × F32)) (hs : ix.search o' n query = .ok results)
    (w : List Char) (hl : w.length = n) (hw : w <:+: query) (raw : RawProduct) (hi : raw ∈ input)
    (hr : w <:+: textOf lower raw)
    (hkept : (expectedPostings lower n ix.container.products input w).length < maximumProductAmount t input.length)
    (hbest : ∀ v, Resembles w v → Occurs lower input v → v ≠ w →
      F32.lt (exactConfidence lower input v) (exactConfidence lower input w) = true) :
    ∃ p c, (p, c) ∈ results ∧ p.id = raw.id := by
  rw [C54_found_iff h.pos h.le h.built o' query results hs]
  have hne : w ≠ [] := by rintro rfl; simp at hl; omega
  obtain ⟨i, hi⟩ := List.mem_iff_getElem?.1 hi
  rcases C83_lookup h h3 h5 w hl with ⟨_, hno⟩ | ⟨found, hg, h1, h2, hmax⟩
  · exact absurd ⟨raw, List.mem_of_getElem? hi, hr⟩ (hno w (.refl hne))
  · have hfw : found = w := by
      refine Classical.byContradiction fun hne' => ?_
      have := hmax w (.refl hne) ⟨raw, List.mem_of_getElem? hi, hr⟩
      rw [hbest found h1 h2 hne'] at this
      cases this
    rw [hfw] at hg
    obtain ⟨prices, b⟩ := (builtAll_of_ok h.built).built
    have hp := b.getElem? i
    rw [hi] at hp
    simp only [Option.map_some] at hp
    exact ⟨w, infix_paddedWindow h.pos hl hw, w, _, hg, hkept, productOf ix.container.vendors raw i, raw, hp, hi, rfl,
      rfl, infix_paddedWindow h.pos hl hr⟩

/-- Without ties the lookup finds the best match. -/
theorem lookup_best {t o lower parse n input ix cl} (h : Searchable t o lower parse n input ix cl) (h3 : 3 ≤ n) (h5 : n ≤ 5)
    {query w : List Char} (hn : NoTies lower n input query) (hw : w ∈ paddedWindows n query) (found : List Char) (conf : F32) :
    ix.searchGram n w = .ok (some (found, conf)) ↔
      BestMatch lower input w found ∧ conf = exactConfidence lower input found := by
  rcases C83_lookup h h3 h5 w (paddedWindows_length h.pos hw) with ⟨hg, hno⟩ | ⟨f, hg, h1, h2, hmax⟩
  · rw [hg]
    constructor
    · intro h; cases h
    · rintro ⟨⟨a, b, _⟩, _⟩; exact absurd b (hno _ a)
  · rw [hg]
    constructor
    · intro h; cases h; exact ⟨⟨h1, h2, hmax⟩, rfl⟩
    · rintro ⟨hb, rfl⟩
      rw [hn w hw found f hb ⟨h1, h2, hmax⟩]

/-- Without ties: exactly which ids a search returns, in terms of the catalogue alone. -/
theorem C83_found_iff {t o lower parse n input ix cl} (h : Searchable t o lower parse n input ix cl) (h3 : 3 ≤ n) (h5 : n ≤ 5)
    (o' : HashOrd) (query : List Char) (hn : NoTies lower n input query) (results : List (Product × F32))
    (hs : ix.search o' n query = .ok results) (id : Str) :
    (∃ p c, (p, c) ∈ results ∧ p.id = id) ↔
      ∃ w ∈ paddedWindows n query, ∃ v, BestMatch lower input w v ∧
        (input.map fun raw => (paddedWindows n (textOf lower raw)).count v).sum < maximumProductAmount t input.length ∧
        ∃ raw ∈ input, raw.id = id ∧ v ∈ paddedWindows n (textOf lower raw) := by
  rw [C54_found_iff h.pos h.le h.built o' query results hs]
  have hlen : ∀ k, (expectedPostings lower n ix.container.products input k).length =
      (input.map fun raw => (paddedWindows n (textOf lower raw)).count k).sum := by
    intro k
    have := congrArg List.length (expected_ids h.built k)
    simp only [List.length_map, List.length_flatMap, List.length_replicate, List.map_map] at this
    rw [this]
    rfl
  obtain ⟨prices, b⟩ := (builtAll_of_ok h.built).built
  constructor
  · rintro ⟨w, hw, found, conf, hg, hk, p, raw, _, hr, hid, _, hf⟩
    exact ⟨w, hw, found, ((lookup_best h h3 h5 hn hw _ _).1 hg).1, by rw [← hlen]; exact hk, raw, List.mem_of_getElem? hr, hid, hf⟩
  · rintro ⟨w, hw, v, hb, hk, raw, hr, hid, hf⟩
    obtain ⟨i, hi⟩ := List.mem_iff_getElem?.1 hr
    have hp := b.getElem? i
    rw [hi] at hp
    simp only [Option.map_some] at hp
    exact ⟨w, hw, v, _, (lookup_best h h3 h5 hn hw _ _).2 ⟨hb, rfl⟩, by rw [hlen]; exact hk,
      productOf ix.container.vendors raw i, raw, hp, hi, hid, hid, hf⟩

theorem SameTexts.occurs {t o₁ o₂ lower parse n input₁ input₂ ix₁ ix₂ cl₁ cl₂}
    (h : SameTexts t o₁ o₂ lower parse n input₁ input₂ ix₁ ix₂ cl₁ cl₂) {v : List Char} (hv : Occurs lower input₁ v) :
    Occurs lower input₂ v := by
  obtain ⟨raw, hr, hi⟩ := hv
  obtain ⟨raw', hr', e⟩ := List.mem_map.1 (h.texts.mem_iff.1 (List.mem_map_of_mem hr))
  exact ⟨raw', hr', by rw [e]; exact hi⟩

theorem SameTexts.confidence {t o₁ o₂ lower parse n input₁ input₂ ix₁ ix₂ cl₁ cl₂}
    (h : SameTexts t o₁ o₂ lower parse n input₁ input₂ ix₁ ix₂ cl₁ cl₂) (v : List Char) :
    exactConfidence lower input₁ v = exactConfidence lower input₂ v := by
  unfold exactConfidence
  simp only [occurrencesIn_perm _ h.texts]

theorem SameTexts.best {t o₁ o₂ lower parse n input₁ input₂ ix₁ ix₂ cl₁ cl₂}
    (h : SameTexts t o₁ o₂ lower parse n input₁ input₂ ix₁ ix₂ cl₁ cl₂) {w v : List Char} (hb : BestMatch lower input₁ w v) :
    BestMatch lower input₂ w v := by
  refine ⟨hb.1, h.occurs hb.2.1, fun v' h1 h2 => ?_⟩
  rw [← h.confidence, ← h.confidence]
  exact hb.2.2 v' h1 (h.symm.occurs h2)

/-- Without ties the results depend neither on the order of the catalogue nor on hash tables: the same ids with
bit-identical confidences. -/
theorem C83_deterministic {t o₁ o₂ lower parse n input₁ input₂ ix₁ ix₂ cl₁ cl₂}
    (h : SameTexts t o₁ o₂ lower parse n input₁ input₂ ix₁ ix₂ cl₁ cl₂) (h3 : 3 ≤ n) (h5 : n ≤ 5) (query : List Char)
    (hn : NoTies lower n input₁ query) (o o' : HashOrd) (r₁ r₂ : List (Product × F32))
    (h₁ : ix₁.search o n query = .ok r₁) (h₂ : ix₂.search o' n query = .ok r₂) :
    (r₁.map fun e => (e.1.id, e.2)).Perm (r₂.map fun e => (e.1.id, e.2)) := by
  refine C58_results h query (fun w hw => ?_) o o' r₁ r₂ h₁ h₂
  rcases C83_lookup h.two h3 h5 w (paddedWindows_length h.one.pos hw) with ⟨hg, hno⟩ | ⟨f, hg, h1, h2, hmax⟩
  · rcases C83_lookup h.one h3 h5 w (paddedWindows_length h.one.pos hw) with ⟨hg', _⟩ | ⟨f', _, h1', h2', _⟩
    · rw [hg, hg']
    · exact absurd (h.occurs h2') (hno f' h1')
  · rw [hg, ← h.confidence]
    exact (lookup_best h.one h3 h5 hn hw f _).2 ⟨h.symm.best ⟨h1, h2, hmax⟩, rfl⟩

/-! ## Instances -/

/-- Texts "abcde", "abcde", "abcdf" and three empty ones. -/
def rivals : List RawProduct := [mkRaw ['a', 'b', 'c', 'd', 'e'] [] ['1'], mkRaw ['a', 'b', 'c', 'd', 'e'] [] ['2'],
  mkRaw ['a', 'b', 'c', 'd', 'f'] [] ['3'], mkRaw [] [] ['4'], mkRaw [] [] ['5'], mkRaw [] [] ['6']]

theorem rivals_searchable : ∃ ix cl, Searchable .debug64 .ident (fun c => [c]) parseOne 5 rivals ix cl := by
  obtain ⟨ix, cl, hb⟩ := buildAll_ok .debug64 .ident (fun c => [c]) parseOne 5 rivals (List.replicate 6 F32.one) rfl
  exact ⟨ix, cl, by omega, by omega, hb, by decide⟩

theorem rivals_occurs {v : List Char} (hl : v.length = 5) (h : Occurs (fun c => [c]) rivals v) :
    v = ['a', 'b', 'c', 'd', 'e'] ∨ v = ['a', 'b', 'c', 'd', 'f'] := by
  obtain ⟨raw, hr, hi⟩ := h
  have full : ∀ text : List Char, v <:+: text → text.length = 5 → v = text := fun text h1 h2 =>
    h1.eq_of_length (by omega)
  have short : ∀ text : List Char, v <:+: text → text.length = 0 → False := fun text h1 h2 => by
    have := h1.length_le
    omega
  simp only [rivals, List.mem_cons, List.not_mem_nil, or_false] at hr
  rcases hr with rfl | rfl | rfl | rfl | rfl | rfl
  · exact .inl (full _ hi (by decide))
  · exact .inl (full _ hi (by decide))
  · exact .inr (full _ hi (by decide))
  · exact (short _ hi (by decide)).elim
  · exact (short _ hi (by decide)).elim
  · exact (short _ hi (by decide)).elim

theorem rivals_lt : F32.lt (exactConfidence (fun c => [c]) rivals ['a', 'b', 'c', 'd', 'f'])
    (exactConfidence (fun c => [c]) rivals ['a', 'b', 'c', 'd', 'e']) = true := by decide +kernel

/-- The hypotheses of `C83_found` are met where another n-gram resembles the one of the query: "abcdf" is less frequent
than "abcde", two of which are kept among six products. -/
example : ∃ ix cl, Searchable .debug64 .ident (fun c => [c]) parseOne 5 rivals ix cl ∧
    (expectedPostings (fun c => [c]) 5 ix.container.products rivals ['a', 'b', 'c', 'd', 'e']).length <
      maximumProductAmount .debug64 rivals.length ∧
    (Resembles ['a', 'b', 'c', 'd', 'e'] ['a', 'b', 'c', 'd', 'f'] ∧ Occurs (fun c => [c]) rivals ['a', 'b', 'c', 'd', 'f']) ∧
    ∀ v, Resembles ['a', 'b', 'c', 'd', 'e'] v → Occurs (fun c => [c]) rivals v → v ≠ ['a', 'b', 'c', 'd', 'e'] →
      F32.lt (exactConfidence (fun c => [c]) rivals v) (exactConfidence (fun c => [c]) rivals ['a', 'b', 'c', 'd', 'e']) = true := by
  obtain ⟨ix, cl, h⟩ := rivals_searchable
  refine ⟨ix, cl, h, ?_, ⟨⟨'a', ['b', 'c', 'd', 'e'], ['b', 'c', 'd', 'f'], rfl, rfl, .mistyped ['b', 'c', 'd'] [] 'e' 'f'⟩,
    _, List.mem_cons_of_mem _ (List.mem_cons_of_mem _ List.mem_cons_self), List.infix_refl _⟩, fun v hv ho hne => ?_⟩
  · have := congrArg List.length (expected_ids h.built ['a', 'b', 'c', 'd', 'e'])
    rw [List.length_map] at this
    rw [this]
    decide +kernel
  · rcases rivals_occurs (by rw [← hv.length]; rfl) ho with rfl | rfl
    · exact absurd rfl hne
    · exact rivals_lt

/-- The hypotheses of `C83_found_iff` and `C83_deterministic` are met by the same catalogue and any query. -/
example (query : List Char) : NoTies (fun c => [c]) 5 rivals query := by
  intro w hw v v' hv hv'
  have hl := paddedWindows_length (by omega) hw
  have hlt : ∀ u, BestMatch (fun c => [c]) rivals w ['a', 'b', 'c', 'd', 'f'] →
      BestMatch (fun c => [c]) rivals w u → u = ['a', 'b', 'c', 'd', 'f'] := by
    intro u hf hu
    rcases rivals_occurs (by rw [← hu.1.length]; exact hl) hu.2.1 with rfl | rfl
    · have := hf.2.2 _ hu.1 hu.2.1
      rw [rivals_lt] at this
      cases this
    · rfl
  rcases rivals_occurs (by rw [← hv.1.length]; exact hl) hv.2.1 with rfl | rfl <;>
    rcases rivals_occurs (by rw [← hv'.1.length]; exact hl) hv'.2.1 with rfl | rfl
  · rfl
  · exact hlt _ hv' hv
  · exact (hlt _ hv hv').symm
  · rfl

end Idx
