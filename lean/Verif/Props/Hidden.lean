import Verif.Props.Joined
import Verif.Props.Reload
/-! # C111: one product can make a catalogue unsearchable -/
namespace Idx

/-- A text repeated. -/
def rep (m : Nat) (l : List Char) : List Char := (List.replicate m l).flatten

theorem rep_succ (m : Nat) (l : List Char) : rep (m + 1) l = l ++ rep m l := by
  simp [rep, List.replicate_succ]

theorem rep_flatMap (f : Char → List Char) (l : List Char) : ∀ m, (rep m l).flatMap f = rep m (l.flatMap f)
  | 0 => rfl
  | m + 1 => by rw [rep_succ, rep_succ, List.flatMap_append, rep_flatMap f l m]

theorem rep_add (a b : Nat) (l : List Char) : rep (a + b) l = rep a l ++ rep b l := by
  induction a with
  | zero => rw [Nat.zero_add]; rfl
  | succ a ih => rw [Nat.succ_add, rep_succ, rep_succ, ih, List.append_assoc]

theorem rep_rep (a b : Nat) (l : List Char) : rep a (rep b l) = rep (a * b) l := by
  induction a with
  | zero => rw [Nat.zero_mul]; rfl
  | succ a ih => rw [rep_succ, ih, Nat.succ_mul, Nat.add_comm, rep_add]

theorem rep_length (m : Nat) (l : List Char) : (rep m l).length = m * l.length := by
  induction m with
  | zero => rw [Nat.zero_mul]; rfl
  | succ m ih => rw [rep_succ, List.length_append, ih, Nat.succ_mul, Nat.add_comm]

theorem rep_prefix {a b : Nat} (h : a ≤ b) (l : List Char) : rep a l <+: rep b l := by
  obtain ⟨c, rfl⟩ := Nat.le.dest h
  rw [rep_add]
  exact List.prefix_append _ _

/-- `n` characters of a repeated text are within `n + 1` repetitions. -/
theorem infix_rep {T k : List Char} (hT : T ≠ []) : ∀ a, k <:+: rep a T → k <:+: rep (k.length + 1) T
  | 0, h => h.trans (rep_prefix (Nat.zero_le _) T).isInfix
  | a + 1, h => by
    by_cases ha : a + 1 ≤ k.length + 1
    · exact h.trans (rep_prefix ha T).isInfix
    · obtain ⟨s, e, hse⟩ := h
      have hpos : 1 ≤ T.length := List.length_pos_iff.2 hT
      by_cases hs : T.length ≤ s.length
      · apply infix_rep hT a
        rw [rep_succ, List.append_assoc] at hse
        rcases List.append_eq_append_iff.1 hse with ⟨u, h1, h2⟩ | ⟨u, h1, h2⟩
        · have : u = [] := by
            have := congrArg List.length h1
            rw [List.length_append] at this
            exact List.length_eq_zero_iff.1 (by omega)
          subst this
          exact ⟨[], e, by rw [List.nil_append]; exact h2⟩
        · exact ⟨u, e, by rw [List.append_assoc]; exact h2.symm⟩
      · have hp : s ++ k <+: rep (a + 1) T := ⟨e, hse⟩
        have hq : rep (k.length + 1) T <+: rep (a + 1) T := rep_prefix (by omega) T
        have : s ++ k <+: rep (k.length + 1) T := by
          apply List.prefix_of_prefix_length_le hp hq
          rw [rep_length, List.length_append, Nat.succ_mul]
          have : k.length * 1 ≤ k.length * T.length := Nat.mul_le_mul_left _ hpos
          omega
        exact (List.suffix_append s k).isInfix.trans this.isInfix

theorem occurrences_rep {k B : List Char} (hk : k ≠ []) (h : k <:+: B) (m : Nat) : m ≤ occurrences k (rep m B) := by
  induction m with
  | zero => exact Nat.zero_le _
  | succ m ih =>
    rw [rep_succ]
    have h1 := (occurrences_join k B (rep m B)).1
    have h2 := (occurrences_pos_iff k B hk).2 h
    omega

/-- Everything that occurs is among the padded windows, as often. -/
theorem occurrences_le_count {n : Nat} (h1 : 1 ≤ n) (k : List Char) (hl : k.length = n)
    (text : List Char) : occurrences k text ≤ (paddedWindows n text).count k := by
  simp only [paddedWindows, List.count, List.countP_map, occurrences]
  have hshort : ∀ i, text.length < i + n → ¬ k.isPrefixOf (text.drop i) = true := by
    intro i hi hp
    rw [List.isPrefixOf_iff_prefix] at hp
    have := hp.length_le
    rw [List.length_drop, hl] at this
    omega
  rcases Nat.le_total text.length (n - 1) with hn | hn
  · rw [List.countP_eq_zero.2]
    · exact Nat.zero_le _
    · intro i hi; exact hshort i (by omega)
  · obtain ⟨j, hj⟩ : ∃ j, text.length = (n - 1) + j := ⟨text.length - (n - 1), by omega⟩
    have e1 : List.range text.length = List.range (n - 1) ++ (List.range j).map ((n - 1) + ·) := by rw [hj, List.range_add]
    have e2 : List.range text.length = List.range j ++ (List.range (n - 1)).map (j + ·) := by
      rw [hj, Nat.add_comm, List.range_add]
    rw [show (List.range text.length).countP (fun i => k.isPrefixOf (text.drop i)) =
      (List.range j ++ (List.range (n - 1)).map (j + ·)).countP (fun i => k.isPrefixOf (text.drop i)) by rw [e2]]
    rw [e1, List.countP_append, List.countP_append,
      (List.countP_eq_zero (l := (List.range (n - 1)).map (j + ·))).2, Nat.add_zero, List.countP_map]
    · refine Nat.le_trans (Nat.le_of_eq ?_) (Nat.le_add_left _ _)
      apply List.countP_congr
      intro i hi
      simp only [Function.comp_def, beq_iff_eq, List.isPrefixOf_iff_prefix]
      rw [List.drop_append, List.drop_eq_nil_of_le (as := List.replicate (n - 1) dflt) (by simp), List.nil_append,
        List.length_replicate, Nat.add_sub_cancel_left, ← hl]
      constructor
      · intro hp; exact (List.prefix_iff_eq_take.1 hp).symm
      · intro e; rw [← e]; exact List.take_prefix _ _
    · intro i hi
      obtain ⟨j, _, rfl⟩ := List.mem_map.1 hi
      exact hshort _ (by omega)

/-! ## When nothing is found at all -/

/-- If every n-gram of the catalogue occurs at least as often as the cut-off, no query finds anything. -/
theorem C111_nothing {t o lower parse n input ix cl} (h1 : 1 ≤ n) (h2 : n ≤ 764)
    (hb : buildAll t o lower parse n input = .ok (ix, cl))
    (hall : ∀ k : List Char, k.length = n → (∃ raw ∈ input, k <:+: textOf lower raw) →
      maximumProductAmount t input.length ≤ occurrencesAll lower n input k) (o' : HashOrd) (query : List Char) :
    ix.search o' n query = .ok [] := by
  obtain ⟨results, hs⟩ := C48_search_total o' ix h1 h2 query
  cases results with
  | nil => exact hs
  | cons r results =>
    obtain ⟨x, xs, e, _⟩ := (C60 h1 h2 hb o' query _ hs r.1.id r.2).1 (by simp)
    have hx : x ∈ (paddedWindows n query).flatMap fun w => windowScores t lower n input r.1.id (lookup ix n w) := by
      rw [e]; simp
    obtain ⟨w, hw, hx⟩ := List.mem_flatMap.1 hx
    obtain ⟨res, hres⟩ := C48_gram_total ix h1 h2 w
    have hl : lookup ix n w = res := by unfold lookup; rw [hres]
    rw [hl] at hx
    cases res with
    | none => cases hx
    | some kc =>
      obtain ⟨k, conf⟩ := kc
      obtain ⟨q, w', seen, f, node, rfl, rfl, hlen, hhas, _⟩ := searchGram_sound h1 h2 hres
      have hin := ((C21_path_iff_substring h1 hb (q :: f) (by simp)).1 ⟨node, hhas⟩).2
      have := hall (q :: f) hlen hin
      simp only [windowScores] at hx
      rw [if_neg (by omega)] at hx
      cases hx

/-- All the texts of a catalogue, one after the other. -/
def allTexts (input : List RawProduct) : Str := input.flatMap fun raw => raw.description ++ raw.title ++ raw.vendor

/-- A product without title and vendor, whose description repeats all texts of the catalogue. -/
def flood (t : Target) (n : Nat) (input : List RawProduct) (raw : RawProduct) : RawProduct :=
  { raw with description := rep (maximumProductAmount t (input.length + 1)) (rep (n + 1) (allTexts input)), title := [], vendor := [] }

theorem flood_text (t : Target) (lower : Char → List Char) (n : Nat) (input : List RawProduct) (raw : RawProduct) :
    textOf lower (flood t n input raw) =
      rep (maximumProductAmount t (input.length + 1)) (rep (n + 1) ((allTexts input).flatMap lower)) := by
  simp only [textOf, flood, List.append_nil]
  rw [rep_flatMap, rep_flatMap]

theorem infix_allTexts (lower : Char → List Char) {input : List RawProduct} {raw : RawProduct} (h : raw ∈ input) :
    textOf lower raw <:+: (allTexts input).flatMap lower := by
  obtain ⟨a, b, rfl⟩ := List.append_of_mem h
  simp only [allTexts, List.flatMap_append, List.flatMap_cons, textOf]
  rw [← List.append_assoc]
  exact List.infix_append _ _ _

/-- Whatever the catalogue, one more product makes every search find nothing. -/
theorem C111_flood {t o lower parse n ix cl} {input : List RawProduct} (h1 : 1 ≤ n) (h2 : n ≤ 764) (raw : RawProduct)
    (hb : buildAll t o lower parse n (input ++ [flood t n input raw]) = .ok (ix, cl)) (o' : HashOrd) (query : List Char) :
    ix.search o' n query = .ok [] := by
  refine C111_nothing h1 h2 hb ?_ o' query
  intro k hl hk
  have hk0 : k ≠ [] := by intro e; subst e; simp at hl; omega
  rw [List.length_append, List.length_singleton]
  have htext := flood_text t lower n input raw
  have hinf := fun r (hr : r ∈ input) => infix_allTexts lower hr
  generalize (allTexts input).flatMap lower = T at htext hinf
  have hin : ∃ a, k <:+: rep a T := by
    obtain ⟨r, hr, hkr⟩ := hk
    rcases List.mem_append.1 hr with hr | hr
    · refine ⟨1, (hkr.trans (hinf r hr)).trans ?_⟩
      rw [rep_succ]; exact (List.prefix_append _ _).isInfix
    · rw [List.mem_singleton] at hr
      rw [hr, htext, rep_rep] at hkr
      exact ⟨_, hkr⟩
  obtain ⟨a, ha⟩ := hin
  have hT : T ≠ [] := by
    intro e
    rw [e] at ha
    have h0 : rep a [] = [] := List.length_eq_zero_iff.1 (by rw [rep_length]; rfl)
    rw [h0] at ha
    exact hk0 (List.infix_nil.1 ha)
  have hB := infix_rep hT a ha
  rw [hl] at hB
  have hocc := occurrences_rep hk0 hB (maximumProductAmount t (input.length + 1))
  have hc := occurrences_le_count h1 k hl (textOf lower (flood t n input raw))
  rw [htext] at hc
  unfold occurrencesAll
  rw [List.map_append, List.sum_append, List.map_singleton, List.sum_singleton, htext]
  omega

/-- Such a catalogue is built, and the page that loads its file finds nothing either. -/
theorem C111_page {t o lower parse n ix cl} {input : List RawProduct} (h1 : 1 ≤ n) (h2 : n ≤ 764) (raw : RawProduct)
    (hb : buildAll t o lower parse n (input ++ [flood t n input raw]) = .ok (ix, cl)) (o' : HashOrd) (t' : Target)
    (hf : Fits t' (serializeAll o' ix cl).length) :
    ∃ ix' cl', deserializeAll t' n (serializeAll o' ix cl) = .ok (ix', cl') ∧
      ∀ (o₂ : HashOrd) (query : List Char), ix'.search o₂ n query = .ok [] := by
  obtain ⟨ix', cl', e, hp⟩ := C11 h1 h2 hb o' t' hf
  refine ⟨ix', cl', e, fun o₂ query => ?_⟩
  obtain ⟨r', hr'⟩ := C48_search_total o₂ ix' h1 h2 query
  have := hp o₂ o₂ query [] r' (C111_flood h1 h2 raw hb o₂ query) hr'
  rw [List.map_nil, List.perm_nil] at this
  rw [hr', this]

theorem flood_price (t : Target) (n : Nat) (input : List RawProduct) (raw : RawProduct) : (flood t n input raw).price = raw.price := by
  rw [flood]

theorem prices_of_build {t : Target} {o lower parse n ix cl} {input : List RawProduct}
    (hb : buildAll t o lower parse n input = .ok (ix, cl)) (r : RawProduct) (hr : r ∈ input) :
    ∃ x, parse r.price.min.amount = some x := by
  obtain ⟨prices, b⟩ := (builtAll_of_ok hb).built
  have := b.parsed
  have h2 : parse r.price.min.amount ∈ prices.map some := by
    rw [← this]; exact List.mem_map.2 ⟨r, hr, rfl⟩
  obtain ⟨x, _, hx⟩ := List.mem_map.1 h2
  exact ⟨x, hx.symm⟩

/-- If the catalogue could be built, so can it with the product, whatever its id, tags, options and images, if its price
can be read. -/
theorem C111_builds {t : Target} {o lower parse n ix cl} {input : List RawProduct}
    (hb : buildAll t o lower parse n input = .ok (ix, cl)) (raw : RawProduct) (x : F32) (hp : parse raw.price.min.amount = some x) :
    ∃ ix' cl', buildAll t o lower parse n (input ++ [flood t n input raw]) = .ok (ix', cl') := by
  rcases parse_cases parse (input ++ [flood t n input raw]) with ⟨r, hr, e⟩ | ⟨prices, hps⟩
  · rcases List.mem_append.1 hr with hr | hr
    · obtain ⟨y, hy⟩ := prices_of_build hb r hr
      rw [hy] at e
      cases e
    · have hr := List.mem_singleton.1 hr
      have he : r.price = raw.price := by rw [hr, flood_price]
      rw [he, hp] at e
      cases e
  · exact buildAll_ok t o lower parse n _ prices hps

/-- The price of it: how many characters that product has. -/
theorem C111_size (t : Target) (n : Nat) (input : List RawProduct) (raw : RawProduct) :
    (flood t n input raw).description.length = maximumProductAmount t (input.length + 1) * ((n + 1) * (allTexts input).length) := by
  simp only [flood]
  rw [rep_length, rep_length]

end Idx
