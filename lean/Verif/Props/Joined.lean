import Verif.Props.Rank
/-! # C109: the texts of a product run together -/
namespace Idx

theorem occurrences_join (k a b : List Char) :
    occurrences k a + occurrences k b ≤ occurrences k (a ++ b) ∧
      occurrences k (a ++ b) ≤ occurrences k a + occurrences k b + min a.length (k.length - 1) := by
  induction a with
  | nil => rw [occurrences_nil, List.nil_append]; omega
  | cons d a ih =>
    rw [List.cons_append, occurrences_cons, occurrences_cons, List.length_cons]
    by_cases h1 : k.isPrefixOf (d :: a) = true
    · have h2 : k.isPrefixOf (d :: (a ++ b)) = true := by
        rw [List.isPrefixOf_iff_prefix] at h1 ⊢
        exact h1.trans (List.prefix_append (d :: a) b)
      rw [if_pos h1, if_pos h2]
      omega
    · rw [if_neg h1]
      by_cases h2 : k.isPrefixOf (d :: (a ++ b)) = true
      · rw [if_pos h2]
        have : a.length + 1 < k.length := by
          apply Nat.lt_of_not_le
          intro hle
          rw [List.isPrefixOf_iff_prefix] at h1 h2
          exact h1 (List.prefix_of_prefix_length_le h2 (List.prefix_append (d :: a) b) hle)
        omega
      · rw [if_neg h2]
        omega

/-- An n-gram that does not begin with padding is among the padded windows as often as it occurs. -/
theorem count_eq_occurrences {n : Nat} (h1 : 1 ≤ n) (q : Char) (f : List Char) (hq : q ≠ dflt) (hl : (q :: f).length = n)
    (text : List Char) : (paddedWindows n text).count (q :: f) = occurrences (q :: f) text := by
  simp only [paddedWindows, List.count, List.countP_map, occurrences]
  have hn : text.length ≤ n - 1 ∨ n - 1 ≤ text.length := Nat.le_total _ _
  have hpad : ∀ i < n - 1, ¬ (((List.replicate (n - 1) dflt ++ text).drop i).take n == q :: f) = true := by
    intro i hlt hw
    have h0 := congrArg (fun l => l[0]?) (eq_of_beq hw)
    simp only [List.getElem?_take, List.getElem?_drop, Nat.add_zero, List.getElem?_cons_zero] at h0
    rw [if_pos (by omega), List.getElem?_append_left (by simpa using hlt), List.getElem?_replicate, if_pos hlt] at h0
    exact hq (Option.some.inj h0).symm
  have hshort : ∀ i, text.length < i + n → ¬ (q :: f).isPrefixOf (text.drop i) = true := by
    intro i hi hp
    rw [List.isPrefixOf_iff_prefix] at hp
    have := hp.length_le
    rw [List.length_drop, hl] at this
    omega
  rcases hn with hn | hn
  · rw [List.countP_eq_zero.2, List.countP_eq_zero.2]
    · intro i hi; exact hshort i (by omega)
    · intro i hi; exact hpad i (by have := List.mem_range.1 hi; omega)
  · obtain ⟨k, hk⟩ : ∃ k, text.length = (n - 1) + k := ⟨text.length - (n - 1), by omega⟩
    have e1 : List.range text.length = List.range (n - 1) ++ (List.range k).map ((n - 1) + ·) := by rw [hk, List.range_add]
    have e2 : List.range text.length = List.range k ++ (List.range (n - 1)).map (k + ·) := by
      rw [hk, Nat.add_comm, List.range_add]
    rw [show (List.range text.length).countP (fun i => (q :: f).isPrefixOf (text.drop i)) =
      (List.range k ++ (List.range (n - 1)).map (k + ·)).countP (fun i => (q :: f).isPrefixOf (text.drop i)) by rw [e2]]
    rw [e1, List.countP_append, List.countP_append, List.countP_eq_zero.2, Nat.zero_add, Nat.add_comm,
      (List.countP_eq_zero (l := (List.range (n - 1)).map (k + ·))).2, Nat.zero_add, List.countP_map]
    · apply List.countP_congr
      intro i hi
      simp only [Function.comp_def, beq_iff_eq, List.isPrefixOf_iff_prefix]
      rw [List.drop_append, List.drop_eq_nil_of_le (by simp), List.nil_append, List.length_replicate,
        Nat.add_sub_cancel_left, ← hl]
      constructor
      · intro e; rw [← e]; exact List.take_prefix _ _
      · intro hp; exact (List.prefix_iff_eq_take.1 hp).symm
    · intro i hi
      obtain ⟨j, _, rfl⟩ := List.mem_map.1 hi
      exact hshort _ (by omega)
    · intro i hi; exact hpad i (List.mem_range.1 hi)

/-- The three texts of a product, lower-cased one by one. -/
def fieldsOf (lower : Char → List Char) (raw : RawProduct) : List (List Char) :=
  [raw.description.flatMap lower, raw.title.flatMap lower, raw.vendor.flatMap lower]

/-- What a product is indexed under: what its texts contain, and at most 2·(N-1) occurrences more, of n-grams that begin in one text and
end in a later one. -/
theorem C109_counts (lower : Char → List Char) {n : Nat} (h1 : 1 ≤ n) (raw : RawProduct) (q : Char) (f : List Char) (hq : q ≠ dflt)
    (hl : (q :: f).length = n) :
    ((fieldsOf lower raw).map (occurrences (q :: f))).sum ≤ (paddedWindows n (textOf lower raw)).count (q :: f) ∧
    (paddedWindows n (textOf lower raw)).count (q :: f) ≤ ((fieldsOf lower raw).map (occurrences (q :: f))).sum + 2 * (n - 1) := by
  rw [count_eq_occurrences h1 q f hq hl]
  unfold textOf fieldsOf
  rw [List.flatMap_append, List.flatMap_append]
  have j1 := occurrences_join (q :: f) (raw.description.flatMap lower) (raw.title.flatMap lower)
  have j2 := occurrences_join (q :: f) (raw.description.flatMap lower ++ raw.title.flatMap lower) (raw.vendor.flatMap lower)
  rw [hl] at j1 j2
  simp only [List.map_cons, List.map_nil, List.sum_cons, List.sum_nil]
  omega

/-- A part of two texts one after the other is a part of one of them, or an end of the first followed by a beginning of the second. -/
theorem infix_join {k a b : List Char} (h : k <:+: a ++ b) :
    k <:+: a ∨ k <:+: b ∨ ∃ x y, k = x ++ y ∧ x ≠ [] ∧ y ≠ [] ∧ x <:+ a ∧ y <+: b := by
  obtain ⟨s, t, e⟩ := h
  rw [List.append_assoc, List.append_eq_append_iff] at e
  rcases e with ⟨u, rfl, e⟩ | ⟨u, rfl, e⟩
  · rw [List.append_eq_append_iff] at e
    rcases e with ⟨v, rfl, _⟩ | ⟨v, rfl, rfl⟩
    · exact .inl ⟨s, v, by simp⟩
    · by_cases hu : u = []
      · subst hu
        exact .inr (.inl ⟨[], t, by simp⟩)
      · by_cases hv : v = []
        · subst hv
          exact .inl ⟨s, [], by simp⟩
        · exact .inr (.inr ⟨u, v, rfl, hu, hv, ⟨s, rfl⟩, ⟨t, rfl⟩⟩)
  · exact .inr (.inl ⟨u, t, by rw [e, List.append_assoc]⟩)

/-- An n-gram that begins in one text of a product and ends in a later one. -/
def Across (lower : Char → List Char) (raw : RawProduct) (k : List Char) : Prop :=
  ∃ x y, k = x ++ y ∧ x ≠ [] ∧ y ≠ [] ∧
    ((x <:+ raw.description.flatMap lower ∧ y <+: raw.title.flatMap lower ++ raw.vendor.flatMap lower) ∨
      (x <:+ raw.title.flatMap lower ∧ y <+: raw.vendor.flatMap lower))

/-- Every result is justified by one of its three texts or by an n-gram across them. -/
theorem C109_hit {t o lower parse n input ix cl} (h1 : 1 ≤ n) (h2 : n ≤ 764) (hb : buildAll t o lower parse n input = .ok (ix, cl))
    (hnul : NoNul lower input) (o' : HashOrd) (query : List Char) (results : List (Product × F32))
    (hs : ix.search o' n query = .ok results) (p : Product) (c : F32) (hp : (p, c) ∈ results) :
    ∃ raw, input[p.sid]? = some raw ∧ ∃ q w f seen e,
      (q :: w) <:+: query ∧ (q :: w).length = n ∧ (q :: f).length = n ∧
      ((∃ field ∈ fieldsOf lower raw, (q :: f) <:+: field) ∨ Across lower raw (q :: f)) ∧
      seen <+: w ∧ e ≤ n / 3 ∧ Edits e seen f := by
  obtain ⟨raw, hraw, q, w, f, seen, e, g1, g2, g3, g4, g5⟩ := C26_justified h1 h2 hb hnul o' query results hs p c hp
  refine ⟨raw, hraw, q, w, f, seen, e, g1, g2, g4, ?_, g5⟩
  unfold textOf at g3
  rw [List.append_assoc, List.flatMap_append, List.flatMap_append] at g3
  rcases infix_join g3 with h | h | ⟨x, y, e, hx, hy, h, h'⟩
  · exact .inl ⟨_, by simp [fieldsOf], h⟩
  · rcases infix_join h with h | h | ⟨x, y, e, hx, hy, h, h'⟩
    · exact .inl ⟨_, by simp [fieldsOf], h⟩
    · exact .inl ⟨_, by simp [fieldsOf], h⟩
    · exact .inr ⟨x, y, e, hx, hy, .inr ⟨h, h'⟩⟩
  · exact .inr ⟨x, y, e, hx, hy, .inl ⟨h, h'⟩⟩

/-- Four products; no text of the first has five characters. -/
def parts : List RawProduct :=
  [mkRaw "kun".toList "st".toList ['1'], mkRaw [] "vase".toList ['2'], mkRaw [] "lampe".toList ['3'], mkRaw [] "stol".toList ['4']]

set_option maxRecDepth 10000 in
/-- It is false that every result is justified by one of its texts: "kunst" finds a product described as "kun" and named "st", of which
no text has a 5-gram. -/
theorem C109_false : ∃ (ix : GramIndex Char) (cl : Classic) (r : List (Product × F32)) (raw : RawProduct),
    Searchable .debug64 .ident (fun c => [c]) parseOne 5 parts ix cl ∧ NoNul (fun c => [c]) parts ∧
    ix.search .ident 5 "kunst".toList = .ok r ∧ r.map (·.1.id) = [raw.id] ∧ raw ∈ parts ∧
    ∀ field ∈ fieldsOf (fun c => [c]) raw, field.length < 5 := by
  have h : ((runSearch .debug64 .ident 5 parts "kunst".toList).map fun l => l.map (·.1)) = some [['1']] := by
    decide +kernel
  obtain ⟨l, hl, e⟩ := Option.map_eq_some_iff.1 h
  obtain ⟨ix, cl, r, b, s, f⟩ := runSearch_sound hl
  refine ⟨ix, cl, r, mkRaw "kun".toList "st".toList ['1'], ⟨by omega, by omega, b, by decide +kernel⟩, ?_, s, ?_,
    by simp [parts], by decide +kernel⟩
  · unfold NoNul; decide +kernel
  · rw [show [(mkRaw "kun".toList "st".toList ['1']).id] = [['1']] from rfl, ← e, ← f]; simp

/-- The hypotheses of `C109_hit` are met by the same search, and those of `C109_counts` by what it found. -/
example : ∃ ix cl r p c, buildAll .debug64 .ident (fun c => [c]) parseOne 5 parts = .ok (ix, cl) ∧ NoNul (fun c => [c]) parts ∧
    ix.search .ident 5 "kunst".toList = .ok r ∧ (p, c) ∈ r := by
  obtain ⟨ix, cl, r, raw, hs, hn, hr, he, _⟩ := C109_false
  cases r with
  | nil => cases he
  | cons x r => exact ⟨ix, cl, x :: r, x.1, x.2, hs.built, hn, hr, by simp⟩
example : (['k', 'u', 'n', 's', 't'] : List Char).length = 5 ∧ 'k' ≠ (dflt : Char) := by decide

end Idx
