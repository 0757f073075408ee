import Verif.Lemmas.Ratio
import Verif.Lemmas.Limit
import Verif.Props.Handlers
import Verif.Props.File
import Verif.Model.Engine
/-! # C40, C41: tag suggestions -/
namespace Idx

/-! ## The words of the query -/

/-- Put the words back together with single spaces. -/
def joinSpaces : List Str → Str
  | [] => []
  | [w] => w
  | w :: ws => w ++ ' ' :: joinSpaces ws

/-- The words are the unique way of cutting the query at every space. -/
theorem C40_words (query : Str) :
    splitSpaces query ≠ [] ∧ (∀ w ∈ splitSpaces query, ' ' ∉ w) ∧ joinSpaces (splitSpaces query) = query := by
  induction query with
  | nil => simp [splitSpaces, joinSpaces]
  | cons c rest ih =>
    obtain ⟨h1, h2, h3⟩ := ih
    unfold splitSpaces
    by_cases hc : c = ' '
    · rw [if_pos hc]
      refine ⟨by simp, ?_, ?_⟩
      · intro w hw
        rcases List.mem_cons.1 hw with rfl | hw
        · simp
        · exact h2 w hw
      · cases hs : splitSpaces rest with
        | nil => exact absurd hs h1
        | cons w ws =>
          rw [hs] at h3
          simp [joinSpaces, h3, hc]
    · rw [if_neg hc]
      cases hs : splitSpaces rest with
      | nil => exact absurd hs h1
      | cons w ws =>
        rw [hs] at h2 h3
        refine ⟨by simp, ?_, ?_⟩
        · intro x hx
          rcases List.mem_cons.1 hx with rfl | hx
          · have := h2 w (by simp)
            simp only [List.mem_cons, not_or]
            exact ⟨fun h => hc h.symm, this⟩
          · exact h2 x (by simp [hx])
        · cases ws with
          | nil => simpa [joinSpaces] using h3
          | cons v vs => simpa [joinSpaces] using h3

theorem split_of_join (ws : List Str) (hne : ws ≠ []) (h : ∀ w ∈ ws, ' ' ∉ w) : splitSpaces (joinSpaces ws) = ws := by
  induction ws with
  | nil => exact absurd rfl hne
  | cons w ws ih =>
    have key : ∀ (w : Str) (tail : Str), ' ' ∉ w → splitSpaces (w ++ ' ' :: tail) = w :: splitSpaces tail := by
      intro w tail hw
      induction w with
      | nil => simp [splitSpaces]
      | cons c w ihw =>
        simp only [List.mem_cons, not_or] at hw
        have := ihw hw.2
        simp only [List.cons_append, splitSpaces, this]
        rw [if_neg fun e => hw.1 e.symm]
    have single : ∀ w : Str, ' ' ∉ w → splitSpaces w = [w] := by
      intro w hw
      induction w with
      | nil => rfl
      | cons c w ihw =>
        simp only [List.mem_cons, not_or] at hw
        rw [splitSpaces, if_neg fun e => hw.1 e.symm, ihw hw.2]
    cases ws with
    | nil => exact single w (h w (by simp))
    | cons v vs =>
      rw [show joinSpaces (w :: v :: vs) = w ++ ' ' :: joinSpaces (v :: vs) from rfl, key w _ (h w (by simp)),
        ih (by simp) fun x hx => h x (by simp [hx])]

/-! ## The loop picks the first best pair -/

theorem F32.Val.lt_trans {a b c : F32.Val} (h1 : F32.Val.lt a b = true) (h2 : F32.Val.lt b c = true) :
    F32.Val.lt a c = true := by
  cases a <;> cases b <;> cases c <;> simp_all [F32.Val.lt] <;> omega

/-- What is not above `b` is below everything above `b`. -/
theorem F32.Val.lt_of_not_lt {a b c : F32.Val} (ha : a ≠ .nan) (h1 : F32.Val.lt b a = false)
    (h2 : F32.Val.lt b c = true) : F32.Val.lt a c = true := by
  cases a <;> cases b <;> cases c <;> simp_all [F32.Val.lt] <;> omega

theorem F32.Val.ne_nan_of_lt {a b : F32.Val} (h : F32.Val.lt b a = true) : a ≠ .nan := by
  rintro rfl
  cases b <;> simp [F32.Val.lt] at h

/-- All pairs of a word and a tag, in the order of the loops. -/
def wordTagPairs (tags : List Tag) (query : Str) : List (Str × Tag) :=
  (splitSpaces query).flatMap fun w => tags.map fun t => (w, t)

theorem mem_wordTagPairs {tags : List Tag} {query : Str} {x : Str × Tag} :
    x ∈ wordTagPairs tags query ↔ x.1 ∈ splitSpaces query ∧ x.2 ∈ tags := by
  obtain ⟨w, t⟩ := x
  simp [wordTagPairs]

/-- The similarity the code computes. -/
def similarity (x : Str × Tag) : F32 := overlap x.2.name x.1 3

theorem suggestLoop_eq (tags : List Tag) (query : Str) :
    suggestLoop tags query = (wordTagPairs tags query).foldl (fun b x => suggestStep x.1 b x.2) none := by
  unfold suggestLoop wordTagPairs
  rw [List.foldl_flatMap]
  congr 1
  funext b w
  rw [List.foldl_map]

/-- The candidate after some pairs. -/
def FirstBest (done : List (Str × Tag)) : Likely → Prop
  | none => ∀ x ∈ done, F32.lt F32.zeroPointEight (similarity x) = false
  | some (ov, id, w) => ∃ pre t post, done = pre ++ (w, t) :: post ∧ t.id = id ∧ ov = similarity (w, t) ∧
      F32.lt F32.zeroPointEight ov = true ∧
      (∀ x ∈ pre, F32.lt F32.zeroPointEight (similarity x) = true → F32.lt (similarity x) ov = true) ∧
      ∀ x ∈ post, F32.lt ov (similarity x) = false

theorem firstBest_step (done : List (Str × Tag)) (b : Likely) (h : FirstBest done b) (x : Str × Tag) :
    FirstBest (done ++ [x]) (suggestStep x.1 b x.2) := by
  obtain ⟨w, t⟩ := x
  unfold suggestStep
  simp only
  rw [show overlap t.name w 3 = similarity (w, t) from rfl]
  by_cases hx : F32.lt F32.zeroPointEight (similarity (w, t)) = true
  · rw [if_pos hx]
    cases b with
    | none =>
      refine ⟨done, t, [], rfl, rfl, rfl, hx, ?_, by simp⟩
      intro y hy hy'
      rw [h y hy] at hy'
      cases hy'
    | some b =>
      obtain ⟨ov, id, w₀⟩ := b
      obtain ⟨pre, t₀, post, hd, hid, hov, habove, hpre, hpost⟩ := h
      simp only
      by_cases hlt : F32.lt ov (similarity (w, t)) = true
      · rw [if_pos hlt]
        refine ⟨done, t, [], rfl, rfl, rfl, hx, ?_, by simp⟩
        intro y hy hy'
        rw [hd] at hy
        rcases List.mem_append.1 hy with hy | hy
        · exact F32.Val.lt_trans (hpre y hy hy') hlt
        · rcases List.mem_cons.1 hy with rfl | hy
          · rw [← hov]; exact hlt
          · exact F32.Val.lt_of_not_lt (F32.Val.ne_nan_of_lt hy') (hpost y hy) hlt
      · rw [if_neg hlt]
        refine ⟨pre, t₀, post ++ [(w, t)], by rw [hd]; simp, hid, hov, habove, hpre, ?_⟩
        intro y hy
        rcases List.mem_append.1 hy with hy | hy
        · exact hpost y hy
        · simp only [List.mem_singleton] at hy
          subst hy
          simpa using hlt
  · rw [if_neg hx]
    have hx : F32.lt F32.zeroPointEight (similarity (w, t)) = false := by simpa using hx
    cases b with
    | none =>
      intro y hy
      rcases List.mem_append.1 hy with hy | hy
      · exact h y hy
      · simp only [List.mem_singleton] at hy
        subst hy
        exact hx
    | some b =>
      obtain ⟨ov, id, w₀⟩ := b
      obtain ⟨pre, t₀, post, hd, hid, hov, habove, hpre, hpost⟩ := h
      refine ⟨pre, t₀, post ++ [(w, t)], by rw [hd]; simp, hid, hov, habove, hpre, ?_⟩
      intro y hy
      rcases List.mem_append.1 hy with hy | hy
      · exact hpost y hy
      · simp only [List.mem_singleton] at hy
        subst hy
        cases hc : F32.lt ov (similarity (w, t)) with
        | false => rfl
        | true =>
          have := F32.Val.lt_trans habove hc
          rw [show F32.Val.lt F32.zeroPointEight.val (similarity (w, t)).val =
            F32.lt F32.zeroPointEight (similarity (w, t)) from rfl, hx] at this
          cases this

/-- For all tags and queries, of any length: the loop's result is the first pair of greatest similarity among those
above 0.8, and there is none iff no pair is above 0.8. -/
theorem C40_float (tags : List Tag) (query : Str) : FirstBest (wordTagPairs tags query) (suggestLoop tags query) := by
  rw [suggestLoop_eq]
  have : ∀ (todo done : List (Str × Tag)) (b : Likely), FirstBest done b →
      FirstBest (done ++ todo) (todo.foldl (fun b x => suggestStep x.1 b x.2) b) := by
    intro todo
    induction todo with
    | nil => intro done b h; simpa using h
    | cons x todo ih =>
      intro done b h
      have := ih (done ++ [x]) _ (firstBest_step done b h x)
      simpa using this
  exact this _ [] none (by simp [FirstBest])

/-! ## What the similarity is -/

/-- Spec: at how many positions the two texts have the same character. -/
def agree : Str → Str → Nat
  | a :: as, b :: bs => (if a = b then 1 else 0) + agree as bs
  | _, _ => 0

/-- Spec: length in bytes of the shorter text. -/
def shorter (a b : Str) : Nat := min (byteLen a) (byteLen b)

/-- Spec: both have at least three bytes and more than four fifths of the shorter one agrees. -/
def Similar (x : Str × Tag) : Prop :=
  3 ≤ shorter x.2.name x.1 ∧ 4 * shorter x.2.name x.1 < 5 * agree x.2.name x.1

theorem agree_le (a b : Str) : agree a b ≤ shorter a b := by
  unfold shorter
  induction a generalizing b with
  | nil => simp [agree]
  | cons x a ih =>
    cases b with
    | nil => simp [agree]
    | cons y b =>
      have := ih b
      have h1 : 1 ≤ x.utf8Size := Char.utf8Size_pos x
      have h2 : 1 ≤ y.utf8Size := Char.utf8Size_pos y
      simp only [agree, byteLen_cons]
      split <;> omega

theorem marks_sum (a b : Str) (x : F32) (k : Nat) (hx : x.val = .fin false (k * 2 ^ 149)) (h : k + agree a b ≤ 2 ^ 24) :
    (((a.zip b).map fun (a, b) => if a = b then F32.one else F32.zero).foldl F32.add x).val =
      .fin false ((k + agree a b) * 2 ^ 149) := by
  induction a generalizing b x k with
  | nil => simpa [agree] using hx
  | cons c a ih =>
    cases b with
    | nil => simpa [agree] using hx
    | cons d b =>
      simp only [List.zip_cons_cons, List.map_cons, List.foldl_cons, agree] at h ⊢
      by_cases hcd : c = d
      · rw [if_pos hcd] at h
        simp only [if_pos hcd]
        rw [ih b _ (k + 1) (F32.add_exact hx F32.val_one' (by omega)) (by omega)]
        rw [Nat.add_assoc]
      · rw [if_neg hcd] at h
        simp only [if_neg hcd]
        rw [ih b _ k (by have := F32.add_exact hx F32.val_zero (by omega); rwa [Nat.add_zero] at this) (by omega)]
        rw [Nat.zero_add]

theorem sumFloats_marks (a b : Str) (h : agree a b ≤ 2 ^ 24) :
    (sumFloats ((a.zip b).map fun (a, b) => if a = b then F32.one else F32.zero)).val =
      .fin false (agree a b * 2 ^ 149) := by
  cases a with
  | nil => exact F32.val_zero
  | cons c a =>
    cases b with
    | nil => exact F32.val_zero
    | cons d b =>
      simp only [List.zip_cons_cons, List.map_cons, sumFloats, agree] at h ⊢
      by_cases hcd : c = d
      · rw [if_pos hcd] at h
        simp only [if_pos hcd]
        exact marks_sum a b _ 1 F32.val_one' h
      · rw [if_neg hcd] at h
        simp only [if_neg hcd]
        exact marks_sum a b _ 0 F32.val_zero h

/-- The similarity is the float nearest to (agreeing characters) / (bytes of the shorter text). -/
theorem overlap_val (a b : Str) (h3 : 3 ≤ shorter a b) (h : shorter a b ≤ 2 ^ 24) :
    (overlap a b 3).val = .fin false (F32.quot (agree a b) (shorter a b)) := by
  unfold overlap
  simp only
  rw [if_neg (show ¬ min (byteLen a) (byteLen b) < 3 from Nat.not_lt.2 h3)]
  exact F32.div_quot (sumFloats_marks a b (Nat.le_trans (agree_le a b) h)) (F32.ofNat_exact h) (by omega) (agree_le a b)

theorem overlap_short (a b : Str) (h3 : ¬ 3 ≤ shorter a b) : overlap a b 3 = F32.zero := by
  unfold overlap
  simp only
  rw [if_pos (show min (byteLen a) (byteLen b) < 3 from Nat.not_le.1 h3)]

/-- The test `overlap > 0.8` is exactly "more than four fifths", for shorter texts up to two megabytes. -/
theorem similar_iff (x : Str × Tag) (h : shorter x.2.name x.1 ≤ 2 ^ 21) :
    F32.lt F32.zeroPointEight (similarity x) = true ↔ Similar x := by
  unfold similarity Similar
  by_cases h3 : 3 ≤ shorter x.2.name x.1
  · rw [F32.lt_fin F32.val_eighth (overlap_val _ _ h3 (by simp only [Nat.reducePow] at *; omega)), decide_eq_true_iff,
      F32.eighth_lt_quot (by omega) h]
    simp [h3]
  · rw [overlap_short _ _ h3]
    simp only [h3, false_and, iff_false]
    decide +kernel

/-- Similarities compare like the fractions, for shorter texts up to 2048 bytes. -/
theorem similarity_lt_iff (x y : Str × Tag) (hx : Similar x) (hy : Similar y) (hx2 : shorter x.2.name x.1 ≤ 2048)
    (hy2 : shorter y.2.name y.1 ≤ 2048) :
    F32.lt (similarity x) (similarity y) = true ↔
      agree x.2.name x.1 * shorter y.2.name y.1 < agree y.2.name y.1 * shorter x.2.name x.1 := by
  unfold similarity
  rw [F32.lt_fin (overlap_val _ _ hx.1 (by simp only [Nat.reducePow]; omega))
    (overlap_val _ _ hy.1 (by simp only [Nat.reducePow]; omega)), decide_eq_true_iff]
  exact F32.quot_lt_iff (by have := hx.1; omega) (by have := hy.1; omega) (agree_le _ _)
    (Nat.le_trans (Nat.mul_le_mul hx2 hy2) (by decide))

/-- Spec: `y` agrees in a strictly larger part of its shorter text than `x`. -/
def LessSimilar (x y : Str × Tag) : Prop :=
  agree x.2.name x.1 * shorter y.2.name y.1 < agree y.2.name y.1 * shorter x.2.name x.1

theorem shorter_le {a b : Str} {k : Nat} (h : byteLen a ≤ k) : shorter a b ≤ k := by unfold shorter; omega

/-- If tag names have at most 2048 bytes: the suggestion is for the first pair of a word and a tag that agrees in the
largest part, more than four fifths, and there is none iff no pair does. -/
theorem C40 (tags : List Tag) (query : Str) (hlen : ∀ t ∈ tags, byteLen t.name ≤ 2048) :
    (suggestLoop tags query = none ↔ ∀ w ∈ splitSpaces query, ∀ t ∈ tags, ¬ Similar (w, t)) ∧
    ∀ ov id w, suggestLoop tags query = some (ov, id, w) →
      ∃ pre t post, wordTagPairs tags query = pre ++ (w, t) :: post ∧ t.id = id ∧ ov = overlap t.name w 3 ∧ Similar (w, t) ∧
        (∀ x ∈ pre, Similar x → LessSimilar x (w, t)) ∧ ∀ x ∈ post, Similar x → ¬ LessSimilar (w, t) x := by
  have hb := C40_float tags query
  have hshort : ∀ x ∈ wordTagPairs tags query, shorter x.2.name x.1 ≤ 2048 := fun x hx =>
    shorter_le (hlen x.2 (mem_wordTagPairs.1 hx).2)
  have hsim : ∀ x ∈ wordTagPairs tags query, (F32.lt F32.zeroPointEight (similarity x) = true ↔ Similar x) :=
    fun x hx => similar_iff x (by have := hshort x hx; simp only [Nat.reducePow]; omega)
  constructor
  · constructor
    · intro hn w hw t ht hs
      rw [hn] at hb
      have hm : (w, t) ∈ wordTagPairs tags query := mem_wordTagPairs.2 ⟨hw, ht⟩
      have := hb (w, t) hm
      rw [(hsim _ hm).2 hs] at this
      cases this
    · intro hno
      cases hl : suggestLoop tags query with
      | none => rfl
      | some l =>
        obtain ⟨ov, id, w⟩ := l
        rw [hl] at hb
        obtain ⟨pre, t, post, hd, _, hov, habove, _⟩ := hb
        have hm : (w, t) ∈ wordTagPairs tags query := by rw [hd]; simp
        rw [hov] at habove
        exact absurd ((hsim _ hm).1 habove) (hno w (mem_wordTagPairs.1 hm).1 t (mem_wordTagPairs.1 hm).2)
  · intro ov id w hl
    rw [hl] at hb
    obtain ⟨pre, t, post, hd, hid, hov, habove, hpre, hpost⟩ := hb
    have hm : (w, t) ∈ wordTagPairs tags query := by rw [hd]; simp
    have hs : Similar (w, t) := (hsim _ hm).1 (by rw [← hov]; exact habove)
    refine ⟨pre, t, post, hd, hid, hov, hs, ?_, ?_⟩
    · intro x hx hxs
      have hxm : x ∈ wordTagPairs tags query := by rw [hd]; simp [hx]
      have := hpre x hx ((hsim x hxm).2 hxs)
      rw [hov] at this
      exact (similarity_lt_iff _ _ hxs hs (hshort x hxm) (hshort _ hm)).1 this
    · intro x hx hxs hlt
      have hxm : x ∈ wordTagPairs tags query := by rw [hd]; simp [hx]
      have := hpost x hx
      rw [hov, (similarity_lt_iff _ _ hs hxs (hshort _ hm) (hshort x hxm)).2 hlt] at this
      cases this

/-- What the caller gets: the suggested tag exists and carries its name, the input is a word of the query. -/
theorem C40_engine (e : Engine) (query : Str) (c : Classic) (hfree : e.classic.state = .free)
    (hv : e.classic.value = some c) (hc : TagsNumbered c) :
    ∃ r, e.tagSuggestion query = .ok r ∧ (r = none ↔ suggestLoop c.tags query = none) ∧
      ∀ s, r = some s → s.input ∈ splitSpaces query ∧ ∃ (tag : Tag) (ov : F32), tag ∈ c.tags ∧
        s.tag.getName = .ok tag.name ∧ s.tag.getId = .ok tag.id ∧ suggestLoop c.tags query = some (ov, tag.id, s.input) := by
  refine ⟨(suggestLoop c.tags query).map fun l => ⟨⟨c, l.2.1⟩, l.2.2⟩, ?_, ?_, ?_⟩
  · simp only [Engine.tagSuggestion, Slot.lockUnwrap, hfree, hv, bind, Except.bind, Option.bind_some]
  · cases suggestLoop c.tags query <;> simp
  · intro s hs
    have hb := C40_float c.tags query
    cases hl : suggestLoop c.tags query with
    | none => rw [hl] at hs; cases hs
    | some l =>
      obtain ⟨ov, id, w⟩ := l
      rw [hl] at hs hb
      simp only [Option.map_some, Option.some.injEq] at hs
      subst hs
      obtain ⟨pre, t, post, hd, hid, hov, -⟩ := hb
      have hm : (w, t) ∈ wordTagPairs c.tags query := by rw [hd]; simp
      obtain ⟨hw, ht⟩ := mem_wordTagPairs.1 hm
      obtain ⟨i, hi⟩ := List.mem_iff_getElem?.1 ht
      have hidx := hc i t hi
      refine ⟨hw, t, ov, ht, ?_, ?_, by rw [hid]⟩
      · exact (C39_tag_name c id t (by rw [← hid, hidx]; exact hi)).1
      · exact (C39_tag_name c id t (by rw [← hid, hidx]; exact hi)).2

/-- Loaded files have numbered tags, so `C40_engine` applies to them. -/
theorem tagsNumbered_loaded {t : Target} {n : Nat} {bytes : Bytes} {ix : GramIndex Char} {cl : Classic}
    (h : deserializeAll t n bytes = .ok (ix, cl)) : TagsNumbered cl :=
  fun i tag ht => ((C12 t n bytes ix cl h).2.2.1 i tag ht).1

/-! ## C41 -/

theorem agree_self (a : Str) : agree a a = a.length := by
  induction a with
  | nil => rfl
  | cons c a ih => simp only [agree, if_true, ih, List.length_cons]; omega

theorem byteLen_ascii {a : Str} (h : ∀ c ∈ a, c.toNat < 128) : byteLen a = a.length := by
  induction a with
  | nil => rfl
  | cons c a ih =>
    have hc : c.utf8Size = 1 := by
      have := h c (by simp)
      have h2 : c.val ≤ 0x7f := by
        have : c.val.toNat < 128 := this
        exact UInt32.le_iff_toNat_le.2 (by simp; omega)
      simp [Char.utf8Size, h2]
    rw [byteLen_cons, ih fun x hx => h x (by simp [hx]), List.length_cons, hc]; omega

/-- Exactly when a word that is a tag's name is similar to it: more than four fifths as many characters as bytes. -/
theorem C41_exact (tag : Tag) :
    Similar (tag.name, tag) ↔ 3 ≤ byteLen tag.name ∧ 4 * byteLen tag.name < 5 * tag.name.length := by
  unfold Similar shorter
  rw [agree_self, Nat.min_self]

/-- A word that is exactly an ASCII tag name of at least 3 characters is suggested a tag, with full similarity. -/
theorem C41_partial (tags : List Tag) (query : Str) (hlen : ∀ t ∈ tags, byteLen t.name ≤ 2048) (tag : Tag)
    (ht : tag ∈ tags) (hw : tag.name ∈ splitSpaces query) (hascii : ∀ c ∈ tag.name, c.toNat < 128)
    (h3 : 3 ≤ tag.name.length) :
    ∃ ov id w t, suggestLoop tags query = some (ov, id, w) ∧ t ∈ tags ∧ t.id = id ∧ w ∈ splitSpaces query ∧
      agree t.name w = shorter t.name w ∧ ov = F32.one := by
  obtain ⟨hnone, hsome⟩ := C40 tags query hlen
  have hb := byteLen_ascii hascii
  have hsim : Similar (tag.name, tag) := (C41_exact tag).2 (by omega)
  cases hl : suggestLoop tags query with
  | none => exact absurd hsim (hnone.1 hl _ hw _ ht)
  | some l =>
    obtain ⟨ov, id, w⟩ := l
    obtain ⟨pre, t, post, hd, hid, hov, hs, hpre, hpost⟩ := hsome ov id w hl
    have hm : (tag.name, tag) ∈ wordTagPairs tags query := mem_wordTagPairs.2 ⟨hw, ht⟩
    have hm' : (w, t) ∈ wordTagPairs tags query := by rw [hd]; simp
    have hself : agree tag.name tag.name = shorter tag.name tag.name := by
      rw [agree_self, shorter, Nat.min_self, hb]
    have hpos : 0 < shorter tag.name tag.name := by have : 3 ≤ shorter tag.name tag.name := hsim.1; omega
    have hle := agree_le t.name w
    have heq : agree t.name w = shorter t.name w := by
      rw [hd] at hm
      rcases List.mem_append.1 hm with hx | hx
      · have := hpre _ hx hsim
        unfold LessSimilar at this
        simp only at this
        rw [hself, Nat.mul_comm] at this
        have := Nat.lt_of_mul_lt_mul_right this
        omega
      · rcases List.mem_cons.1 hx with hx | hx
        · cases hx
          exact hself
        · have := hpost _ hx hsim
          unfold LessSimilar at this
          simp only at this
          rw [hself, Nat.mul_comm, Nat.not_lt] at this
          have := Nat.le_of_mul_le_mul_left this hpos
          omega
    refine ⟨ov, id, w, t, rfl, (mem_wordTagPairs.1 hm').2, hid, (mem_wordTagPairs.1 hm').1, heq, ?_⟩
    have hsh : shorter t.name w ≤ 2048 := shorter_le (hlen t (mem_wordTagPairs.1 hm').2)
    have hv := overlap_val t.name w hs.1 (by simp only [Nat.reducePow]; omega)
    have h3' : 3 ≤ shorter t.name w := hs.1
    rw [heq, F32.quot_self (by omega), ← hov] at hv
    refine F32.eq_of_val (hv.trans F32.val_one.symm) ?_
    intro hn
    rw [F32.IsNan, hv] at hn
    cases hn

/-- Danish letters take two bytes each: the tag `æøå` is not suggested for the query `æøå`. -/
theorem C41_false : ∃ (tags : List Tag) (query : Str), (∃ tag ∈ tags, tag.name = query ∧ tag.name.length = 3 ∧
    query ∈ splitSpaces query) ∧ suggestLoop tags query = none := by
  refine ⟨[⟨['æ', 'ø', 'å'], [], [], 0⟩], ['æ', 'ø', 'å'], ⟨_, List.mem_singleton.2 rfl, rfl, rfl, by decide⟩, ?_⟩
  decide +kernel

/-- Two tags, a query of three words: the hypotheses of `C40` and `C41_partial` are met, and the best pair is neither
the first word nor the first tag. -/
example :
    let tags : List Tag := [⟨"kunst".toList, [], [], 0⟩, ⟨"kunstner".toList, [], [], 1⟩]
    let query := "en kunstnXr kunstner".toList
    (∀ t ∈ tags, byteLen t.name ≤ 2048) ∧ ("kunstner".toList ∈ splitSpaces query) ∧
      (suggestLoop tags query).map (fun l => (l.2.1, l.2.2)) = some (0, "kunstnXr".toList) := by
  refine ⟨by decide, by decide, by decide +kernel⟩

end Idx
