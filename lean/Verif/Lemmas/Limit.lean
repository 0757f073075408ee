import Verif.Model.Collections
/-! Invariant of `limitLoop`. -/
namespace Idx

theorem byteLen_append (a b : Str) : byteLen (a ++ b) = byteLen a + byteLen b := by
  simp [byteLen]

@[simp] theorem byteLen_nil : byteLen [] = 0 := rfl

theorem byteLen_cons (c : Char) (s : Str) : byteLen (c :: s) = c.utf8Size + byteLen s := by
  simp [byteLen]

theorem utf8Size_bounds (c : Char) : 1 ≤ c.utf8Size ∧ c.utf8Size ≤ 4 := ⟨c.utf8Size_pos, c.utf8Size_le_four⟩

theorem byteLen_pos_of_ne {s : Str} (h : s ≠ []) : 1 ≤ byteLen s := by
  cases s with
  | nil => exact absurd rfl h
  | cons c s =>
    have := utf8Size_bounds c
    rw [byteLen_cons]; omega

theorem byteLen_le_of_prefix {a b : Str} (h : a <+: b) : byteLen a ≤ byteLen b := by
  obtain ⟨t, rfl⟩ := h
  rw [byteLen_append]; omega

theorem limitLoop_cons (L off : Nat) (seen : Str) (last : Option Str) (c : Char) (rest : Str) :
    limitLoop L off seen last (c :: rest) =
      if off > L then last.getD seen
      else limitLoop L (off + c.utf8Size) (seen ++ [c]) (if c = ' ' then some seen else last) rest := by
  cases last <;> rfl

/-- What `limitLoop` returns: the whole string, the prefix before the last candidate space, or the
prefix before the first character starting beyond the limit. -/
theorem limitLoop_spec (L : Nat) (rest : Str) : ∀ (seen : Str) (last : Option Str),
    byteLen seen ≤ L + 4 →
    -- every character already seen starts within the limit
    (∀ pre c post, seen = pre ++ c :: post → byteLen pre ≤ L) →
    -- `last` is the prefix before the last space seen
    (match last with
      | none => ' ' ∉ seen
      | some v => ∃ post, seen = v ++ ' ' :: post ∧ ' ' ∉ post) →
    (limitLoop L (byteLen seen) seen last rest = seen ++ rest ∧ byteLen (seen ++ rest) ≤ L + 4) ∨
    ∃ seen' c rest', seen ++ rest = seen' ++ c :: rest' ∧ L < byteLen seen' ∧ byteLen seen' ≤ L + 4 ∧
      (∀ pre c post, seen' = pre ++ c :: post → byteLen pre ≤ L) ∧
      ((' ' ∉ seen' ∧ limitLoop L (byteLen seen) seen last rest = seen') ∨
       ∃ v post, seen' = v ++ ' ' :: post ∧ ' ' ∉ post ∧
         limitLoop L (byteLen seen) seen last rest = v) := by
  induction rest with
  | nil =>
    intro seen last h1 h2 h3
    left
    simpa [limitLoop] using h1
  | cons c rest ih =>
    intro seen last h1 h2 h3
    rw [limitLoop_cons]
    by_cases hc : byteLen seen > L
    · rw [if_pos hc]
      right
      refine ⟨seen, c, rest, rfl, hc, h1, h2, ?_⟩
      cases last with
      | none => left; exact ⟨h3, rfl⟩
      | some v =>
        obtain ⟨post, e, hp⟩ := h3
        right; exact ⟨v, post, e, hp, rfl⟩
    · rw [if_neg hc]
      have hb := utf8Size_bounds c
      have hlen : byteLen (seen ++ [c]) = byteLen seen + c.utf8Size := by
        rw [byteLen_append, byteLen_cons]; simp
      rw [← hlen]
      have hseen : (seen ++ [c]) ++ rest = seen ++ c :: rest := by simp
      rw [← hseen]
      refine ih (seen ++ [c]) _ (by omega) ?_ ?_
      · intro pre d post e
        rcases List.append_eq_append_iff.1 e with ⟨w, hw1, hw2⟩ | ⟨w, hw1, hw2⟩
        · cases w with
          | nil => simp at hw1; subst hw1; omega
          | cons x w => simp at hw2
        · cases w with
          | nil => simp at hw1; subst hw1; omega
          | cons x w =>
            simp at hw2
            exact h2 pre d w (by rw [hw1, hw2.1])
      · by_cases hsp : c = ' '
        · rw [if_pos hsp]; subst hsp
          exact ⟨[], by simp, by simp⟩
        · rw [if_neg hsp]
          cases last with
          | none => simpa [Ne.symm hsp] using h3
          | some v =>
            obtain ⟨post, e, hp⟩ := h3
            exact ⟨post ++ [c], by simp [e], by simp [hp, Ne.symm hsp]⟩

theorem limit_spec (s : Str) (L : Nat) :
    (limitStringLen s L = s ∧ byteLen s ≤ L + 4) ∨
    ∃ seen' c rest', s = seen' ++ c :: rest' ∧ L < byteLen seen' ∧ byteLen seen' ≤ L + 4 ∧
      (∀ pre c post, seen' = pre ++ c :: post → byteLen pre ≤ L) ∧
      ((' ' ∉ seen' ∧ limitStringLen s L = seen') ∨
       ∃ v post, seen' = v ++ ' ' :: post ∧ ' ' ∉ post ∧ limitStringLen s L = v) := by
  have := limitLoop_spec L s [] none (by simp) (by simp) (by simp)
  simpa [limitStringLen] using this

theorem limit_prefix (s : Str) (L : Nat) : limitStringLen s L <+: s := by
  rcases limit_spec s L with ⟨h, _⟩ | ⟨seen, c, rest, e, _, _, _, (⟨_, h⟩ | ⟨v, post, e', _, h⟩)⟩
  · rw [h]; exact List.prefix_refl _
  · rw [h, e]; exact List.prefix_append _ _
  · rw [h, e, e']; simp

theorem limit_byteLen_le (s : Str) (L : Nat) : byteLen (limitStringLen s L) ≤ L + 4 := by
  rcases limit_spec s L with ⟨h, hl⟩ | ⟨seen, c, rest, e, _, hb, _, (⟨_, h⟩ | ⟨v, post, e', _, h⟩)⟩
  · rw [h]; exact hl
  · rw [h]; exact hb
  · rw [h]
    rw [e', byteLen_append] at hb; omega

end Idx
