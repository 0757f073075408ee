import Verif.Lemmas.Order
/-! # Comparing strings by UTF-8 bytes is comparing them by code points -/
namespace Idx

/-- Spec: dictionary order by code points, a proper prefix first. -/
inductive CodeLt : Str → Str → Prop
  | nil (c : Char) (s : Str) : CodeLt [] (c :: s)
  | head (a b : Char) (s t : Str) : a.toNat < b.toNat → CodeLt (a :: s) (b :: t)
  | tail (c : Char) (s t : Str) : CodeLt s t → CodeLt (c :: s) (c :: t)

theorem bytesCmp_append (p x y : Bytes) : bytesCmp (p ++ x) (p ++ y) = bytesCmp x y := by
  induction p with
  | nil => rfl
  | cons a p ih => simp [bytesCmp, ih, UInt8.lt_irrefl]

theorem cmp_lt {i j : Nat} (hi : i < 256) (hj : j < 256) (h : i < j) (x y : Bytes) :
    bytesCmp (UInt8.ofNat i :: x) (UInt8.ofNat j :: y) = .lt := by
  have : UInt8.ofNat i < UInt8.ofNat j := by
    rw [UInt8.lt_iff_toNat_lt, UInt8.toNat_ofNat', UInt8.toNat_ofNat', Nat.mod_eq_of_lt hi, Nat.mod_eq_of_lt hj]; exact h
  simp [bytesCmp, this]

theorem cmp_eq {i j : Nat} (h : i = j) (x y : Bytes) :
    bytesCmp (UInt8.ofNat i :: x) (UInt8.ofNat j :: y) = bytesCmp x y := by
  subst h
  simp [bytesCmp, UInt8.lt_irrefl]

/-- First difference decides. -/
theorem cmp_step {i j : Nat} (hi : i < 256) (hj : j < 256) (hle : i ≤ j) {x y : Bytes} (h : i = j → bytesCmp x y = .lt) :
    bytesCmp (UInt8.ofNat i :: x) (UInt8.ofNat j :: y) = .lt := by
  rcases Nat.lt_or_eq_of_le hle with hlt | heq
  · exact cmp_lt hi hj hlt x y
  · rw [cmp_eq heq]; exact h heq

theorem bytesCmp_char_lt (a b : Char) (x y : Bytes) (h : a.toNat < b.toNat) :
    bytesCmp (String.utf8EncodeChar a ++ x) (String.utf8EncodeChar b ++ y) = .lt := by
  have ha : a.val.toNat < 1114112 := by
    rcases a.valid with h | h <;> omega
  have hb : b.val.toNat < 1114112 := by
    rcases b.valid with h | h <;> omega
  have hab : a.val.toNat < b.val.toNat := h
  unfold String.utf8EncodeChar
  generalize a.val.toNat = u at *
  generalize b.val.toNat = v at *
  have cu : u ≤ 0x7f ∨ (¬ u ≤ 0x7f ∧ u ≤ 0x7ff) ∨ (¬ u ≤ 0x7f ∧ ¬ u ≤ 0x7ff ∧ u ≤ 0xffff) ∨
    (¬ u ≤ 0x7f ∧ ¬ u ≤ 0x7ff ∧ ¬ u ≤ 0xffff) := by omega
  have cv : v ≤ 0x7f ∨ (¬ v ≤ 0x7f ∧ v ≤ 0x7ff) ∨ (¬ v ≤ 0x7f ∧ ¬ v ≤ 0x7ff ∧ v ≤ 0xffff) ∨
    (¬ v ≤ 0x7f ∧ ¬ v ≤ 0x7ff ∧ ¬ v ≤ 0xffff) := by omega
  rcases cu with h1 | ⟨h1, h2⟩ | ⟨h1, h2, h3⟩ | ⟨h1, h2, h3⟩ <;>
    rcases cv with g1 | ⟨g1, g2⟩ | ⟨g1, g2, g3⟩ | ⟨g1, g2, g3⟩ <;>
    first
    | (exfalso; omega)
    | (simp only [if_pos, if_neg, *, not_false_eq_true, List.cons_append, List.nil_append]
       repeat (refine cmp_step (by omega) (by omega) (by omega) fun _ => ?_)
       omega)

theorem utf8_cons (c : Char) (s : Str) : utf8 (c :: s) = String.utf8EncodeChar c ++ utf8 s := by
  simp [utf8]

theorem strCmp_of_codeLt {a b : Str} (h : CodeLt a b) : strCmp a b = .lt := by
  unfold strCmp
  induction h with
  | nil c s =>
    rw [utf8_cons]
    cases hc : String.utf8EncodeChar c with
    | nil =>
      have := String.length_utf8EncodeChar c
      rw [hc] at this
      have := c.utf8Size_pos
      simp at *
    | cons x l => rfl
  | head a b s t h => rw [utf8_cons, utf8_cons]; exact bytesCmp_char_lt a b _ _ h
  | tail c s t _ ih => rw [utf8_cons, utf8_cons, bytesCmp_append]; exact ih

theorem codeLt_total (a b : Str) : CodeLt a b ∨ a = b ∨ CodeLt b a := by
  induction a generalizing b with
  | nil =>
    cases b with
    | nil => exact .inr (.inl rfl)
    | cons c s => exact .inl (.nil c s)
  | cons x a ih =>
    cases b with
    | nil => exact .inr (.inr (.nil x a))
    | cons y b =>
      rcases Nat.lt_trichotomy x.toNat y.toNat with h | h | h
      · exact .inl (.head _ _ _ _ h)
      · have : x = y := Char.ext (UInt32.toNat_inj.1 h)
        subst this
        rcases ih b with h | rfl | h
        · exact .inl (.tail _ _ _ h)
        · exact .inr (.inl rfl)
        · exact .inr (.inr (.tail _ _ _ h))
      · exact .inr (.inr (.head _ _ _ _ h))

theorem bytesCmp_gt_of_lt {a b : Bytes} (h : bytesCmp a b = .lt) : bytesCmp b a = .gt := by
  rw [bytesCmp_swap a b, h]; rfl

/-- `str::cmp` is the order by code points. -/
theorem strCmp_lt_iff (a b : Str) : strCmp a b = .lt ↔ CodeLt a b := by
  refine ⟨fun h => ?_, strCmp_of_codeLt⟩
  rcases codeLt_total a b with h' | rfl | h'
  · exact h'
  · unfold strCmp at h; rw [bytesCmp_refl] at h; cases h
  · have := bytesCmp_gt_of_lt (strCmp_of_codeLt h')
    unfold strCmp at h
    rw [h] at this
    cases this

end Idx
