import Verif.Lemmas.Round
/-! What the softfloat of `Model/F32.lean` does where there is nothing to round: NaN, the infinities and zero (IEEE 754-2019,
5.11, 6.1 to 6.3), and the cast to an integer. -/
namespace Idx

theorem F32.val_notANumber : F32.nan.val = .nan := by decide +kernel

theorem F32.val_infinite (s : Bool) : (F32.inf s).val = .inf s := by cases s <;> decide +kernel

theorem F32.val_signed_zero (s : Bool) : (F32.pack s 0).val = .fin s 0 := by cases s <;> decide +kernel

/-- NaN is passed on by every operation, and compares with nothing, itself included. -/
theorem F32.special_nan {x y : F32} (h : x.val = .nan ∨ y.val = .nan) :
    (x.mul y).val = .nan ∧ (x.div y).val = .nan ∧ (x.add y).val = .nan ∧ x.partialCmp y = none ∧ x.lt y = false ∧
      x.feq y = false := by
  unfold mul div add partialCmp feq F32.lt
  rcases h with h | h
  · rw [h]
    exact ⟨val_notANumber, val_notANumber, val_notANumber, rfl, by cases y.val <;> rfl, rfl⟩
  · rw [h]
    cases x.val <;> exact ⟨val_notANumber, val_notANumber, val_notANumber, rfl, rfl, rfl⟩

/-- Two numbers, infinite or not, are always ordered, and then exactly one of three ways. -/
theorem F32.special_ordered {x y : F32} (hx : x.val ≠ .nan) (hy : y.val ≠ .nan) :
    x.partialCmp y = some (if x.lt y then .lt else if y.lt x then .gt else .eq) ∧
      x.feq y = (!x.lt y && !y.lt x) ∧ ¬(x.lt y = true ∧ y.lt x = true) := by
  unfold partialCmp feq F32.lt
  cases h : x.val with
  | nan => exact absurd h hx
  | inf s =>
    cases g : y.val with
    | nan => exact absurd g hy
    | inf t => exact ⟨rfl, rfl, by cases s <;> cases t <;> simp [Val.lt]⟩
    | fin t n => exact ⟨rfl, rfl, by cases s <;> simp [Val.lt]⟩
  | fin s m =>
    cases g : y.val with
    | nan => exact absurd g hy
    | inf t => exact ⟨rfl, rfl, by cases t <;> simp [Val.lt]⟩
    | fin t n => exact ⟨rfl, rfl, by simp only [Val.lt, decide_eq_true_eq]; omega⟩

/-- An infinity against a finite number `n`. -/
theorem F32.special_inf_fin {x y : F32} {s t : Bool} {n : Nat} (hx : x.val = .inf s) (hy : y.val = .fin t n) :
    (x.add y).val = .inf s ∧ (y.add x).val = .inf s ∧
      (n ≠ 0 → (x.mul y).val = .inf (s != t) ∧ (y.mul x).val = .inf (t != s)) ∧
      (n = 0 → (x.mul y).val = .nan ∧ (y.mul x).val = .nan) ∧
      (x.div y).val = .inf (s != t) ∧ (y.div x).val = .fin (t != s) 0 ∧
      x.lt y = s ∧ y.lt x = !s := by
  unfold mul div add F32.lt
  rw [hx, hy]
  refine ⟨val_infinite _, val_infinite _, fun h => ?_, fun h => ?_, val_infinite _, val_signed_zero _, rfl, rfl⟩
  · dsimp only
    rw [if_neg h, if_neg h]
    exact ⟨val_infinite _, val_infinite _⟩
  · dsimp only
    rw [if_pos h, if_pos h]
    exact ⟨val_notANumber, val_notANumber⟩

/-- Two infinities. -/
theorem F32.special_inf_inf {x y : F32} {s t : Bool} (hx : x.val = .inf s) (hy : y.val = .inf t) :
    (s = t → (x.add y).val = .inf s) ∧ (s ≠ t → (x.add y).val = .nan) ∧
      (x.mul y).val = .inf (s != t) ∧ (x.div y).val = .nan ∧ x.lt y = (s && !t) := by
  unfold mul div add F32.lt
  rw [hx, hy]
  refine ⟨fun h => ?_, fun h => ?_, val_infinite _, val_notANumber, rfl⟩
  · dsimp only
    rw [if_pos h]
    exact val_infinite _
  · dsimp only
    rw [if_neg h]
    exact val_notANumber

/-- Dividing by zero, and two numbers that cancel. -/
theorem F32.special_zero {x y : F32} {s t : Bool} {m n : Nat} (hx : x.val = .fin s m) (hy : y.val = .fin t n) :
    (n = 0 → m = 0 → (x.div y).val = .nan) ∧ (n = 0 → m ≠ 0 → (x.div y).val = .inf (s != t)) ∧
      (s ≠ t → m = n → (x.add y).val = .fin false 0) ∧
      (x.lt y = true ↔ signed s m < signed t n) := by
  unfold div add F32.lt
  rw [hx, hy]
  refine ⟨fun h g => ?_, fun h g => ?_, fun h g => ?_, ?_⟩
  · dsimp only
    rw [if_pos h, if_pos g]
    exact val_notANumber
  · dsimp only
    rw [if_pos h, if_neg g]
    exact val_infinite _
  · dsimp only
    rw [if_neg h, if_pos g]
    exact val_signed_zero _
  · exact decide_eq_true_iff

/-- The largest number of a word below a quotient, or the largest number of the word. -/
theorem saturated {n d w : Nat} (hd : 0 < d) :
    min (n / d) (2 ^ w - 1) * d ≤ n ∧ (n < (min (n / d) (2 ^ w - 1) + 1) * d ∨ min (n / d) (2 ^ w - 1) = 2 ^ w - 1) := by
  refine ⟨Nat.le_trans (Nat.mul_le_mul_right d (Nat.min_le_left _ _)) (Nat.div_mul_le_self n d), ?_⟩
  rcases Nat.le_total (n / d) (2 ^ w - 1) with h | h
  · rw [Nat.min_eq_left h]
    refine .inl ?_
    have := Nat.lt_div_mul_add hd (a := n)
    rwa [Nat.add_mul, Nat.one_mul]
  · exact .inr (Nat.min_eq_right h)

/-- `x as usize` (the Rust reference, numeric casts): the number rounded towards zero if a word can hold it; 0 if it is
negative or NaN; the largest word if it is too large. One is `2^149` units. -/
theorem F32.toUsize_spec (w : Nat) (x : F32) :
    x.toUsize w < 2 ^ w ∧ (x.val = .nan → x.toUsize w = 0) ∧ (x.val = .inf true → x.toUsize w = 0) ∧
      (x.val = .inf false → x.toUsize w = 2 ^ w - 1) ∧ (∀ n, x.val = .fin true n → x.toUsize w = 0) ∧
      (∀ n, x.val = .fin false n → x.toUsize w * 2 ^ 149 ≤ n ∧
        (n < (x.toUsize w + 1) * 2 ^ 149 ∨ x.toUsize w = 2 ^ w - 1)) := by
  have hp : 0 < 2 ^ w := Nat.two_pow_pos w
  have hone : 0 < one149 := Nat.two_pow_pos 149
  change _ ∧ _ ∧ _ ∧ _ ∧ _ ∧ (∀ n, x.val = .fin false n → x.toUsize w * one149 ≤ n ∧
        (n < (x.toUsize w + 1) * one149 ∨ x.toUsize w = 2 ^ w - 1))
  unfold toUsize
  generalize one149 = d at hone ⊢
  refine ⟨?_, fun h => by rw [h], fun h => by rw [h]; rfl, fun h => by rw [h]; rfl, fun n h => by rw [h]; rfl, fun n h => ?_⟩
  · cases x.val with
    | nan => exact hp
    | inf s =>
      cases s
      · exact Nat.sub_lt hp Nat.one_pos
      · exact hp
    | fin s n =>
      cases s
      · exact Nat.lt_of_le_of_lt (Nat.min_le_right _ _) (Nat.sub_lt hp Nat.one_pos)
      · exact hp
  · rw [h]
    exact saturated hone

example : F32.toUsize 32 (F32.inf false) = 2 ^ 32 - 1 := ((F32.toUsize_spec 32 _).2.2.2.1) (F32.val_infinite false)
example : ((F32.inf true).add F32.one).val = .inf true := (F32.special_inf_fin (F32.val_infinite true) F32.val_one).1
example (y : F32) := F32.special_nan (y := y) (.inl F32.val_notANumber)
example := F32.special_inf_inf (F32.val_infinite true) (F32.val_infinite false)
example := F32.special_zero F32.val_one (F32.val_signed_zero true)
example := F32.special_ordered (x := F32.one) (y := F32.inf true) (by rw [F32.val_one]; exact nofun) (by rw [F32.val_infinite]; exact nofun)

end Idx
