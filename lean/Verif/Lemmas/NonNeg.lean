import Verif.Lemmas.Edits
/-! Non-negative floats, and floats determined by their value. -/
set_option exponentiation.threshold 300
namespace Idx.F32

/-- A non-negative finite number (not −0) or +∞. -/
def NonNeg (x : F32) : Prop := (∃ m, x.val = .fin false m) ∨ x.val = .inf false

theorem Unit.nonNeg {x : F32} (h : Unit x) : NonNeg x := by
  obtain ⟨m, h, _⟩ := h
  exact .inl ⟨m, h⟩

theorem Pos.nonNeg {x : F32} (h : Pos x) : NonNeg x := by
  rcases h with ⟨m, h, _⟩ | h
  · exact .inl ⟨m, h⟩
  · exact .inr h

theorem NonNeg.notNan {x : F32} (h : NonNeg x) : ¬ x.IsNan := by
  intro e; unfold IsNan at e
  rcases h with ⟨m, h⟩ | h <;> rw [e] at h <;> cases h

theorem NonNeg.add {x y : F32} (hx : NonNeg x) (hy : NonNeg y) : NonNeg (add x y) := by
  rcases hx with ⟨m, hm⟩ | hx
  · rcases hy with ⟨n, hn⟩ | hy
    · have e : F32.add x y = ofRatio false (m + n) 1 := by simp only [F32.add, hm, hn, if_true]
      rw [e]
      by_cases hlt : roundMag (m + n) 1 < 2 ^ 277
      · exact .inl ⟨_, val_ofRatio false _ _ hlt⟩
      · exact .inr (val_pack_ge (rep_roundMag _ _) hlt)
    · have e : F32.add x y = inf false := by simp only [F32.add, hm, hy]
      rw [e]; exact .inr val_inf
  · rcases hy with ⟨n, hn⟩ | hy
    · have e : F32.add x y = inf false := by simp only [F32.add, hx, hn]
      rw [e]; exact .inr val_inf
    · have e : F32.add x y = inf false := by simp only [F32.add, hx, hy, if_true]
      rw [e]; exact .inr val_inf

theorem magOfBits_inj {a b : Nat} (h : magOfBits a = magOfBits b) : a = b := by
  unfold magOfBits at h
  have key : ∀ x y : Nat, x / 2 ^ 23 < y / 2 ^ 23 → x / 2 ^ 23 ≠ 0 →
      (2 ^ 23 + x % 2 ^ 23) * 2 ^ (x / 2 ^ 23 - 1) ≠ (2 ^ 23 + y % 2 ^ 23) * 2 ^ (y / 2 ^ 23 - 1) := by
    intro x y hlt hx he
    have h1 : (2 ^ 23 + x % 2 ^ 23) * 2 ^ (x / 2 ^ 23 - 1) < 2 ^ 24 * 2 ^ (x / 2 ^ 23 - 1) :=
      Nat.mul_lt_mul_of_pos_right (by have := Nat.mod_lt x (Nat.two_pow_pos 23); simp only [Nat.reducePow] at *; omega)
        (Nat.two_pow_pos _)
    have h2 : 2 ^ 23 * 2 ^ (y / 2 ^ 23 - 1) ≤ (2 ^ 23 + y % 2 ^ 23) * 2 ^ (y / 2 ^ 23 - 1) :=
      Nat.mul_le_mul_right _ (Nat.le_add_right _ _)
    have h3 : 2 ^ 24 * 2 ^ (x / 2 ^ 23 - 1) ≤ 2 ^ 23 * 2 ^ (y / 2 ^ 23 - 1) := by
      rw [← Nat.pow_add, ← Nat.pow_add]
      exact Nat.pow_le_pow_right (by omega) (by omega)
    omega
  by_cases ha : a / 2 ^ 23 = 0
  · by_cases hb : b / 2 ^ 23 = 0
    · rw [if_pos ha, if_pos hb] at h; exact h
    · rw [if_pos ha, if_neg hb] at h
      have h1 : a < 2 ^ 23 := by simp only [Nat.reducePow] at *; omega
      have h2 : 2 ^ 23 * 1 ≤ (2 ^ 23 + b % 2 ^ 23) * 2 ^ (b / 2 ^ 23 - 1) :=
        Nat.mul_le_mul (Nat.le_add_right _ _) (Nat.two_pow_pos _)
      omega
  · by_cases hb : b / 2 ^ 23 = 0
    · rw [if_neg ha, if_pos hb] at h
      have h1 : b < 2 ^ 23 := by simp only [Nat.reducePow] at *; omega
      have h2 : 2 ^ 23 * 1 ≤ (2 ^ 23 + a % 2 ^ 23) * 2 ^ (a / 2 ^ 23 - 1) :=
        Nat.mul_le_mul (Nat.le_add_right _ _) (Nat.two_pow_pos _)
      omega
    · rw [if_neg ha, if_neg hb] at h
      rcases Nat.lt_trichotomy (a / 2 ^ 23) (b / 2 ^ 23) with hlt | heq | hgt
      · exact absurd h (key a b hlt ha)
      · rw [heq] at h
        have := Nat.eq_of_mul_eq_mul_right (Nat.two_pow_pos _) h
        have e1 := Nat.div_add_mod a (2 ^ 23)
        have e2 := Nat.div_add_mod b (2 ^ 23)
        rw [heq] at e1
        omega
      · exact absurd h.symm (key b a hgt hb)

/-- A float that is not NaN is determined by its decoded value. -/
theorem eq_of_val {x y : F32} (h : x.val = y.val) (hx : ¬ x.IsNan) : x = y := by
  unfold IsNan at hx
  have hy : y.val ≠ .nan := by rw [← h]; exact hx
  have hbx := x.bits.toNat_lt
  have hby := y.bits.toNat_lt
  have key : x.bits.toNat = y.bits.toNat := by
    unfold val at h hx hy
    simp only at h hx hy
    generalize x.bits.toNat = a at *
    generalize y.bits.toNat = b at *
    split at h
    · split at h
      · simp only [Val.fin.injEq, decide_eq_decide] at h
        have := magOfBits_inj h.2
        simp only [Nat.reducePow] at *
        omega
      · split at h <;> cases h
    · split at h
      · split at h
        · cases h
        · split at h
          · simp only [Val.inf.injEq, decide_eq_decide] at h
            simp only [Nat.reducePow] at *
            omega
          · cases h
      · rename_i h1 h2
        rw [if_neg h1, if_neg h2] at hx
        exact absurd rfl hx
  cases x; cases y
  congr 1
  exact UInt32.toNat_inj.1 key

/-- Two floats between 0 and 1 of which none is smaller are the same bits. -/
theorem Unit.eq_of_not_lt {x y : F32} (hx : Unit x) (hy : Unit y) (h1 : lt x y = false) (h2 : lt y x = false) : x = y := by
  obtain ⟨m, hm, _⟩ := hx
  obtain ⟨n, hn, _⟩ := hy
  rw [lt_fin hm hn] at h1
  rw [lt_fin hn hm] at h2
  simp only [decide_eq_false_iff_not] at h1 h2
  have : m = n := by omega
  apply eq_of_val
  · rw [hm, hn, this]
  · intro e; unfold IsNan at e; rw [e] at hm; cases hm

/-- Multiplying by a factor between 0 and 1 does not exceed the factor. -/
theorem Unit.mul_le {x y : F32} (hx : Unit x) (hy : Unit y) : lt y (F32.mul x y) = false := by
  obtain ⟨m, hm, hm1⟩ := hx
  obtain ⟨n, hn, hn1⟩ := hy
  have h := (mul_val hm hn hn1).1
  rw [lt_fin hn h]
  simp only [decide_eq_false_iff_not, Nat.not_lt]
  obtain ⟨hr, _⟩ := rep_of_val hn
  apply roundMag_le (Nat.two_pow_pos _) hr
  rw [Nat.mul_comm n]
  exact Nat.mul_le_mul_right _ hm1

theorem lt_inf_left {x y : F32} (hx : x.val = .inf false) : lt x y = false := by
  unfold lt
  rw [hx]
  cases y.val <;> rfl

/-- Adding something non-negative never makes a sum smaller, rounding included. -/
theorem NonNeg.add_ge {x y : F32} (hx : NonNeg x) (hy : NonNeg y) : lt (F32.add x y) x = false := by
  rcases hx with ⟨m, hm⟩ | hx
  · rcases hy with ⟨n, hn⟩ | hy
    · have e : F32.add x y = ofRatio false (m + n) 1 := by simp only [F32.add, hm, hn, if_true]
      rw [e]
      by_cases hlt : roundMag (m + n) 1 < 2 ^ 277
      · rw [lt_fin (val_ofRatio false _ _ hlt) hm]
        have := le_roundMag (r := m) (a := m + n) (b := 1) Nat.one_pos (rep_of_val hm).1
          (by rw [Nat.mul_one]; exact Nat.le_add_right m n)
        exact decide_eq_false (Nat.not_lt.2 this)
      · exact lt_inf_left (val_pack_ge (rep_roundMag _ _) hlt)
    · have e : F32.add x y = inf false := by simp only [F32.add, hm, hy]
      rw [e]; exact lt_inf_left val_inf
  · rcases hy with ⟨n, hn⟩ | hy
    · have e : F32.add x y = inf false := by simp only [F32.add, hx, hn]
      rw [e]; exact lt_inf_left val_inf
    · have e : F32.add x y = inf false := by simp only [F32.add, hx, hy, if_true]
      rw [e]; exact lt_inf_left val_inf

end Idx.F32
