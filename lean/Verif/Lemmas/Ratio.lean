import Verif.Lemmas.NonNeg
/-! Quotients of small counts as floats: exact sums, comparison with 0.8, comparison with each other. -/
set_option exponentiation.threshold 300
namespace Idx.F32

theorem rep_count {a : Nat} (h : a ≤ 2 ^ 24) : Rep (a * 2 ^ 149) := rep_mul h

theorem count_lt {a : Nat} (h : a ≤ 2 ^ 24) : a * 2 ^ 149 < 2 ^ 277 :=
  Nat.lt_of_le_of_lt (Nat.mul_le_mul_right _ h) (by rw [← Nat.pow_add]; exact Nat.pow_lt_pow_right (by omega) (by omega))

theorem ofNat_exact {a : Nat} (h : a ≤ 2 ^ 24) : (ofNat a).val = .fin false (a * 2 ^ 149) := by
  have e : roundMag (a * 2 ^ 149) 1 = a * 2 ^ 149 := by
    have := roundMag_rep (b := 1) (by omega) (rep_count h)
    rwa [Nat.mul_one] at this
  rw [show ofNat a = ofRatio false (a * 2 ^ 149) 1 from rfl, val_ofRatio, e]
  rw [e]; exact count_lt h

theorem add_exact {x y : F32} {a b : Nat} (hx : x.val = .fin false (a * 2 ^ 149)) (hy : y.val = .fin false (b * 2 ^ 149))
    (h : a + b ≤ 2 ^ 24) : (add x y).val = .fin false ((a + b) * 2 ^ 149) := by
  have e : roundMag ((a + b) * 2 ^ 149) 1 = (a + b) * 2 ^ 149 := by
    have := roundMag_rep (b := 1) (by omega) (rep_count h)
    rwa [Nat.mul_one] at this
  have e1 : F32.add x y = ofRatio false ((a + b) * 2 ^ 149) 1 := by
    rw [Nat.add_mul]
    simp only [F32.add, hx, hy, if_true]
  rw [e1, val_ofRatio, e]
  rw [e]; exact count_lt h

theorem val_zero : zero.val = .fin false (0 * 2 ^ 149) := by decide +kernel

theorem val_one' : one.val = .fin false (1 * 2 ^ 149) := by rw [Nat.one_mul]; exact val_one

/-- The float nearest to `a / b`, in units. -/
def quot (a b : Nat) : Nat := roundMag (a * 2 ^ 149) b

theorem quot_le_one {a b : Nat} (hb : 0 < b) (h : a ≤ b) : quot a b ≤ 2 ^ 149 := by
  apply roundMag_le hb (rep_pow _)
  rw [Nat.mul_comm]; exact Nat.mul_le_mul_left _ h

theorem div_quot {x y : F32} {a b : Nat} (hx : x.val = .fin false (a * 2 ^ 149)) (hy : y.val = .fin false (b * 2 ^ 149))
    (hb : 0 < b) (h : a ≤ b) : (div x y).val = .fin false (quot a b) := by
  have hpos : 0 < b * 2 ^ 149 := Nat.mul_pos hb (Nat.two_pow_pos _)
  have e : roundMag (a * 2 ^ 149 * 2 ^ 149) (b * 2 ^ 149) = quot a b := by
    unfold quot
    have e2 : a * 2 ^ 149 * 2 ^ 149 * b = a * 2 ^ 149 * (b * 2 ^ 149) := by
      rw [Nat.mul_assoc _ (2 ^ 149) b, Nat.mul_comm (2 ^ 149) b]
    apply Nat.le_antisymm
    · exact roundMag_mono hpos hb (Nat.le_of_eq e2)
    · exact roundMag_mono hb hpos (Nat.le_of_eq e2.symm)
  rw [div_fin hx hy (Nat.ne_of_gt hpos), one149_eq, val_ofRatio, e]
  rw [e]
  exact Nat.lt_of_le_of_lt (quot_le_one hb h) (Nat.pow_lt_pow_right (by omega) (by omega))

theorem quot_mono {a b a' b' : Nat} (hb : 0 < b) (hb' : 0 < b') (h : a * b' ≤ a' * b) : quot a b ≤ quot a' b' := by
  apply roundMag_mono hb hb'
  rw [Nat.mul_right_comm, Nat.mul_right_comm a']
  exact Nat.mul_le_mul_right _ h

theorem quot_self {b : Nat} (hb : 0 < b) : quot b b = 2 ^ 149 := by
  unfold quot
  rw [Nat.mul_comm]
  exact roundMag_rep hb (rep_pow _)

theorem pow_split : (2 : Nat) ^ 149 = 2 ^ 24 * 2 ^ 125 := by rw [← Nat.pow_add]

/-- Fractions with product of denominators up to `2^22` and at most one keep their order strictly as floats. -/
theorem quot_strict {a b a' b' : Nat} (hb : 0 < b) (hb' : 0 < b') (h1 : a' ≤ b') (hbb : b * b' ≤ 2 ^ 22)
    (h : a * b' < a' * b) : quot a b < quot a' b' := by
  -- k = floor(a' * 2^24 / b'), k * 2^125 lies below a' / b', (k - 1) * 2^125 above a / b
  have hk : a' * 2 ^ 24 / b' * b' ≤ a' * 2 ^ 24 := Nat.div_mul_le_self _ _
  have hk2 : a' * 2 ^ 24 < (a' * 2 ^ 24 / b' + 1) * b' := by
    have := Nat.lt_mul_div_succ (a' * 2 ^ 24) hb'
    rw [Nat.mul_comm b'] at this; exact this
  generalize a' * 2 ^ 24 / b' = k at hk hk2
  have hk24 : k ≤ 2 ^ 24 := by
    have : k * b' ≤ 2 ^ 24 * b' := by
      refine Nat.le_trans hk ?_
      rw [Nat.mul_comm]; exact Nat.mul_le_mul_left _ h1
    exact Nat.le_of_mul_le_mul_right this hb'
  -- 4 steps of 2^-24 separate the fractions
  have hbig : a * b' * 2 ^ 24 + 4 * (b * b') ≤ a' * b * 2 ^ 24 := by
    have h4 : 4 * (b * b') ≤ 2 ^ 24 := by simp only [Nat.reducePow] at *; omega
    have : (a * b' + 1) * 2 ^ 24 ≤ a' * b * 2 ^ 24 := Nat.mul_le_mul_right _ h
    rw [Nat.add_mul] at this
    omega
  have hupper : a * b' * 2 ^ 24 + 4 * (b * b') < (k + 1) * (b * b') := by
    refine Nat.lt_of_le_of_lt hbig ?_
    have := Nat.mul_lt_mul_of_lt_of_le hk2 (Nat.le_refl b) hb
    have e1 : a' * 2 ^ 24 * b = a' * b * 2 ^ 24 := by rw [Nat.mul_right_comm]
    have e2 : (k + 1) * b' * b = (k + 1) * (b * b') := by rw [Nat.mul_assoc, Nat.mul_comm b' b]
    rw [e1, e2] at this
    exact this
  have hk3 : 3 ≤ k := by
    have hpos : 0 < b * b' := Nat.mul_pos hb hb'
    have : 4 * (b * b') < (k + 1) * (b * b') := by omega
    have := Nat.lt_of_mul_lt_mul_right this
    omega
  have hlow : a * 2 ^ 24 ≤ (k - 1) * b := by
    have e3 : (k + 1) * (b * b') = (k - 1) * b * b' + 2 * (b * b') := by
      rw [show k + 1 = (k - 1) + 2 by omega, Nat.add_mul, Nat.mul_assoc]
    have e4 : a * b' * 2 ^ 24 = a * 2 ^ 24 * b' := by rw [Nat.mul_right_comm]
    rw [e3, e4] at hupper
    have : a * 2 ^ 24 * b' ≤ (k - 1) * b * b' := by omega
    exact Nat.le_of_mul_le_mul_right this hb'
  have h5 : k * 2 ^ 125 ≤ quot a' b' := by
    apply le_roundMag hb' (rep_mul hk24)
    rw [pow_split, ← Nat.mul_assoc, Nat.mul_right_comm]
    exact Nat.mul_le_mul_right _ hk
  have h6 : quot a b ≤ (k - 1) * 2 ^ 125 := by
    apply roundMag_le hb (rep_mul (by omega))
    rw [pow_split, ← Nat.mul_assoc, Nat.mul_right_comm (k - 1)]
    exact Nat.mul_le_mul_right _ hlow
  refine Nat.lt_of_le_of_lt h6 (Nat.lt_of_lt_of_le ?_ h5)
  exact Nat.mul_lt_mul_of_lt_of_le (by omega) (Nat.le_refl _) (Nat.two_pow_pos _)

theorem quot_lt_iff {a b a' b' : Nat} (hb : 0 < b) (hb' : 0 < b') (h1 : a' ≤ b') (hbb : b * b' ≤ 2 ^ 22) :
    quot a b < quot a' b' ↔ a * b' < a' * b := by
  refine ⟨fun h => ?_, quot_strict hb hb' h1 hbb⟩
  rcases Nat.lt_or_ge (a * b') (a' * b) with h' | h'
  · exact h'
  · have := quot_mono hb' hb h'
    omega

theorem val_eighth : zeroPointEight.val = .fin false (13421773 * 2 ^ 125) := by decide +kernel

/-- Exceeding the float 0.8 is exceeding four fifths, for denominators up to `2^21`. -/
theorem eighth_lt_quot {a b : Nat} (hb : 0 < b) (hb2 : b ≤ 2 ^ 21) :
    13421773 * 2 ^ 125 < quot a b ↔ 4 * b < 5 * a := by
  have e45 : quot 4 5 = 13421773 * 2 ^ 125 := by decide +kernel
  constructor
  · intro h
    rcases Nat.lt_or_ge (4 * b) (5 * a) with h' | h'
    · exact h'
    · have := quot_mono (a := a) (a' := 4) (b' := 5) hb (by omega) (by omega)
      omega
  · intro h
    refine Nat.lt_of_lt_of_le (m := 13421774 * 2 ^ 125) ?_ ?_
    · exact Nat.mul_lt_mul_of_lt_of_le (by omega) (Nat.le_refl _) (Nat.two_pow_pos _)
    · apply le_roundMag hb (rep_mul (by decide))
      rw [pow_split, ← Nat.mul_assoc, Nat.mul_right_comm]
      apply Nat.mul_le_mul_right
      simp only [Nat.reducePow] at *
      omega

end Idx.F32
