import Verif.Lemmas.F32
import Verif.Model.NGram
/-! The posting cut-off as an integer. -/
set_option exponentiation.threshold 300
namespace Idx
open F32

theorem ofNat_val_exact {a : Nat} (h : a < 2 ^ 24) : (F32.ofNat a).val = .fin false (a * 2 ^ 149) := by
  obtain ⟨m, h1, h2, _⟩ := ofNat_val (a := a) (by omega)
  rw [h1, h2]
  have := roundMag_rep (n := a * 2 ^ 149) (b := 1) (by omega) (rep_mul (by omega))
  rw [Nat.mul_one] at this
  rw [this]

theorem val_zeroPointEight : zeroPointEight.val = .fin false (13421773 * 2 ^ 125) := by decide +kernel

theorem scale_lo {q p c u x v : Nat} (hv : v = u * x) (h : q * u ≤ p * c) (w : Nat) : q * v * w ≤ p * w * (c * x) := by
  calc q * v * w = (q * u) * (x * w) := by rw [hv]; simp only [Nat.mul_assoc]
    _ ≤ (p * c) * (x * w) := Nat.mul_le_mul_right _ h
    _ = p * w * (c * x) := by rw [Nat.mul_comm x w, Nat.mul_mul_mul_comm]

theorem scale_hi {q p c u x v : Nat} (hv : v = u * x) (h : p * c ≤ q * u) (w : Nat) : p * w * (c * x) ≤ q * v * w := by
  calc p * w * (c * x) = (p * c) * (x * w) := by rw [Nat.mul_comm x w, Nat.mul_mul_mul_comm]
    _ ≤ (q * u) * (x * w) := Nat.mul_le_mul_right _ h
    _ = q * v * w := by rw [hv]; simp only [Nat.mul_assoc]

theorem div_between {m q x : Nat} (hx : 0 < x) (h1 : q * (8 * x) ≤ m) (h2 : m ≤ (8 * q + 7) * x) : m / (8 * x) = q := by
  apply Nat.div_eq_of_lt_le h1
  refine Nat.lt_of_le_of_lt h2 ?_
  calc (8 * q + 7) * x < (8 * q + 8) * x := Nat.mul_lt_mul_of_pos_right (by omega) hx
    _ = (q + 1) * (8 * x) := by rw [← Nat.mul_assoc]; congr 1; omega

theorem cutoff_lo {p : Nat} (hp : p ≤ 2 ^ 20) :
    (4 * p / 5) * 2 ^ 149 ≤ roundMag (p * 2 ^ 149 * (13421773 * 2 ^ 125)) (2 ^ 149) := by
  have h1 : 4 * p / 5 * 2 ^ 24 ≤ p * 13421773 := by omega
  exact le_roundMag (Nat.two_pow_pos _) (rep_mul (by omega)) (scale_lo (by decide +kernel) h1 _)

theorem cutoff_hi {p : Nat} (hp : p ≤ 2 ^ 20) :
    roundMag (p * 2 ^ 149 * (13421773 * 2 ^ 125)) (2 ^ 149) ≤ (8 * (4 * p / 5) + 7) * 2 ^ 146 := by
  have h1 : p * 13421773 ≤ (8 * (4 * p / 5) + 7) * 2 ^ 21 := by omega
  exact roundMag_le (Nat.two_pow_pos _) (rep_mul (by omega)) (scale_hi (by decide +kernel) h1 _)

theorem cutoff_div {p : Nat} (hp : p ≤ 2 ^ 20) :
    roundMag (p * 2 ^ 149 * (13421773 * 2 ^ 125)) (2 ^ 149) / 2 ^ 149 = 4 * p / 5 := by
  have hlo := cutoff_lo hp
  have hhi := cutoff_hi hp
  have e8 : 2 ^ 149 = 8 * 2 ^ 146 := by decide +kernel
  generalize hM : roundMag (p * 2 ^ 149 * (13421773 * 2 ^ 125)) (2 ^ 149) = M at hlo hhi ⊢
  rw [e8] at hlo ⊢
  exact div_between (Nat.two_pow_pos _) hlo hhi

theorem mul_zeroPointEight {p : Nat} (hp : p ≤ 2 ^ 20) : (F32.mul (F32.ofNat p) zeroPointEight).val =
    .fin false (roundMag (p * 2 ^ 149 * (13421773 * 2 ^ 125)) (2 ^ 149)) :=
  (mul_val (ofNat_val_exact (a := p) (by omega)) val_zeroPointEight (by decide +kernel)).1

theorem toUsize_fin {w n : Nat} {x : F32} (h : x.val = .fin false n) : x.toUsize w = min (n / 2 ^ 149) (2 ^ w - 1) := by
  unfold F32.toUsize
  rw [h]; rfl

/-- Up to 2^20 products the cut-off is 80 % rounded down. -/
theorem maximumProductAmount_eq (t : Target) (ht : 32 ≤ t.usizeBits) {p : Nat} (hp : p ≤ 2 ^ 20) :
    maximumProductAmount t p = 4 * p / 5 := by
  rw [maximumProductAmount, toUsize_fin (mul_zeroPointEight hp), cutoff_div hp]
  have : 2 ^ 32 ≤ 2 ^ t.usizeBits := Nat.pow_le_pow_right (by omega) ht
  omega

end Idx
