import Verif.Model.F32
/-! Rounding to binary32: representable magnitudes, bounds, monotonicity. -/
set_option exponentiation.threshold 300
namespace Idx.F32

/-- A magnitude with at most 24 significant bits. -/
def Rep (n : Nat) : Prop := 2 ^ dropBits n ∣ n

theorem dropBits_small {n : Nat} (h : n < 2 ^ 24) : dropBits n = 0 := by
  simp only [dropBits, if_pos h]

theorem dropBits_big {n : Nat} (h : 2 ^ 24 ≤ n) : dropBits n = Nat.log2 n - 23 := by
  simp only [dropBits, if_neg (Nat.not_lt.2 h)]

/-- `2^(23+k) ≤ n < 2^(24+k)` determines `dropBits`, for `k ≥ 1`. -/
theorem dropBits_eq {n k : Nat} (hk : 1 ≤ k) (h1 : 2 ^ (23 + k) ≤ n) (h2 : n < 2 ^ (24 + k)) :
    dropBits n = k := by
  have h3 : 2 ^ 24 ≤ n := Nat.le_trans (Nat.pow_le_pow_right (by omega) (by omega)) h1
  have hn : n ≠ 0 := by
    intro e; subst e
    exact absurd h1 (Nat.not_le.2 (Nat.two_pow_pos _))
  rw [dropBits_big h3]
  have : Nat.log2 n = 23 + k := by
    rw [Nat.log2_eq_iff hn]
    exact ⟨h1, by rw [show 23 + k + 1 = 24 + k by omega]; exact h2⟩
  omega

/-- What `dropBits` means. -/
theorem dropBits_spec (n : Nat) : (dropBits n = 0 ∧ n < 2 ^ 24) ∨
    (1 ≤ dropBits n ∧ 2 ^ (23 + dropBits n) ≤ n ∧ n < 2 ^ (24 + dropBits n)) := by
  by_cases h : n < 2 ^ 24
  · exact .inl ⟨dropBits_small h, h⟩
  · right
    have h := Nat.not_lt.1 h
    have hn : n ≠ 0 := by intro e; subst e; exact absurd h (Nat.not_le.2 (Nat.two_pow_pos _))
    have h1 : 24 ≤ Nat.log2 n := (Nat.le_log2 hn).2 h
    rw [dropBits_big h]
    refine ⟨by omega, ?_, ?_⟩
    · rw [show 23 + (Nat.log2 n - 23) = Nat.log2 n by omega]; exact Nat.log2_self_le hn
    · rw [show 24 + (Nat.log2 n - 23) = Nat.log2 n + 1 by omega]; exact Nat.lt_log2_self

theorem dropBits_mono {m n : Nat} (h : m ≤ n) : dropBits m ≤ dropBits n := by
  rcases dropBits_spec m with ⟨h0, _⟩ | ⟨h1, h2, h3⟩
  · omega
  · rcases dropBits_spec n with ⟨_, h5⟩ | ⟨h4, h5, h6⟩
    · have : 2 ^ (23 + dropBits m) < 2 ^ 24 := by omega
      have := (Nat.pow_lt_pow_iff_right (by omega : 1 < 2)).1 this
      omega
    · have : 2 ^ (23 + dropBits m) < 2 ^ (24 + dropBits n) := by omega
      have := (Nat.pow_lt_pow_iff_right (by omega : 1 < 2)).1 this
      omega

theorem rep_small {n : Nat} (h : n < 2 ^ 24) : Rep n := by
  rw [Rep, dropBits_small h]; simp

/-- `q * 2^k` with `q ≤ 2^24` is representable. -/
theorem rep_mul {q k : Nat} (hq : q ≤ 2 ^ 24) : Rep (q * 2 ^ k) := by
  rcases dropBits_spec (q * 2 ^ k) with ⟨h0, _⟩ | ⟨h1, h2, h3⟩
  · rw [Rep, h0]; simp
  · rw [Rep]
    by_cases hle : dropBits (q * 2 ^ k) ≤ k
    · exact Nat.dvd_trans (Nat.pow_dvd_pow 2 hle) (Nat.dvd_mul_left _ _)
    · -- then q = 2^24 exactly
      have h4 : q * 2 ^ k ≤ 2 ^ (24 + k) := by
        rw [Nat.pow_add]; exact Nat.mul_le_mul_right _ hq
      have h5 : 2 ^ (23 + dropBits (q * 2 ^ k)) ≤ 2 ^ (24 + k) := Nat.le_trans h2 h4
      have h6 := (Nat.pow_le_pow_iff_right (by omega : 1 < 2)).1 h5
      have h7 : dropBits (q * 2 ^ k) = k + 1 := by omega
      have h8 : q * 2 ^ k = 2 ^ (24 + k) := by
        rw [h7, show 23 + (k + 1) = 24 + k by omega] at h2
        omega
      rw [h7, h8]
      exact Nat.pow_dvd_pow 2 (by omega)

theorem rep_pow (k : Nat) : Rep (2 ^ k) := by
  have := rep_mul (q := 1) (k := k) (by decide)
  simpa using this

/-- The rounded quotient before scaling. -/
def roundQ (a d : Nat) : Nat :=
  if 2 * (a % d) < d then a / d else if d < 2 * (a % d) then a / d + 1
  else if a / d % 2 = 0 then a / d else a / d + 1

theorem roundMag_eq (a b : Nat) :
    roundMag a b = roundQ a (b * 2 ^ dropBits (a / b)) * 2 ^ dropBits (a / b) := rfl

theorem roundQ_cases (a d : Nat) : roundQ a d = a / d ∨ roundQ a d = a / d + 1 := by
  simp only [roundQ]; split
  · exact .inl rfl
  · split
    · exact .inr rfl
    · split
      · exact .inl rfl
      · exact .inr rfl

theorem roundQ_exact {a d : Nat} (hd : 0 < d) (h : a % d = 0) : roundQ a d = a / d := by
  simp only [roundQ, h, Nat.mul_zero, if_pos hd]

/-- The quotient fits 24 bits. -/
theorem quot_lt (a b : Nat) : a / (b * 2 ^ dropBits (a / b)) < 2 ^ 24 := by
  rw [← Nat.div_div_eq_div_mul]
  rcases dropBits_spec (a / b) with ⟨h0, h⟩ | ⟨_, _, h⟩
  · rw [h0]; simpa using h
  · rw [Nat.div_lt_iff_lt_mul (Nat.two_pow_pos _), ← Nat.pow_add]; exact h

theorem quot_ge {a b : Nat} (h : 1 ≤ dropBits (a / b)) : 2 ^ 23 ≤ a / (b * 2 ^ dropBits (a / b)) := by
  rw [← Nat.div_div_eq_div_mul]
  rcases dropBits_spec (a / b) with ⟨h0, _⟩ | ⟨_, h', _⟩
  · omega
  · rw [Nat.le_div_iff_mul_le (Nat.two_pow_pos _), ← Nat.pow_add]; exact h'

theorem rep_roundMag (a b : Nat) : Rep (roundMag a b) := by
  rw [roundMag_eq]
  apply rep_mul
  have := quot_lt a b
  rcases roundQ_cases a (b * 2 ^ dropBits (a / b)) with h | h <;> rw [h] <;> omega

/-- A representable number at least `q * 2^k`, with `q ≥ 2^23` or `k = 0`, is a multiple of `2^k`. -/
theorem dvd_of_rep_ge {r q k : Nat} (hr : Rep r) (hq : k = 0 ∨ 2 ^ 23 ≤ q) (h : q * 2 ^ k ≤ r) : 2 ^ k ∣ r := by
  rcases hq with rfl | hq
  · simp
  · by_cases hk : k = 0
    · subst hk; simp
    · have h1 : 2 ^ (23 + k) ≤ r := by
        rw [Nat.pow_add]; exact Nat.le_trans (Nat.mul_le_mul_right _ hq) h
      have h2 : k ≤ dropBits r := by
        rcases dropBits_spec r with ⟨_, h3⟩ | ⟨_, _, h3⟩
        · have : 2 ^ (23 + k) < 2 ^ 24 := by omega
          have := (Nat.pow_lt_pow_iff_right (by omega : 1 < 2)).1 this
          omega
        · have : 2 ^ (23 + k) < 2 ^ (24 + dropBits r) := by omega
          have := (Nat.pow_lt_pow_iff_right (by omega : 1 < 2)).1 this
          omega
      exact Nat.dvd_trans (Nat.pow_dvd_pow 2 h2) hr

theorem quot_cond (a b : Nat) : dropBits (a / b) = 0 ∨ 2 ^ 23 ≤ a / (b * 2 ^ dropBits (a / b)) := by
  by_cases h : dropBits (a / b) = 0
  · exact .inl h
  · exact .inr (quot_ge (by omega))

/-- Rounding does not go below a representable lower bound. -/
theorem le_roundMag {r a b : Nat} (hb : 0 < b) (hr : Rep r) (h : r * b ≤ a) : r ≤ roundMag a b := by
  rw [roundMag_eq]
  have hc := quot_cond a b
  generalize dropBits (a / b) = k at *
  have hd : 0 < b * 2 ^ k := Nat.mul_pos hb (Nat.two_pow_pos _)
  generalize hq : a / (b * 2 ^ k) = q at *
  have hle : q ≤ roundQ a (b * 2 ^ k) := by
    rcases roundQ_cases a (b * 2 ^ k) with e | e <;> rw [e] <;> omega
  refine Nat.le_trans ?_ (Nat.mul_le_mul_right _ hle)
  apply Nat.le_of_not_lt
  intro hlt
  have hdvd := dvd_of_rep_ge hr hc (Nat.le_of_lt hlt)
  obtain ⟨s, hs⟩ := hdvd
  have h1 : q < s := by
    rw [hs, Nat.mul_comm (2 ^ k)] at hlt
    exact Nat.lt_of_mul_lt_mul_right hlt
  have h2 : a < (q + 1) * (b * 2 ^ k) := by
    have := Nat.lt_succ_self q
    rw [← hq, Nat.div_lt_iff_lt_mul hd] at this
    rw [← hq]; exact this
  have h3 : (q + 1) * (b * 2 ^ k) ≤ r * b := by
    rw [hs, Nat.mul_comm (2 ^ k) s, Nat.mul_assoc, Nat.mul_comm (2 ^ k) b]
    exact Nat.mul_le_mul_right _ h1
  omega

/-- Rounding does not go above a representable upper bound. -/
theorem roundMag_le {r a b : Nat} (hb : 0 < b) (hr : Rep r) (h : a ≤ r * b) : roundMag a b ≤ r := by
  rw [roundMag_eq]
  have hc := quot_cond a b
  generalize dropBits (a / b) = k at *
  have hd : 0 < b * 2 ^ k := Nat.mul_pos hb (Nat.two_pow_pos _)
  have hle : a / (b * 2 ^ k) * (b * 2 ^ k) ≤ a := Nat.div_mul_le_self _ _
  by_cases hex : a % (b * 2 ^ k) = 0
  · rw [roundQ_exact hd hex]
    have : a / (b * 2 ^ k) * 2 ^ k * b ≤ r * b := by
      rw [Nat.mul_assoc, Nat.mul_comm (2 ^ k) b]; omega
    exact Nat.le_of_mul_le_mul_right this hb
  · have hlt : a / (b * 2 ^ k) * (b * 2 ^ k) < a := by
      have := Nat.div_add_mod a (b * 2 ^ k)
      rw [Nat.mul_comm] at this
      omega
    generalize hq : a / (b * 2 ^ k) = q at *
    have h1 : q * 2 ^ k < r := by
      have : q * 2 ^ k * b < r * b := by
        rw [Nat.mul_assoc, Nat.mul_comm (2 ^ k) b]; omega
      exact Nat.lt_of_mul_lt_mul_right this
    obtain ⟨s, hs⟩ := dvd_of_rep_ge hr hc (Nat.le_of_lt h1)
    have h2 : q < s := by
      rw [hs, Nat.mul_comm (2 ^ k)] at h1
      exact Nat.lt_of_mul_lt_mul_right h1
    have h3 : roundQ a (b * 2 ^ k) ≤ s := by
      rcases roundQ_cases a (b * 2 ^ k) with e | e <;> rw [e, hq] <;> omega
    rw [hs, Nat.mul_comm (2 ^ k) s]
    exact Nat.mul_le_mul_right _ h3

theorem roundMag_rep {n b : Nat} (hb : 0 < b) (hr : Rep n) : roundMag (n * b) b = n :=
  Nat.le_antisymm (roundMag_le hb hr (Nat.le_refl _)) (le_roundMag hb hr (Nat.le_refl _))

/-- Rounding of quotients is monotone. -/
theorem roundMag_mono {a b a' b' : Nat} (hb : 0 < b) (hb' : 0 < b') (h : a * b' ≤ a' * b) :
    roundMag a b ≤ roundMag a' b' := by
  by_cases hdown : roundMag a b * b ≤ a
  · apply le_roundMag hb' (rep_roundMag a b)
    have : roundMag a b * b' * b ≤ a' * b := by
      calc roundMag a b * b' * b = roundMag a b * b * b' := by rw [Nat.mul_assoc, Nat.mul_comm b' b, ← Nat.mul_assoc]
        _ ≤ a * b' := Nat.mul_le_mul_right _ hdown
        _ ≤ a' * b := h
    exact Nat.le_of_mul_le_mul_right this hb
  · by_cases hup : roundMag a b * b' ≤ a'
    · exact le_roundMag hb' (rep_roundMag a b) hup
    · have hdown := Nat.not_le.1 hdown
      have hup := Nat.not_le.1 hup
      -- both quotients lie in the same binade cell, above its middle
      rw [roundMag_eq] at hdown hup ⊢
      have hspec := dropBits_spec (a / b)
      have hql := quot_lt a b
      have hqc := quot_cond a b
      generalize hk : dropBits (a / b) = k at *
      have hd : 0 < b * 2 ^ k := Nat.mul_pos hb (Nat.two_pow_pos _)
      have hd' : 0 < b' * 2 ^ k := Nat.mul_pos hb' (Nat.two_pow_pos _)
      have hdm := Nat.div_add_mod a (b * 2 ^ k)
      generalize hq : a / (b * 2 ^ k) = q at *
      generalize hm : a % (b * 2 ^ k) = m at *
      have hQ : roundQ a (b * 2 ^ k) = q + 1 := by
        rcases roundQ_cases a (b * 2 ^ k) with e | e
        · rw [e, hq] at hdown
          have : q * 2 ^ k * b = b * 2 ^ k * q := by
            rw [Nat.mul_assoc, Nat.mul_comm (2 ^ k) b, Nat.mul_comm]
          omega
        · rw [e, hq]
      have hhalf : b * 2 ^ k ≤ 2 * m ∧ (2 * m = b * 2 ^ k → q % 2 = 1) := by
        simp only [roundQ, hq, hm] at hQ
        split at hQ
        · omega
        · split at hQ
          · exact ⟨by omega, by omega⟩
          · split at hQ
            · omega
            · exact ⟨by omega, by omega⟩
      rw [hQ] at hup ⊢
      -- bounds on a'
      have hlo : q * (b' * 2 ^ k) ≤ a' := by
        have : q * (b' * 2 ^ k) * b ≤ a' * b := by
          calc q * (b' * 2 ^ k) * b = (b * 2 ^ k * q) * b' := by
                simp only [Nat.mul_comm, Nat.mul_left_comm]
            _ ≤ a * b' := Nat.mul_le_mul_right _ (by omega)
            _ ≤ a' * b := h
        exact Nat.le_of_mul_le_mul_right this hb
      have hhi : a' < (q + 1) * (b' * 2 ^ k) := by
        have : (q + 1) * 2 ^ k * b' = (q + 1) * (b' * 2 ^ k) := by
          rw [Nat.mul_assoc, Nat.mul_comm (2 ^ k) b']
        omega
      have hq' : a' / (b' * 2 ^ k) = q := by
        apply Nat.le_antisymm
        · exact Nat.le_of_lt_succ ((Nat.div_lt_iff_lt_mul hd').2 hhi)
        · exact (Nat.le_div_iff_mul_le hd').2 hlo
      have hqq : a' / b' / 2 ^ k = q := by rw [Nat.div_div_eq_div_mul]; exact hq'
      have hk' : dropBits (a' / b') = k := by
        rcases hspec with ⟨h0, _⟩ | ⟨h1, _, _⟩
        · subst h0
          apply dropBits_small
          simp only [Nat.pow_zero, Nat.div_one] at hqq
          rw [hqq]; simpa using hql
        · have hge : 2 ^ 23 ≤ q := by omega
          apply dropBits_eq h1
          · rw [Nat.pow_add]
            refine Nat.le_trans (Nat.mul_le_mul_right _ hge) ?_
            rw [← hqq]; exact Nat.div_mul_le_self _ _
          · have : a' / b' / 2 ^ k < 2 ^ 24 := by rw [hqq]; exact hql
            rw [Nat.div_lt_iff_lt_mul (Nat.two_pow_pos _), ← Nat.pow_add] at this
            exact this
      rw [roundMag_eq, hk']
      apply Nat.mul_le_mul_right
      have hdm' := Nat.div_add_mod a' (b' * 2 ^ k)
      rw [hq'] at hdm'
      generalize hm' : a' % (b' * 2 ^ k) = m' at *
      -- compare remainders: m * b' ≤ m' * b
      have hrem : m * b' ≤ m' * b := by
        have e1 : (b * 2 ^ k * q + m) * b' ≤ (b' * 2 ^ k * q + m') * b := by rw [hdm, hdm']; exact h
        rw [Nat.add_mul, Nat.add_mul] at e1
        have e2 : b * 2 ^ k * q * b' = b' * 2 ^ k * q * b := by
          simp only [Nat.mul_comm, Nat.mul_left_comm]
        omega
      have hhalf' : b' * 2 ^ k ≤ 2 * m' := by
        have : b' * 2 ^ k * b ≤ 2 * m' * b := by
          calc b' * 2 ^ k * b = b * 2 ^ k * b' := by
                simp only [Nat.mul_comm, Nat.mul_left_comm]
            _ ≤ 2 * m * b' := Nat.mul_le_mul_right _ hhalf.1
            _ = 2 * (m * b') := Nat.mul_assoc _ _ _
            _ ≤ 2 * (m' * b) := Nat.mul_le_mul_left _ hrem
            _ = 2 * m' * b := (Nat.mul_assoc _ _ _).symm
        exact Nat.le_of_mul_le_mul_right this hb
      have htie : 2 * m' = b' * 2 ^ k → q % 2 = 1 := by
        intro e
        apply hhalf.2
        apply Nat.le_antisymm _ hhalf.1
        have : 2 * m * b' ≤ b * 2 ^ k * b' := by
          calc 2 * m * b' = 2 * (m * b') := Nat.mul_assoc _ _ _
            _ ≤ 2 * (m' * b) := Nat.mul_le_mul_left _ hrem
            _ = 2 * m' * b := (Nat.mul_assoc _ _ _).symm
            _ = b' * 2 ^ k * b := by rw [e]
            _ = b * 2 ^ k * b' := by
                simp only [Nat.mul_comm, Nat.mul_left_comm]
        exact Nat.le_of_mul_le_mul_right this hb'
      simp only [roundQ, hq', hm']
      split
      · omega
      · split
        · omega
        · split
          · have := htie (by omega); omega
          · omega

/-! ## Decoding -/

theorem pack_toNat (neg : Bool) (b : Nat) (h : b < 2 ^ 31) :
    (pack neg b).bits.toNat = b + if neg then 2 ^ 31 else 0 := by
  simp only [pack, UInt32.toNat_ofNat']
  apply Nat.mod_eq_of_lt
  simp only [Nat.reducePow] at *
  split <;> omega

theorem val_pack (neg : Bool) (b : Nat) (h : b < 255 * 2 ^ 23) : (pack neg b).val = .fin neg (magOfBits b) := by
  simp only [Nat.reducePow, Nat.reduceMul] at h
  have hp := pack_toNat neg b (by simp only [Nat.reducePow]; omega)
  simp only [val, hp]
  cases neg
  · simp only [Bool.false_eq_true, if_false, Nat.add_zero, Nat.reducePow, Nat.reduceMul]
    rw [Nat.mod_eq_of_lt (by omega), if_pos h, decide_eq_false (by omega)]
  · simp only [if_true, Nat.reducePow, Nat.reduceMul]
    rw [Nat.add_mod_right, Nat.mod_eq_of_lt (by omega), if_pos h, decide_eq_true (by omega)]

/-- Decoding the bits of a representable magnitude below 2^277 units gives it back. -/
theorem val_mag (neg : Bool) {n : Nat} (hr : Rep n) (h : n < 2 ^ 277) :
    (pack neg (bitsOfMag n)).val = .fin neg n := by
  have key : bitsOfMag n < 255 * 2 ^ 23 ∧ magOfBits (bitsOfMag n) = n := by
    simp only [bitsOfMag]
    rcases dropBits_spec n with ⟨h0, h1⟩ | ⟨h1, h2, h3⟩
    · rw [h0]
      simp only [Nat.zero_mul, Nat.pow_zero, Nat.div_one, Nat.zero_add]
      simp only [Nat.reducePow, Nat.reduceMul] at *
      rw [if_pos (by omega)]
      refine ⟨by omega, ?_⟩
      simp only [magOfBits, Nat.reducePow]
      split
      · rfl
      · have : n / 8388608 = 1 := by omega
        rw [this]; simp only [Nat.sub_self, Nat.pow_zero, Nat.mul_one]; omega
    · obtain ⟨q, hq⟩ := hr
      generalize hk : dropBits n = k at *
      have hk253 : k ≤ 253 := by
        have : 2 ^ (23 + k) < 2 ^ 277 := by omega
        have := (Nat.pow_lt_pow_iff_right (by omega : 1 < 2)).1 this
        omega
      have hnq : n / 2 ^ k = q := by rw [hq, Nat.mul_div_cancel_left _ (Nat.two_pow_pos _)]
      have hq1 : 2 ^ 23 ≤ q := by
        rw [← hnq, Nat.le_div_iff_mul_le (Nat.two_pow_pos _), ← Nat.pow_add]; exact h2
      have hq2 : q < 2 ^ 24 := by
        rw [← hnq, Nat.div_lt_iff_lt_mul (Nat.two_pow_pos _), ← Nat.pow_add]; exact h3
      rw [hnq]
      simp only [Nat.reducePow, Nat.reduceMul] at hq1 hq2 ⊢
      rw [if_pos (by omega)]
      refine ⟨by omega, ?_⟩
      simp only [magOfBits, Nat.reducePow]
      have e1 : (k * 8388608 + q) / 8388608 = k + 1 := by omega
      have e2 : (k * 8388608 + q) % 8388608 = q - 8388608 := by omega
      rw [e1, e2, if_neg (by omega), show 8388608 + (q - 8388608) = q by omega, Nat.add_sub_cancel, hq,
        Nat.mul_comm]
  rw [val_pack neg _ key.1, key.2]

/-- Value of a rounded quotient that does not overflow. -/
theorem val_ofRatio (neg : Bool) (a b : Nat) (h : roundMag a b < 2 ^ 277) :
    (ofRatio neg a b).val = .fin neg (roundMag a b) := val_mag neg (rep_roundMag a b) h

theorem rep_magOfBits (b : Nat) : Rep (magOfBits b) := by
  simp only [magOfBits]
  split
  · apply rep_small
    simp only [Nat.reducePow] at *; omega
  · apply rep_mul
    have := Nat.mod_lt b (Nat.two_pow_pos 23)
    simp only [Nat.reducePow] at *; omega

theorem magOfBits_lt {b : Nat} (h : b < 255 * 2 ^ 23) : magOfBits b < 2 ^ 277 := by
  simp only [magOfBits]
  split
  · refine Nat.lt_of_lt_of_le (m := 2 ^ 31) ?_ (Nat.pow_le_pow_right (by omega) (by omega))
    simp only [Nat.reducePow] at *; omega
  · have h1 : b / 2 ^ 23 - 1 ≤ 253 := by simp only [Nat.reducePow] at *; omega
    have h2 : 2 ^ 23 + b % 2 ^ 23 < 2 ^ 24 := by simp only [Nat.reducePow] at *; omega
    calc (2 ^ 23 + b % 2 ^ 23) * 2 ^ (b / 2 ^ 23 - 1)
        < 2 ^ 24 * 2 ^ (b / 2 ^ 23 - 1) := Nat.mul_lt_mul_of_pos_right h2 (Nat.two_pow_pos _)
      _ ≤ 2 ^ 24 * 2 ^ 253 := Nat.mul_le_mul_left _ (Nat.pow_le_pow_right (by omega) h1)
      _ = 2 ^ 277 := by rw [← Nat.pow_add]

/-- Every finite float has a representable magnitude below 2^277 units. -/
theorem rep_of_val {x : F32} {s : Bool} {n : Nat} (h : x.val = .fin s n) : Rep n ∧ n < 2 ^ 277 := by
  simp only [val] at h
  split at h
  · rename_i hlt
    cases h
    exact ⟨rep_magOfBits _, magOfBits_lt hlt⟩
  · split at h <;> cases h

/-! ## Numbers in (0, 1] -/

/-- `x` is a number with `2^(lo-149) ≤ x ≤ 1`. -/
def InUnit (lo : Nat) (x : F32) : Prop := ∃ m, x.val = .fin false m ∧ 2 ^ lo ≤ m ∧ m ≤ 2 ^ 149

theorem val_one : one.val = .fin false (2 ^ 149) := by decide +kernel

theorem inUnit_one : InUnit 149 one := ⟨2 ^ 149, val_one, Nat.le_refl _, Nat.le_refl _⟩

theorem mul_val {x y : F32} {m n : Nat} (hx : x.val = .fin false m) (hy : y.val = .fin false n)
    (hn : n ≤ 2 ^ 149) :
    (mul x y).val = .fin false (roundMag (m * n) (2 ^ 149)) ∧ roundMag (m * n) (2 ^ 149) ≤ m := by
  obtain ⟨hr, hlt⟩ := rep_of_val hx
  have hle : roundMag (m * n) (2 ^ 149) ≤ m :=
    roundMag_le (Nat.two_pow_pos _) hr (Nat.mul_le_mul_left _ hn)
  refine ⟨?_, hle⟩
  have e : mul x y = ofRatio false (m * n) one149 := by
    simp only [mul, hx, hy]; rfl
  rw [e, val_ofRatio]
  · rfl
  · exact Nat.lt_of_le_of_lt hle hlt

theorem InUnit.mul {i j : Nat} {x y : F32} (hx : InUnit i x) (hy : InUnit j y) (h : 149 ≤ i + j) :
    InUnit (i + j - 149) (mul x y) := by
  obtain ⟨m, hm, h1, h2⟩ := hx
  obtain ⟨n, hn, h3, h4⟩ := hy
  obtain ⟨hv, hle⟩ := mul_val hm hn h4
  refine ⟨_, hv, ?_, Nat.le_trans hle h2⟩
  apply le_roundMag (Nat.two_pow_pos _) (rep_pow _)
  rw [← Nat.pow_add, show i + j - 149 + 149 = i + j by omega, Nat.pow_add]
  exact Nat.mul_le_mul h1 h3

theorem ofNat_val {a : Nat} (h : a ≤ 2 ^ 32) : ∃ m, (ofNat a).val = .fin false m ∧
    m = roundMag (a * 2 ^ 149) 1 ∧ m ≤ 2 ^ 181 ∧ (1 ≤ a → 2 ^ 149 ≤ m) := by
  have hle : roundMag (a * 2 ^ 149) 1 ≤ 2 ^ 181 := by
    apply roundMag_le (by omega) (rep_pow _)
    rw [Nat.mul_one, show 181 = 32 + 149 by rfl, Nat.pow_add]
    exact Nat.mul_le_mul_right _ h
  refine ⟨roundMag (a * 2 ^ 149) 1, ?_, rfl, hle, ?_⟩
  · have e : ofNat a = ofRatio false (a * 2 ^ 149) 1 := rfl
    rw [e, val_ofRatio]
    exact Nat.lt_of_le_of_lt hle (Nat.pow_lt_pow_right (by omega) (by omega))
  · intro ha
    apply le_roundMag (by omega) (rep_pow _)
    have := Nat.mul_le_mul_right (2 ^ 149) ha
    omega

theorem div_fin {x y : F32} {m n : Nat} (hx : x.val = .fin false m) (hy : y.val = .fin false n) (hn : n ≠ 0) :
    div x y = ofRatio false (m * one149) n := by
  simp only [div, hx, hy, if_neg hn]; rfl

theorem one149_eq : one149 = 2 ^ 149 := rfl

/-- The quotient of two counts, as a float. -/
theorem div_val {a b : Nat} (ha : 1 ≤ a) (hab : a ≤ b) (hb : b ≤ 2 ^ 32) :
    ∃ q, (div (ofNat a) (ofNat b)).val = .fin false q ∧ 2 ^ 117 ≤ q ∧ q ≤ 2 ^ 149 ∧
      q = roundMag (roundMag (a * 2 ^ 149) 1 * 2 ^ 149) (roundMag (b * 2 ^ 149) 1) := by
  obtain ⟨m, hm, em, hm2, hm3⟩ := ofNat_val (a := a) (by omega)
  obtain ⟨n, hn, en, hn2, hn3⟩ := ofNat_val (a := b) hb
  have hm3 := hm3 ha
  have hn3 := hn3 (by omega)
  have hnpos : 0 < n := Nat.lt_of_lt_of_le (Nat.two_pow_pos _) hn3
  have hmn : m ≤ n := by
    rw [em, en]
    apply roundMag_mono (by omega) (by omega)
    rw [Nat.mul_one, Nat.mul_one]; exact Nat.mul_le_mul_right _ hab
  have e : div (ofNat a) (ofNat b) = ofRatio false (m * 2 ^ 149) n := by
    rw [div_fin hm hn (Nat.ne_of_gt hnpos), one149_eq]
  have hle : roundMag (m * 2 ^ 149) n ≤ 2 ^ 149 := by
    apply roundMag_le hnpos (rep_pow _)
    rw [Nat.mul_comm]; exact Nat.mul_le_mul_left _ hmn
  refine ⟨roundMag (m * 2 ^ 149) n, ?_, ?_, hle, by rw [em, en]⟩
  · rw [e, val_ofRatio]
    exact Nat.lt_of_le_of_lt hle (Nat.pow_lt_pow_right (by omega) (by omega))
  · apply le_roundMag hnpos (rep_pow _)
    calc 2 ^ 117 * n ≤ 2 ^ 117 * 2 ^ 181 := Nat.mul_le_mul_left _ hn2
      _ = 2 ^ 149 * 2 ^ 149 := by rw [← Nat.pow_add]
      _ ≤ m * 2 ^ 149 := Nat.mul_le_mul_right _ hm3

theorem inUnit_div {a b : Nat} (ha : 1 ≤ a) (hab : a ≤ b) (hb : b ≤ 2 ^ 32) :
    InUnit 117 (div (ofNat a) (ofNat b)) := by
  obtain ⟨q, h1, h2, h3, _⟩ := div_val ha hab hb
  exact ⟨q, h1, h2, h3⟩

theorem lt_fin {x y : F32} {m n : Nat} (hx : x.val = .fin false m) (hy : y.val = .fin false n) :
    lt x y = decide (m < n) := by
  simp only [lt, hx, hy, Val.lt, Bool.false_eq_true, if_false]
  congr 1
  simp

/-- A larger count over the same total never gives a smaller weight. -/
theorem div_mono {a a' b : Nat} (ha : 1 ≤ a) (haa : a ≤ a') (hab : a' ≤ b) (hb : b ≤ 2 ^ 32) :
    lt (div (ofNat a') (ofNat b)) (div (ofNat a) (ofNat b)) = false := by
  obtain ⟨q, h1, _, _, e⟩ := div_val ha (Nat.le_trans haa hab) hb
  obtain ⟨q', h1', _, _, e'⟩ := div_val (Nat.le_trans ha haa) hab hb
  obtain ⟨n, _, en, _, hn3⟩ := ofNat_val (a := b) hb
  have hnpos : 0 < roundMag (b * 2 ^ 149) 1 := by
    rw [← en]; exact Nat.lt_of_lt_of_le (Nat.two_pow_pos _) (hn3 (by omega))
  rw [lt_fin h1' h1, decide_eq_false_iff_not, Nat.not_lt, e, e']
  apply roundMag_mono hnpos hnpos
  apply Nat.mul_le_mul_right
  apply Nat.mul_le_mul_right
  apply roundMag_mono (by omega) (by omega)
  rw [Nat.mul_one, Nat.mul_one]; exact Nat.mul_le_mul_right _ haa

/-! ## Positive sums -/

/-- Positive: a positive finite number or +∞. -/
def Pos (x : F32) : Prop := (∃ m, x.val = .fin false m ∧ 1 ≤ m) ∨ x.val = .inf false

theorem InUnit.pos {lo : Nat} {x : F32} (h : InUnit lo x) : Pos x := by
  obtain ⟨m, h1, h2, _⟩ := h
  exact .inl ⟨m, h1, Nat.le_trans (Nat.two_pow_pos lo) h2⟩

theorem bitsOfMag_le (n : Nat) : bitsOfMag n ≤ 255 * 2 ^ 23 := by
  simp only [bitsOfMag]; split <;> omega

theorem val_inf : (inf false).val = .inf false := by decide +kernel

theorem val_pack_ge {n : Nat} (hr : Rep n) (h : ¬ n < 2 ^ 277) : (pack false (bitsOfMag n)).val = .inf false := by
  have : bitsOfMag n = 255 * 2 ^ 23 := by
    rcases dropBits_spec n with ⟨h0, h1⟩ | ⟨h1, h2, h3⟩
    · exact absurd (Nat.lt_trans h1 (Nat.pow_lt_pow_right (by omega) (by omega))) h
    · simp only [bitsOfMag]
      obtain ⟨q, hq⟩ := hr
      generalize hk : dropBits n = k at *
      have hk254 : 254 ≤ k := by
        have : 2 ^ 277 < 2 ^ (24 + k) := by omega
        have := (Nat.pow_lt_pow_iff_right (by omega : 1 < 2)).1 this
        omega
      have hq1 : 2 ^ 23 ≤ n / 2 ^ k := by
        rw [Nat.le_div_iff_mul_le (Nat.two_pow_pos _), ← Nat.pow_add]; exact h2
      generalize n / 2 ^ k = q' at *
      rw [if_neg]
      simp only [Nat.reducePow, Nat.reduceMul] at *
      omega
  rw [this]
  exact val_inf

theorem Pos.add {x y : F32} (hx : Pos x) (hy : Pos y) : Pos (add x y) := by
  rcases hx with ⟨m, hm, hm1⟩ | hx
  · rcases hy with ⟨n, hn, hn1⟩ | hy
    · have e : F32.add x y = ofRatio false (m + n) 1 := by simp only [F32.add, hm, hn, if_true]
      rw [e]
      by_cases hlt : roundMag (m + n) 1 < 2 ^ 277
      · refine .inl ⟨_, val_ofRatio false _ _ hlt, ?_⟩
        exact le_roundMag (by omega) (rep_small (by omega)) (by omega)
      · exact .inr (val_pack_ge (rep_roundMag _ _) hlt)
    · have e : F32.add x y = inf false := by simp only [F32.add, hm, hy]
      rw [e]; exact .inr val_inf
  · rcases hy with ⟨n, hn, hn1⟩ | hy
    · have e : F32.add x y = inf false := by simp only [F32.add, hx, hn]
      rw [e]; exact .inr val_inf
    · have e : F32.add x y = inf false := by simp only [F32.add, hx, hy, if_true]
      rw [e]; exact .inr val_inf

/-- Rounding picks a nearest representable magnitude: no representable `r` is closer to `a / b`. -/
theorem roundMag_nearest {a b r : Nat} (hb : 0 < b) (hr : Rep r) :
    (roundMag a b * b - a) + (a - roundMag a b * b) ≤ (r * b - a) + (a - r * b) := by
  have hlo : r * b ≤ a → r ≤ roundMag a b := le_roundMag hb hr
  have hhi : a ≤ r * b → roundMag a b ≤ r := roundMag_le hb hr
  rw [roundMag_eq] at *
  have hc := quot_cond a b
  generalize dropBits (a / b) = k at *
  have hd : 0 < b * 2 ^ k := Nat.mul_pos hb (Nat.two_pow_pos _)
  have hdm := Nat.div_add_mod a (b * 2 ^ k)
  have hml := Nat.mod_lt a hd
  generalize hq : a / (b * 2 ^ k) = q at *
  generalize hm : a % (b * 2 ^ k) = m at *
  have eqlo : q * 2 ^ k * b = b * 2 ^ k * q := by
    simp only [Nat.mul_comm, Nat.mul_left_comm]
  have eqhi : (q + 1) * 2 ^ k * b = b * 2 ^ k * q + b * 2 ^ k := by
    rw [Nat.add_mul, Nat.add_mul, Nat.one_mul, eqlo, Nat.mul_comm (2 ^ k) b]
  -- r*b is at most the lower or at least the upper neighbour
  have hr2 : r * b ≤ b * 2 ^ k * q ∨ b * 2 ^ k * q + b * 2 ^ k ≤ r * b := by
    by_cases hle : r ≤ q * 2 ^ k
    · left; rw [← eqlo]; exact Nat.mul_le_mul_right _ hle
    · right
      obtain ⟨s, hs⟩ := dvd_of_rep_ge hr hc (by omega)
      have : q < s := by
        have : q * 2 ^ k < s * 2 ^ k := by rw [Nat.mul_comm s]; omega
        exact Nat.lt_of_mul_lt_mul_right this
      rw [← eqhi]
      apply Nat.mul_le_mul_right
      rw [hs, Nat.mul_comm (2 ^ k) s]
      exact Nat.mul_le_mul_right _ this
  simp only [roundQ, hq, hm]
  split
  · rw [eqlo]; omega
  · split
    · rw [eqhi]; omega
    · split
      · rw [eqlo]; omega
      · rw [eqhi]; omega

end Idx.F32
