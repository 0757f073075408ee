import Verif.Lemmas.F32
/-! The softfloat of `Model/F32.lean` rounds as IEEE 754 prescribes. -/
namespace Idx

/-- Distance of two numbers. -/
def gap (a b : Nat) : Nat := (a - b) + (b - a)

/-- Spec (IEEE 754-2019, 4.3.1, round to nearest, ties to even): the number `(-1)^neg * a / b`, in units of `2^-149`, becomes
`x`. From the midpoint between the largest f32 and `2^128` on it becomes infinite; below, `x` is a closest f32, and if
another one is as close, `x` is the one with an even last bit. -/
def Nearest (neg : Bool) (a b : Nat) (x : F32) : Prop :=
  (a < (2 ^ 25 - 1) * 2 ^ 252 * b ∧ ∃ m, x.val = .fin neg m ∧
    ∀ (y : F32) (s : Bool) (n : Nat), y.val = .fin s n →
      gap (m * b) a ≤ gap (n * b) a ∧ (n ≠ m → gap (m * b) a = gap (n * b) a → x.bits.toNat % 2 = 0)) ∨
  ((2 ^ 25 - 1) * 2 ^ 252 * b ≤ a ∧ x.val = .inf neg)

namespace F32

theorem gap_roundMag {a b r : Nat} (hb : 0 < b) (hr : Rep r) : gap (roundMag a b * b) a ≤ gap (r * b) a :=
  roundMag_nearest hb hr

/-- If another representable number is as close, the one chosen has an even quotient. -/
theorem roundQ_even {a b r : Nat} (hb : 0 < b) (hr : Rep r) (hne : r ≠ roundMag a b)
    (hg : gap (roundMag a b * b) a = gap (r * b) a) : roundQ a (b * 2 ^ dropBits (a / b)) % 2 = 0 := by
  unfold gap at hg
  rw [roundMag_eq] at *
  have hc := quot_cond a b
  generalize dropBits (a / b) = k at *
  have hd : 0 < b * 2 ^ k := Nat.mul_pos hb (Nat.two_pow_pos _)
  have hdm := Nat.div_add_mod a (b * 2 ^ k)
  have hml := Nat.mod_lt a hd
  generalize hq : a / (b * 2 ^ k) = q at *
  generalize hm : a % (b * 2 ^ k) = m at *
  have eqlo : q * 2 ^ k * b = b * 2 ^ k * q := by
    simp only [Nat.mul_comm, Nat.mul_left_comm]
  have eqhi : (q + 1) * 2 ^ k * b = b * 2 ^ k * q + b * 2 ^ k := by
    rw [Nat.add_mul, Nat.add_mul, Nat.one_mul, eqlo, Nat.mul_comm (2 ^ k) b]
  have hr2 : r * b ≤ b * 2 ^ k * q ∨ b * 2 ^ k * q + b * 2 ^ k ≤ r * b := by
    by_cases hle : r ≤ q * 2 ^ k
    · left; rw [← eqlo]; exact Nat.mul_le_mul_right _ hle
    · right
      obtain ⟨s, hs⟩ := dvd_of_rep_ge hr hc (by omega)
      have : q < s := by
        have : q * 2 ^ k < s * 2 ^ k := by rw [Nat.mul_comm s]; omega
        exact Nat.lt_of_mul_lt_mul_right this
      rw [← eqhi]
      apply Nat.mul_le_mul_right
      rw [hs, Nat.mul_comm (2 ^ k) s]
      exact Nat.mul_le_mul_right _ this
  have hinj : ∀ x : Nat, r * b = x * b → r = x := fun x h => Nat.eq_of_mul_eq_mul_right hb h
  simp only [roundQ, hq, hm] at *
  split
  · rename_i h1
    rw [if_pos h1] at hg hne
    have := hinj (q * 2 ^ k)
    rw [eqlo] at hg this
    omega
  · rename_i h1
    rw [if_neg h1] at hg hne
    split
    · rename_i h2
      rw [if_pos h2] at hg hne
      have := hinj ((q + 1) * 2 ^ k)
      rw [eqhi] at hg this
      omega
    · split
      · assumption
      · omega

theorem bitsOfMag_even {a b : Nat} (h : roundQ a (b * 2 ^ dropBits (a / b)) % 2 = 0) :
    bitsOfMag (roundMag a b) % 2 = 0 := by
  have hle : roundQ a (b * 2 ^ dropBits (a / b)) ≤ 2 ^ 24 := by
    have := quot_lt a b
    rcases roundQ_cases a (b * 2 ^ dropBits (a / b)) with e | e <;> omega
  have hge : dropBits (a / b) = 0 ∨ 2 ^ 23 ≤ roundQ a (b * 2 ^ dropBits (a / b)) := by
    rcases quot_cond a b with e | e
    · exact .inl e
    · right
      rcases roundQ_cases a (b * 2 ^ dropBits (a / b)) with e | e <;> omega
  rw [roundMag_eq]
  generalize roundQ a (b * 2 ^ dropBits (a / b)) = q at *
  generalize dropBits (a / b) = k at *
  have hdiv : ∃ j, dropBits (q * 2 ^ k) = k + j ∧ q * 2 ^ k / 2 ^ (k + j) % 2 = 0 := by
    by_cases hq : q = 2 ^ 24
    · refine ⟨1, ?_, ?_⟩
      · subst hq
        apply dropBits_eq (by omega)
        · rw [← Nat.pow_add]; exact Nat.pow_le_pow_right (by omega) (by omega)
        · rw [← Nat.pow_add]; exact Nat.pow_lt_pow_right (by omega) (by omega)
      · rw [hq, ← Nat.pow_add, show 24 + k = 23 + (k + 1) by omega, Nat.pow_add, Nat.mul_div_cancel _ (Nat.two_pow_pos _)]
    · refine ⟨0, ?_, by rw [Nat.add_zero, Nat.mul_div_cancel _ (Nat.two_pow_pos _)]; exact h⟩
      rcases Nat.eq_zero_or_pos k with rfl | hk
      · simp only [Nat.pow_zero, Nat.mul_one]
        exact dropBits_small (by omega)
      · rw [Nat.add_zero]
        apply dropBits_eq hk
        · rw [Nat.pow_add]; exact Nat.mul_le_mul_right _ (by omega)
        · rw [Nat.pow_add]; exact Nat.mul_lt_mul_of_pos_right (by omega) (Nat.two_pow_pos _)
  obtain ⟨j, h1, h2⟩ := hdiv
  simp only [bitsOfMag, h1]
  split
  · omega
  · decide

/-- The numbers of magnitude at least `2^277` units are rounded to infinity. -/
theorem val_ofRatio_inf (neg : Bool) (a b : Nat) (h : ¬roundMag a b < 2 ^ 277) : (ofRatio neg a b).val = .inf neg := by
  have e : bitsOfMag (roundMag a b) = 255 * 2 ^ 23 := by
    have hr := rep_roundMag a b
    generalize roundMag a b = n at *
    rcases dropBits_spec n with ⟨h0, h1⟩ | ⟨h1, h2, h3⟩
    · exact absurd (Nat.lt_trans h1 (Nat.pow_lt_pow_right (by omega) (by omega))) h
    · simp only [bitsOfMag]
      generalize hk : dropBits n = k at *
      have hk254 : 254 ≤ k := by
        have : 2 ^ 277 < 2 ^ (24 + k) := by omega
        have := (Nat.pow_lt_pow_iff_right (by omega : 1 < 2)).1 this
        omega
      have hq1 : 2 ^ 23 ≤ n / 2 ^ k := by
        rw [Nat.le_div_iff_mul_le (Nat.two_pow_pos _), ← Nat.pow_add]; exact h2
      generalize n / 2 ^ k = q' at *
      rw [if_neg]
      simp only [Nat.reducePow, Nat.reduceMul] at *
      omega
  unfold ofRatio
  rw [e]
  cases neg <;> decide +kernel

theorem pow_277 : (2 : Nat) ^ 277 = 2 ^ 25 * 2 ^ 252 := Nat.pow_add 2 25 252

theorem rep_top : Rep ((2 ^ 25 - 2) * 2 ^ 252) := by
  have : (2 ^ 25 - 2) * 2 ^ 252 = (2 ^ 24 - 1) * 2 ^ 253 := by
    rw [show (253 : Nat) = 1 + 252 from rfl, Nat.pow_add, ← Nat.mul_assoc]
  rw [this]
  exact rep_mul (by omega)

theorem rep_277 : Rep (2 ^ 25 * 2 ^ 252) := by rw [← pow_277]; exact rep_pow 277

/-- The largest finite magnitude. -/
theorem rep_le_top {n : Nat} (h : Rep n) (hlt : n < 2 ^ 25 * 2 ^ 252) : n ≤ (2 ^ 25 - 2) * 2 ^ 252 := by
  rcases Nat.lt_or_ge n (2 ^ 24 * 2 ^ 252) with h1 | h1
  · exact Nat.le_trans (Nat.le_of_lt h1) (Nat.mul_le_mul_right _ (by omega))
  · have e : dropBits n = 253 := by
      apply dropBits_eq (by omega)
      · rw [show 23 + 253 = 24 + 252 from rfl, Nat.pow_add]; exact h1
      · rw [show 24 + 253 = 25 + 252 from rfl, Nat.pow_add]; exact hlt
    unfold Rep at h
    rw [e, show (253 : Nat) = 1 + 252 from rfl, Nat.pow_add] at h
    obtain ⟨q, rfl⟩ := h
    generalize 2 ^ 252 = w at *
    have hw : 0 < w := by
      rcases Nat.eq_zero_or_pos w with rfl | hw
      · simp at hlt
      · exact hw
    rw [show 2 ^ 1 * w * q = (2 * q) * w by simp [Nat.mul_comm, Nat.mul_left_comm]] at *
    have := Nat.lt_of_mul_lt_mul_right hlt
    exact Nat.mul_le_mul_right _ (by omega)

theorem top_odd : bitsOfMag ((2 ^ 25 - 2) * 2 ^ 252) % 2 = 1 := by decide +kernel

/-- The arithmetic of `roundMag_lt_iff`: `w` is half the distance of the last finite numbers. -/
theorem top_cases {a w mb : Nat} {finite even : Prop}
    (n1 : gap mb a ≤ gap ((2 ^ 25 - 2) * w) a) (n2 : gap mb a ≤ gap (2 ^ 25 * w) a)
    (hle : finite → mb ≤ (2 ^ 25 - 2) * w) (hge : ¬finite → 2 ^ 25 * w ≤ mb)
    (htie : finite → gap mb a = gap (2 ^ 25 * w) a → even) (hodd : mb = (2 ^ 25 - 2) * w → ¬even) :
    finite ↔ a < (2 ^ 25 - 1) * w := by
  unfold gap at *
  by_cases h : finite
  · refine ⟨fun _ => ?_, fun _ => h⟩
    have h1 := hle h
    rcases Nat.lt_or_ge a ((2 ^ 25 - 1) * w) with h2 | h2
    · exact h2
    · exact absurd (htie h (by omega)) (hodd (by omega))
  · have := hge h
    refine ⟨fun h' => absurd h' h, fun h2 => ?_⟩
    exfalso
    omega

/-- Where rounding to infinity begins. -/
theorem roundMag_lt_iff {a b : Nat} (hb : 0 < b) : roundMag a b < 2 ^ 277 ↔ a < (2 ^ 25 - 1) * 2 ^ 252 * b := by
  rw [pow_277, Nat.mul_assoc (2 ^ 25 - 1)]
  refine top_cases (even := bitsOfMag (roundMag a b) % 2 = 0)
    (Nat.mul_assoc (2 ^ 25 - 2) (2 ^ 252) b ▸ gap_roundMag (a := a) hb rep_top)
    (Nat.mul_assoc (2 ^ 25) (2 ^ 252) b ▸ gap_roundMag (a := a) hb rep_277)
    (fun h => Nat.mul_assoc (2 ^ 25 - 2) (2 ^ 252) b ▸ Nat.mul_le_mul_right b (rep_le_top (rep_roundMag a b) h))
    (fun h => Nat.mul_assoc (2 ^ 25) (2 ^ 252) b ▸ Nat.mul_le_mul_right b (Nat.le_of_not_lt h))
    (fun h1 h2 => bitsOfMag_even (roundQ_even hb rep_277 (Nat.ne_of_gt h1) ?_))
    (fun h1 h2 => ?_)
  · rw [Nat.mul_assoc (2 ^ 25)]; exact h2
  · have h3 : roundMag a b = (2 ^ 25 - 2) * 2 ^ 252 :=
      Nat.eq_of_mul_eq_mul_right hb (h1.trans (Nat.mul_assoc (2 ^ 25 - 2) (2 ^ 252) b).symm)
    have h4 : (0 : Nat) = 1 := (h2.symm.trans (congrArg (fun m => bitsOfMag m % 2) h3)).trans top_odd
    exact absurd h4 Nat.zero_ne_one

end F32

theorem F32.pack_even (neg : Bool) {m : Nat} (hl : m ≤ 2139095040) (h : m % 2 = 0) : (pack neg m).bits.toNat % 2 = 0 := by
  have e := pack_toNat neg m (Nat.lt_of_le_of_lt hl (by decide))
  rw [e]
  cases neg
  · exact h
  · change (m + 2147483648) % 2 = 0
    omega

theorem F32.ofRatio_even (neg : Bool) {a b : Nat} (h : bitsOfMag (roundMag a b) % 2 = 0) :
    (ofRatio neg a b).bits.toNat % 2 = 0 :=
  pack_even neg (bitsOfMag_le (roundMag a b)) h

/-- The model rounds as prescribed. -/
theorem nearest_ofRatio (neg : Bool) (a : Nat) {b : Nat} (hb : 0 < b) : Nearest neg a b (F32.ofRatio neg a b) :=
  if h : F32.roundMag a b < 2 ^ 277 then
    .inl ⟨(F32.roundMag_lt_iff hb).1 h, _, F32.val_ofRatio neg a b h, fun _ _ _ hy =>
      ⟨F32.gap_roundMag hb (F32.rep_of_val hy).1, fun hne hg =>
        F32.ofRatio_even neg (F32.bitsOfMag_even (F32.roundQ_even hb (F32.rep_of_val hy).1 hne hg))⟩⟩
  else .inr ⟨Nat.le_of_not_lt fun h' => h ((F32.roundMag_lt_iff hb).2 h'), F32.val_ofRatio_inf neg a b h⟩

theorem F32.magOfBits_succ (b : Nat) : magOfBits b < magOfBits (b + 1) := by
  unfold magOfBits
  have h1 := Nat.div_add_mod b (2 ^ 23)
  have h2 := Nat.mod_lt b (Nat.two_pow_pos 23)
  have h3 := Nat.div_add_mod (b + 1) (2 ^ 23)
  have h4 := Nat.mod_lt (b + 1) (Nat.two_pow_pos 23)
  generalize b / 2 ^ 23 = e at *
  generalize b % 2 ^ 23 = f at *
  generalize (b + 1) / 2 ^ 23 = e' at *
  generalize (b + 1) % 2 ^ 23 = f' at *
  have hc : (e' = e ∧ f' = f + 1) ∨ (e' = e + 1 ∧ f' = 0 ∧ f = 2 ^ 23 - 1) := by
    simp only [Nat.reducePow] at *
    omega
  rcases hc with ⟨rfl, rfl⟩ | ⟨rfl, rfl, rfl⟩
  · split
    · omega
    · exact Nat.mul_lt_mul_of_pos_right (by omega) (Nat.two_pow_pos _)
  · by_cases h : e = 0
    · subst h
      simp only [Nat.reducePow, Nat.reduceAdd, Nat.reduceSub, Nat.one_ne_zero, if_true, if_false] at *
      omega
    · have hne : e + 1 ≠ 0 := by omega
      rw [if_neg h, if_neg hne]
      obtain ⟨k, rfl⟩ : ∃ k, e = k + 1 := ⟨e - 1, by omega⟩
      rw [Nat.add_sub_cancel, Nat.add_sub_cancel, Nat.pow_succ]
      have hw := Nat.two_pow_pos k
      calc (2 ^ 23 + (2 ^ 23 - 1)) * 2 ^ k < 2 ^ 24 * 2 ^ k := Nat.mul_lt_mul_of_pos_right (by decide) hw
        _ = (2 ^ 23 + 0) * (2 ^ k * 2) := by rw [Nat.add_zero, Nat.mul_comm (2 ^ k) 2, ← Nat.mul_assoc]

theorem F32.magOfBits_lt_of_lt {a b : Nat} (h : a < b) : magOfBits a < magOfBits b := by
  induction b with
  | zero => omega
  | succ b ih =>
    rcases Nat.lt_or_ge a b with h1 | h1
    · exact Nat.lt_trans (ih h1) (magOfBits_succ b)
    · have : a = b := by omega
      subst this
      exact magOfBits_succ a

/-- The bits of a finite number. -/
theorem F32.bits_of_val {x : F32} {s : Bool} {m : Nat} (h : x.val = .fin s m) :
    ∃ r, r < 2139095040 ∧ x = pack s r ∧ m = magOfBits r ∧ x.bits.toNat % 2 = r % 2 := by
  unfold val at h
  simp only [Nat.reducePow, Nat.reduceMul] at h
  split at h
  · rename_i hr
    simp only [Val.fin.injEq] at h
    obtain ⟨h1, h2⟩ := h
    have hx := x.bits.toNat_lt
    refine ⟨x.bits.toNat % 2147483648, hr, ?_, h2.symm, by omega⟩
    have e : x.bits.toNat = (pack s (x.bits.toNat % 2147483648)).bits.toNat := by
      rw [pack_toNat _ _ (by omega)]
      subst h1
      by_cases hs : 2147483648 ≤ x.bits.toNat
      · rw [decide_eq_true hs]
        simp only [if_true, Nat.reducePow] at *
        omega
      · rw [decide_eq_false hs]
        simp only [Bool.false_eq_true, if_false] at *
        omega
    have e2 := UInt32.toNat_inj.1 e
    generalize pack s (x.bits.toNat % 2147483648) = y at *
    cases x; cases y
    simp only at e2
    rw [e2]
  · split at h <;> cases h

theorem nearest_cross {b a A B C : Nat} (hb : 0 < b) (h1 : A < B) (h2 : B < C) (he : gap (A * b) a = gap (C * b) a)
    (hm : gap (A * b) a ≤ gap (B * b) a) : False := by
  have g1 : A * b < B * b := Nat.mul_lt_mul_of_pos_right h1 hb
  have g2 : B * b < C * b := Nat.mul_lt_mul_of_pos_right h2 hb
  generalize A * b = A' at *
  generalize B * b = B' at *
  generalize C * b = C' at *
  unfold gap at *
  omega

/-- The prescription leaves no choice. -/
theorem nearest_finite {neg : Bool} {a b : Nat} {x y : F32} {m n : Nat} (hb : 0 < b) (hx : x.val = .fin neg m) (hy : y.val = .fin neg n)
    (h1 : ∀ (y : F32) (s : Bool) (n : Nat), y.val = .fin s n →
      gap (m * b) a ≤ gap (n * b) a ∧ (n ≠ m → gap (m * b) a = gap (n * b) a → x.bits.toNat % 2 = 0))
    (h2 : ∀ (z : F32) (s : Bool) (k : Nat), z.val = .fin s k →
      gap (n * b) a ≤ gap (k * b) a ∧ (k ≠ n → gap (n * b) a = gap (k * b) a → y.bits.toNat % 2 = 0)) : x = y := by
  obtain ⟨g1, e1⟩ := h1 y neg n hy
  obtain ⟨g2, e2⟩ := h2 x neg m hx
  have hg : gap (m * b) a = gap (n * b) a := Nat.le_antisymm g1 g2
  obtain ⟨r, hr, hxr, rfl, p1⟩ := F32.bits_of_val hx
  obtain ⟨q, hq, hyq, rfl, p2⟩ := F32.bits_of_val hy
  rcases Nat.lt_trichotomy r q with h | h | h
  · exfalso
    have hlt := F32.magOfBits_lt_of_lt h
    have q1 := e1 (Nat.ne_of_gt hlt) hg
    have q2 := e2 (Nat.ne_of_lt hlt) hg.symm
    have hs : r + 1 < q := by omega
    exact nearest_cross hb (F32.magOfBits_succ r) (F32.magOfBits_lt_of_lt hs) hg
      (h1 _ _ _ (F32.val_pack false (r + 1) (Nat.lt_of_lt_of_le (Nat.lt_trans hs hq) (Nat.le_refl 2139095040)))).1
  · rw [hxr, hyq, h]
  · exfalso
    have hlt := F32.magOfBits_lt_of_lt h
    have q1 := e1 (Nat.ne_of_lt hlt) hg
    have q2 := e2 (Nat.ne_of_gt hlt) hg.symm
    have hs : q + 1 < r := by omega
    exact nearest_cross hb (F32.magOfBits_succ q) (F32.magOfBits_lt_of_lt hs) hg.symm
      (h2 _ _ _ (F32.val_pack false (q + 1) (Nat.lt_of_lt_of_le (Nat.lt_trans hs hr) (Nat.le_refl 2139095040)))).1

theorem F32.eq_inf {x : F32} {s : Bool} (h : x.val = .inf s) : x = inf s := by
  unfold val at h
  simp only [Nat.reducePow, Nat.reduceMul] at h
  split at h
  · cases h
  · split at h
    · rename_i hr
      simp only [Val.inf.injEq] at h
      have hx := x.bits.toNat_lt
      have e : x.bits.toNat = (inf s).bits.toNat := by
        unfold inf
        rw [pack_toNat _ _ (by decide)]
        subst h
        by_cases hs : 2147483648 ≤ x.bits.toNat
        · rw [decide_eq_true hs]
          simp only [if_true, Nat.reducePow, Nat.reduceMul] at *
          omega
        · rw [decide_eq_false hs]
          simp only [Bool.false_eq_true, if_false, Nat.reducePow, Nat.reduceMul] at *
          omega
      have e2 := UInt32.toNat_inj.1 e
      generalize inf s = y at *
      cases x; cases y
      simp only at e2
      rw [e2]
    · cases h

/-- The prescribed f32 is unique, and the model computes it. -/
theorem nearest_iff (neg : Bool) (a : Nat) {b : Nat} (hb : 0 < b) (x : F32) :
    Nearest neg a b x ↔ x = F32.ofRatio neg a b := by
  constructor
  · intro h
    have h' := nearest_ofRatio neg a hb
    rcases h with ⟨h1, m, hm, h2⟩ | ⟨h1, h2⟩
    · rcases h' with ⟨g1, n, hn, g2⟩ | ⟨g1, g2⟩
      · exact nearest_finite hb hm hn h2 g2
      · exact absurd h1 (Nat.not_lt_of_le g1)
    · rcases h' with ⟨g1, n, hn, g2⟩ | ⟨g1, g2⟩
      · exact absurd g1 (Nat.not_lt_of_le h1)
      · rw [F32.eq_inf h2, F32.eq_inf g2]
  · rintro rfl
    exact nearest_ofRatio neg a hb

/-! The operations on finite numbers. -/

theorem F32.mul_nearest {x y : F32} {s t : Bool} {m n : Nat} (hx : x.val = .fin s m) (hy : y.val = .fin t n) :
    Nearest (s != t) (m * n) (2 ^ 149) (mul x y) := by
  have e : mul x y = ofRatio (s != t) (m * n) one149 := by unfold mul; rw [hx, hy]
  rw [e]
  exact nearest_ofRatio _ _ (Nat.two_pow_pos 149)

theorem F32.div_nearest {x y : F32} {s t : Bool} {m n : Nat} (hx : x.val = .fin s m) (hy : y.val = .fin t n) (hn : 0 < n) :
    Nearest (s != t) (m * 2 ^ 149) n (div x y) := by
  have e : div x y = ofRatio (s != t) (m * one149) n := by
    unfold div; rw [hx, hy]; exact if_neg (Nat.ne_of_gt hn)
  rw [e]
  exact nearest_ofRatio _ _ hn

/-- The number `(-1)^s * m`. -/
def signed (s : Bool) (m : Nat) : Int := if s then -(m : Int) else m

theorem F32.add_nearest {x y : F32} {s t : Bool} {m n : Nat} (hx : x.val = .fin s m) (hy : y.val = .fin t n)
    (hne : signed s m + signed t n ≠ 0) :
    Nearest (decide (signed s m + signed t n < 0)) (signed s m + signed t n).natAbs 1 (add x y) := by
  have e : add x y = if s = t then ofRatio s (m + n) 1 else if m = n then pack false 0
    else if n < m then ofRatio s (m - n) 1 else ofRatio t (n - m) 1 := by unfold add; rw [hx, hy]
  have hr : ∀ (neg : Bool) (k : Nat), neg = decide (signed s m + signed t n < 0) → k = (signed s m + signed t n).natAbs →
      Nearest (decide (signed s m + signed t n < 0)) (signed s m + signed t n).natAbs 1 (ofRatio neg k 1) := by
    rintro neg k rfl rfl
    exact nearest_ofRatio _ _ Nat.one_pos
  rw [e]
  clear e hx hy
  unfold signed at *
  cases s <;> cases t <;> simp only [Bool.false_eq_true, Bool.true_eq_false, if_false, if_true] at *
  · apply hr
    · exact (decide_eq_false (by omega)).symm
    · omega
  · split
    · omega
    · split
      · apply hr
        · exact (decide_eq_false (by omega)).symm
        · omega
      · apply hr
        · exact (decide_eq_true (by omega)).symm
        · omega
  · split
    · omega
    · split
      · apply hr
        · exact (decide_eq_true (by omega)).symm
        · omega
      · apply hr
        · exact (decide_eq_false (by omega)).symm
        · omega
  · apply hr
    · exact (decide_eq_true (by omega)).symm
    · omega

theorem F32.ofNat_nearest (n : Nat) : Nearest false (n * 2 ^ 149) 1 (ofNat n) := nearest_ofRatio _ _ Nat.one_pos

end Idx
