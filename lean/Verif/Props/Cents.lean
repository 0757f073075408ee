import Verif.Props.Price
/-
C90: price ranges whose bounds are written in cents, as a page with a price slider has them. Prices are stored as f32, bounds are
JavaScript numbers (f64), so a price that is not a multiple of 25 cents is never stored as the number that the same text is in
JavaScript.
-/
namespace Idx
open F32

/-- Spec (IEEE 754, binary64): the finite non-negative doubles, in units of `2^-1074`. -/
def Double (k : Nat) : Prop := k < 2 ^ 2098 ∧ ∃ r j, r < 2 ^ 53 ∧ k = r * 2 ^ j

/-- Spec: the JavaScript number that the literal `p / q` stands for is a double closest to it. -/
def JsLiteral (p q k : Nat) : Prop := Double k ∧ ∀ k', Double k' → gap (q * k) (p * 2 ^ 1074) ≤ gap (q * k') (p * 2 ^ 1074)

/-- Spec: the price text is stored as less than `cents / 100`. -/
def StoredBelow (text : Str) (cents : Nat) : Prop :=
  ∃ x m, parseF32 text = some x ∧ x.val = .fin false m ∧ 100 * m < cents * 2 ^ 149

/-- Spec: the price text is stored as more than `cents / 100`. -/
def StoredAbove (text : Str) (cents : Nat) : Prop :=
  ∃ x m, parseF32 text = some x ∧ x.val = .fin false m ∧ cents * 2 ^ 149 < 100 * m

/-! ## Arithmetic -/

theorem gap_comm_mul (q U a b : Nat) : gap (q * (a * U)) (b * U) = U * gap (q * a) b := by
  rw [← gap_mul]
  congr 1
  · ac_rfl
  · exact Nat.mul_comm ..

/-- What a price in whole cents is stored as. -/
theorem cents_stored {text : Str} {c : Nat} (h : Worth text c 100) (hc : c ≤ 13107200) :
    ∃ x m, parseF32 text = some x ∧ x.val = .fin false m ∧ Rep m ∧ m ≤ 2 ^ 25 * 2 ^ 142 ∧
      gap (100 * m) (c * (128 * 2 ^ 142)) ≤ 50 * 2 ^ 142 ∧
      ∀ r, Rep r → gap (100 * m) (c * (128 * 2 ^ 142)) ≤ gap (100 * r) (c * (128 * 2 ^ 142)) := by
  obtain ⟨a, b, hb, h1, h2⟩ := worth_parse h
  have hall : ∀ r, Rep r → gap (100 * roundMag a b) (c * (128 * 2 ^ 142)) ≤ gap (100 * r) (c * (128 * 2 ^ 142)) :=
    fun r hr => worth_gap hb (h2.trans (congrArg (fun u => c * u * b) pow_149)) (F32.gap_roundMag (a := a) hb hr)
  have e24 : (2 : Nat) ^ 24 = 16777216 := rfl
  have hg : gap (100 * roundMag a b) (c * (128 * 2 ^ 142)) ≤ 50 * 2 ^ 142 :=
    Nat.le_trans (hall _ (rep_mul (k := 142) (q := (c * 128 + 50) / 100) (by omega))) (cents_grid c _)
  have hv := F32.val_ofRatio false a b (Nat.lt_of_le_of_lt (cents_bound hc hg) pow_25_142)
  exact ⟨_, _, h1, hv, (F32.rep_of_val hv).1, cents_bound hc hg, hg, hall⟩

/-- An f32 magnitude up to 2^18 is a multiple of a power of two that is not too large. -/
theorem rep_split {m : Nat} (h : Rep m) (hm : m ≤ 2 ^ 25 * 2 ^ 142) : ∃ r g, m = r * 2 ^ g ∧ r ≤ 2 ^ 25 ∧ g ≤ 143 := by
  obtain ⟨r, hr⟩ := h
  by_cases hg : dropBits m ≤ 143
  · refine ⟨r, dropBits m, hr.trans (Nat.mul_comm ..), ?_, hg⟩
    have hlt : m < 2 ^ (24 + dropBits m) := by
      rcases dropBits_spec m with ⟨h0, h1⟩ | ⟨_, _, h1⟩
      · rw [h0]; exact h1
      · exact h1
    rw [Nat.pow_add, Nat.mul_comm, hr] at hlt
    have : r < 2 ^ 24 := by
      have e := hr ▸ hlt
      exact Nat.lt_of_mul_lt_mul_left (a := 2 ^ dropBits m) (by rw [← hr] at hlt ⊢; exact hlt)
    have e : (2 : Nat) ^ 25 = 2 * 2 ^ 24 := rfl
    omega
  · refine ⟨r * 2 ^ (dropBits m - 143), 143, ?_, ?_, Nat.le_refl _⟩
    · rw [Nat.mul_assoc, ← Nat.pow_add, show dropBits m - 143 + 143 = dropBits m by omega]
      exact hr.trans (Nat.mul_comm ..)
    · have e : m = r * 2 ^ (dropBits m - 143) * 2 ^ 143 := by
        rw [Nat.mul_assoc, ← Nat.pow_add, show dropBits m - 143 + 143 = dropBits m by omega]
        exact hr.trans (Nat.mul_comm ..)
      rw [e, two_pow_split (a := 143) (b := 1) (c := 142) rfl] at hm
      generalize r * 2 ^ (dropBits m - 143) = R at *
      have hp : 0 < 2 ^ 142 := Nat.two_pow_pos 142
      generalize 2 ^ 142 = W at *
      rw [← Nat.mul_assoc] at hm
      have := Nat.le_of_mul_le_mul_right hm hp
      omega

theorem dvd_of_twice {c e : Nat} (h : 25 ∣ c * 2 ^ e) : 25 ∣ c := by
  induction e with
  | zero => simpa using h
  | succ e ih =>
    apply ih
    rw [Nat.pow_succ, ← Nat.mul_assoc] at h
    generalize c * 2 ^ e = x at *
    omega

/-- A price that is no multiple of 25 cents: its f32 and its double are on different sides, or rather the double is so much closer
that the f32 is on the same side of both. -/
theorem side_arith {r c E P Q W k : Nat} (hr : r ≤ 2 ^ 25) (hc : 1 ≤ c) (hP : 0 < P) (hQ : 0 < Q) (hE : c * (E * P) = c * (128 * W))
    (hg : gap (100 * (r * P)) (c * (128 * W)) ≤ 50 * W)
    (hk : ∀ R, R ≤ 2 ^ 34 → gap (100 * k) (c * E * (256 * Q)) ≤ gap (100 * (R * Q)) (c * E * (256 * Q))) :
    (100 * r < c * E → r * (256 * Q) < k) ∧ (c * E < 100 * r → k < r * (256 * Q)) := by
  have e25 : (2 : Nat) ^ 25 = 33554432 := rfl
  have hW : 128 * W ≤ c * (128 * W) := Nat.le_mul_of_pos_left _ hc
  have hle : c * E ≤ 200 * r := by
    have e1 : c * (E * P) = c * E * P := (Nat.mul_assoc ..).symm
    have e2 : 100 * (r * P) = 100 * r * P := (Nat.mul_assoc ..).symm
    rw [← hE, e1, e2] at hg
    rw [← hE, e1] at hW
    have : c * E * P ≤ 200 * r * P := by
      have e3 : 200 * r * P = 100 * r * P + 100 * r * P := by rw [← Nat.add_mul]; congr 1; omega
      rw [e3]
      unfold gap at hg
      omega
    exact Nat.le_of_mul_le_mul_right this hP
  have hR := hk (c * E * 256 / 100) (by
    have : (2 : Nat) ^ 34 = 17179869184 := rfl
    omega)
  have e4 : gap (100 * (c * E * 256 / 100 * Q)) (c * E * (256 * Q)) ≤ 99 * Q := by
    rw [← Nat.mul_assoc (c * E) 256 Q, gap_comm_mul, Nat.mul_comm]
    apply Nat.mul_le_mul_right
    unfold gap
    omega
  have e5 : gap (100 * k) (c * E * (256 * Q)) ≤ 99 * Q := Nat.le_trans hR e4
  have e6 : r * (256 * Q) = 256 * (r * Q) := by ac_rfl
  have e7 : c * E * (256 * Q) = 256 * (c * E * Q) := by ac_rfl
  rw [e7] at e5
  rw [e6]
  constructor
  · intro h
    have : (100 * r + 1) * Q ≤ c * E * Q := Nat.mul_le_mul_right _ h
    rw [Nat.add_mul, Nat.one_mul, Nat.mul_assoc] at this
    generalize c * E * Q = A at *
    generalize r * Q = B at *
    unfold gap at e5
    omega
  · intro h
    have : (c * E + 1) * Q ≤ 100 * r * Q := Nat.mul_le_mul_right _ h
    rw [Nat.add_mul, Nat.one_mul, Nat.mul_assoc 100] at this
    generalize c * E * Q = A at *
    generalize r * Q = B at *
    unfold gap at e5
    omega

theorem pow_1074 : (2 : Nat) ^ 1074 = 128 * 2 ^ 1067 := by
  rw [two_pow_split (a := 1074) (b := 7) (c := 1067) rfl]

theorem pow_1067 : (2 : Nat) ^ 1067 = 2 ^ 142 * 2 ^ 925 := two_pow_split (a := 1067) (b := 142) (c := 925) rfl

theorem pow_lt_2098 {a b R : Nat} (h : R < 2 ^ a) (hab : a + b ≤ 2098) : R * 2 ^ b < 2 ^ 2098 :=
  Nat.lt_of_lt_of_le (Nat.mul_lt_mul_of_pos_right h (Nat.two_pow_pos b))
    (Nat.pow_add 2 a b ▸ Nat.pow_le_pow_right (by omega) hab)

theorem double_mul {R j : Nat} (h : R < 2 ^ 53) (hj : 53 + j ≤ 2098) : Double (R * 2 ^ j) :=
  ⟨pow_lt_2098 h hj, R, j, h, rfl⟩

/-- The double of a bound in cents is within a two-hundredth of it. -/
theorem literal_near {b k : Nat} (h : JsLiteral b 100 k) (hb : b ≤ 2 ^ 52) :
    gap (100 * k) (b * (128 * 2 ^ 1067)) ≤ 50 * 2 ^ 1067 := by
  have e : (2 : Nat) ^ 52 = 4503599627370496 := rfl
  have e' : (2 : Nat) ^ 53 = 9007199254740992 := rfl
  have h1 := h.2 _ (double_mul (R := (b * 128 + 50) / 100) (j := 1067) (by omega) (by decide))
  rw [pow_1074] at h1
  exact Nat.le_trans h1 (cents_grid b _)

/-- A price other than the bound, whatever they are stored as. -/
theorem cents_apart {b c k m : Nat} (hk : JsLiteral b 100 k) (hb : b ≤ 2 ^ 52)
    (hg : gap (100 * m) (c * (128 * 2 ^ 142)) ≤ 50 * 2 ^ 142) :
    (b < c → k < m * 2 ^ 925) ∧ (c < b → m * 2 ^ 925 < k) := by
  have h1 := literal_near hk hb
  have h2 : gap (100 * (m * 2 ^ 925)) (c * (128 * 2 ^ 1067)) ≤ 50 * 2 ^ 1067 := by
    rw [pow_1067]
    generalize 2 ^ 142 = W at *
    generalize 2 ^ 925 = V at *
    have e1 : c * (128 * (W * V)) = c * (128 * W) * V := by ac_rfl
    have e2 : 50 * (W * V) = V * (50 * W) := by ac_rfl
    rw [e1, e2, gap_comm_mul]
    exact Nat.mul_le_mul_left _ hg
  exact ⟨fun h => cents_lt h (Nat.two_pow_pos _) h1 h2, fun h => cents_lt h (Nat.two_pow_pos _) h2 h1⟩

theorem gap_zero {a b : Nat} (h : gap a b ≤ gap b b) : a = b := by
  unfold gap at h
  omega

/-- Multiples of 25 cents are stored exactly. -/
theorem quarter_stored {w m : Nat} (hw : 25 * w ≤ 13107200)
    (h : ∀ r, Rep r → gap (100 * m) (25 * w * (128 * 2 ^ 142)) ≤ gap (100 * r) (25 * w * (128 * 2 ^ 142))) :
    100 * m = 25 * w * (128 * 2 ^ 142) := by
  have e24 : (2 : Nat) ^ 24 = 16777216 := rfl
  have h1 := h (w * 32 * 2 ^ 142) (rep_mul (by omega))
  have e : 100 * (w * 32 * 2 ^ 142) = 25 * w * (128 * 2 ^ 142) := by
    generalize 2 ^ 142 = W
    rw [show 100 * (w * 32 * W) = (100 * (w * 32)) * W by ac_rfl, show 25 * w * (128 * W) = (25 * w * 128) * W by ac_rfl]
    congr 1
    omega
  rw [e] at h1
  exact gap_zero h1

theorem quarter_literal {w k : Nat} (hw : 25 * w ≤ 13107200) (h : JsLiteral (25 * w) 100 k) :
    100 * k = 25 * w * (128 * 2 ^ 1067) := by
  have e53 : (2 : Nat) ^ 53 = 9007199254740992 := rfl
  have h1 := h.2 _ (double_mul (R := w * 32) (j := 1067) (by omega) (by decide))
  rw [pow_1074] at h1
  have e : 100 * (w * 32 * 2 ^ 1067) = 25 * w * (128 * 2 ^ 1067) := by
    generalize 2 ^ 1067 = W
    rw [show 100 * (w * 32 * W) = (100 * (w * 32)) * W by ac_rfl, show 25 * w * (128 * W) = (25 * w * 128) * W by ac_rfl]
    congr 1
    omega
  rw [e] at h1
  exact gap_zero h1

/-- Other prices are on one side of the double of the same number, the side on which they were stored. -/
theorem cents_side {c k m : Nat} (h25 : ¬25 ∣ c) (hk : JsLiteral c 100 k) (hr : Rep m) (hm : m ≤ 2 ^ 25 * 2 ^ 142)
    (hg : gap (100 * m) (c * (128 * 2 ^ 142)) ≤ 50 * 2 ^ 142) :
    100 * m ≠ c * 2 ^ 149 ∧ (100 * m < c * 2 ^ 149 → m * 2 ^ 925 < k) ∧ (c * 2 ^ 149 < 100 * m → k < m * 2 ^ 925) := by
  obtain ⟨r, g, rfl, hr25, hg143⟩ := rep_split hr hm
  have hc : 1 ≤ c := by
    apply Nat.pos_of_ne_zero
    rintro rfl
    exact h25 ⟨0, rfl⟩
  have e149 : (2 : Nat) ^ 149 = 2 ^ (149 - g) * 2 ^ g := two_pow_split (by omega)
  have e925 : 2 ^ g * 2 ^ 925 = 256 * 2 ^ (g + 917) := by
    rw [← Nat.pow_add]
    exact two_pow_split (a := g + 925) (b := 8) (c := g + 917) (by omega)
  have e1074 : (2 : Nat) ^ 1074 = 2 ^ (149 - g) * (256 * 2 ^ (g + 917)) := by
    rw [← e925, ← Nat.mul_assoc, ← e149]
    exact two_pow_split rfl
  have hk' : ∀ R, R ≤ 2 ^ 34 → gap (100 * k) (c * 2 ^ (149 - g) * (256 * 2 ^ (g + 917))) ≤
      gap (100 * (R * 2 ^ (g + 917))) (c * 2 ^ (149 - g) * (256 * 2 ^ (g + 917))) := by
    intro R hR
    have e34 : (2 : Nat) ^ 34 = 17179869184 := rfl
    have e53 : (2 : Nat) ^ 53 = 9007199254740992 := rfl
    have := hk.2 _ (double_mul (R := R) (j := g + 917) (by omega) (by omega))
    rw [e1074, ← Nat.mul_assoc] at this
    exact this
  have hne : 100 * r ≠ c * 2 ^ (149 - g) := by
    intro h
    exact h25 (dvd_of_twice (e := 149 - g) (h ▸ ⟨4 * r, by omega⟩))
  have hs := side_arith (E := 2 ^ (149 - g)) (P := 2 ^ g) (Q := 2 ^ (g + 917)) (W := 2 ^ 142) (k := k) hr25 hc (Nat.two_pow_pos _) (Nat.two_pow_pos _)
    (congrArg (c * ·) (e149.symm.trans pow_149)) hg hk'
  have hp : 0 < 2 ^ g := Nat.two_pow_pos g
  have em : r * 2 ^ g * 2 ^ 925 = r * (256 * 2 ^ (g + 917)) := by rw [Nat.mul_assoc, e925]
  have ec : c * 2 ^ 149 = c * 2 ^ (149 - g) * 2 ^ g := by rw [e149, Nat.mul_assoc]
  have er : 100 * (r * 2 ^ g) = 100 * r * 2 ^ g := (Nat.mul_assoc ..).symm
  rw [em, ec, er]
  exact ⟨fun h => hne (Nat.eq_of_mul_eq_mul_right hp h), fun h => hs.1 (Nat.lt_of_mul_lt_mul_right h),
    fun h => hs.2 (Nat.lt_of_mul_lt_mul_right h)⟩

theorem side_logic {A B N k : Nat} (b : Nat) (s1 : A ≠ B) (s2 : A < B → N < k) (s3 : B < A → k < N) :
    (k ≤ N ↔ b < b ∨ b = b ∧ ¬A < B) ∧ (N ≤ k ↔ b < b ∨ b = b ∧ ¬B < A) := by
  constructor <;> constructor <;> omega

/-- **C90, one bound.** A price in whole cents is kept by a lower bound in whole cents iff it is more, or the same and not stored as
less; and by an upper bound iff it is less, or the same and not stored as more. -/
theorem bound_cents {text : Str} {c b k : Nat} (h : Worth text c 100) (hc : c ≤ 13107200) (hk : JsLiteral b 100 k) (hb : b ≤ 2 ^ 52)
    {x : F32} {n : JsNum} (hx : parseF32 text = some x) (hn : SameNumber x n) :
    (NumLe (.fin false k) n ↔ b < c ∨ b = c ∧ ¬StoredBelow text c) ∧ (NumLe n (.fin false k) ↔ c < b ∨ b = c ∧ ¬StoredAbove text c) := by
  obtain ⟨x', m, h1, h2, h3, h4, h5, h6⟩ := cents_stored h hc
  rw [hx] at h1
  cases h1
  have hbel : StoredBelow text c ↔ 100 * m < c * 2 ^ 149 := by
    constructor
    · rintro ⟨x', m', g1, g2, g3⟩
      rw [hx] at g1; cases g1
      rw [h2] at g2; cases g2
      exact g3
    · exact fun g => ⟨x, m, hx, h2, g⟩
  have habv : StoredAbove text c ↔ c * 2 ^ 149 < 100 * m := by
    constructor
    · rintro ⟨x', m', g1, g2, g3⟩
      rw [hx] at g1; cases g1
      rw [h2] at g2; cases g2
      exact g3
    · exact fun g => ⟨x, m, hx, h2, g⟩
  have hn' : n = .fin false (m * 2 ^ 925) := by
    cases hn with
    | nan e => rw [h2] at e; cases e
    | inf s e => rw [h2] at e; cases e
    | fin s m' k' e hk' =>
      rw [h2] at e
      cases e
      rw [two_pow_split (a := 1074) (b := 925) (c := 149) rfl, ← Nat.mul_assoc] at hk'
      rw [Nat.eq_of_mul_eq_mul_right (Nat.two_pow_pos 149) hk']
  rw [hn', numLe_fin, numLe_fin, hbel, habv]
  obtain ⟨ha, ha'⟩ := cents_apart hk hb h5
  rcases Nat.lt_trichotomy b c with hlt | rfl | hgt
  · have := ha hlt
    constructor <;> constructor <;> omega
  · by_cases h25 : 25 ∣ b
    · obtain ⟨w, rfl⟩ := h25
      have q1 := quarter_stored hc h6
      have q2 := quarter_literal hc hk
      rw [← pow_149] at q1
      have q3 : k = m * 2 ^ 925 := by
        refine Nat.eq_of_mul_eq_mul_left (show 0 < 100 by decide) ?_
        rw [q2, ← Nat.mul_assoc 100, q1, Nat.mul_assoc (25 * w), ← pow_1074]
        exact congrArg (25 * w * ·) (two_pow_split rfl)
      rw [q3, q1]
      constructor <;> constructor <;> omega
    · obtain ⟨s1, s2, s3⟩ := cents_side h25 hk h3 h4 h5
      exact side_logic b s1 s2 s3
  · have := ha' hgt
    constructor <;> constructor <;> omega

/-- **C90, the edge.** A price that is a multiple of 25 cents is stored exactly; every other one is stored as either less or more. -/
theorem C90_edge {text : Str} {c : Nat} (h : Worth text c 100) (hc : c ≤ 13107200) :
    (25 ∣ c → ¬StoredBelow text c ∧ ¬StoredAbove text c) ∧ (¬25 ∣ c → (StoredBelow text c ↔ ¬StoredAbove text c)) := by
  obtain ⟨x, m, h1, h2, h3, h4, h5, h6⟩ := cents_stored h hc
  have hbel : StoredBelow text c ↔ 100 * m < c * 2 ^ 149 := by
    constructor
    · rintro ⟨x', m', g1, g2, g3⟩
      rw [h1] at g1; cases g1
      rw [h2] at g2; cases g2
      exact g3
    · exact fun g => ⟨x, m, h1, h2, g⟩
  have habv : StoredAbove text c ↔ c * 2 ^ 149 < 100 * m := by
    constructor
    · rintro ⟨x', m', g1, g2, g3⟩
      rw [h1] at g1; cases g1
      rw [h2] at g2; cases g2
      exact g3
    · exact fun g => ⟨x, m, h1, h2, g⟩
  rw [hbel, habv]
  constructor
  · rintro ⟨w, rfl⟩
    have q1 := quarter_stored hc h6
    rw [← pow_149] at q1
    rw [q1]
    constructor <;> omega
  · intro h25
    have hne : 100 * m ≠ c * 2 ^ 149 := by
      obtain ⟨r, g, rfl, _, hg⟩ := rep_split h3 h4
      rw [show (2 : Nat) ^ 149 = 2 ^ (149 - g) * 2 ^ g from two_pow_split (by omega), ← Nat.mul_assoc, ← Nat.mul_assoc]
      intro e
      have e := Nat.eq_of_mul_eq_mul_right (Nat.two_pow_pos g) e
      exact h25 (dvd_of_twice (e := 149 - g) (e ▸ ⟨4 * r, by omega⟩))
    exact ⟨fun h h' => Nat.lt_asymm h h', fun h => Nat.lt_of_le_of_ne (Nat.le_of_not_lt h) hne⟩

/-- The JavaScript value of a bound in cents, `undefined` if there is none; `num` is the number that JavaScript takes the literal for. -/
def centNumber (num : Nat → Nat) : Option Nat → JsValue
  | some b => .num (.fin false (num b))
  | none => .undefined

theorem centNumber_num {num : Nat → Nat} {w : Option Nat} {a : JsNum} (h : centNumber num w = .num a) :
    ∃ n, w = some n ∧ a = .fin false (num n) := by
  cases w with
  | none => cases h
  | some n => exact ⟨n, rfl, by cases h; rfl⟩

/-- A price in whole cents up to 131072.00 against bounds in whole cents. -/
theorem inBounds_literal {text : Str} {c : Nat} (h : Worth text c 100) (hc : c ≤ 13107200) (num : Nat → Nat) (lo hi : Option Nat)
    (hlo : ∀ b, lo = some b → b ≤ 2 ^ 52 ∧ JsLiteral b 100 (num b)) (hhi : ∀ b, hi = some b → b ≤ 2 ^ 52 ∧ JsLiteral b 100 (num b)) :
    (∃ x n, parseF32 text = some x ∧ SameNumber x n ∧ InBounds (centNumber num lo) (centNumber num hi) n) ↔
      (∀ b, lo = some b → b < c ∨ b = c ∧ ¬StoredBelow text c) ∧ ∀ b, hi = some b → c < b ∨ b = c ∧ ¬StoredAbove text c := by
  constructor
  · rintro ⟨x, n, hx, hn, hin⟩
    exact ⟨fun b hb => (bound_cents h hc (hlo b hb).2 (hlo b hb).1 hx hn).1.1 (hin.1 _ (by rw [hb]; rfl)),
      fun b hb => (bound_cents h hc (hhi b hb).2 (hhi b hb).1 hx hn).2.1 (hin.2 _ (by rw [hb]; rfl))⟩
  · rintro ⟨hl, hh⟩
    obtain ⟨x, m, h1, h2, _⟩ := cents_stored h hc
    refine ⟨x, _, h1, (sameNumber_iff x _).2 rfl, fun a ha => ?_, fun a ha => ?_⟩
    · obtain ⟨b, hb, rfl⟩ := centNumber_num ha
      exact (bound_cents h hc (hlo b hb).2 (hlo b hb).1 h1 ((sameNumber_iff x _).2 rfl)).1.2 (hl b hb)
    · obtain ⟨b, hb, rfl⟩ := centNumber_num ha
      exact (bound_cents h hc (hhi b hb).2 (hhi b hb).1 h1 ((sameNumber_iff x _).2 rfl)).2.2 (hh b hb)

/-- Spec: what a catalogue entry must have, with its price and the bounds in cents. A price at a bound counts unless it was stored on
the other side of it. -/
structure MatchesCents (cats : CategoryHandler) (tags : TagHandler) (ranges : List (Option Nat × Option Nat)) (cents : Nat)
    (raw : RawProduct) : Prop where
  options : ∀ category value, cats.Selected category value → Gives raw category value
  tags : ∀ name, tags.Selected name → name ∈ raw.tags
  above : ∀ f ∈ ranges, ∀ b, f.1 = some b → b < cents ∨ b = cents ∧ ¬StoredBelow raw.price.min.amount cents
  below : ∀ f ∈ ranges, ∀ b, f.2 = some b → cents < b ∨ b = cents ∧ ¬StoredAbove raw.price.min.amount cents

open Classical in
/-- **C90.** With prices in whole cents up to 131072.00 and bounds written in whole cents, a filtered search returns exactly the
products of the unfiltered search whose entry in the catalogue has the selected options and tags and a written price strictly
within the bounds, or at a bound and not stored on the other side of it. -/
theorem C90 (mode : PanicMode) (o : HashOrd) (lower lower' : Char → List Char)
    (catalogue : List RawProduct) (ix : GramIndex Char) (cl : Classic) (hl : LoadedFrom lower parseF32 catalogue ix cl)
    (cents : RawProduct → Nat)
    (hcents : ∀ raw ∈ catalogue, Worth raw.price.min.amount (cents raw) 100 ∧ cents raw ≤ 13107200)
    (e e₁ : Engine) (hix : e.index.value = some ix) (input : Str)
    (cats : CategoryHandler) (tags : TagHandler) (hc : cats.InRange) (ht : tags.InRange)
    (hch : cats.handle = cl) (hth : tags.handle = cl) (num : Nat → Nat) (ranges : List (Option Nat × Option Nat))
    (hnum : ∀ f ∈ ranges, ∀ b, f.1 = some b ∨ f.2 = some b → b ≤ 2 ^ 52 ∧ JsLiteral b 100 (num b))
    (c₁ c₂ : Classic) (whole : ProductProducer)
    (h : e.search mode o lower' input (.new c₁) (.new c₂) none [] = (e₁, .ok (some whole))) :
    e.search mode o lower' input cats tags none (ranges.map fun f => ("price".toList,
        .obj 0 [("from".toList, centNumber num f.1), ("to".toList, centNumber num f.2)])) =
      (e, .ok (some ⟨whole.container, whole.toExport.filter fun i =>
        decide (∃ raw, catalogue[i]? = some raw ∧ MatchesCents cats tags ranges (cents raw) raw), 0⟩)) := by
  have := C50_partial mode o lower lower' parseF32 catalogue ix cl hl e e₁ hix input cats tags hc ht hch hth
    (ranges.map fun f => (centNumber num f.1, centNumber num f.2)) c₁ c₂ whole h
  rw [List.map_map] at this
  refine this.trans ?_
  suffices hw : ∀ i ∈ whole.toExport,
      ((∃ raw, catalogue[i]? = some raw ∧
        Matches parseF32 cats tags (ranges.map fun f => (centNumber num f.1, centNumber num f.2)) raw) ↔
        ∃ raw, catalogue[i]? = some raw ∧ MatchesCents cats tags ranges (cents raw) raw) by
    rw [List.filter_congr fun i hi => decide_eq_decide.2 (hw i hi)]
  intro i _
  have key : ∀ raw ∈ catalogue, ∀ f ∈ ranges,
      ((∃ x n, parseF32 raw.price.min.amount = some x ∧ SameNumber x n ∧ InBounds (centNumber num f.1) (centNumber num f.2) n) ↔
      (∀ b, f.1 = some b → b < cents raw ∨ b = cents raw ∧ ¬StoredBelow raw.price.min.amount (cents raw)) ∧
      ∀ b, f.2 = some b → cents raw < b ∨ b = cents raw ∧ ¬StoredAbove raw.price.min.amount (cents raw)) := fun raw hr f hf =>
    inBounds_literal (hcents raw hr).1 (hcents raw hr).2 num f.1 f.2 (fun b hb => hnum f hf b (.inl hb)) (fun b hb => hnum f hf b (.inr hb))
  constructor
  · rintro ⟨raw, hr, hm⟩
    have key' : ∀ f ∈ ranges, (∀ b, f.1 = some b → b < cents raw ∨ b = cents raw ∧ ¬StoredBelow raw.price.min.amount (cents raw)) ∧
        ∀ b, f.2 = some b → cents raw < b ∨ b = cents raw ∧ ¬StoredAbove raw.price.min.amount (cents raw) := by
      intro f hf
      by_cases hb : Bounded (centNumber num f.1) (centNumber num f.2)
      · exact (key raw (List.mem_of_getElem? hr) f hf).1 (hm.prices _ (List.mem_map.2 ⟨f, hf, rfl⟩) hb)
      · constructor
        · intro w hw; exact absurd (.inl ⟨_, by rw [hw]; rfl⟩) hb
        · intro w hw; exact absurd (.inr ⟨_, by rw [hw]; rfl⟩) hb
    exact ⟨raw, hr, hm.options, hm.tags, fun f hf => (key' f hf).1, fun f hf => (key' f hf).2⟩
  · rintro ⟨raw, hr, hm⟩
    refine ⟨raw, hr, hm.options, hm.tags, fun f hf _ => ?_⟩
    obtain ⟨g, hg, rfl⟩ := List.mem_map.1 hf
    exact (key raw (List.mem_of_getElem? hr) g hg).2 ⟨hm.above g hg, hm.below g hg⟩

/-- So asking for exactly the price of a product, from it and to it, finds the product iff its price is a multiple of 25 cents. -/
theorem C90_exact {text : Str} {c k : Nat} (h : Worth text c 100) (hc : c ≤ 13107200) (hk : JsLiteral c 100 k) :
    (∃ x n, parseF32 text = some x ∧ SameNumber x n ∧ InBounds (.num (.fin false k)) (.num (.fin false k)) n) ↔ 25 ∣ c := by
  have e52 : (2 : Nat) ^ 52 = 4503599627370496 := rfl
  have hb : c ≤ 2 ^ 52 := by omega
  have h1 := inBounds_literal h hc (fun _ => k) (some c) (some c) (fun b h => by cases h; exact ⟨hb, hk⟩) (fun b h => by cases h; exact ⟨hb, hk⟩)
  refine h1.trans ?_
  obtain ⟨e1, e2⟩ := C90_edge h hc
  constructor
  · rintro ⟨g1, g2⟩
    refine Decidable.byContradiction fun h25 => ?_
    rcases g1 c rfl with g | ⟨_, g⟩
    · exact Nat.lt_irrefl _ g
    · rcases g2 c rfl with g' | ⟨_, g'⟩
      · exact Nat.lt_irrefl _ g'
      · exact g ((e2 h25).2 g')
  · intro h25
    obtain ⟨g1, g2⟩ := e1 h25
    exact ⟨fun b hb => .inr ⟨by cases hb; rfl, g1⟩, fun b hb => .inr ⟨by cases hb; rfl, g2⟩⟩

/-! ## A concrete case -/

theorem gap_tri {A B C D : Nat} (h1 : 2 * gap A B ≤ D) (h2 : D ≤ gap A C) : gap A B ≤ gap C B := by
  unfold gap at *
  omega

/-- A double of full precision that is at most half a unit away is a closest one. -/
theorem literal_of {p q r j : Nat} (hr : r < 2 ^ 53) (hj : 53 + j ≤ 2098) (hlow : q * (2 ^ 52 * 2 ^ j) ≤ p * 2 ^ 1074)
    (hg : 2 * gap (q * (r * 2 ^ j)) (p * 2 ^ 1074) ≤ q * 2 ^ j) : JsLiteral p q (r * 2 ^ j) := by
  have hmul : ∀ s, gap (q * (r * 2 ^ j)) (p * 2 ^ 1074) ≤ gap (q * (s * 2 ^ j)) (p * 2 ^ 1074) := by
    intro s
    by_cases hs : s = r
    · rw [hs]; exact Nat.le_refl _
    · refine gap_tri hg ?_
      rw [← Nat.mul_assoc, ← Nat.mul_assoc, Nat.mul_comm (q * r), Nat.mul_comm (q * s), gap_mul, gap_mul, Nat.mul_comm q]
      refine Nat.mul_le_mul_left _ (Nat.le_mul_of_pos_right _ ?_)
      unfold gap
      omega
  refine ⟨double_mul hr hj, fun k' ⟨_, r', j', hr', hk'⟩ => ?_⟩
  by_cases hjj : j ≤ j'
  · obtain ⟨d, rfl⟩ := Nat.exists_eq_add_of_le hjj
    have e : k' = r' * 2 ^ d * 2 ^ j := by rw [hk', Nat.add_comm, Nat.pow_add, Nat.mul_assoc]
    rw [e]
    exact hmul (r' * 2 ^ d)
  · have hle : k' ≤ 2 ^ 52 * 2 ^ j := by
      rw [hk']
      calc r' * 2 ^ j' ≤ 2 ^ 53 * 2 ^ j' := Nat.mul_le_mul_right _ (Nat.le_of_lt hr')
        _ = 2 ^ 52 * 2 ^ (j' + 1) := by rw [← Nat.pow_add, ← Nat.pow_add]; congr 1; omega
        _ ≤ 2 ^ 52 * 2 ^ j := Nat.mul_le_mul_left _ (Nat.pow_le_pow_right (by omega) (by omega))
    refine Nat.le_trans (hmul (2 ^ 52)) ?_
    have := Nat.mul_le_mul_left q hle
    unfold gap
    omega

/-- 19.9 in JavaScript is 0x4033E66666666666. -/
theorem literal_1990 : JsLiteral 1990 100 (5601352036542054 * 2 ^ 1026) := by
  have e : (2 : Nat) ^ 1074 = 2 ^ 48 * 2 ^ 1026 := two_pow_split rfl
  have e48 : (2 : Nat) ^ 48 = 281474976710656 := rfl
  have e52 : (2 : Nat) ^ 52 = 4503599627370496 := rfl
  refine literal_of (by decide) (by decide) ?_ ?_ <;> rw [e] <;> generalize (2 : Nat) ^ 1026 = W
  · simp only [e48, e52]; omega
  · simp only [e48]; unfold gap; omega

open Witness in
theorem below_1990 : StoredBelow "19.90".toList 1990 := by
  refine ⟨⟨1100952371⟩, 10433331 * 2 ^ 130, by decide +kernel, by decide +kernel, ?_⟩
  have e : (2 : Nat) ^ 149 = 2 ^ 19 * 2 ^ 130 := two_pow_split rfl
  rw [e]
  have hW : 0 < 2 ^ 130 := Nat.two_pow_pos 130
  generalize (2 : Nat) ^ 130 = W at *
  omega

open Witness in
/-- The catalogue with prices 19.90 and 25: asking for prices from 19.90 on leaves out the product for 19.90, asking for prices up to
19.90 finds it. -/
example (mode : PanicMode) : ∃ (ix : GramIndex Char) (cl : Classic) (e : Engine) (whole : ProductProducer),
    LoadedFrom (fun c => [c]) parseF32 catalogueP ix cl ∧ e.index.value = some ix ∧
    (∀ raw ∈ catalogueP, Worth raw.price.min.amount (centsP raw) 100 ∧ centsP raw ≤ 13107200) ∧
    e.search mode .ident (fun c => [c]) kunst (.new cl) (.new cl) none [] = (e, .ok (some whole)) ∧ whole.toExport = [0, 1] ∧
    (∀ (ranges : List (Option Nat × Option Nat)), ranges = [(some 1990, none)] ∨ ranges = [(none, some 1990)] →
      e.search mode .ident (fun c => [c]) kunst (.new cl) (.new cl) none (ranges.map fun f => ("price".toList,
        .obj 0 [("from".toList, centNumber (fun _ => 5601352036542054 * 2 ^ 1026) f.1),
          ("to".toList, centNumber (fun _ => 5601352036542054 * 2 ^ 1026) f.2)])) =
        (e, .ok (some ⟨whole.container, if ranges = [(some 1990, none)] then [1] else [0], 0⟩))) := by
  classical
  obtain ⟨ix, cl, r, hd, hcat, hr, hids⟩ := facts_sound factsP
  have hl : LoadedFrom (fun c => [c]) parseF32 catalogueP ix cl :=
    ⟨⟨target, target, .ident, fileP, writtenP, .of_carried (by decide +kernel) fun _ _ => rfl, hd⟩⟩
  let e : Engine := ⟨⟨.free, some ix⟩, ⟨.free, some cl⟩⟩
  have hs : e.search mode .ident (fun c => [c]) kunst (.new cl) (.new cl) none [] =
      (e, .ok (some ⟨ix.container, [0, 1], 0⟩)) := by
    unfold Engine.search
    obtain ⟨r', h1, h2⟩ := searchIds_spec .ident (fun c => [c]) ix kunst (.new cl) (.new cl) (inRange_new_categories _)
      (inRange_new_tags _) []
    rw [show kunst.flatMap (fun c => [c]) = kunst from rfl, hr] at h1
    cases h1
    simp only [parseFilters, Slot.lockOk, e, h2]
    rw [hids, List.filter_eq_self.2 fun sid _ => by simp [wanted_new]]
    rfl
  refine ⟨ix, cl, e, _, hl, rfl, centsP_ok, hs, rfl, fun ranges hranges => ?_⟩
  have hsel : ∀ category value, ¬(CategoryHandler.new cl).Selected category value := by
    rintro _ _ ⟨c, k, cat, op, ha, _⟩
    simp [CategoryHandler.new] at ha
  have hselt : ∀ name, ¬(TagHandler.new cl).Selected name := by
    rintro _ ⟨k, tag, ha, _⟩
    simp [TagHandler.new] at ha
  have e52 : (2 : Nat) ^ 52 = 4503599627370496 := rfl
  rw [C90 mode .ident _ (fun c => [c]) catalogueP ix cl hl centsP centsP_ok e e rfl kunst (.new cl) (.new cl)
    (inRange_new_categories _) (inRange_new_tags _) rfl rfl _ ranges (by
      rcases hranges with rfl | rfl
      · intro f hf b hb
        simp only [List.mem_singleton] at hf
        subst hf
        rcases hb with hb | hb <;> cases hb
        exact ⟨by omega, literal_1990⟩
      · intro f hf b hb
        simp only [List.mem_singleton] at hf
        subst hf
        rcases hb with hb | hb <;> cases hb
        exact ⟨by omega, literal_1990⟩) cl cl _ hs]
  have hw : Worth "19.90".toList 1990 100 := worth_cents (int := "19".toList) (a := '9') (b := '0') ((numeral_iff _ _).2 (by decide))
  have hna : ¬StoredAbove "19.90".toList 1990 := ((C90_edge hw (by decide)).2 (by decide)).1 below_1990
  have h0 : (∃ raw, catalogueP[0]? = some raw ∧ MatchesCents (.new cl) (.new cl) ranges (centsP raw) raw) ↔ ranges = [(none, some 1990)] := by
    constructor
    · rintro ⟨raw, hr, hm⟩
      cases hr
      rcases hranges with rfl | rfl
      · rcases hm.above (some 1990, none) (by simp) 1990 rfl with h | ⟨_, h⟩
        · exact absurd h (by decide)
        · exact absurd below_1990 h
      · rfl
    · rintro rfl
      refine ⟨_, rfl, fun c v h => absurd h (hsel c v), fun n h => absurd h (hselt n), ?_, ?_⟩
      · intro f hf w hw
        simp only [List.mem_singleton] at hf
        subst hf
        cases hw
      · intro f hf w hw
        simp only [List.mem_singleton] at hf
        subst hf
        cases hw
        exact .inr ⟨rfl, hna⟩
  have h1 : (∃ raw, catalogueP[1]? = some raw ∧ MatchesCents (.new cl) (.new cl) ranges (centsP raw) raw) ↔ ranges = [(some 1990, none)] := by
    constructor
    · rintro ⟨raw, hr, hm⟩
      cases hr
      rcases hranges with rfl | rfl
      · rfl
      · rcases hm.below (none, some 1990) (by simp) 1990 rfl with h | ⟨h, _⟩ <;> exact absurd h (by decide)
    · rintro rfl
      refine ⟨_, rfl, fun c v h => absurd h (hsel c v), fun n h => absurd h (hselt n), ?_, ?_⟩
      · intro f hf w hw
        simp only [List.mem_singleton] at hf
        subst hf
        cases hw
        exact .inl (by decide)
      · intro f hf w hw
        simp only [List.mem_singleton] at hf
        subst hf
        cases hw
  simp only [h0, h1, List.filter_cons, List.filter_nil]
  rcases hranges with rfl | rfl <;> rfl

end Idx
