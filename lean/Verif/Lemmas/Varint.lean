import Verif.Model.Primitives
/-! Arithmetic of the variable-length integer codec. -/
namespace Idx

theorem and_0x80 : ∀ n : Fin 256, (n.val &&& 128 = 128) = (128 ≤ n.val) := by decide +kernel

theorem or_0x80 : ∀ n : Fin 128, (n.val ||| 128) = n.val + 128 := by decide +kernel

theorem shl1 : ∀ n : Fin 256, (n.val <<< 1) % 256 = (n.val % 128) * 2 := by decide +kernel

/-- low 7 bits of a `u64` -/
theorem low7_toNat (v : UInt64) : (v.toUInt8 &&& 0x7f).toNat = v.toNat % 128 := by
  have h : (0x7f : UInt8).toNat = 2 ^ 7 - 1 := rfl
  rw [UInt8.toNat_and, h, Nat.and_two_pow_sub_one_eq_mod, UInt64.toNat_toUInt8]
  omega

theorem shr7_toNat (v : UInt64) : (v >>> 7).toNat = v.toNat / 128 := by
  rw [UInt64.toNat_shiftRight]
  have : (7 : UInt64).toNat % 64 = 7 := rfl
  rw [this, Nat.shiftRight_eq_div_pow]

theorem shr7_eq_zero (v : UInt64) : ((v >>> 7) == 0) = decide (v.toNat < 128) := by
  rw [Bool.eq_iff_iff, beq_iff_eq, decide_eq_true_iff, ← UInt64.toNat_inj, shr7_toNat]
  have : (0 : UInt64).toNat = 0 := rfl
  omega

theorem more_bit (b : UInt8) : ((b &&& 0x80) == 0x80) = decide (128 ≤ b.toNat) := by
  rw [Bool.eq_iff_iff, beq_iff_eq, decide_eq_true_iff, ← UInt8.toNat_inj, UInt8.toNat_and]
  have := and_0x80 ⟨b.toNat, UInt8.toNat_lt b⟩
  exact Iff.of_eq this

theorem or80_toNat (v : UInt64) : ((v.toUInt8 &&& 0x7f) ||| 0x80).toNat = v.toNat % 128 + 128 := by
  rw [UInt8.toNat_or, low7_toNat]
  exact or_0x80 ⟨v.toNat % 128, by omega⟩

theorem byte_shift_toNat (b : UInt8) :
    ((b <<< 1).toUInt64 <<< (64 - 8)).toNat = (b.toNat % 128) * 2 ^ 57 := by
  have h1 : (b <<< 1).toNat = (b.toNat % 128) * 2 := by
    rw [UInt8.toNat_shiftLeft]
    exact shl1 ⟨b.toNat, UInt8.toNat_lt b⟩
  rw [UInt64.toNat_shiftLeft, UInt8.toNat_toUInt64, h1]
  have : (64 - 8 : UInt64).toNat % 64 = 56 := rfl
  rw [this, Nat.shiftLeft_eq]
  omega

/-- One iteration of the decoder: appending seven bits on top. -/
theorem out_step (out : UInt64) (b : UInt8) (acc e : Nat) (he : e ≤ 8)
    (hacc : acc < 2 ^ (7 * e)) (hout : out.toNat = acc * 2 ^ (64 - 7 * e)) :
    ((out >>> 7) ||| ((b <<< 1).toUInt64 <<< (64 - 8))).toNat
      = (acc + (b.toNat % 128) * 2 ^ (7 * e)) * 2 ^ (64 - 7 * (e + 1)) := by
  rw [UInt64.toNat_or, byte_shift_toNat, shr7_toNat, hout]
  have h57 : 2 ^ (64 - 7 * e) = 2 ^ (64 - 7 * (e + 1)) * 128 := by
    rw [show 64 - 7 * e = (64 - 7 * (e + 1)) + 7 by omega, Nat.pow_add]
  have hdiv : acc * 2 ^ (64 - 7 * e) / 128 = acc * 2 ^ (64 - 7 * (e + 1)) := by
    rw [h57, ← Nat.mul_assoc, Nat.mul_div_cancel _ (by omega)]
  rw [hdiv]
  have hlt : acc * 2 ^ (64 - 7 * (e + 1)) < 2 ^ 57 := by
    have : 2 ^ 57 = 2 ^ (7 * e) * 2 ^ (64 - 7 * (e + 1)) := by
      rw [← Nat.pow_add]; congr 1; omega
    rw [this]
    exact Nat.mul_lt_mul_of_pos_right hacc (Nat.two_pow_pos _)
  rw [Nat.or_comm, Nat.mul_comm (b.toNat % 128), ← Nat.two_pow_add_eq_or_of_lt hlt]
  rw [Nat.add_mul, Nat.mul_assoc, ← Nat.pow_add, show 7 * e + (64 - 7 * (e + 1)) = 57 by omega]
  omega

theorem serLoop_lt (f : Nat) (v : UInt64) (h : v.toNat < 128) :
    serU64Loop (f + 1) v = [v.toUInt8 &&& 0x7f] := by
  simp [serU64Loop, shr7_eq_zero, h]

theorem serLoop_ge (f : Nat) (v : UInt64) (h : ¬ v.toNat < 128) :
    serU64Loop (f + 1) v = ((v.toUInt8 &&& 0x7f) ||| 0x80) :: serU64Loop f (v >>> 7) := by
  simp [serU64Loop, shr7_eq_zero, h]

theorem deLoop_last (b : UInt8) (rest : Bytes) (out : UInt64) (e : Nat) (he : e ≤ 8)
    (hb : ¬ 128 ≤ b.toNat) :
    deU64Loop (b :: rest) out e
      = some (rest, (out >>> 7) ||| ((b <<< 1).toUInt64 <<< (64 - 8)), e + 1) := by
  have h9 : e < 9 := by omega
  simp only [deU64Loop, h9, if_true, more_bit, hb, decide_false, BEq.rfl]

theorem deLoop_more (b : UInt8) (rest : Bytes) (out : UInt64) (e : Nat) (he : e ≤ 8)
    (hb : 128 ≤ b.toNat) :
    deU64Loop (b :: rest) out e
      = deU64Loop rest ((out >>> 7) ||| ((b <<< 1).toUInt64 <<< (64 - 8))) (e + 1) := by
  have h9 : e < 9 := by omega
  have h10 : ¬ (e + 1 > 10) := by omega
  have ht : ((true : Bool) == false) = false := rfl
  simp only [deU64Loop, h9, if_true, more_bit, hb, decide_true, h10, if_false, ht,
    Bool.false_eq_true]

theorem deLoop_nine (rest : Bytes) (out : UInt64) : deU64Loop rest out 9 = some (rest, out, 9) := by
  cases rest <;> simp [deU64Loop]

/-- Loop on the encoding of a value that fits in the remaining `9 - e` groups. -/
theorem deLoop_small (f : Nat) : ∀ (v out : UInt64) (acc e : Nat) (rest : Bytes), e ≤ 8 →
    9 - e ≤ f → v.toNat < 2 ^ (7 * (9 - e)) → acc < 2 ^ (7 * e) →
    out.toNat = acc * 2 ^ (64 - 7 * e) →
    ∃ out' : UInt64, deU64Loop (serU64Loop f v ++ rest) out e
        = some (rest, out', e + (serU64Loop f v).length) ∧
      out'.toNat = (acc + v.toNat * 2 ^ (7 * e)) * 2 ^ (64 - 7 * (e + (serU64Loop f v).length)) ∧
      1 ≤ (serU64Loop f v).length ∧
      e + (serU64Loop f v).length ≤ 9 ∧
      v.toNat < 2 ^ (7 * (serU64Loop f v).length) ∧
      (2 ≤ (serU64Loop f v).length → 2 ^ (7 * ((serU64Loop f v).length - 1)) ≤ v.toNat) := by
  induction f with
  | zero => intro v out acc e rest he hf; omega
  | succ f ih =>
    intro v out acc e rest he hf hv hacc hout
    by_cases hlt : v.toNat < 128
    · rw [serLoop_lt f v hlt]
      simp only [List.cons_append, List.nil_append, List.length_cons, List.length_nil]
      rw [deLoop_last _ _ _ _ he (by rw [low7_toNat]; omega)]
      refine ⟨_, rfl, ?_, by omega, by omega, by simpa using hlt, by omega⟩
      rw [out_step out _ acc e he hacc hout, low7_toNat]
      have : v.toNat % 128 % 128 = v.toNat := by omega
      rw [this]
    · rw [serLoop_ge f v hlt]
      simp only [List.cons_append, List.length_cons]
      rw [deLoop_more _ _ _ _ he (by rw [or80_toNat]; omega)]
      have he8 : e ≠ 8 := by
        intro h; subst h
        simp at hv; omega
      have hstep := out_step out ((v.toUInt8 &&& 0x7f) ||| 0x80) acc e he hacc hout
      rw [or80_toNat] at hstep
      have hmod : (v.toNat % 128 + 128) % 128 = v.toNat % 128 := by omega
      rw [hmod] at hstep
      have hacc' : acc + v.toNat % 128 * 2 ^ (7 * e) < 2 ^ (7 * (e + 1)) := by
        have h1 : 2 ^ (7 * (e + 1)) = 128 * 2 ^ (7 * e) := by
          rw [show 7 * (e + 1) = 7 + 7 * e by omega, Nat.pow_add]
        have h2 : v.toNat % 128 * 2 ^ (7 * e) ≤ 127 * 2 ^ (7 * e) :=
          Nat.mul_le_mul_right _ (by omega)
        omega
      have hv' : (v >>> 7).toNat < 2 ^ (7 * (9 - (e + 1))) := by
        rw [shr7_toNat, Nat.div_lt_iff_lt_mul (by omega)]
        have : 2 ^ (7 * (9 - (e + 1))) * 128 = 2 ^ (7 * (9 - e)) := by
          rw [show (128 : Nat) = 2 ^ 7 from rfl, ← Nat.pow_add]; congr 1; omega
        omega
      obtain ⟨out', h1, h2, h3, h4, h5, h6⟩ :=
        ih (v >>> 7) _ _ (e + 1) rest (by omega) (by omega) hv' hacc' hstep
      refine ⟨out', ?_, ?_, by omega, by omega, ?_, ?_⟩
      · rw [h1]; simp only [Option.some.injEq, Prod.mk.injEq, true_and]; omega
      · rw [h2, shr7_toNat]
        rw [show e + 1 + (serU64Loop f (v >>> 7)).length = e + ((serU64Loop f (v >>> 7)).length + 1) by omega]
        congr 1
        rw [show 7 * (e + 1) = 7 + 7 * e by omega, Nat.pow_add, ← Nat.mul_assoc, Nat.add_assoc,
          ← Nat.add_mul]
        congr 2
        omega
      · rw [shr7_toNat, Nat.div_lt_iff_lt_mul (by omega)] at h5
        rw [show 7 * ((serU64Loop f (v >>> 7)).length + 1) = 7 * (serU64Loop f (v >>> 7)).length + 7 by omega,
          Nat.pow_add]
        exact h5
      · intro _
        by_cases hl : 2 ≤ (serU64Loop f (v >>> 7)).length
        · have := h6 hl
          rw [shr7_toNat, Nat.le_div_iff_mul_le (by omega)] at this
          rw [show 7 * ((serU64Loop f (v >>> 7)).length + 1 - 1)
              = 7 * ((serU64Loop f (v >>> 7)).length - 1) + 7 by omega, Nat.pow_add]
          exact this
        · have : (serU64Loop f (v >>> 7)).length = 1 := by omega
          rw [this]; simp; omega

/-- Loop on the encoding of a value that does not fit: stops after the ninth byte. -/
theorem deLoop_big (f : Nat) : ∀ (v out : UInt64) (acc e : Nat) (rest : Bytes), e ≤ 8 →
    9 - e ≤ f → 2 ^ (7 * (9 - e)) ≤ v.toNat → acc < 2 ^ (7 * e) →
    out.toNat = acc * 2 ^ (64 - 7 * e) →
    ∃ (out' v' : UInt64), deU64Loop (serU64Loop f v ++ rest) out e
        = some (serU64Loop (f - (9 - e)) v' ++ rest, out', 9) ∧
      v'.toNat = v.toNat / 2 ^ (7 * (9 - e)) ∧
      out'.toNat = (acc + (v.toNat % 2 ^ (7 * (9 - e))) * 2 ^ (7 * e)) * 2 := by
  induction f with
  | zero => intro v out acc e rest he hf; omega
  | succ f ih =>
    intro v out acc e rest he hf hv hacc hout
    have hlt : ¬ v.toNat < 128 := by
      have : 2 ^ (7 * 1) ≤ 2 ^ (7 * (9 - e)) := Nat.pow_le_pow_right (by omega) (by omega)
      omega
    rw [serLoop_ge f v hlt]
    simp only [List.cons_append]
    rw [deLoop_more _ _ _ _ he (by rw [or80_toNat]; omega)]
    have hstep := out_step out ((v.toUInt8 &&& 0x7f) ||| 0x80) acc e he hacc hout
    rw [or80_toNat] at hstep
    have hmod : (v.toNat % 128 + 128) % 128 = v.toNat % 128 := by omega
    rw [hmod] at hstep
    by_cases he8 : e = 8
    · subst he8
      refine ⟨_, v >>> 7, ?_, ?_, hstep.trans ?_⟩
      · rw [show f + 1 - (9 - 8) = f by omega, deLoop_nine]
      · rw [shr7_toNat]
      · simp
    · have hacc' : acc + v.toNat % 128 * 2 ^ (7 * e) < 2 ^ (7 * (e + 1)) := by
        have h1 : 2 ^ (7 * (e + 1)) = 128 * 2 ^ (7 * e) := by
          rw [show 7 * (e + 1) = 7 + 7 * e by omega, Nat.pow_add]
        have h2 : v.toNat % 128 * 2 ^ (7 * e) ≤ 127 * 2 ^ (7 * e) :=
          Nat.mul_le_mul_right _ (by omega)
        omega
      have hpow : 2 ^ (7 * (9 - e)) = 128 * 2 ^ (7 * (9 - (e + 1))) := by
        rw [show (128 : Nat) = 2 ^ 7 from rfl, ← Nat.pow_add]; congr 1; omega
      have hv' : 2 ^ (7 * (9 - (e + 1))) ≤ (v >>> 7).toNat := by
        rw [shr7_toNat, Nat.le_div_iff_mul_le (by omega)]
        omega
      obtain ⟨out', v', h1, h2, h3⟩ :=
        ih (v >>> 7) _ _ (e + 1) rest (by omega) (by omega) hv' hacc' hstep
      refine ⟨out', v', ?_, ?_, ?_⟩
      · rw [h1]; congr 4; omega
      · rw [h2, shr7_toNat, Nat.div_div_eq_div_mul, hpow]
      · rw [h3, shr7_toNat]
        congr 1
        rw [hpow, Nat.mod_mul]
        rw [show 7 * (e + 1) = 7 + 7 * e by omega, Nat.pow_add, Nat.add_mul, ← Nat.mul_assoc]
        rw [show (2:Nat) ^ 7 = 128 from rfl, Nat.mul_comm _ 128, Nat.add_assoc]

end Idx
