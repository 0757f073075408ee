import Verif.Lemmas.Varint
import Verif.Model.Collections
/-! Decoder-of-encoder equations for every codec of the file format. -/
namespace Idx

/-- `d` reads `a` from the bytes `s`, whatever follows them, and leaves what follows. -/
def RT (s : Bytes) (d : De α) (a : α) : Prop := ∀ rest, d (s ++ rest) = .ok (rest, a)

theorem RT.bind {s₁ s₂ : Bytes} {d : De α} {f : α → De β} {a : α} {b : β}
    (h₁ : RT s₁ d a) (h₂ : RT s₂ (f a) b) : RT (s₁ ++ s₂) (d >>= f) b := by
  intro rest
  rw [List.append_assoc, De.bind_of_ok (h₁ _), h₂]

theorem RT.pure {a : α} : RT [] (Pure.pure a : De α) a := by intro rest; rfl

theorem RT.bind_pure {s : Bytes} {d : De α} {f : α → β} {a : α}
    (h : RT s d a) : RT s (d >>= fun x => Pure.pure (f x)) (f a) := by
  intro rest
  rw [De.bind_of_ok (h _)]; rfl

theorem RT.congr {s s' : Bytes} {d : De α} {a : α} (h : RT s d a) (e : s' = s) : RT s' d a := e ▸ h

/-! ### u64 -/

theorem deU64_small (v : UInt64) (h : v.toNat < 2 ^ 56) : RT (serU64 v) deU64 v := by
  intro rest
  obtain ⟨out', h1, h2, h3, h4, h5, h6⟩ :=
    deLoop_small 10 v 0 0 0 rest (by omega) (by omega) (Nat.lt_trans h (by decide)) (by decide) (by simp)
  have hlen : (serU64Loop 10 v).length ≤ 8 := by
    refine Decidable.byContradiction fun hc => ?_
    have := h6 (by omega)
    have : 2 ^ 56 ≤ 2 ^ (7 * ((serU64Loop 10 v).length - 1)) :=
      Nat.pow_le_pow_right (by omega) (by omega)
    omega
  generalize hL : (serU64Loop 10 v).length = L at *
  simp only [deU64, serU64, h1, Nat.zero_add]
  rw [if_neg (by omega), if_neg (by omega)]
  have hsh : (UInt64.ofNat (64 - L * 7)).toNat % 64 = 64 - L * 7 := by
    rw [UInt64.toNat_ofNat']; omega
  congr 2
  rw [← UInt64.toNat_inj, UInt64.toNat_shiftRight, hsh, h2, Nat.shiftRight_eq_div_pow]
  rw [show 7 * (0 + L) = L * 7 by omega]
  simp [Nat.mul_div_cancel _ (Nat.two_pow_pos (64 - L * 7))]

/-- Values with exactly nine groups: the decoder consumes one byte too many. -/
theorem deU64_band (v : UInt64) (h1 : 2 ^ 56 ≤ v.toNat) (h2 : v.toNat < 2 ^ 63) (rest : Bytes) :
    deU64 (serU64 v ++ rest) =
      match rest with
      | [] => .none
      | b :: rest => .ok (rest, if b == 1 then v ||| 0x8000000000000000 else v) := by
  obtain ⟨out', e1, e2, e3, e4, e5, e6⟩ :=
    deLoop_small 10 v 0 0 0 rest (by omega) (by omega) h2 (by decide) (by simp)
  have hlen : (serU64Loop 10 v).length = 9 := by
    refine Decidable.byContradiction fun hc => ?_
    have : 2 ^ (7 * (serU64Loop 10 v).length) ≤ 2 ^ 56 :=
      Nat.pow_le_pow_right (by omega) (by omega)
    omega
  rw [hlen] at e1 e2
  simp only [deU64, serU64, e1, Nat.zero_add, if_true]
  have hout : out' >>> 1 = v := by
    rw [← UInt64.toNat_inj, UInt64.toNat_shiftRight, e2]
    have : (1 : UInt64).toNat % 64 = 1 := rfl
    rw [this, Nat.shiftRight_eq_div_pow]
    simp
  rw [hout]
  cases rest <;> rfl

theorem deU64_big (v : UInt64) (h : 2 ^ 63 ≤ v.toNat) : RT (serU64 v) deU64 v := by
  intro rest
  obtain ⟨out', v', e1, e2, e3⟩ :=
    deLoop_big 10 v 0 0 0 rest (by omega) (by omega) h (by decide) (by simp)
  have hv := UInt64.toNat_lt v
  have hv' : v' = 1 := by
    rw [← UInt64.toNat_inj, e2]
    show v.toNat / 2 ^ 63 = 1
    omega
  subst hv'
  have hs : serU64Loop (10 - (9 - 0)) 1 = [1] := by decide
  rw [hs] at e1
  simp only [deU64, serU64, e1, List.cons_append, List.nil_append, if_true, BEq.rfl]
  congr 2
  have hout : (out' >>> 1).toNat = v.toNat % 2 ^ 63 := by
    rw [UInt64.toNat_shiftRight, e3]
    have : (1 : UInt64).toNat % 64 = 1 := rfl
    rw [this, Nat.shiftRight_eq_div_pow]
    simp
  rw [← UInt64.toNat_inj, UInt64.toNat_or, hout]
  have h8 : (0x8000000000000000 : UInt64).toNat = 2 ^ 63 * 1 := rfl
  rw [h8, Nat.or_comm, ← Nat.two_pow_add_eq_or_of_lt (Nat.mod_lt _ (Nat.two_pow_pos _))]
  omega

/-! ### other scalars -/

/-- A number the file format carries faithfully to a reader with target `t`. -/
def Carried (t : Target) (n : Nat) : Prop := n < 2 ^ t.usizeBits ∧ n < 2 ^ 56

instance (t : Target) (n : Nat) : Decidable (Carried t n) :=
  inferInstanceAs (Decidable (n < 2 ^ t.usizeBits ∧ n < 2 ^ 56))

theorem Carried.mono {t : Target} {m n : Nat} (h : Carried t n) (hm : m ≤ n) : Carried t m :=
  ⟨Nat.lt_of_le_of_lt hm h.1, Nat.lt_of_le_of_lt hm h.2⟩

/-- A length the file format carries faithfully to a reader with target `t` that can reserve room for it. -/
def Fits (t : Target) (n : Nat) : Prop := Carried t n ∧ ∀ what m, m ≤ n → t.reserves what m = true

theorem Fits.mono {t : Target} {m n : Nat} (h : Fits t n) (hm : m ≤ n) : Fits t m :=
  ⟨h.1.mono hm, fun what k hk => h.2 what k (Nat.le_trans hk hm)⟩

/-- Readers with plenty of memory. -/
theorem Fits.of_carried {t : Target} {n : Nat} (h : Carried t n) (hr : ∀ what m, t.reserves what m = true) : Fits t n :=
  ⟨h, fun what m _ => hr what m⟩

theorem deUsize_rt' (t : Target) (n : Nat) (h : n < 2 ^ t.usizeBits)
    (h2 : n < 2 ^ 56 ∨ (2 ^ 63 ≤ n ∧ n < 2 ^ 64)) : RT (serUsize n) (deUsize t) n := by
  have hn : (UInt64.ofNat n).toNat = n := by
    rw [UInt64.toNat_ofNat']; omega
  have hrt : RT (serU64 (UInt64.ofNat n)) deU64 (UInt64.ofNat n) := by
    rcases h2 with h2 | h2
    · exact deU64_small _ (by omega)
    · exact deU64_big _ (by omega)
  intro rest
  rw [serUsize, deUsize, De.bind_of_ok (hrt _), hn, if_pos h]; rfl

theorem deUsize_rt {t : Target} {n : Nat} (h : Carried t n) : RT (serUsize n) (deUsize t) n :=
  deUsize_rt' t n h.1 (.inl h.2)

theorem deLen_rt {t : Target} {n : Nat} (h : Fits t n) (what : String) : RT (serUsize n) (deLen t what) n := by
  intro rest
  rw [deLen, De.bind_of_ok (deUsize_rt h.1 rest)]
  simp [De.bind_apply, De.reserve, h.2 what n (Nat.le_refl _)]

theorem deU32_rt (v : UInt32) : RT (serU32 v) deU32 v := by
  have hlt := UInt32.toNat_lt v
  have hn : v.toUInt64.toNat = v.toNat := UInt32.toNat_toUInt64 v
  intro rest
  rw [serU32, deU32, De.bind_of_ok (deU64_small _ (by omega) _), hn, if_pos hlt]
  simp

theorem deChar_rt (c : Char) : RT (serChar c) deChar c := by
  intro rest
  rw [serChar, deChar, De.bind_of_ok (deU32_rt _ _)]
  simp [charFromU32, c.valid]

/-- Reassembling the four bytes of a 32-bit number. -/
theorem be_bytes_nat (n : Nat) (h : n < 4294967296) :
    (n / 16777216 % 256 * 16777216 % 4294967296 ||| n / 65536 % 256 * 65536 % 4294967296 |||
      n / 256 % 256 * 256 % 4294967296 ||| n % 256) = n := by
  have a1 : n / 16777216 % 256 * 16777216 % 4294967296 = 2 ^ 24 * (n / 16777216) := by
    simp only [Nat.reducePow]; omega
  have a2 : n / 65536 % 256 * 65536 % 4294967296 = 2 ^ 16 * (n / 65536 % 256) := by
    have := Nat.mod_lt (n / 65536) (y := 256) (by omega)
    rw [Nat.mod_eq_of_lt (by omega), Nat.mul_comm]
  have a3 : n / 256 % 256 * 256 % 4294967296 = 2 ^ 8 * (n / 256 % 256) := by
    have := Nat.mod_lt (n / 256) (y := 256) (by omega)
    rw [Nat.mod_eq_of_lt (by omega), Nat.mul_comm]
  rw [a1, a2, a3]
  rw [← Nat.two_pow_add_eq_or_of_lt (b := 2 ^ 16 * (n / 65536 % 256)) (by simp only [Nat.reducePow]; omega)]
  rw [show 2 ^ 24 * (n / 16777216) + 2 ^ 16 * (n / 65536 % 256) = 2 ^ 16 * (n / 65536) by
    simp only [Nat.reducePow]; omega]
  rw [← Nat.two_pow_add_eq_or_of_lt (b := 2 ^ 8 * (n / 256 % 256)) (by simp only [Nat.reducePow]; omega)]
  rw [show 2 ^ 16 * (n / 65536) + 2 ^ 8 * (n / 256 % 256) = 2 ^ 8 * (n / 256) by
    simp only [Nat.reducePow]; omega]
  rw [← Nat.two_pow_add_eq_or_of_lt (by simp only [Nat.reducePow]; omega)]
  simp only [Nat.reducePow]; omega

theorem deF32_rt (x : F32) : RT (serF32 x) deF32 x := by
  intro rest
  simp only [serF32, F32.toBeBytes, List.cons_append, List.nil_append, deF32]
  congr 2
  cases x with | mk b =>
  simp only [F32.ofBeBytes]
  congr 1
  rw [← UInt32.toNat_inj]
  have hb : b.toNat < 4294967296 := UInt32.toNat_lt b
  have e24 : (24 : UInt32).toNat % 32 = 24 := rfl
  have e16 : (16 : UInt32).toNat % 32 = 16 := rfl
  have e8 : (8 : UInt32).toNat % 32 = 8 := rfl
  simp only [UInt32.toNat_or, UInt32.toNat_shiftLeft, UInt8.toNat_toUInt32, UInt32.toNat_toUInt8,
    UInt32.toNat_shiftRight, e24, e16, e8, Nat.shiftRight_eq_div_pow, Nat.shiftLeft_eq]
  exact be_bytes_nat b.toNat hb

theorem deBool_rt (b : Bool) : RT (serBool b) deBool b := by
  intro rest; cases b <;> rfl

theorem deU8_rt (b : UInt8) : RT (serU8 b) deU8 b := by intro rest; rfl

/-! ### vectors, arrays -/

theorem times_rt {ser : α → Bytes} {de : De β} {f : α → β} (l : List α)
    (h : ∀ a ∈ l, RT (ser a) de (f a)) : RT (l.flatMap ser) (De.times l.length de) (l.map f) := by
  induction l with
  | nil => exact RT.pure
  | cons a l ih =>
    simp only [List.flatMap_cons, List.length_cons, De.times, List.map_cons]
    refine RT.bind (h a (by simp)) ?_
    exact RT.bind_pure (ih fun b hb => h b (by simp [hb]))

theorem deVec_rt' {t : Target} {ser : α → Bytes} {de : De β} {f : α → β} (l : List α)
    (hl : Fits t l.length) (h : ∀ a ∈ l, RT (ser a) de (f a)) :
    RT (serVec ser l) (deVec t de) (l.map f) :=
  RT.bind (deLen_rt hl _) (times_rt l h)

theorem deVec_rt {t : Target} {ser : α → Bytes} {de : De α} (l : List α)
    (hl : Fits t l.length) (h : ∀ a ∈ l, RT (ser a) de a) : RT (serVec ser l) (deVec t de) l := by
  have := deVec_rt' (f := id) l hl h
  simpa using this

theorem deArray_rt {t : Target} {ser : α → Bytes} {de : De α} (l : List α)
    (hl : Carried t l.length) (h : ∀ a ∈ l, RT (ser a) de a) :
    RT (serArray ser l) (deArray t l.length de) l := by
  refine RT.bind (deUsize_rt hl) ?_
  simp only [if_true]
  have := times_rt (f := id) l h
  simpa using this

/-! ### strings -/

theorem utf8_length (s : Str) : (utf8 s).length = byteLen s := by
  induction s with
  | nil => rfl
  | cons c s ih =>
    simp only [utf8, byteLen, List.flatMap_cons, List.length_append, List.map_cons, List.sum_cons] at *
    rw [ih, String.length_utf8EncodeChar]

theorem fromUtf8_utf8 (s : Str) : fromUtf8 (utf8 s) = some s := by
  have : (⟨(utf8 s).toArray⟩ : ByteArray) = s.utf8Encode := by
    apply ByteArray.ext
    simp [utf8, List.utf8Encode, List.data_toByteArray]
  simp [fromUtf8, this, List.utf8Decode?_utf8Encode]

theorem deStr_rt {t : Target} {s : Str} (h : Carried t (byteLen s)) : RT (serStr s) (deStr t) s := by
  refine RT.bind (deUsize_rt h) ?_
  intro rest
  have hl := utf8_length s
  simp only [List.length_append, hl, Nat.le_add_right, if_true]
  rw [← hl, List.take_left', List.drop_left'] <;> simp [fromUtf8_utf8]

/-! ### maps -/

theorem serMapEntries_rt [DecidableEq K] {t : Target} {serK : K → Bytes} {serV : V → Bytes}
    {deK : De K} {deV : De W} {f : V → W} (entries : List (K × V)) (hl : Fits t entries.length)
    (hk : ∀ p ∈ entries, RT (serK p.1) deK p.1) (hv : ∀ p ∈ entries, RT (serV p.2) deV (f p.2)) :
    RT (serMapEntries serK serV entries) (deMap t deK deV)
      (AMap.collect (entries.map fun p => (p.1, f p.2))) := by
  refine RT.bind (deLen_rt hl _) ?_
  refine RT.bind_pure ?_
  refine times_rt (f := fun p : K × V => (p.1, f p.2)) entries fun p hp => ?_
  refine RT.bind (hk p hp) ?_
  exact RT.bind_pure (hv p hp)

/-! ### sequential arrays -/

theorem deDeltas_rt {t : Target} (l : List Nat) : ∀ (prev : Option Nat),
    (∀ p, prev = some p → ∀ x ∈ l, p ≤ x) → l.Pairwise (· ≤ ·) → (∀ x ∈ l, Carried t x) →
    RT (serDeltas prev l) (deDeltas t l.length prev) l := by
  induction l with
  | nil => intro prev _ _ _; exact RT.pure
  | cons a l ih =>
    intro prev hp hs hf
    have hrest := ih (some a) (fun p hp x hx => by
      cases hp; exact (List.pairwise_cons.1 hs).1 x hx) (List.pairwise_cons.1 hs).2
      (fun x hx => hf x (by simp [hx]))
    have ha : Carried t a := hf a (by simp)
    cases prev with
    | none =>
      simp only [serDeltas, List.length_cons, deDeltas]
      refine RT.bind (deUsize_rt ha) ?_
      refine RT.congr (RT.bind RT.pure (RT.bind_pure hrest)) (by simp)
    | some p =>
      have hpa : p ≤ a := hp p rfl a (by simp)
      simp only [serDeltas, List.length_cons, deDeltas]
      refine RT.bind (deUsize_rt (ha.mono (Nat.sub_le a p))) ?_
      have hadd : addUsize t (a - p) p = .ok a := by
        simp only [addUsize, show a - p + p = a by omega, ha.1, if_true]
      refine RT.congr (RT.bind (s₁ := []) ?_ (RT.bind_pure hrest)) (by simp)
      intro rest
      simp [hadd]

end Idx
