import Verif.Model.ParseF32
import Verif.Lemmas.Round
import Verif.Props.EndToEnd
import Verif.Props.Json
/-! # C66, C67, C68: prices as written and prices as stored -/
namespace Idx

/-! ## C66 — which texts are prices, and which f32 they become -/

/-- Spec: digits and the number they write. -/
inductive Numeral : Str → Nat → Prop
  | nil : Numeral [] 0
  | snoc {s : Str} {n k : Nat} {c : Char} : Numeral s n → "0123456789".toList[k]? = some c → Numeral (s ++ [c]) (10 * n + k)

/-- Spec: a power of ten in a decimal number. -/
inductive WrittenExp : Str → Int → Prop
  | none : WrittenExp [] 0
  | some {mark : Char} {sign ds : Str} {n : Nat} : mark ∈ ['e', 'E'] → sign ∈ [[], ['+'], ['-']] → ds ≠ [] → Numeral ds n →
      WrittenExp (mark :: (sign ++ ds)) (if sign = ['-'] then -(n : Int) else n)

/-- Spec: the text writes the number `d * 10^e`. -/
inductive Written : Str → Nat → Int → Prop
  | whole {int exp : Str} {n : Nat} {e : Int} : int ≠ [] → Numeral int n → WrittenExp exp e → Written (int ++ exp) n e
  | point {int frac exp : Str} {n : Nat} {e : Int} : int ++ frac ≠ [] → Numeral (int ++ frac) n → WrittenExp exp e →
      Written (int ++ '.' :: (frac ++ exp)) n (e - frac.length)

/-- Spec: the sign of a number. -/
inductive Signed : Str → Bool → Prop
  | none : Signed [] false
  | plus : Signed ['+'] false
  | minus : Signed ['-'] true

/-- Spec: `text` is read as `x`. -/
inductive ReadAs : Str → F32 → Prop
  | number {sign body : Str} {neg : Bool} {d : Nat} {e : Int} {x : F32} : Signed sign neg → Written body d e →
      Nearest neg (d * 10 ^ e.toNat * 2 ^ 149) (10 ^ (-e).toNat) x → ReadAs (sign ++ body) x
  | inf {sign body : Str} {neg : Bool} {x : F32} : Signed sign neg →
      body.map Char.toLower ∈ ["inf".toList, "infinity".toList] → x.val = .inf neg → ReadAs (sign ++ body) x
  | nan {sign body : Str} {neg : Bool} {x : F32} : Signed sign neg → body.map Char.toLower = "nan".toList →
      x = ⟨if neg then 0xffc00000 else 0x7fc00000⟩ → ReadAs (sign ++ body) x

theorem digit_iff (c : Char) : c ∈ "0123456789".toList ↔ "0123456789".toList[c.toNat - 48]? = some c := by
  constructor
  · intro h
    have : ∀ c ∈ "0123456789".toList, "0123456789".toList[c.toNat - 48]? = some c := by decide
    exact this c h
  · exact List.mem_of_getElem?

theorem digitsValue_snoc (s : Str) (c : Char) : digitsValue (s ++ [c]) = 10 * digitsValue s + (c.toNat - 48) := by
  simp [digitsValue]

theorem digit_index {k : Nat} {c : Char} (h : "0123456789".toList[k]? = some c) : k = c.toNat - 48 := by
  have hk : k < 10 := (List.getElem?_eq_some_iff.1 h).1
  have : ∀ k < 10, ∀ c ∈ "0123456789".toList, "0123456789".toList[k]? = some c → k = c.toNat - 48 := by decide
  exact this k hk c (List.mem_of_getElem? h) h

theorem numeral_iff (s : Str) (n : Nat) : Numeral s n ↔ (∀ c ∈ s, c ∈ "0123456789".toList) ∧ n = digitsValue s := by
  constructor
  · intro h
    induction h with
    | nil => exact ⟨by simp, rfl⟩
    | snoc _ hk ih =>
      refine ⟨fun c hc => ?_, ?_⟩
      · rcases List.mem_append.1 hc with hc | hc
        · exact ih.1 c hc
        · simp only [List.mem_singleton] at hc
          subst hc
          exact List.mem_of_getElem? hk
      · rw [digitsValue_snoc, ← ih.2, digit_index hk]
  · rintro ⟨h, rfl⟩
    have : ∀ l : Str, (∀ c ∈ l, c ∈ "0123456789".toList) → Numeral l.reverse (digitsValue l.reverse) := by
      intro l
      induction l with
      | nil => intro _; exact .nil
      | cons c l ih =>
        intro h
        rw [List.reverse_cons, digitsValue_snoc]
        exact .snoc (ih fun x hx => h x (by simp [hx])) ((digit_iff c).1 (h c (by simp)))
    have := this s.reverse (by simpa using h)
    rwa [List.reverse_reverse] at this

theorem floatExponent_iff (s : Str) (e : Int) : floatExponent s = some e ↔ WrittenExp s e := by
  constructor
  · intro h
    cases s with
    | nil =>
      simp only [floatExponent, Option.some.injEq] at h
      subst h
      exact .none
    | cons c r =>
      simp only [floatExponent] at h
      split at h
      · rename_i hc
        split at h
        · cases h
        · rename_i hd
          simp only [Option.some.injEq] at h
          obtain ⟨h1, h2⟩ := parseSign_split r
          obtain ⟨g1, g2, _⟩ := spanDigits_spec (parseSign r).2
          simp only [not_or, Decidable.not_not] at hd
          rw [hd.2, List.append_nil] at g1
          have hw := WrittenExp.some (mark := c) (by simpa using hc) h2 hd.1 ((numeral_iff _ _).2 ⟨g2, rfl⟩)
          rw [← g1, ← h1, g1, h] at hw
          exact hw
      · cases h
  · intro h
    cases h with
    | none => rfl
    | @some mark sign ds n h1 h2 h3 h4 =>
      obtain ⟨g1, rfl⟩ := (numeral_iff ds n).1 h4
      have hsign : parseSign (sign ++ ds) = (sign, ds) := by
        cases ds with
        | nil => exact absurd rfl h3
        | cons d ds =>
          have hd : d ≠ '+' ∧ d ≠ '-' := by
            have : ∀ d ∈ "0123456789".toList, d ≠ '+' ∧ d ≠ '-' := by decide
            exact this d (g1 d (by simp))
          simp only [List.mem_cons, List.not_mem_nil, or_false] at h2
          rcases h2 with rfl | rfl | rfl
          · rw [List.nil_append]
            unfold parseSign
            split
            · rename_i e; simp only [List.cons.injEq] at e; exact absurd e.1 hd.1
            · rename_i e; simp only [List.cons.injEq] at e; exact absurd e.1 hd.2
            · rfl
          · rfl
          · rfl
      have hspan : spanDigits ds = (ds, []) := by
        have := spanDigits_append g1 (r := []) (by simp)
        rwa [List.append_nil] at this
      simp only [floatExponent, hsign, hspan]
      rw [if_pos (by simpa using h1), if_neg (by simp [h3])]

theorem WrittenExp.head {s : Str} {e : Int} (h : WrittenExp s e) (c : Char) (hc : s.head? = Option.some c) :
    c ∉ "0123456789".toList ∧ c ≠ '.' := by
  cases h with
  | none => cases hc
  | some h1 =>
    simp only [List.head?_cons, Option.some.injEq] at hc
    subst hc
    have : ∀ c ∈ ['e', 'E'], c ∉ "0123456789".toList ∧ c ≠ '.' := by decide
    exact this _ h1

theorem floatNumber_iff (s : Str) (d : Nat) (e : Int) : floatNumber s = some (d, e) ↔ Written s d e := by
  constructor
  · intro h
    unfold floatNumber at h
    simp only at h
    split at h
    · cases h
    · rename_i hne
      obtain ⟨e', h1, h2⟩ := Option.map_eq_some_iff.1 h
      simp only [Prod.mk.injEq] at h2
      obtain ⟨rfl, rfl⟩ := h2
      obtain ⟨g1, g2, g3⟩ := spanDigits_spec s
      generalize spanDigits s = int at *
      have hf : (∃ r, int.2 = '.' :: r ∧ floatFraction int.2 = spanDigits r) ∨ floatFraction int.2 = ([], int.2) := by
        unfold floatFraction
        split
        · rename_i r hr; exact .inl ⟨r, hr, rfl⟩
        · exact .inr rfl
      rcases hf with ⟨r, hr, hf⟩ | hf
      · rw [hf] at h1 hne ⊢
        obtain ⟨k1, k2, k3⟩ := spanDigits_spec r
        generalize spanDigits r = frac at *
        have hw := Written.point (int := int.1) (frac := frac.1) (by simpa using hne) ((numeral_iff _ _).2 ⟨fun c hc => by
          rcases List.mem_append.1 hc with hc | hc
          · exact g2 c hc
          · exact k2 c hc, rfl⟩) ((floatExponent_iff _ _).1 h1)
        rw [← k1, ← hr, ← g1] at hw
        exact hw
      · rw [hf] at h1 hne ⊢
        simp only [and_true] at hne
        have hw := Written.whole hne ((numeral_iff _ _).2 ⟨g2, rfl⟩) ((floatExponent_iff _ _).1 h1)
        rw [← g1] at hw
        simpa using hw
  · intro h
    cases h with
    | @whole int exp n e h1 h2 h3 =>
      obtain ⟨g1, rfl⟩ := (numeral_iff _ _).1 h2
      have hspan := spanDigits_append g1 (r := exp) fun c hc => (h3.head c hc).1
      have hfrac : floatFraction exp = ([], exp) := by
        unfold floatFraction
        split
        · rename_i r; exact absurd rfl (h3.head '.' rfl).2
        · rfl
      simp [floatNumber, hspan, hfrac, h1, (floatExponent_iff exp e).2 h3]
    | @point int frac exp n e h1 h2 h3 =>
      obtain ⟨g1, rfl⟩ := (numeral_iff _ _).1 h2
      have hspan := spanDigits_append (ds := int) (fun c hc => g1 c (by simp [hc])) (r := '.' :: (frac ++ exp)) fun c hc => by
        simp only [List.head?_cons, Option.some.injEq] at hc
        subst hc
        decide
      have hfrac : floatFraction ('.' :: (frac ++ exp)) = (frac, exp) :=
        spanDigits_append (ds := frac) (fun c hc => g1 c (by simp [hc])) fun c hc => (h3.head c hc).1
      simp only [floatNumber, hspan, hfrac, (floatExponent_iff exp e).2 h3, Option.map_some]
      rw [if_neg]
      simpa using h1

theorem nearest_floatOf (neg : Bool) (d : Nat) (e : Int) (x : F32) :
    Nearest neg (d * 10 ^ e.toNat * 2 ^ 149) (10 ^ (-e).toNat) x ↔ x = floatOf neg d e :=
  nearest_iff neg _ (Nat.pow_pos (by omega)) x

theorem pack_nan (neg : Bool) : F32.pack neg 0x7fc00000 = ⟨if neg then 0xffc00000 else 0x7fc00000⟩ := by
  cases neg <;> decide

theorem val_inf_iff (neg : Bool) (x : F32) : x.val = .inf neg ↔ x = F32.inf neg := by
  constructor
  · exact F32.eq_inf
  · rintro rfl
    cases neg
    · exact F32.val_inf
    · decide +kernel

/-- What neither a number nor a name can start with. -/
theorem Written.head {s : Str} {d : Nat} {e : Int} (h : Written s d e) : ∃ c r, s = c :: r ∧ c ≠ '+' ∧ c ≠ '-' := by
  have hd : ∀ d ∈ "0123456789".toList, d ≠ '+' ∧ d ≠ '-' := by decide
  cases h with
  | @whole int exp n e h1 h2 h3 =>
    cases int with
    | nil => exact absurd rfl h1
    | cons c r => exact ⟨c, r ++ exp, rfl, hd c (((numeral_iff _ _).1 h2).1 c (by simp))⟩
  | @point int frac exp n e h1 h2 h3 =>
    cases int with
    | nil => exact ⟨'.', _, rfl, by decide⟩
    | cons c r => exact ⟨c, _, rfl, hd c (((numeral_iff _ _).1 h2).1 c (by simp))⟩

theorem name_head {s : Str} (h : s.map Char.toLower ∈ ["inf".toList, "infinity".toList, "nan".toList]) :
    ∃ c r, s = c :: r ∧ c ≠ '+' ∧ c ≠ '-' := by
  cases s with
  | nil => exact absurd h (by decide)
  | cons c r =>
    refine ⟨c, r, rfl, ?_, ?_⟩
    · rintro rfl
      have : Char.toLower '+' = '+' := by decide
      rw [List.map_cons, this] at h
      simp at h
    · rintro rfl
      have : Char.toLower '-' = '-' := by decide
      rw [List.map_cons, this] at h
      simp at h

theorem parseSign_of {sign body : Str} {neg : Bool} (h : Signed sign neg) (hb : ∃ c r, body = c :: r ∧ c ≠ '+' ∧ c ≠ '-') :
    parseSign (sign ++ body) = (sign, body) ∧ decide (sign = ['-']) = neg := by
  obtain ⟨c, r, rfl, h1, h2⟩ := hb
  cases h with
  | none =>
    refine ⟨?_, by decide⟩
    rw [List.nil_append]
    unfold parseSign
    split
    · rename_i e; simp only [List.cons.injEq] at e; exact absurd e.1 h1
    · rename_i e; simp only [List.cons.injEq] at e; exact absurd e.1 h2
    · rfl
  | plus => exact ⟨rfl, by decide⟩
  | minus => exact ⟨rfl, by decide⟩

theorem signed_parseSign (s : Str) : Signed (parseSign s).1 (decide ((parseSign s).1 = ['-'])) := by
  have h := (parseSign_split s).2
  simp only [List.mem_cons, List.not_mem_nil, or_false] at h
  rcases h with h | h | h <;> rw [h]
  · exact .none
  · exact .plus
  · exact .minus

theorem floatName_iff (neg : Bool) (s : Str) (x : F32) : floatName neg s = some x ↔
    (s.map Char.toLower ∈ ["inf".toList, "infinity".toList] ∧ x.val = .inf neg) ∨
      (s.map Char.toLower = "nan".toList ∧ x = ⟨if neg then 0xffc00000 else 0x7fc00000⟩) := by
  unfold floatName
  simp only [val_inf_iff, ← pack_nan]
  split
  · rename_i h
    have hn : s.map Char.toLower ≠ "nan".toList := by
      intro e; rw [e] at h; revert h; decide
    constructor
    · intro e
      simp only [Option.some.injEq] at e
      exact .inl ⟨by simpa using h, e.symm⟩
    · rintro (⟨_, rfl⟩ | ⟨e, _⟩)
      · rfl
      · exact absurd e hn
  · rename_i h
    split
    · rename_i hn
      constructor
      · intro e
        simp only [Option.some.injEq] at e
        exact .inr ⟨hn, e.symm⟩
      · rintro (⟨e, _⟩ | ⟨_, rfl⟩)
        · exact absurd (by simpa using e) h
        · rfl
    · rename_i hn
      constructor
      · intro e; cases e
      · rintro (⟨e, _⟩ | ⟨e, _⟩)
        · exact absurd (by simpa using e) h
        · exact absurd e hn

theorem written_not_name {s : Str} {d : Nat} {e : Int} (h : Written s d e) :
    s.map Char.toLower ∉ ["inf".toList, "infinity".toList, "nan".toList] := by
  have hc : ∃ c ∈ s, c ∈ "0123456789".toList ∨ c = '.' := by
    cases h with
    | @whole int exp n e h1 h2 h3 =>
      cases int with
      | nil => exact absurd rfl h1
      | cons c r => exact ⟨c, by simp, .inl (((numeral_iff _ _).1 h2).1 c (by simp))⟩
    | point h1 h2 h3 => exact ⟨'.', by simp, .inr rfl⟩
  obtain ⟨c, h1, h2⟩ := hc
  intro hm
  have h3 : c.toLower ∈ s.map Char.toLower := List.mem_map.2 ⟨c, h1, rfl⟩
  have h4 : c ∈ "0123456789.".toList := by
    rcases h2 with h2 | rfl
    · have : ∀ c ∈ "0123456789".toList, c ∈ "0123456789.".toList := by decide
      exact this c h2
    · decide
  have h5 : ∀ c ∈ "0123456789.".toList, ∀ l ∈ ["inf".toList, "infinity".toList, "nan".toList], c.toLower ∉ l := by decide
  exact h5 c h4 _ hm h3

/-- Exactly these texts are read as prices, as the f32 nearest to the number written. -/
theorem C66 (text : Str) (x : F32) : parseF32 text = some x ↔ ReadAs text x := by
  constructor
  · intro h
    unfold parseF32 at h
    have hs := signed_parseSign text
    have e := (parseSign_split text).1
    simp only at h
    generalize parseSign text = sp at *
    split at h
    · rename_i d e' hn
      simp only [Option.some.injEq] at h
      rw [e]
      exact .number hs ((floatNumber_iff _ _ _).1 hn) ((nearest_floatOf _ _ _ _).2 h.symm)
    · rw [e]
      rcases (floatName_iff _ _ _).1 h with ⟨h1, h2⟩ | ⟨h1, h2⟩
      · exact .inf hs h1 h2
      · exact .nan hs h1 h2
  · intro h
    cases h with
    | number h1 h2 h3 =>
      obtain ⟨e1, e2⟩ := parseSign_of h1 h2.head
      unfold parseF32
      simp only [e1, (floatNumber_iff _ _ _).2 h2, e2]
      rw [(nearest_floatOf _ _ _ _).1 h3]
    | @inf sign body neg _ h1 h2 h3 =>
      have hm : body.map Char.toLower ∈ ["inf".toList, "infinity".toList, "nan".toList] := by
        simp only [List.mem_cons, List.not_mem_nil, or_false] at h2 ⊢
        rcases h2 with h | h
        · exact .inl h
        · exact .inr (.inl h)
      obtain ⟨e1, e2⟩ := parseSign_of h1 (name_head hm)
      have hn : floatNumber body = none := by
        cases hf : floatNumber body with
        | none => rfl
        | some p => exact absurd hm (written_not_name ((floatNumber_iff _ p.1 p.2).1 hf))
      unfold parseF32
      simp only [e1, hn, e2]
      exact (floatName_iff _ _ _).2 (.inl ⟨h2, h3⟩)
    | @nan sign body neg _ h1 h2 h3 =>
      have hm : body.map Char.toLower ∈ ["inf".toList, "infinity".toList, "nan".toList] := by rw [h2]; decide
      obtain ⟨e1, e2⟩ := parseSign_of h1 (name_head hm)
      have hn : floatNumber body = none := by
        cases hf : floatNumber body with
        | none => rfl
        | some p => exact absurd hm (written_not_name ((floatNumber_iff _ p.1 p.2).1 hf))
      unfold parseF32
      simp only [e1, hn, e2]
      exact (floatName_iff _ _ _).2 (.inr ⟨h2, h3⟩)

open F32 (Rep roundMag rep_mul roundMag_mono)

/-! ## C67 — the price orders are those of the written prices -/

/-- Spec: the text writes the number `p / q`. -/
def Worth (text : Str) (p q : Nat) : Prop :=
  ∃ sign body d e, text = sign ++ body ∧ Signed sign false ∧ Written body d e ∧ d * 10 ^ e.toNat * q = p * 10 ^ (-e).toNat

theorem gap_mul (k a b : Nat) : gap (k * a) (k * b) = k * gap a b := by
  unfold gap
  rw [← Nat.mul_sub, ← Nat.mul_sub, ← Nat.mul_add]

theorem worth_gap {a b p q U R r : Nat} (hb : 0 < b) (h : a * q = p * U * b) (hg : gap (R * b) a ≤ gap (r * b) a) :
    gap (q * R) (p * U) ≤ gap (q * r) (p * U) := by
  have key : ∀ x, b * gap (q * x) (p * U) = q * gap (x * b) a := by
    intro x
    rw [← gap_mul, ← gap_mul]
    congr 1
    · rw [Nat.mul_comm b, Nat.mul_assoc]
    · rw [Nat.mul_comm b, ← h, Nat.mul_comm]
  have := Nat.mul_le_mul_left q hg
  rw [← key, ← key] at this
  exact Nat.le_of_mul_le_mul_left this hb

/-- The rounded magnitude of a text worth `p / q`. -/
theorem worth_parse {text : Str} {p q : Nat} (h : Worth text p q) :
    ∃ a b, 0 < b ∧ parseF32 text = some (F32.ofRatio false a b) ∧ a * q = p * 2 ^ 149 * b := by
  obtain ⟨sign, body, d, e, rfl, hs, hw, hv⟩ := h
  refine ⟨d * 10 ^ e.toNat * 2 ^ 149, 10 ^ (-e).toNat, Nat.pow_pos (by omega), ?_, ?_⟩
  · exact (C66 _ _).2 (.number hs hw ((nearest_floatOf _ _ _ _).2 rfl))
  · calc d * 10 ^ e.toNat * 2 ^ 149 * q = d * 10 ^ e.toNat * q * 2 ^ 149 := Nat.mul_right_comm _ _ _
      _ = p * 10 ^ (-e).toNat * 2 ^ 149 := congrArg (· * 2 ^ 149) hv
      _ = p * 2 ^ 149 * 10 ^ (-e).toNat := Nat.mul_right_comm _ _ _

theorem not_valLt_ofRatio {a b a' b' : Nat} (hb : 0 < b) (hb' : 0 < b') (h : a * b' ≤ a' * b) :
    ¬ValLt (F32.ofRatio false a' b').val (F32.ofRatio false a b).val := by
  have hm := roundMag_mono hb hb' h
  by_cases h1 : roundMag a' b' < 2 ^ 277
  · rw [F32.val_ofRatio _ _ _ h1, F32.val_ofRatio _ _ _ (Nat.lt_of_le_of_lt hm h1)]
    generalize roundMag a b = m at hm ⊢
    generalize roundMag a' b' = n at hm ⊢
    intro hv
    cases hv with
    | fin _ _ _ _ hlt =>
      simp only [Bool.false_eq_true, if_false] at hlt
      omega
  · rw [F32.val_ofRatio_inf _ _ _ h1]
    generalize (F32.ofRatio false a b).val = v
    intro hv
    cases hv with
    | high _ _ h => exact h rfl

/-- A price that is written as at least another one is never ordered before it. -/
theorem C67_weak {s t : Str} {p q p' q' : Nat} (hq : 0 < q) (hq' : 0 < q') (hs : Worth s p q) (ht : Worth t p' q')
    (h : p * q' ≤ p' * q) :
    ∃ x y, parseF32 s = some x ∧ parseF32 t = some y ∧ x.val ≠ .nan ∧ y.val ≠ .nan ∧ ¬ValLt y.val x.val := by
  obtain ⟨a, b, hb, h1, h2⟩ := worth_parse hs
  obtain ⟨a', b', hb', h1', h2'⟩ := worth_parse ht
  have hnan : ∀ a b, (F32.ofRatio false a b).val ≠ .nan := by
    intro a b
    by_cases h : roundMag a b < 2 ^ 277
    · rw [F32.val_ofRatio _ _ _ h]; exact fun h => nomatch h
    · rw [F32.val_ofRatio_inf _ _ _ h]; exact fun h => nomatch h
  refine ⟨_, _, h1, h1', hnan _ _, hnan _ _, not_valLt_ofRatio hb hb' ?_⟩
  generalize 2 ^ 149 = U at h2 h2'
  apply Nat.le_of_mul_le_mul_right (c := q * q') _ (Nat.mul_pos hq hq')
  calc a * b' * (q * q') = a * q * (b' * q') := by ac_rfl
    _ = p * q' * (U * b * b') := by rw [h2]; ac_rfl
    _ ≤ p' * q * (U * b * b') := Nat.mul_le_mul_right _ h
    _ = p' * U * b' * (b * q) := by ac_rfl
    _ = a' * q' * (b * q) := by rw [h2']
    _ = a' * b * (q * q') := by ac_rfl

theorem cents_lt {m n W A B : Nat} (h : m < n) (hW : 0 < W) (ha : gap (100 * A) (m * (128 * W)) ≤ 50 * W)
    (hb : gap (100 * B) (n * (128 * W)) ≤ 50 * W) : A < B := by
  obtain ⟨k, rfl⟩ := Nat.exists_eq_add_of_lt h
  have e : (m + k + 1) * (128 * W) = m * (128 * W) + k * (128 * W) + 128 * W := by
    rw [Nat.add_mul, Nat.add_mul, Nat.one_mul]
  rw [e] at hb
  unfold gap at ha hb
  generalize m * (128 * W) = M at ha hb
  generalize k * (128 * W) = K at hb
  omega

theorem cents_grid (c W : Nat) : gap (100 * ((c * 128 + 50) / 100 * W)) (c * (128 * W)) ≤ 50 * W := by
  have e1 : 100 * ((c * 128 + 50) / 100 * W) = W * (100 * ((c * 128 + 50) / 100)) := by ac_rfl
  have e2 : c * (128 * W) = W * (c * 128) := by ac_rfl
  rw [e1, e2, gap_mul, Nat.mul_comm]
  apply Nat.mul_le_mul_right
  unfold gap
  omega

theorem cents_bound {c W m : Nat} (hc : c ≤ 13107200) (h : gap (100 * m) (c * (128 * W)) ≤ 50 * W) : m ≤ 2 ^ 25 * W := by
  have : c * (128 * W) ≤ 13107200 * (128 * W) := Nat.mul_le_mul_right _ hc
  unfold gap at h
  generalize c * (128 * W) = C at *
  have : (2 : Nat) ^ 25 = 33554432 := rfl
  rw [this]
  omega

theorem cents_exact {w W m : Nat} (h : gap (100 * m) (100 * w * (128 * W)) ≤ gap (100 * (w * 128 * W)) (100 * w * (128 * W))) :
    m = w * (128 * W) := by
  have e1 : 100 * (w * 128 * W) = 100 * (w * (128 * W)) := by ac_rfl
  have e2 : 100 * w * (128 * W) = 100 * (w * (128 * W)) := by ac_rfl
  rw [e1, e2] at h
  generalize w * (128 * W) = V at *
  unfold gap at h
  omega

theorem pow_149 : (2 : Nat) ^ 149 = 128 * 2 ^ 142 := two_pow_split (a := 149) (b := 7) (c := 142) rfl

theorem pow_25_142 : (2 : Nat) ^ 25 * 2 ^ 142 < 2 ^ 277 :=
  (Nat.pow_add 2 25 142) ▸ Nat.pow_lt_pow_right (by omega) (by omega)

/-- Prices in whole cents up to 131072.00 are stored with an error below a two-hundredth. -/
theorem cents_parse {text : Str} {c : Nat} (h : Worth text c 100) (hc : c ≤ 13107200) :
    ∃ x m, parseF32 text = some x ∧ x.val = .fin false m ∧ gap (100 * m) (c * (128 * 2 ^ 142)) ≤ 50 * 2 ^ 142 ∧
      ∀ w, c = 100 * w → m = w * (128 * 2 ^ 142) := by
  obtain ⟨a, b, hb, h1, h2⟩ := worth_parse h
  have hall : ∀ r, Rep r → gap (100 * roundMag a b) (c * (128 * 2 ^ 142)) ≤ gap (100 * r) (c * (128 * 2 ^ 142)) :=
    fun r hr => worth_gap hb (h2.trans (congrArg (fun u => c * u * b) pow_149)) (F32.gap_roundMag (a := a) hb hr)
  have e24 : (2 : Nat) ^ 24 = 16777216 := rfl
  have hg : gap (100 * roundMag a b) (c * (128 * 2 ^ 142)) ≤ 50 * 2 ^ 142 :=
    Nat.le_trans (hall _ (rep_mul (k := 142) (q := (c * 128 + 50) / 100) (by omega))) (cents_grid c _)
  have hw : ∀ w, c = 100 * w → roundMag a b = w * (128 * 2 ^ 142) := by
    rintro w rfl
    have := hall (w * 128 * 2 ^ 142) (rep_mul (by omega))
    exact cents_exact this
  exact ⟨_, _, h1, F32.val_ofRatio _ _ _ (Nat.lt_of_le_of_lt (cents_bound hc hg) pow_25_142), hg, hw⟩

/-- Up to 131072.00 a price written as less, by a cent or more, is ordered first. -/
theorem C67_strict {s t : Str} {m n : Nat} (hs : Worth s m 100) (ht : Worth t n 100) (hn : n ≤ 13107200) (h : m < n) :
    ∃ x y, parseF32 s = some x ∧ parseF32 t = some y ∧ ValLt x.val y.val := by
  obtain ⟨x, A, h1, h2, h3, _⟩ := cents_parse hs (by omega)
  obtain ⟨y, B, g1, g2, g3, _⟩ := cents_parse ht hn
  have hlt := cents_lt h (Nat.two_pow_pos 142) h3 g3
  refine ⟨x, y, h1, g1, ?_⟩
  rw [h2, g2]
  refine .fin _ _ _ _ ?_
  simp only [Bool.false_eq_true, if_false]
  exact Int.ofNat_lt.2 hlt

theorem priceLt_iff {a b : RawProduct} {m n : Nat} (ha : Worth a.price.min.amount m 100) (hb : Worth b.price.min.amount n 100)
    (hn : n ≤ 13107200) : PriceLt parseF32 a b ↔ m < n := by
  constructor
  · rintro ⟨x, y, hx, hy, hlt⟩
    by_cases h : m < n
    · exact h
    · obtain ⟨y', x', hy', hx', _, _, hn⟩ := C67_weak (by omega) (by omega) hb ha (Nat.mul_le_mul_right 100 (Nat.not_lt.1 h))
      rw [hx] at hx'
      rw [hy] at hy'
      cases hx'
      cases hy'
      exact absurd hlt hn
  · exact fun h => C67_strict ha hb hn h

/-- If every price of the catalogue is written in whole cents up to 131072.00, the catalogue can be indexed and the two
price orders rank the products exactly by these cents, products of equal price by their position. -/
theorem C67 (o : HashOrd) (catalogue : List RawProduct) (cents : RawProduct → Nat)
    (h : ∀ raw ∈ catalogue, Worth raw.price.min.amount (cents raw) 100 ∧ cents raw ≤ 13107200) :
    ∃ c cl, optimize o parseF32 catalogue = .ok (c, cl) ∧
      (∃ r, cl.order.getOrders "Price low to high".toList = some r ∧
        IsRanking catalogue.length (Before (fun a b => cents a < cents b) catalogue) r) ∧
      (∃ r, cl.order.getOrders "Price high to low".toList = some r ∧
        IsRanking catalogue.length (Before (fun a b => cents b < cents a) catalogue) r) := by
  have hsome : ∀ raw ∈ catalogue, ∃ x, parseF32 raw.price.min.amount = some x ∧ x.val ≠ .nan := by
    intro raw hr
    obtain ⟨x, m, h1, h2, _⟩ := cents_parse (h raw hr).1 (h raw hr).2
    exact ⟨x, h1, by rw [h2]; exact fun h => nomatch h⟩
  have hnp := C24 o parseF32 catalogue
  cases hopt : optimize o parseF32 catalogue with
  | none => exact absurd hopt hnp.2
  | panic w =>
    obtain ⟨raw, hr, hn⟩ := hnp.1.1 ⟨w, hopt⟩
    obtain ⟨x, hx, _⟩ := hsome raw hr
    rw [hn] at hx
    cases hx
  | ok res =>
    obtain ⟨c, cl⟩ := res
    obtain ⟨⟨r1, k1, g1⟩, ⟨r2, k2, g2⟩⟩ := (C20 hopt).2.2.2 fun raw hr x hx => by
      obtain ⟨y, hy, hn⟩ := hsome raw hr
      rw [hx] at hy
      cases hy
      exact hn
    have key : ∀ (i j : Nat) (a b : RawProduct), catalogue[i]? = some a → catalogue[j]? = some b →
        (PriceLt parseF32 a b ↔ cents a < cents b) := by
      intro i j a b hi hj
      have ha := h a (List.mem_of_getElem? hi)
      have hb := h b (List.mem_of_getElem? hj)
      exact priceLt_iff ha.1 hb.1 hb.2
    refine ⟨c, cl, rfl, ⟨r1, k1, g1.congr fun i j _ _ => ?_⟩, ⟨r2, k2, g2.congr fun i j _ _ => ?_⟩⟩
    · unfold Before
      constructor
      · rintro ⟨a, b, hi, hj, hlt⟩
        exact ⟨a, b, hi, hj, by rwa [key i j a b hi hj, key j i b a hj hi] at hlt⟩
      · rintro ⟨a, b, hi, hj, hlt⟩
        exact ⟨a, b, hi, hj, by rwa [key i j a b hi hj, key j i b a hj hi]⟩
    · unfold Before
      simp only
      constructor
      · rintro ⟨a, b, hi, hj, hlt⟩
        exact ⟨a, b, hi, hj, by rwa [key i j a b hi hj, key j i b a hj hi] at hlt⟩
      · rintro ⟨a, b, hi, hj, hlt⟩
        exact ⟨a, b, hi, hj, by rwa [key i j a b hi hj, key j i b a hj hi]⟩

/-- Digits with a point before the last two. -/
theorem worth_cents {int : Str} {a b : Char} {n : Nat} (h : Numeral (int ++ [a, b]) n) : Worth (int ++ ['.', a, b]) n 100 :=
  ⟨[], int ++ ['.', a, b], n, -2, rfl, .none, by
    have := Written.point (int := int) (frac := [a, b]) (exp := []) (by simp) h .none
    simpa using this, by
    show n * 10 ^ 0 * 100 = n * 10 ^ 2
    simp⟩

/-- The bound is sharp: 131072.01 and 131072.02 are stored as the same f32. -/
theorem C67_bound : Worth "131072.01".toList 13107201 100 ∧ Worth "131072.02".toList 13107202 100 ∧
    parseF32 "131072.01".toList = parseF32 "131072.02".toList :=
  ⟨worth_cents (int := "131072".toList) (a := '0') (b := '1') ((numeral_iff _ _).2 (by decide)),
   worth_cents (int := "131072".toList) (a := '0') (b := '2') ((numeral_iff _ _).2 (by decide)), by decide +kernel⟩

example : Worth "19.90".toList 1990 100 ∧ Worth "131071.99".toList 13107199 100 ∧ 13107199 ≤ 13107200 :=
  ⟨worth_cents (int := "19".toList) (a := '9') (b := '0') ((numeral_iff _ _).2 (by decide)),
   worth_cents (int := "131071".toList) (a := '9') (b := '9') ((numeral_iff _ _).2 (by decide)), by decide⟩

/-- Not only digits with a point: 25 and 2.5e1 are worth 2500 cents. -/
example : Worth "25".toList 2500 100 ∧ Worth "+2.5e1".toList 2500 100 :=
  ⟨⟨[], "25".toList, 25, 0, rfl, .none, .whole (int := "25".toList) (exp := []) (by decide) ((numeral_iff _ _).2 (by decide)) .none,
    by decide⟩,
   ⟨['+'], "2.5e1".toList, 25, 0, rfl, .plus,
    .point (int := ['2']) (frac := ['5']) (exp := ['e', '1']) (e := 1) (by decide) ((numeral_iff _ _).2 (by decide))
      (.some (mark := 'e') (sign := []) (ds := ['1']) (n := 1) (by decide) (by decide) (by decide) ((numeral_iff _ _).2 (by decide))),
    by decide⟩⟩

/-! ## C68 — price ranges against the written prices -/

/-- The claim that a price at or above a lower bound is kept fails: 19.90 is stored as slightly less, and 19.9 as
JavaScript stores it (0x4033E66666666666, which is at most 19.90) is above it. -/
theorem C68_false : ¬∀ (text : Str) (p q k : Nat) (x : F32) (n : JsNum), 0 < q → Worth text p q → parseF32 text = some x →
    SameNumber x n → k * q ≤ p * 2 ^ 1074 → NumLe (.fin false k) n := by
  intro h
  have hx : parseF32 "19.90".toList = some ⟨1100952371⟩ := by decide +kernel
  have hv : (⟨1100952371⟩ : F32).val = .fin false (10433331 * 2 ^ 130) := by decide +kernel
  have hw : Worth "19.90".toList 1990 100 :=
    worth_cents (int := "19".toList) (a := '9') (b := '0') ((numeral_iff _ _).2 (by decide))
  have e1 : (2 : Nat) ^ 1074 = 2 ^ 48 * 2 ^ 1026 := two_pow_split rfl
  have e2 : (2 : Nat) ^ 1055 = 2 ^ 29 * 2 ^ 1026 := two_pow_split rfl
  have e3 : (2 : Nat) ^ 130 * 2 ^ 1074 = 2 ^ 1055 * 2 ^ 149 := (two_pow_split rfl).symm.trans (two_pow_split (a := 1204) rfl)
  have hs : SameNumber ⟨1100952371⟩ (.fin false (10433331 * 2 ^ 1055)) :=
    .fin false _ _ hv ((Nat.mul_assoc ..).trans ((congrArg (10433331 * ·) e3.symm).trans (Nat.mul_assoc ..).symm))
  have hk : 5601352036542054 * 2 ^ 1026 * 100 ≤ 1990 * 2 ^ 1074 := by
    rw [e1]
    generalize 2 ^ 1026 = W
    omega
  have := h _ _ _ _ _ _ (by decide) hw hx hs hk
  cases this with
  | fin _ _ _ _ hle =>
    simp only [Bool.false_eq_true, if_false] at hle
    have hle := Int.ofNat_le.1 hle
    rw [e2] at hle
    have hW : 0 < 2 ^ 1026 := Nat.two_pow_pos 1026
    generalize 2 ^ 1026 = W at hle hW
    omega

/-- The JavaScript number of a whole number, `undefined` if there is none. -/
def wholeNumber : Option Nat → JsValue
  | some w => .num (.fin false (w * 2 ^ 1074))
  | none => .undefined

theorem wholeNumber_num {w : Option Nat} {a : JsNum} (h : wholeNumber w = .num a) : ∃ n, w = some n ∧ a = .fin false (n * 2 ^ 1074) := by
  cases w with
  | none => cases h
  | some n => exact ⟨n, rfl, by cases h; rfl⟩

theorem le_scaled {w k m A B : Nat} (hA : 0 < A) (hB : 0 < B) (h : k * A = m * B) :
    (w * B ≤ k ↔ w * A ≤ m) ∧ (k ≤ w * B ↔ m ≤ w * A) := by
  have e : w * B * A = w * A * B := Nat.mul_right_comm ..
  constructor
  · rw [← Nat.mul_le_mul_right_iff hA, e, h, Nat.mul_le_mul_right_iff hB]
  · rw [← Nat.mul_le_mul_right_iff hA, e, h, Nat.mul_le_mul_right_iff hB]

theorem cents_whole {c w W m : Nat} (hW : 0 < W) (hg : gap (100 * m) (c * (128 * W)) ≤ 50 * W)
    (hx : ∀ w, c = 100 * w → m = w * (128 * W)) :
    (w * (128 * W) ≤ m ↔ 100 * w ≤ c) ∧ (m ≤ w * (128 * W) ↔ c ≤ 100 * w) := by
  have h0 : gap (100 * (w * (128 * W))) (100 * w * (128 * W)) ≤ 50 * W := by
    rw [Nat.mul_assoc]; unfold gap; omega
  rcases Nat.lt_trichotomy c (100 * w) with h | h | h
  · have := cents_lt h hW hg h0
    constructor <;> omega
  · have := hx w h
    constructor <;> omega
  · have := cents_lt h hW h0 hg
    constructor <;> omega

theorem numLe_fin {m n : Nat} : NumLe (.fin false m) (.fin false n) ↔ m ≤ n := by
  constructor
  · intro h
    cases h with
    | fin _ _ _ _ hle =>
      simp only [Bool.false_eq_true, if_false] at hle
      exact Int.ofNat_le.1 hle
  · intro h
    refine .fin _ _ _ _ ?_
    simp only [Bool.false_eq_true, if_false]
    exact Int.ofNat_le.2 h

/-- A price in whole cents up to 131072.00 lies within whole bounds exactly if its cents do. -/
theorem inBounds_cents {text : Str} {c : Nat} (h : Worth text c 100) (hc : c ≤ 13107200) (lo hi : Option Nat) :
    (∃ x n, parseF32 text = some x ∧ SameNumber x n ∧ InBounds (wholeNumber lo) (wholeNumber hi) n) ↔
      (∀ w, lo = some w → 100 * w ≤ c) ∧ ∀ w, hi = some w → c ≤ 100 * w := by
  obtain ⟨x, m, h1, h2, h3, h4⟩ := cents_parse h hc
  have key : ∀ (n : JsNum), SameNumber x n → ∀ w,
      (NumLe (.fin false (w * 2 ^ 1074)) n ↔ 100 * w ≤ c) ∧ (NumLe n (.fin false (w * 2 ^ 1074)) ↔ c ≤ 100 * w) := by
    intro n hn w
    cases hn with
    | nan e => rw [h2] at e; cases e
    | inf s e => rw [h2] at e; cases e
    | fin s m' k e hk =>
      rw [h2] at e
      cases e
      obtain ⟨g1, g2⟩ := le_scaled (w := w) (Nat.two_pow_pos 149) (Nat.two_pow_pos 1074) hk
      obtain ⟨k1, k2⟩ := cents_whole (w := w) (Nat.two_pow_pos 142) h3 h4
      rw [numLe_fin, numLe_fin, g1, g2, ← k1, ← k2, pow_149]
      exact ⟨Iff.rfl, Iff.rfl⟩
  constructor
  · rintro ⟨x', n, hx', hn, hin⟩
    rw [h1] at hx'
    cases hx'
    exact ⟨fun w hw => (key n hn w).1.1 (hin.1 _ (by rw [hw]; rfl)), fun w hw => (key n hn w).2.1 (hin.2 _ (by rw [hw]; rfl))⟩
  · rintro ⟨hl, hh⟩
    refine ⟨x, _, h1, (sameNumber_iff x _).2 rfl, fun a ha => ?_, fun a ha => ?_⟩
    · obtain ⟨w, hw, rfl⟩ := wholeNumber_num ha
      exact (key _ ((sameNumber_iff x _).2 rfl) w).1.2 (hl w hw)
    · obtain ⟨w, hw, rfl⟩ := wholeNumber_num ha
      exact (key _ ((sameNumber_iff x _).2 rfl) w).2.2 (hh w hw)

/-- Spec: what a catalogue entry must have, with its price in cents and the bounds in whole units. -/
structure MatchesWhole (cats : CategoryHandler) (tags : TagHandler) (ranges : List (Option Nat × Option Nat)) (cents : Nat)
    (raw : RawProduct) : Prop where
  options : ∀ category value, cats.Selected category value → Gives raw category value
  tags : ∀ name, tags.Selected name → name ∈ raw.tags
  above : ∀ f ∈ ranges, ∀ w, f.1 = some w → 100 * w ≤ cents
  below : ∀ f ∈ ranges, ∀ w, f.2 = some w → cents ≤ 100 * w

open Classical in
/-- With prices in whole cents up to 131072.00 and whole bounds, a filtered search returns exactly the products of the
unfiltered search whose entry in the catalogue has the selected options and tags and a written price within the bounds.
Missing for the full claim: bounds that are not whole, for which it is false (`C68_false`), and prices of another form. -/
theorem C68_partial (mode : PanicMode) (o : HashOrd) (lower lower' : Char → List Char)
    (catalogue : List RawProduct) (ix : GramIndex Char) (cl : Classic) (hl : LoadedFrom lower parseF32 catalogue ix cl)
    (cents : RawProduct → Nat)
    (hcents : ∀ raw ∈ catalogue, Worth raw.price.min.amount (cents raw) 100 ∧ cents raw ≤ 13107200)
    (e e₁ : Engine) (hix : e.index.value = some ix) (input : Str)
    (cats : CategoryHandler) (tags : TagHandler) (hc : cats.InRange) (ht : tags.InRange)
    (hch : cats.handle = cl) (hth : tags.handle = cl) (ranges : List (Option Nat × Option Nat))
    (c₁ c₂ : Classic) (whole : ProductProducer)
    (h : e.search mode o lower' input (.new c₁) (.new c₂) none [] = (e₁, .ok (some whole))) :
    e.search mode o lower' input cats tags none (ranges.map fun f => ("price".toList,
        .obj 0 [("from".toList, wholeNumber f.1), ("to".toList, wholeNumber f.2)])) =
      (e, .ok (some ⟨whole.container, whole.toExport.filter fun i =>
        decide (∃ raw, catalogue[i]? = some raw ∧ MatchesWhole cats tags ranges (cents raw) raw), 0⟩)) := by
  have := C50_partial mode o lower lower' parseF32 catalogue ix cl hl e e₁ hix input cats tags hc ht hch hth
    (ranges.map fun f => (wholeNumber f.1, wholeNumber f.2)) c₁ c₂ whole h
  rw [List.map_map] at this
  refine this.trans ?_
  suffices hw : ∀ i ∈ whole.toExport,
      ((∃ raw, catalogue[i]? = some raw ∧
        Matches parseF32 cats tags (ranges.map fun f => (wholeNumber f.1, wholeNumber f.2)) raw) ↔
        ∃ raw, catalogue[i]? = some raw ∧ MatchesWhole cats tags ranges (cents raw) raw) by
    rw [List.filter_congr fun i hi => decide_eq_decide.2 (hw i hi)]
  intro i _
  constructor
  · rintro ⟨raw, hr, hm⟩
    have hcr := hcents raw (List.mem_of_getElem? hr)
    have key : ∀ f ∈ ranges, (∀ w, f.1 = some w → 100 * w ≤ cents raw) ∧ ∀ w, f.2 = some w → cents raw ≤ 100 * w := by
      intro f hf
      by_cases hb : Bounded (wholeNumber f.1) (wholeNumber f.2)
      · exact (inBounds_cents hcr.1 hcr.2 f.1 f.2).1 (hm.prices _ (List.mem_map.2 ⟨f, hf, rfl⟩) hb)
      · constructor
        · intro w hw; exact absurd (.inl ⟨_, by rw [hw]; rfl⟩) hb
        · intro w hw; exact absurd (.inr ⟨_, by rw [hw]; rfl⟩) hb
    exact ⟨raw, hr, hm.options, hm.tags, fun f hf => (key f hf).1, fun f hf => (key f hf).2⟩
  · rintro ⟨raw, hr, hm⟩
    have hcr := hcents raw (List.mem_of_getElem? hr)
    refine ⟨raw, hr, hm.options, hm.tags, fun f hf _ => ?_⟩
    obtain ⟨g, hg, rfl⟩ := List.mem_map.1 hf
    exact (inBounds_cents hcr.1 hcr.2 g.1 g.2).2 ⟨hm.above g hg, hm.below g hg⟩

namespace Witness

/-- Two products described as "kunst", for 19.90 and 25. -/
def catalogueP : List RawProduct :=
  [{ mkRaw kunst ['a'] ['1'] with price := ⟨⟨"19.90".toList, []⟩, ⟨"19.90".toList, []⟩⟩ },
   { mkRaw kunst ['b'] ['2'] with price := ⟨⟨"25".toList, []⟩, ⟨"25".toList, []⟩⟩ },
   mkRaw musik ['c'] ['3'], mkRaw musik ['d'] ['4']]

def fileP : Bytes := (runFile target parseF32 ngramIndexSize catalogueP).getD []

def centsP (raw : RawProduct) : Nat :=
  if raw.price.min.amount = "19.90".toList then 1990 else if raw.price.min.amount = "25".toList then 2500 else 100

set_option maxRecDepth 20000 in
set_option synthInstance.maxSize 1000 in
theorem factsP : facts fileP = some ([0, 1], []) := by decide +kernel

set_option maxRecDepth 20000 in
theorem writtenP : indexAndSerialize target .ident (fun c => [c]) parseF32 ngramIndexSize catalogueP = .ok fileP := by
  obtain ⟨b, hb⟩ := Option.isSome_iff_exists.1
    (show (runFile target parseF32 ngramIndexSize catalogueP).isSome = true by decide +kernel)
  obtain ⟨_, _, _, _, h3⟩ := runFile_sound (by decide) (by decide) hb
  rw [h3, fileP, hb]
  rfl

theorem worth_digits {s : Str} {n : Nat} (hs : s ≠ []) (h : Numeral s n) : Worth s (n * 100) 100 :=
  ⟨[], s, n, 0, rfl, .none, by
    have := Written.whole (exp := []) hs h .none
    rwa [List.append_nil] at this, by
    show n * 10 ^ 0 * 100 = n * 100 * 10 ^ 0
    simp⟩

theorem centsP_ok (raw : RawProduct) (h : raw ∈ catalogueP) :
    Worth raw.price.min.amount (centsP raw) 100 ∧ centsP raw ≤ 13107200 := by
  have h1 : Worth "1".toList (1 * 100) 100 := worth_digits (by decide) ((numeral_iff _ _).2 (by decide))
  simp only [catalogueP, List.mem_cons, List.not_mem_nil, or_false] at h
  rcases h with rfl | rfl | rfl | rfl
  · exact ⟨worth_cents (int := "19".toList) (a := '9') (b := '0') ((numeral_iff _ _).2 (by decide)), by decide⟩
  · exact ⟨worth_digits (s := "25".toList) (n := 25) (by decide) ((numeral_iff _ _).2 (by decide)), by decide⟩
  · exact ⟨h1, by decide⟩
  · exact ⟨h1, by decide⟩

end Witness

open Witness in
/-- The hypotheses hold for a catalogue with prices 19.90 and 25; searching from 20 on leaves the second product. -/
example (mode : PanicMode) : ∃ (ix : GramIndex Char) (cl : Classic) (e : Engine) (whole : ProductProducer),
    LoadedFrom (fun c => [c]) parseF32 catalogueP ix cl ∧ e.index.value = some ix ∧
    (∀ raw ∈ catalogueP, Worth raw.price.min.amount (centsP raw) 100 ∧ centsP raw ≤ 13107200) ∧
    e.search mode .ident (fun c => [c]) kunst (.new cl) (.new cl) none [] = (e, .ok (some whole)) ∧
    whole.toExport = [0, 1] ∧
    e.search mode .ident (fun c => [c]) kunst (.new cl) (.new cl) none ([(some 20, none)].map fun f => ("price".toList,
      .obj 0 [("from".toList, wholeNumber f.1), ("to".toList, wholeNumber f.2)])) =
        (e, .ok (some ⟨whole.container, [1], 0⟩)) := by
  classical
  obtain ⟨ix, cl, r, hd, hcat, hr, hids⟩ := facts_sound factsP
  have hl : LoadedFrom (fun c => [c]) parseF32 catalogueP ix cl :=
    ⟨⟨target, target, .ident, fileP, writtenP, .of_carried (by decide +kernel) fun _ _ => rfl, hd⟩⟩
  let e : Engine := ⟨⟨.free, some ix⟩, ⟨.free, some cl⟩⟩
  have hs : e.search mode .ident (fun c => [c]) kunst (.new cl) (.new cl) none [] =
      (e, .ok (some ⟨ix.container, [0, 1], 0⟩)) := by
    unfold Engine.search
    obtain ⟨r', h1, h2⟩ := searchIds_spec .ident (fun c => [c]) ix kunst (.new cl) (.new cl) (inRange_new_categories _)
      (inRange_new_tags _) []
    rw [show kunst.flatMap (fun c => [c]) = kunst from rfl, hr] at h1
    cases h1
    simp only [parseFilters, Slot.lockOk, e, h2]
    rw [hids, List.filter_eq_self.2 fun sid _ => by simp [wanted_new]]
    rfl
  refine ⟨ix, cl, e, _, hl, rfl, centsP_ok, hs, rfl, ?_⟩
  rw [C68_partial mode .ident _ (fun c => [c]) catalogueP ix cl hl centsP centsP_ok e e rfl kunst (.new cl) (.new cl)
    (inRange_new_categories _) (inRange_new_tags _) rfl rfl [(some 20, none)] cl cl _ hs]
  have hsel : ∀ category value, ¬(CategoryHandler.new cl).Selected category value := by
    rintro _ _ ⟨c, k, cat, op, ha, _⟩
    simp [CategoryHandler.new] at ha
  have hselt : ∀ name, ¬(TagHandler.new cl).Selected name := by
    rintro _ ⟨k, tag, ha, _⟩
    simp [TagHandler.new] at ha
  have h0 : ¬∃ raw, catalogueP[0]? = some raw ∧
      MatchesWhole (.new cl) (.new cl) [(some 20, none)] (centsP raw) raw := by
    rintro ⟨raw, hr, hm⟩
    cases hr
    have := hm.above (some 20, none) (by simp) 20 rfl
    exact absurd this (by decide)
  have h1 : ∃ raw, catalogueP[1]? = some raw ∧
      MatchesWhole (.new cl) (.new cl) [(some 20, none)] (centsP raw) raw := by
    refine ⟨_, rfl, fun c v h => absurd h (hsel c v), fun n h => absurd h (hselt n), ?_, ?_⟩
    · intro f hf w hw
      simp only [List.mem_singleton] at hf
      subst hf
      cases hw
      decide
    · intro f hf w hw
      simp only [List.mem_singleton] at hf
      subst hf
      cases hw
  simp [h0, h1]

end Idx
