import Verif.Model.SerdeArray
import Verif.Props.Json
/-! # C95: arrays of a fixed length in JSON -/
namespace Idx

theorem visitSeq_iff (de : Json → Option α) (n : Nat) (items : List Json) (vs : List α) (rest : List Json) :
    visitSeq de n items = some (vs, rest) ↔ ∃ front, items = front ++ rest ∧ front.length = n ∧ front.mapM de = some vs := by
  induction n generalizing items vs with
  | zero =>
    simp only [visitSeq, Option.some.injEq, Prod.mk.injEq]
    constructor
    · rintro ⟨rfl, rfl⟩; exact ⟨[], rfl, rfl, rfl⟩
    · rintro ⟨front, rfl, h, hm⟩
      rw [List.length_eq_zero_iff] at h
      subst h
      cases hm
      exact ⟨rfl, rfl⟩
  | succ n ih =>
    cases items with
    | nil =>
      simp only [visitSeq, reduceCtorEq, false_iff]
      rintro ⟨front, h, hl, _⟩
      have := congrArg List.length h
      simp only [List.length_nil, List.length_append] at this
      omega
    | cons x items =>
      simp only [visitSeq, Option.bind_eq_bind, Option.bind_eq_some_iff, Option.some.injEq, Prod.mk.injEq, Prod.exists]
      constructor
      · rintro ⟨v, hv, vs', rest', hh, rfl, rfl⟩
        obtain ⟨front, rfl, hl, hm⟩ := (ih _ _).1 hh
        refine ⟨x :: front, rfl, by simp [hl], ?_⟩
        rw [List.mapM_cons, hv, hm]; rfl
      · rintro ⟨front, he, hl, hm⟩
        cases front with
        | nil => simp at hl
        | cons y front =>
          cases he
          rw [List.mapM_cons] at hm
          simp only [Option.bind_eq_bind, Option.bind_eq_some_iff, Option.pure_def, Option.some.injEq] at hm
          obtain ⟨v, hv, vs', hm, rfl⟩ := hm
          exact ⟨v, hv, vs', rest, (ih _ _).2 ⟨front, rfl, by simpa using hl, hm⟩, rfl, rfl⟩

/-- Spec: a JSON array of exactly `n` elements standing for those of `l`. -/
def SaysArray (n : Nat) (P : Json → α → Prop) (j : Json) (l : List α) : Prop := l.length = n ∧ SaysList P j l

/-- What `arrays::deserialize` reads, for every kind of element: arrays of exactly `n` elements all of which are read. -/
theorem C95_array {de : Json → Option α} {P : Json → α → Prop} (h : ∀ j a, de j = some a ↔ P j a) (n : Nat) (j : Json) (l : List α) :
    j.array n de = some l ↔ SaysArray n P j l := by
  unfold SaysArray
  rw [← vec_iff h]
  cases j with
  | arr items =>
    simp only [Json.array, Json.vec]
    constructor
    · intro hh
      split at hh
      · rename_i vs hv
        cases hh
        obtain ⟨front, rfl, hl, hm⟩ := (visitSeq_iff _ _ _ _ _).1 hv
        rw [List.append_nil]
        exact ⟨by rw [← hl, ((mapM_iff _ _ _).1 hm).1], hm⟩
      · cases hh
    · rintro ⟨hl, hm⟩
      rw [(visitSeq_iff de n items l []).2 ⟨items, by simp, by rw [← hl, ((mapM_iff _ _ _).1 hm).1], hm⟩]
  | _ => simp [Json.array, Json.vec]

/-- Spec: a number literal of decimal digits with the value of the byte. -/
def SaysByte (j : Json) (b : UInt8) : Prop :=
  ∃ t, j = .num t ∧ (∀ c ∈ t, c ∈ "0123456789".toList) ∧ t.foldl (fun n c => 10 * n + (c.toNat - 48)) 0 = b.toNat

theorem u8_iff (j : Json) (b : UInt8) : j.u8 = some b ↔ SaysByte j b := by
  unfold SaysByte
  cases j with
  | num t =>
    have hall : t.all isDigit = true ↔ ∀ c ∈ t, c ∈ "0123456789".toList := by
      rw [List.all_eq_true]
      exact forall_congr' fun c => forall_congr' fun _ => isDigit_iff c
    simp only [Json.u8]
    constructor
    · intro h
      split at h
      · rename_i hc
        rw [Bool.and_eq_true, hall, decide_eq_true_eq] at hc
        cases h
        refine ⟨t, rfl, hc.1, ?_⟩
        rw [UInt8.toNat_ofNat_of_lt' hc.2]
        rfl
      · cases h
    · rintro ⟨t', he, h1, h2⟩
      cases he
      have h2 : Nat.ofDigitChars 10 t 0 = b.toNat := h2
      rw [h2, if_pos (by rw [Bool.and_eq_true, hall, decide_eq_true_eq]; exact ⟨h1, b.toNat_lt⟩)]
      simp
  | _ => simp [Json.u8]

/-- Exactly which texts the structs with an array are read from, and as what: an object whose other members are ignored, or an
array of one element, with exactly `n` numbers from 0 to 255 written in digits. -/
theorem C95_exact (n : Nat) (text : Str) (l : List UInt8) : readTyped n text = some l ↔
    ∃ j arr, IsText j text ∧ Fields ["arr".toList] j [arr] ∧ SaysArray n SaysByte arr l := by
  simp only [readTyped, Option.bind_eq_bind, Option.bind_eq_some_iff, parseJson_iff, fields_iff]
  constructor
  · rintro ⟨j, hj, vs, hf, h⟩
    split at h
    · exact ⟨j, _, hj, hf, (C95_array u8_iff n _ l).1 h⟩
    · cases h
  · rintro ⟨j, arr, hj, hf, h⟩
    exact ⟨j, hj, [arr], hf, (C95_array u8_iff n _ l).2 h⟩

theorem value_writeItems {w : α → Str} {P : Json → α → Prop} (h : ∀ a, ∃ j, Value j (w a) ∧ P j a) : ∀ l : List α, l ≠ [] →
    ∃ js, Items js (writeItems w l) ∧ js.length = l.length ∧ ∀ (i : Nat) (x : Json) (a : α), js[i]? = some x → l[i]? = some a → P x a := by
  intro l
  induction l with
  | nil => intro h; exact absurd rfl h
  | cons a l ih =>
    intro _
    obtain ⟨j, hj, hp⟩ := h a
    cases l with
    | nil =>
      refine ⟨[j], by simpa [writeItems] using Items.one Blank.nil hj Blank.nil, rfl, fun i x b hx hb => ?_⟩
      cases i with
      | zero => cases hx; cases hb; exact hp
      | succ i => simp at hx
    | cons b l =>
      obtain ⟨js, h1, h2, h3⟩ := ih (by simp)
      refine ⟨j :: js, by simpa [writeItems] using Items.more Blank.nil hj Blank.nil h1, by simp [h2], fun i x c hx hc => ?_⟩
      cases i with
      | zero => cases hx; cases hc; exact hp
      | succ i => exact h3 i x c hx hc

/-- Writing an array gives a JSON text of an array whose elements are the texts of the elements. -/
theorem C95_written {w : α → Str} {P : Json → α → Prop} (h : ∀ a, ∃ j, Value j (w a) ∧ P j a) (l : List α) :
    ∃ j, Value j (writeArray w l) ∧ SaysArray l.length P j l := by
  by_cases hl : l = []
  · subst hl
    exact ⟨.arr [], .arrNil Blank.nil, rfl, [], rfl, rfl, fun i x a hx => by simp at hx⟩
  · obtain ⟨js, h1, h2, h3⟩ := value_writeItems h l hl
    exact ⟨.arr js, .arr h1, rfl, js, rfl, h2, h3⟩

theorem digitChar_mem {n : Nat} (h : n < 10) : n.digitChar ∈ "0123456789".toList := by
  have : ∀ k : Fin 10, k.val.digitChar ∈ "0123456789".toList := by decide
  exact this ⟨n, h⟩

theorem toDigits_head (n : Nat) : (Nat.toDigits 10 n).head? = some '0' → Nat.toDigits 10 n = ['0'] := by
  induction n using Nat.strongRecOn with
  | ind n ih =>
    by_cases hn : n < 10
    · rw [Nat.toDigits_of_lt_base hn]
      simp
    · rw [Nat.toDigits_of_base_le (by decide) (by omega)]
      rw [List.head?_append, Option.or_of_isSome (by rw [List.isSome_head?]; exact Nat.toDigits_ne_nil)]
      intro h
      have h0 := ih (n / 10) (by omega) h
      have := congrArg (fun l => Nat.ofDigitChars 10 l 0) h0
      simp only [Nat.ofDigitChars_ten_toDigits] at this
      have : n / 10 = 0 := this
      omega

theorem toDigits_digits (n : Nat) : ∀ c ∈ Nat.toDigits 10 n, c ∈ "0123456789".toList := by
  intro c hc
  have := Nat.isDigit_of_mem_toDigits (by decide) (by decide) hc
  rw [← isDigit_iff]
  simpa [Char.isDigit, isDigit, Char.le_def] using this

theorem value_writeU8 (b : UInt8) : ∃ j, Value j (writeU8 b) ∧ SaysByte j b := by
  refine ⟨.num (writeU8 b), .num _ ?_, _, rfl, toDigits_digits _, ?_⟩
  · have := Number.mk [] (writeU8 b) [] [] (by simp) ⟨Nat.toDigits_ne_nil, toDigits_digits _⟩ (toDigits_head _) .none .none
    simpa using this
  · exact Nat.ofDigitChars_ten_toDigits

/-- Every array is read back as written. -/
theorem C95_round (l : List UInt8) : readTyped l.length (writeTyped l) = some l := by
  rw [C95_exact]
  obtain ⟨arr, hv, hs⟩ := C95_written value_writeU8 l
  have hk : Literal ("arr".toList.map .plain) "arr".toList :=
    .cons (.plain 'a' (by decide) (by decide) (by decide)) (.cons (.plain 'r' (by decide) (by decide) (by decide))
      (.cons (.plain 'r' (by decide) (by decide) (by decide)) .nil))
  have hsp : Spells ("arr".toList.map .plain) "arr".toList := by
    rw [← decodePieces_iff]; decide
  refine ⟨.obj [("arr".toList.map .plain, arr)], arr, ⟨[], writeTyped l, [], Blank.nil, ?_, Blank.nil, by simp⟩, ?_, hs⟩
  · have he : ∀ a : Str, '{' :: (([] ++ '"' :: ("arr".toList ++ '"' :: ([] ++ ':' :: ([] ++ (a ++ []))))) ++ ['}']) =
        "{\"arr\":".toList ++ (a ++ ['}']) := by
      intro a
      rw [List.append_nil]
      rfl
    unfold writeTyped
    rw [← he]
    exact .obj (.one Blank.nil hk Blank.nil Blank.nil hv Blank.nil)
  · refine .obj (fun m hm => ?_) rfl fun i name v hn hv => ?_
    · rw [List.mem_singleton] at hm; subst hm; exact ⟨_, hsp⟩
    · cases i with
      | zero => cases hn; cases hv; exact ⟨[], _, [], rfl, hsp, by simp⟩
      | succ i => simp at hn

/-- An array is never read as one of another length. -/
theorem C95_length (n : Nat) (l : List UInt8) (h : l.length ≠ n) : readTyped n (writeTyped l) = none := by
  cases hr : readTyped n (writeTyped l) with
  | none => rfl
  | some r =>
    exfalso
    obtain ⟨j, arr, h1, h2, h3⟩ := (C95_exact _ _ _).1 hr
    obtain ⟨j', arr', h1', h2', h3'⟩ := (C95_exact _ _ _).1 (C95_round l)
    rw [← parseJson_iff] at h1 h1'
    have e0 : j = j' := Option.some.inj (h1.symm.trans h1')
    subst e0
    rw [← fields_iff] at h2 h2'
    have e0 : arr = arr' := (List.cons.inj (Option.some.inj (h2.symm.trans h2'))).1
    subst e0
    obtain ⟨e1, js, rfl, e2, _⟩ := h3
    obtain ⟨_, js', e, e3, _⟩ := h3'
    cases e
    omega

/-- Three bytes, read from a text with another member, and not read as two or four. -/
example : readTyped 3 "{\"x\": [true], \"a\\u0072r\" : [0, 20 , 255]}".toList = some [0, 20, 255] ∧
    (readTyped 2 (writeTyped [0, 20, 255])).isNone ∧ (readTyped 4 (writeTyped [0, 20, 255])).isNone ∧
    (readTyped 1 "[[256]]".toList).isNone ∧ (readTyped 1 "[[-0]]".toList).isNone ∧ (readTyped 1 "[[1.0]]".toList).isNone := by
  decide +kernel
example : readTyped 4 (writeTyped [0, 20, 255]) = none := C95_length 4 _ (by decide)
example := C95_array u8_iff 2
example := C95_written value_writeU8 [7, 0]

end Idx
