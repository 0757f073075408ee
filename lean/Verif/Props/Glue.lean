import Verif.Model.Glue
import Verif.Lemmas.Codec
import Verif.Lemmas.Alpha
import Verif.Lemmas.Limit
import Verif.Props.Suggest
/-! # C97: strings between JavaScript and Rust -/
namespace Idx

/-! ## Specification -/

/-- Spec: half a pair of surrogates without the other half beside it. -/
def Lone (u : JsString) (i : Nat) : Prop :=
  (∃ x, u[i]? = some x ∧ isHigh x = true ∧ ¬ ∃ y, u[i + 1]? = some y ∧ isLow y = true) ∨
  (∃ x, u[i]? = some x ∧ isLow x = true ∧ ¬ ∃ j y, j + 1 = i ∧ u[j]? = some y ∧ isHigh y = true)

/-- Spec: all surrogates come in pairs. -/
def WellFormed (u : JsString) : Prop := ∀ i, ¬ Lone u i

/-- Spec: the same string with U+FFFD in the place of each lone half. -/
def Repaired (u v : JsString) : Prop :=
  v.length = u.length ∧ ∀ i, (Lone u i → v[i]? = some 0xFFFD) ∧ (¬ Lone u i → v[i]? = u[i]?)

theorem Repaired.unique {u v v' : JsString} (h : Repaired u v) (h' : Repaired u v') : v = v' := by
  apply List.ext_getElem?
  intro i
  by_cases hl : Lone u i
  · rw [(h.2 i).1 hl, (h'.2 i).1 hl]
  · rw [(h.2 i).2 hl, (h'.2 i).2 hl]

theorem Repaired.refl {u : JsString} (h : WellFormed u) : Repaired u u := ⟨rfl, fun i => ⟨fun hl => absurd hl (h i), fun _ => rfl⟩⟩

/-! ## Characters and code units -/

theorem toNat_charOfNat {n : Nat} (h : n < 0xD800 ∨ (0xDFFF < n ∧ n < 0x110000)) : (Char.ofNat n).toNat = n := by
  have hv : n.isValidChar := by
    rcases h with h | h
    · exact .inl h
    · exact .inr h
  unfold Char.ofNat
  rw [dif_pos hv]
  unfold Char.toNat Char.ofNatAux
  simp [UInt32.toNat]

theorem char_toNat_cases (c : Char) : c.toNat < 0xD800 ∨ (0xDFFF < c.toNat ∧ c.toNat < 0x110000) := by
  have := c.valid
  rcases this with h | h
  · exact .inl h
  · exact .inr h

theorem isHigh_iff {u : UInt16} : isHigh u = true ↔ 0xD800 ≤ u.toNat ∧ u.toNat < 0xDC00 := by simp [isHigh]
theorem isLow_iff {u : UInt16} : isLow u = true ↔ 0xDC00 ≤ u.toNat ∧ u.toNat < 0xE000 := by simp [isLow]
theorem isHigh_false {u : UInt16} : isHigh u = false ↔ u.toNat < 0xD800 ∨ 0xDC00 ≤ u.toNat := by
  rw [← Bool.not_eq_true, isHigh_iff]; omega
theorem isLow_false {u : UInt16} : isLow u = false ↔ u.toNat < 0xDC00 ∨ 0xE000 ≤ u.toNat := by
  rw [← Bool.not_eq_true, isLow_iff]; omega

theorem unit_toNat_lt (u : UInt16) : u.toNat < 65536 := u.toNat_lt

theorem unit_ofNat {n : Nat} (h : n < 65536) : (UInt16.ofNat n).toNat = n := UInt16.toNat_ofNat_of_lt' h

theorem unit_ext {u v : UInt16} (h : u.toNat = v.toNat) : u = v := UInt16.toNat_inj.1 h

theorem pair_toNat {u v : UInt16} (hu : isHigh u = true) (hv : isLow v = true) :
    (pairChar u v).toNat = 0x10000 + (u.toNat - 0xD800) * 0x400 + (v.toNat - 0xDC00) := by
  rw [isHigh_iff] at hu
  rw [isLow_iff] at hv
  exact toNat_charOfNat (.inr (by omega))

theorem utf16_pair {u v : UInt16} (hu : isHigh u = true) (hv : isLow v = true) : utf16Char (pairChar u v) = [u, v] := by
  have e := pair_toNat hu hv
  rw [isHigh_iff] at hu
  rw [isLow_iff] at hv
  unfold utf16Char
  have a : UInt16.ofNat (0xD800 + ((pairChar u v).toNat - 0x10000) / 0x400) = u := by
    apply unit_ext; rw [unit_ofNat (by omega)]; omega
  have b : UInt16.ofNat (0xDC00 + ((pairChar u v).toNat - 0x10000) % 0x400) = v := by
    apply unit_ext; rw [unit_ofNat (by omega)]; omega
  rw [if_neg (by omega), a, b]

/-- A unit that is no surrogate. -/
def Plain (u : UInt16) : Prop := isHigh u = false ∧ isLow u = false

theorem plain_toNat {u : UInt16} (h : Plain u) : (unitChar u).toNat = u.toNat := by
  unfold unitChar
  rw [h.1, h.2]
  have h1 := isHigh_false.1 h.1
  have h2 := isLow_false.1 h.2
  have := unit_toNat_lt u
  exact toNat_charOfNat (by omega)

theorem utf16_plain {u : UInt16} (h : Plain u) : utf16Char (unitChar u) = [u] := by
  have := unit_toNat_lt u
  unfold utf16Char
  rw [if_pos (by rw [plain_toNat h]; omega), plain_toNat h]
  simp

theorem utf16_half {u : UInt16} (h : isHigh u = true ∨ isLow u = true) : utf16Char (unitChar u) = [0xFFFD] := by
  have e : unitChar u = replacement := by
    unfold unitChar
    rcases h with h | h <;> simp [h]
  rw [e]
  decide

/-- The code units of a character are one plain unit or a pair. -/
theorem utf16Char_cases (c : Char) : (∃ u, Plain u ∧ utf16Char c = [u] ∧ unitChar u = c) ∨
    ∃ u v, isHigh u = true ∧ isLow v = true ∧ utf16Char c = [u, v] ∧ pairChar u v = c := by
  have hc := char_toNat_cases c
  unfold utf16Char
  by_cases h : c.toNat < 0x10000
  · refine .inl ⟨UInt16.ofNat c.toNat, ⟨isHigh_false.2 ?_, isLow_false.2 ?_⟩, if_pos h, ?_⟩
    · rw [unit_ofNat h]; omega
    · rw [unit_ofNat h]; omega
    · have hp : Plain (UInt16.ofNat c.toNat) := ⟨isHigh_false.2 (by rw [unit_ofNat h]; omega), isLow_false.2 (by rw [unit_ofNat h]; omega)⟩
      apply Char.toNat_inj.1
      rw [plain_toNat hp, unit_ofNat h]
  · have e1 : (UInt16.ofNat (0xD800 + (c.toNat - 0x10000) / 0x400)).toNat = 0xD800 + (c.toNat - 0x10000) / 0x400 := unit_ofNat (by omega)
    have e2 : (UInt16.ofNat (0xDC00 + (c.toNat - 0x10000) % 0x400)).toNat = 0xDC00 + (c.toNat - 0x10000) % 0x400 := unit_ofNat (by omega)
    have hh : isHigh (UInt16.ofNat (0xD800 + (c.toNat - 0x10000) / 0x400)) = true := isHigh_iff.2 (by omega)
    have hl : isLow (UInt16.ofNat (0xDC00 + (c.toNat - 0x10000) % 0x400)) = true := isLow_iff.2 (by omega)
    refine .inr ⟨_, _, hh, hl, if_neg h, Char.toNat_inj.1 ?_⟩
    rw [pair_toNat hh hl, e1, e2]
    omega

/-! ## Characters of a string -/

theorem scalars_plain {u : UInt16} (h : Plain u) (rest : JsString) : scalars (u :: rest) = unitChar u :: scalars rest := by
  cases rest with
  | nil => rfl
  | cons v rest => simp [scalars, h.1]

theorem scalars_pair {u v : UInt16} (hu : isHigh u = true) (hv : isLow v = true) (rest : JsString) :
    scalars (u :: v :: rest) = pairChar u v :: scalars rest := by
  simp [scalars, hu, hv]

theorem scalars_utf16 (s : Str) : scalars (utf16 s) = s := by
  induction s with
  | nil => rfl
  | cons c s ih =>
    have e : utf16 (c :: s) = utf16Char c ++ utf16 s := by simp [utf16]
    rw [e]
    rcases utf16Char_cases c with ⟨u, hp, h1, h2⟩ | ⟨u, v, hu, hv, h1, h2⟩
    · rw [h1, List.singleton_append, scalars_plain hp, ih, h2]
    · rw [h1, List.cons_append, List.singleton_append, scalars_pair hu hv, ih, h2]

/-- Going through a string unit by unit: what is done in the first step. -/
inductive Step : JsString → Char → JsString → Prop
  | plain {u : UInt16} (rest : JsString) : Plain u → Step (u :: rest) (unitChar u) rest
  | pair {u v : UInt16} (rest : JsString) : isHigh u = true → isLow v = true → Step (u :: v :: rest) (pairChar u v) rest
  | high {u : UInt16} (rest : JsString) : isHigh u = true → (∀ v rest', rest = v :: rest' → isLow v = false) → Step (u :: rest) replacement rest
  | low {u : UInt16} (rest : JsString) : isLow u = true → Step (u :: rest) replacement rest

theorem high_not_low {u : UInt16} (h : isHigh u = true) : isLow u = false := by
  rw [isHigh_iff] at h
  exact isLow_false.2 (by omega)

theorem scalars_step (u : UInt16) (rest : JsString) : ∃ c rest', Step (u :: rest) c rest' ∧ scalars (u :: rest) = c :: scalars rest' := by
  cases hh : isHigh u with
  | true =>
    have e : unitChar u = replacement := by simp [unitChar, hh]
    cases rest with
    | nil => exact ⟨_, _, .high [] hh (by simp), by rw [← e]; rfl⟩
    | cons v rest =>
      cases hv : isLow v with
      | true => exact ⟨_, _, .pair rest hh hv, scalars_pair hh hv rest⟩
      | false =>
        refine ⟨_, _, .high (v :: rest) hh (fun _ _ h => by cases h; exact hv), ?_⟩
        rw [← e]
        simp [scalars, hv]
  | false =>
    cases hl : isLow u with
    | true =>
      refine ⟨_, _, .low rest hl, ?_⟩
      have e : unitChar u = replacement := by simp [unitChar, hl]
      rw [← e]
      cases rest with
      | nil => rfl
      | cons v rest => simp [scalars, hh]
    | false => exact ⟨_, _, .plain rest ⟨hh, hl⟩, scalars_plain ⟨hh, hl⟩ rest⟩

theorem Step.shorter {l : JsString} {c : Char} {rest : JsString} (h : Step l c rest) : rest.length < l.length := by
  cases h <;> simp <;> omega

/-- Every property of strings and their characters can be shown step by step. -/
theorem scalars_induction {motive : JsString → Str → Prop} (hnil : motive [] [])
    (hstep : ∀ l c rest s, Step l c rest → motive rest s → motive l (c :: s)) (l : JsString) : motive l (scalars l) := by
  generalize hn : l.length = n
  induction n using Nat.strongRecOn generalizing l with
  | _ n ih =>
    cases l with
    | nil => exact hnil
    | cons u rest =>
      obtain ⟨c, rest', hs, he⟩ := scalars_step u rest
      rw [he]
      exact hstep _ _ _ _ hs (ih _ (by have := hs.shorter; omega) rest' rfl)

/-! ## What becomes of lone halves -/

theorem lone_shift {u : UInt16} {rest : JsString} {i : Nat} (h : i = 0 → ∀ v, rest[0]? = some v → isLow v = true → isHigh u = false) :
    Lone (u :: rest) (i + 1) ↔ Lone rest i := by
  unfold Lone
  simp only [List.getElem?_cons_succ]
  constructor
  · rintro (h1 | ⟨x, h1, h2, h3⟩)
    · exact .inl h1
    · refine .inr ⟨x, h1, h2, ?_⟩
      rintro ⟨j, y, rfl, h4, h5⟩
      exact h3 ⟨j + 1, y, rfl, by simpa using h4, h5⟩
  · rintro (h1 | ⟨x, h1, h2, h3⟩)
    · exact .inl h1
    · refine .inr ⟨x, h1, h2, ?_⟩
      rintro ⟨j, y, hj, h4, h5⟩
      cases j with
      | zero =>
        have hi : i = 0 := by omega
        subst hi
        simp only [List.getElem?_cons_zero, Option.some.injEq] at h4
        subst h4
        rw [h rfl x h1 h2] at h5
        cases h5
      | succ j => exact h3 ⟨j, y, by omega, by simpa using h4, h5⟩

theorem repaired_cons {u w : UInt16} {rest v : JsString} (hs : ∀ i, Lone (u :: rest) (i + 1) ↔ Lone rest i) (hr : Repaired rest v)
    (h1 : Lone (u :: rest) 0 → w = 0xFFFD) (h2 : ¬ Lone (u :: rest) 0 → w = u) : Repaired (u :: rest) (w :: v) := by
  refine ⟨by simp [hr.1], fun i => ?_⟩
  cases i with
  | zero => exact ⟨fun h => by simp [h1 h], fun h => by simp [h2 h]⟩
  | succ i =>
    rw [hs i]
    simpa using hr.2 i

theorem repaired_utf16 (u : JsString) : Repaired u (utf16 (scalars u)) := by
  refine scalars_induction (motive := fun u s => Repaired u (utf16 s)) ⟨rfl, fun i => ⟨fun h => ?_, fun _ => rfl⟩⟩ ?_ u
  · rcases h with ⟨x, h, _⟩ | ⟨x, h, _⟩ <;> simp at h
  · intro l c rest s hstep ih
    have e : utf16 (c :: s) = utf16Char c ++ utf16 s := by simp [utf16]
    rw [e]
    cases hstep with
    | @plain u _ hp =>
      rw [utf16_plain hp]
      refine repaired_cons (fun i => lone_shift fun _ _ _ _ => hp.1) ih (fun h => ?_) (fun _ => rfl)
      rcases h with ⟨x, h, h', _⟩ | ⟨x, h, h', _⟩ <;> simp only [List.getElem?_cons_zero, Option.some.injEq] at h <;> subst h
      · rw [hp.1] at h'; cases h'
      · rw [hp.2] at h'; cases h'
    | @pair u v _ hu hv =>
      rw [utf16_pair hu hv]
      have hvh : isHigh v = false := by
        cases h : isHigh v with
        | false => rfl
        | true => rw [high_not_low h] at hv; cases hv
      have h1 : ¬ Lone (u :: v :: rest) 0 := by
        rintro (⟨x, h, _, h'⟩ | ⟨x, h, h', _⟩)
        · exact h' ⟨v, by simp, hv⟩
        · simp only [List.getElem?_cons_zero, Option.some.injEq] at h
          subst h
          rw [high_not_low hu] at h'
          cases h'
      have h2 : ¬ Lone (u :: v :: rest) 1 := by
        rintro (⟨x, h, h', _⟩ | ⟨x, _, _, h'⟩)
        · simp only [List.getElem?_cons_succ, List.getElem?_cons_zero, Option.some.injEq] at h
          subst h
          rw [hvh] at h'
          cases h'
        · exact h' ⟨0, u, rfl, by simp, hu⟩
      refine ⟨by simp [ih.1], fun i => ?_⟩
      match i with
      | 0 => exact ⟨fun h => absurd h h1, fun _ => by simp⟩
      | 1 => exact ⟨fun h => absurd h h2, fun _ => by simp⟩
      | i + 2 =>
        have e : Lone (u :: v :: rest) (i + 2) ↔ Lone rest i :=
          (lone_shift (by intro h; omega)).trans (lone_shift fun _ _ _ _ => hvh)
        rw [e]
        simpa using ih.2 i
    | @high u _ hu hn =>
      have hn' : ∀ v, rest[0]? = some v → isLow v = false := by
        intro v hv
        cases rest with
        | nil => simp at hv
        | cons x rest => simp at hv; subst hv; exact hn _ _ rfl
      rw [show utf16Char replacement = [0xFFFD] by decide]
      refine repaired_cons (fun i => lone_shift fun _ v hv hl => by rw [hn' v hv] at hl; cases hl) ih (fun _ => rfl) (fun h => absurd ?_ h)
      exact .inl ⟨u, by simp, hu, fun ⟨y, hy, hl⟩ => by rw [hn' y (by simpa using hy)] at hl; cases hl⟩
    | @low u _ hl =>
      have hh : isHigh u = false := by
        cases h : isHigh u with
        | false => rfl
        | true => rw [high_not_low h] at hl; cases hl
      rw [show utf16Char replacement = [0xFFFD] by decide]
      refine repaired_cons (fun i => lone_shift fun _ _ _ _ => hh) ih (fun _ => rfl) (fun h => absurd ?_ h)
      exact .inr ⟨u, by simp, hl, fun ⟨j, _, hj, _⟩ => by omega⟩

/-! ## What the glue passes on -/

theorem scalars_size (u : JsString) : byteLen (scalars u) ≤ 3 * u.length := by
  refine scalars_induction (motive := fun u s => byteLen s ≤ 3 * u.length) (by simp [byteLen]) ?_ u
  intro l c rest s hstep ih
  rw [byteLen_cons]
  have small : ∀ c : Char, c.toNat < 0x10000 → c.utf8Size ≤ 3 := by
    intro c hc
    rcases c.utf8Size_eq with h | h | h | h
    · omega
    · omega
    · omega
    · have := Char.utf8Size_eq_four_iff.1 h
      rw [UInt32.lt_iff_toNat_lt] at this
      have e : (0xffff : UInt32).toNat = 65535 := rfl
      rw [e] at this
      exact absurd this (by have : c.val.toNat = c.toNat := rfl; omega)
  cases hstep with
  | @plain u _ hp =>
    have := small (unitChar u) (by rw [plain_toNat hp]; have := unit_toNat_lt u; omega)
    simp only [List.length_cons]; omega
  | @pair u v _ hu hv =>
    have := (pairChar u v).utf8Size_le_four
    simp only [List.length_cons]; omega
  | high =>
    have := small replacement (by decide)
    simp only [List.length_cons]; omega
  | low =>
    have := small replacement (by decide)
    simp only [List.length_cons]; omega

theorem encodeInto_eq (s : Str) (room : Nat) (h : byteLen s ≤ room) : encodeInto s room = utf8 s := by
  induction s generalizing room with
  | nil => rfl
  | cons c s ih =>
    rw [byteLen_cons] at h
    unfold encodeInto
    rw [if_pos (by omega), ih _ (by omega), utf8_cons]

theorem ascii_plain {u : UInt16} (h : u.toNat ≤ 0x7F) : Plain u := ⟨isHigh_false.2 (by omega), isLow_false.2 (by omega)⟩

theorem utf8_ascii {c : Char} (h : c.toNat ≤ 0x7F) : String.utf8EncodeChar c = [UInt8.ofNat c.toNat] := by
  unfold String.utf8EncodeChar
  exact if_pos h

/-- The loop writes the first characters, up to one that is not ASCII. -/
theorem writeAscii_eq (arg : JsString) (done room : Bytes) (h : room.length = arg.length) : ∃ ascii rest room',
    arg = ascii ++ rest ∧ scalars arg = scalars ascii ++ scalars rest ∧
    writeAscii (done ++ room) done.length arg = (done ++ utf8 (scalars ascii) ++ room', done.length + ascii.length) ∧
    room'.length = rest.length ∧ (utf8 (scalars ascii)).length = ascii.length := by
  induction arg generalizing done room with
  | nil => exact ⟨[], [], room, rfl, rfl, by simp [writeAscii, scalars, utf8], h, rfl⟩
  | cons u arg ih =>
    unfold writeAscii
    by_cases hu : 0x7F < u.toNat
    · exact ⟨[], u :: arg, room, rfl, rfl, by simp [hu, scalars, utf8], h, rfl⟩
    · have hp := ascii_plain (u := u) (by omega)
      cases room with
      | nil => simp at h
      | cons b room =>
        have e8 : String.utf8EncodeChar (unitChar u) = [UInt8.ofNat u.toNat] := by
          rw [utf8_ascii (by rw [plain_toNat hp]; omega), plain_toNat hp]
        obtain ⟨ascii, rest, room', h1, h2, h3, h4, h5⟩ := ih (done ++ [UInt8.ofNat u.toNat]) room (by simpa using h)
        refine ⟨u :: ascii, rest, room', by rw [h1]; rfl, ?_, ?_, h4, ?_⟩
        · rw [scalars_plain hp, scalars_plain hp, h2]; rfl
        · rw [if_neg hu]
          have : (done ++ b :: room).set done.length (UInt8.ofNat u.toNat) = done ++ [UInt8.ofNat u.toNat] ++ room := by simp
          rw [this]
          simp only [List.length_append, List.length_singleton] at h3
          rw [h3, scalars_plain hp, utf8_cons, e8]
          simp
          omega
        · rw [scalars_plain hp, utf8_cons, e8]
          simp [h5]

theorem passString_eq {a : Alloc} (ha : a.Sound) (arg : JsString) : passString a arg = utf8 (scalars arg) := by
  obtain ⟨ascii, rest, room', h1, h2, h3, h4, h5⟩ := writeAscii_eq arg [] (a.malloc arg.length) (ha.malloc _)
  simp only [List.nil_append, List.length_nil, Nat.zero_add] at h3
  have hlen : arg.length = ascii.length + rest.length := by rw [h1]; simp
  have hu : utf8 (scalars arg) = utf8 (scalars ascii) ++ utf8 (scalars rest) := by rw [h2]; simp [utf8]
  unfold passString
  simp only [h3]
  rw [hu]
  by_cases hr : ascii.length = arg.length
  · rw [if_pos hr]
    have : rest = [] := List.length_eq_zero_iff.1 (by omega)
    subst this
    rw [← h5, List.take_left]
    simp [scalars, utf8]
  · rw [if_neg hr]
    have hd : arg.drop ascii.length = rest := by rw [h1]; simp
    rw [hd, Nat.add_sub_cancel_left, encodeInto_eq _ _ (by have := scalars_size rest; omega)]
    have hk := ha.keeps (utf8 (scalars ascii) ++ room') (ascii.length + rest.length * 3) (by simp; omega)
    have ht : (a.realloc (utf8 (scalars ascii) ++ room') (ascii.length + rest.length * 3)).take ascii.length = utf8 (scalars ascii) := by
      have := congrArg (List.take ascii.length) hk
      rw [List.take_take, Nat.min_eq_left (by simp; omega)] at this
      rw [this, ← h5, List.take_left]
    rw [ht]
    apply List.take_left'
    simp [h5]

theorem received_eq {a : Alloc} (ha : a.Sound) (arg : JsString) : received a arg = scalars arg := by
  unfold received
  rw [passString_eq ha, fromUtf8_utf8]
  rfl

theorem shown_eq (s : Str) : shown s = some (utf16 s) := by
  unfold shown
  rw [fromUtf8_utf8]
  rfl

/-- Memory that is zero where new. -/
def zeroed : Alloc := ⟨fun n => List.replicate n 0, fun b n => b.take n ++ List.replicate (n - b.length) 0⟩

theorem zeroed_sound : zeroed.Sound where
  malloc := by simp [zeroed]
  realloc := by simp [zeroed]; omega
  keeps := fun b n h => by
    simp only [zeroed]
    rw [List.take_of_length_le h, List.take_left]

/-- What Rust gets of a JavaScript string is UTF-8, and the text of that string with U+FFFD for every lone half of a pair;
whatever was in the memory allocated. -/
theorem C97_received {a : Alloc} (ha : a.Sound) (u : JsString) : ∃ s, fromUtf8 (passString a u) = some s ∧
    received a u = s ∧ Repaired u (utf16 s) :=
  ⟨scalars u, by rw [passString_eq ha, fromUtf8_utf8], received_eq ha u, repaired_utf16 u⟩

/-- A text of Rust is shown as a string without lone halves, and Rust gets the same text if the string is passed back. -/
theorem C97_shown {a : Alloc} (ha : a.Sound) (s : Str) : ∃ u, shown s = some u ∧ WellFormed u ∧ received a u = s := by
  refine ⟨utf16 s, shown_eq s, fun i hl => ?_, by rw [received_eq ha, scalars_utf16]⟩
  have h := repaired_utf16 (utf16 s)
  rw [scalars_utf16] at h
  have h1 := (h.2 i).1 hl
  rcases hl with ⟨x, hx, hh, _⟩ | ⟨x, hx, hh, _⟩ <;> rw [hx] at h1 <;> cases h1 <;> revert hh <;> decide

/-- The strings without lone halves are those of texts. -/
theorem C97_wellFormed (u : JsString) : WellFormed u ↔ ∃ s, shown s = some u := by
  constructor
  · intro h
    exact ⟨scalars u, by rw [shown_eq, (repaired_utf16 u).unique (.refl h)]⟩
  · rintro ⟨s, hs⟩
    obtain ⟨u', h1, h2, _⟩ := C97_shown zeroed_sound s
    rw [hs] at h1
    cases h1
    exact h2

/-- Spec: two strings that differ at most in lone halves and U+FFFD. -/
def SameRepair (u u' : JsString) : Prop := ∃ v, Repaired u v ∧ Repaired u' v

theorem SameRepair.scalars {u u' : JsString} (h : SameRepair u u') : scalars u = scalars u' := by
  obtain ⟨v, h1, h2⟩ := h
  have e1 := (repaired_utf16 u).unique h1
  have e2 := (repaired_utf16 u').unique h2
  rw [← scalars_utf16 (Idx.scalars u), e1, ← e2, scalars_utf16]

/-- Rust gets the same text of two strings exactly if they differ at most in that way. -/
theorem C97_same {a a' : Alloc} (ha : a.Sound) (ha' : a'.Sound) (u u' : JsString) :
    received a u = received a' u' ↔ SameRepair u u' := by
  rw [received_eq ha, received_eq ha']
  exact ⟨fun h => ⟨utf16 (scalars u), repaired_utf16 u, by rw [h]; exact repaired_utf16 u'⟩, fun h => h.scalars⟩

/-! ## Calls -/

/-- Spec: two calls whose strings differ at most in lone halves and U+FFFD. -/
inductive SameAsk : PageAsk → PageAsk → Prop
  | search {i i' c g f} : SameRepair i i' → SameAsk (.search i c g none f) (.search i' c g none f)
  | sorted {i i' c g o o' f} : SameRepair i i' → SameRepair o o' → SameAsk (.search i c g (some o) f) (.search i' c g (some o') f)
  | filter {i c g o before k k' x after} : SameRepair k k' →
      SameAsk (.search i c g o (before ++ (k, x) :: after)) (.search i c g o (before ++ (k', x) :: after))
  | suggest {q q'} : SameRepair q q' → SameAsk (.suggest q) (.suggest q')
  | numeric {p k k'} : SameRepair k k' → SameAsk (.numeric p k) (.numeric p k')
  | text {p k k'} : SameRepair k k' → SameAsk (.text p k) (.text p k')

/-- Such calls cannot be told apart, whatever the memory is like. -/
theorem C97_ask {W : Type} {a a' : Alloc} (ha : a.Sound) (ha' : a'.Sound) (step : W → Ask → W × JsAnswer) (w : W) {x y : PageAsk}
    (h : SameAsk x y) : pageStep a step w x = pageStep a' step w y := by
  have hf : ∀ f : List (JsString × JsValue), (f.map fun e => (received a e.1, e.2)) = f.map fun e => (received a' e.1, e.2) :=
    fun f => List.map_congr_left fun e _ => by rw [received_eq ha, received_eq ha']
  have hr : ∀ {u u'}, SameRepair u u' → received a u = received a' u' := fun h => (C97_same ha ha' _ _).2 h
  have e : x.received a = y.received a' := by
    cases h with
    | search h1 => simp only [PageAsk.received, hr h1, hf, Option.map_none]
    | sorted h1 h2 => simp only [PageAsk.received, hr h1, hr h2, hf, Option.map_some]
    | @filter i c g o before k k' x after h =>
      have ho : o.map (received a) = o.map (received a') := by
        cases o with
        | none => rfl
        | some o => simp only [Option.map_some, received_eq ha, received_eq ha']
      simp only [PageAsk.received, received_eq ha i, received_eq ha' i, ho, List.map_append, List.map_cons, hf]
      rw [received_eq ha' k, received_eq ha' k', h.scalars]
    | suggest h => simp only [PageAsk.received, hr h]
    | numeric h => simp only [PageAsk.received, hr h]
    | text h => simp only [PageAsk.received, hr h]
  unfold pageStep
  rw [e]

theorem mapM_shown (l : List Str) : l.mapM shown = some (l.map utf16) := by
  induction l with
  | nil => rfl
  | cons s l ih => rw [List.mapM_cons, shown_eq, ih]; rfl

theorem JsAnswer.shown_cases (x : JsAnswer) : x.shown = match x with
    | .str s => .str (utf16 s)
    | .strs l => .strs (l.map utf16)
    | .item e => .item e (utf16 e.name)
    | .suggestion tag input => .suggestion tag (utf16 input)
    | x => .other x := by
  cases x <;> simp [JsAnswer.shown, shown_eq, mapM_shown]

/-- No call throws while its answer is decoded, and all strings of answers are well-formed. -/
theorem C97_answer {W : Type} (a : Alloc) (step : W → Ask → W × JsAnswer) (w : W) (x : PageAsk) :
    (pageStep a step w x).2 ≠ .thrown ∧ (∀ s, (pageStep a step w x).2 = .str s → WellFormed s) ∧
    (∀ l, (pageStep a step w x).2 = .strs l → ∀ s ∈ l, WellFormed s) ∧
    (∀ e s, (pageStep a step w x).2 = .item e s → WellFormed s) ∧
    (∀ t s, (pageStep a step w x).2 = .suggestion t s → WellFormed s) := by
  have hw : ∀ s, WellFormed (utf16 s) := fun s => (C97_wellFormed _).2 ⟨s, shown_eq s⟩
  have e : (pageStep a step w x).2 = (step w (x.received a)).2.shown := rfl
  rw [e, JsAnswer.shown_cases]
  cases (step w (x.received a)).2 <;> simp [hw]

/-- The names shown by `get_orders` are the ones that sort: a search by a name which, repaired, is not among them gives nothing;
a search by one which is gives results if the one without an order does, unless sorting panics. -/
theorem C97_orders {a a' : Alloc} (ha : a.Sound) {t : Target} {mode : PanicMode} {lower : Char → List Char} {o o' : HashOrd}
    {w w' : World Engine Thing} {l : List JsString} (h : pageStep a' (Engine.step t mode lower o) w (.other .getOrders) = (w', .strs l))
    (input : JsString) (cats tags : Nat) (filter : List (JsString × JsValue)) {u v : JsString} (hu : Repaired u v) :
    (v ∉ l → ∀ k, (pageStep a (Engine.step t mode lower o') w (.search input cats tags (some u) filter)).2 ≠ .other (.made k)) ∧
    (v ∈ l → ∀ k, (pageStep a (Engine.step t mode lower o') w (.search input cats tags none filter)).2 = .other (.made k) →
      (pageStep a (Engine.step t mode lower o') w (.search input cats tags (some u) filter)).2 = .other (.made k) ∨
      ∃ p, (pageStep a (Engine.step t mode lower o') w (.search input cats tags (some u) filter)).2 = .other (.panic p)) := by
  -- the names
  have hnames : ∃ cl, w.engine.classic.lockOk = .ok (some cl) ∧ ∀ name, utf16 name ∈ l ↔ (cl.order.getOrders name).isSome = true := by
    have h2 := congrArg Prod.snd h
    simp only [pageStep, PageAsk.received, Engine.step, Engine.getOrders] at h2
    cases hc : w.engine.classic.lockOk with
    | error p => rw [hc] at h2; simp [JsAnswer.of, JsAnswer.shown, Bind.bind, Except.bind] at h2
    | ok r =>
      cases r with
      | none => rw [hc] at h2; simp [JsAnswer.of, JsAnswer.shown, Bind.bind, Except.bind] at h2
      | some cl =>
        refine ⟨cl, rfl, fun name => ?_⟩
        rw [hc] at h2
        simp only [JsAnswer.of, Bind.bind, Except.bind, Option.map_some, JsAnswer.shown, mapM_shown, Option.getD_some,
          PageAnswer.strs.injEq] at h2
        rw [← h2]
        unfold OrderIndex.getOrders
        rw [AMap.get_isSome_iff]
        have hinj : utf16 name ∈ (cl.order.options o).map utf16 ↔ name ∈ cl.order.options o := by
          constructor
          · intro hm
            obtain ⟨x, hx, he⟩ := List.mem_map.1 hm
            rw [← scalars_utf16 name, ← he, scalars_utf16]
            exact hx
          · exact fun hm => List.mem_map_of_mem hm
        rw [hinj]
        exact ((o.perm "order keys" cl.order).map _).mem_iff
  obtain ⟨cl, hc, hn⟩ := hnames
  have hv : v = utf16 (scalars u) := hu.unique (repaired_utf16 u)
  simp only [pageStep, PageAsk.received, Option.map_some, Option.map_none, received_eq ha u]
  generalize received a input = q
  generalize filter.map (fun e => (received a e.1, e.2)) = f
  simp only [Engine.step]
  cases hcat : w.things[cats]? with
  | none => simp [JsAnswer.shown]
  | some c =>
  cases hg : w.things[tags]? with
  | none => cases c <;> simp [JsAnswer.shown]
  | some g =>
  cases c <;> cases g <;> try simp [JsAnswer.shown]
  rename_i c g
  rw [hv, hn]
  simp only [Engine.search]
  cases parseFilters f with
  | none => simp [World.handSome, Except.map]
  | some f =>
  simp only
  cases w.engine.index.lockOk with
  | error p => simp [World.handSome, Except.map]
  | ok ix =>
  cases ix with
  | none => simp [World.handSome, Except.map]
  | some ix =>
  simp only
  cases searchIds o' lower ix q c g f with
  | error p => simp [World.handSome, Except.map]
  | ok ids =>
  simp only [hc]
  cases hr : cl.order.getOrders (scalars u) with
  | none => simp [World.handSome, Except.map]
  | some ranks =>
  simp only
  cases sortByOrder ranks ids with
  | error p => simp [World.handSome, Except.map]
  | ok ids => simp [World.handSome, World.hand, Except.map]

/-! ## Suggestions -/

/-- Spec: a piece of a string between spaces. -/
def PieceOf (piece v : JsString) : Prop := ∃ before after, v = before ++ piece ++ after ∧ (0x20 : UInt16) ∉ piece ∧
  (before = [] ∨ before.getLast? = some 0x20) ∧ (after = [] ∨ after.head? = some 0x20)

theorem joinSpaces_mem {w : Str} {ws : List Str} (h : w ∈ ws) : ∃ before after, joinSpaces ws = before ++ w ++ after ∧
    (before = [] ∨ before.getLast? = some ' ') ∧ (after = [] ∨ after.head? = some ' ') := by
  induction ws with
  | nil => cases h
  | cons x ws ih =>
    have e : joinSpaces (x :: ws) = x ++ (match ws with | [] => [] | _ => ' ' :: joinSpaces ws) := by
      cases ws <;> simp [joinSpaces]
    rw [e]
    rcases List.mem_cons.1 h with rfl | h
    · cases ws with
      | nil => exact ⟨[], [], by simp, .inl rfl, .inl rfl⟩
      | cons y ws => exact ⟨[], ' ' :: joinSpaces (y :: ws), by simp, .inl rfl, .inr rfl⟩
    · obtain ⟨before, after, h1, h2, h3⟩ := ih h
      refine ⟨x ++ ' ' :: before, after, ?_, ?_, h3⟩
      · cases ws with
        | nil => cases h
        | cons y ws => simp only [h1]; simp
      · right
        rcases h2 with rfl | h2
        · simp
        · rw [List.getLast?_append, List.getLast?_cons, h2]
          rfl

theorem space_mem {c : Char} (h : (0x20 : UInt16) ∈ utf16Char c) : c = ' ' := by
  rcases utf16Char_cases c with ⟨u, hp, h1, h2⟩ | ⟨u, v, hu, hv, h1, h2⟩
  · rw [h1] at h
    simp only [List.mem_singleton] at h
    rw [← h2, ← h]
    decide
  · rw [h1] at h
    simp only [List.mem_cons, List.not_mem_nil, or_false] at h
    rcases h with rfl | rfl
    · exact absurd hu (by decide)
    · exact absurd hv (by decide)

theorem utf16_append (s s' : Str) : utf16 (s ++ s') = utf16 s ++ utf16 s' := by simp [utf16]

theorem utf16_piece {w q : Str} (h : w ∈ splitSpaces q) : PieceOf (utf16 w) (utf16 q) := by
  obtain ⟨_, hsp, hj⟩ := C40_words q
  obtain ⟨before, after, h1, h2, h3⟩ := joinSpaces_mem h
  rw [hj] at h1
  refine ⟨utf16 before, utf16 after, by rw [h1, utf16_append, utf16_append], ?_, ?_, ?_⟩
  · intro hm
    obtain ⟨c, hc, hu⟩ := List.mem_flatMap.1 hm
    rw [space_mem hu] at hc
    exact hsp w h hc
  · rcases h2 with rfl | h2
    · exact .inl rfl
    · obtain ⟨l, rfl⟩ := List.getLast?_eq_some_iff.1 h2
      right
      rw [utf16_append, show utf16 [' '] = [0x20] by decide]
      simp
  · rcases h3 with rfl | h3
    · exact .inl rfl
    · right
      cases after with
      | nil => cases h3
      | cons c after =>
        cases h3
        rw [show ' ' :: after = [' '] ++ after from rfl, utf16_append, show utf16 [' '] = [0x20] by decide]
        rfl

/-- What a suggestion says it was found for is a piece between spaces of what was typed, repaired. -/
theorem C97_suggest {a : Alloc} (ha : a.Sound) {t : Target} {mode : PanicMode} {lower : Char → List Char} {o : HashOrd}
    {w w' : World Engine Thing} {query v piece : JsString} {tag : Nat} (hv : Repaired query v)
    (h : pageStep a (Engine.step t mode lower o) w (.suggest query) = (w', .suggestion tag piece)) : PieceOf piece v := by
  rw [hv.unique (repaired_utf16 query)]
  simp only [pageStep, PageAsk.received, received_eq ha, Engine.step] at h
  cases hs : w.engine.tagSuggestion (scalars query) with
  | error p => rw [hs] at h; simp [JsAnswer.shown] at h
  | ok r =>
    rw [hs] at h
    cases r with
    | none => simp [JsAnswer.shown] at h
    | some s =>
      simp only [JsAnswer.shown_cases, Prod.mk.injEq, PageAnswer.suggestion.injEq] at h
      rw [← h.2.2]
      apply utf16_piece
      unfold Engine.tagSuggestion at hs
      cases hc : w.engine.classic.lockUnwrap with
      | error p => rw [hc] at hs; cases hs
      | ok c =>
        rw [hc] at hs
        cases c with
        | none => cases hs
        | some c =>
          simp only [Bind.bind, Except.bind, Option.bind_some, Except.ok.injEq] at hs
          obtain ⟨l, hl, he⟩ := Option.map_eq_some_iff.1 hs
          have hb := C40_float c.tags (scalars query)
          rw [hl] at hb
          obtain ⟨pre, x, post, hd, _⟩ := hb
          subst he
          exact (mem_wordTagPairs.1 (show (l.2.2, x) ∈ wordTagPairs c.tags (scalars query) by rw [hd]; simp)).1

/-! ## Examples -/

/-- "a", half a pair, a pair, "é". -/
example : ∃ s, fromUtf8 (passString zeroed [0x61, 0xD83D, 0xD83D, 0xDE00, 0xE9]) = some s ∧
    s = ['a', replacement, Char.ofNat 0x1F600, Char.ofNat 0xE9] ∧
    Repaired [0x61, 0xD83D, 0xD83D, 0xDE00, 0xE9] [0x61, 0xFFFD, 0xD83D, 0xDE00, 0xE9] := by
  obtain ⟨s, h1, h2, h3⟩ := C97_received zeroed_sound [0x61, 0xD83D, 0xD83D, 0xDE00, 0xE9]
  have e : s = ['a', replacement, Char.ofNat 0x1F600, Char.ofNat 0xE9] := by
    rw [← h2, received_eq zeroed_sound]
    decide
  refine ⟨s, h1, e, ?_⟩
  rw [e] at h3
  exact h3

example : ¬ WellFormed [0x61, 0xD83D] ∧ WellFormed [0xD83D, 0xDE00] :=
  ⟨fun h => h 1 (.inl ⟨0xD83D, rfl, by decide, by simp⟩), (C97_wellFormed _).2 ⟨[Char.ofNat 0x1F600], by rw [shown_eq]; decide⟩⟩

/-- Two keys JavaScript tells apart and Rust does not. -/
example : SameRepair [0x61, 0xD83D] [0x61, 0xFFFD] :=
  (C97_same zeroed_sound zeroed_sound _ _).1 (by rw [received_eq zeroed_sound, received_eq zeroed_sound]; decide)

end Idx
