import Verif.Lemmas.Vendor
import Verif.Model.NGram
/-! # C15, C45, C46, C51, C52: in-memory data -/
namespace Idx

/-! ## C15 — the vendor table -/

/-- The two public ways of adding a vendor. -/
inductive VendorOp where
  | insert (name : Str)
  | getOrInsert (name : Str)

def VendorOp.name : VendorOp → Str
  | insert n => n
  | getOrInsert n => n

def VendorOp.run (m : VendorManager) : VendorOp → VendorManager
  | insert n => m.insert n
  | getOrInsert n => (m.getOrInsert n).1

/-- Spec: the names in order of first appearance. -/
def firstAppearances : List Str → List Str → List Str
  | seen, [] => seen
  | seen, n :: ns => if n ∈ seen then firstAppearances seen ns else firstAppearances (seen ++ [n]) ns

theorem vendorOps_inv (ops : List VendorOp) : ∀ (m : VendorManager), m.Inv →
    (ops.foldl VendorOp.run m).Inv ∧
      (ops.foldl VendorOp.run m).byId.map (·.name) =
        firstAppearances (m.byId.map (·.name)) (ops.map (·.name)) := by
  induction ops with
  | nil => intro m h; exact ⟨h, rfl⟩
  | cons op ops ih =>
    intro m h
    have hop : VendorOp.run m op = m.insert op.name := by
      cases op
      · rfl
      · exact VendorManager.getOrInsert_fst m _
    obtain ⟨h1, h2⟩ := h.insert op.name
    obtain ⟨h3, h4⟩ := ih _ h1
    rw [List.foldl_cons, hop]
    refine ⟨h3, h4.trans ?_⟩
    rw [h2, List.map_cons, firstAppearances]
    split <;> simp

/-- After any sequence of insertions: names in order of first appearance, without duplicates, exactly
the inserted ones, numbered by position; lookup by name returns that number. -/
theorem C15 (ops : List VendorOp) (m : VendorManager) (hm : m = ops.foldl VendorOp.run VendorManager.new) :
    m.byId.map (·.name) = firstAppearances [] (ops.map (·.name)) ∧
    (m.byId.map (·.name)).Nodup ∧
    (∀ n, n ∈ m.byId.map (·.name) ↔ n ∈ ops.map (·.name)) ∧
    (∀ (i : Nat) (v : Vendor), m.byId[i]? = some v → v.id = i) ∧
    (∀ n v, m.get n = some v ↔ m.byId[v.id]? = some v ∧ v.name = n) := by
  obtain ⟨h1, h2⟩ := vendorOps_inv ops _ VendorManager.inv_new
  rw [← hm] at h1 h2
  refine ⟨h2, h1.nodup, ?_, h1.ids, ?_⟩
  · intro n
    rw [h2]
    have : ∀ (ns seen : List Str), n ∈ firstAppearances seen ns ↔ n ∈ seen ∨ n ∈ ns := by
      intro ns
      induction ns with
      | nil => intro seen; simp [firstAppearances]
      | cons a ns ih =>
        intro seen
        rw [firstAppearances]
        split
        · rename_i ha
          rw [ih, List.mem_cons]
          constructor
          · rintro (h | h) <;> simp [h]
          · rintro (h | rfl | h) <;> simp [*]
        · rw [ih]; simp [or_assoc]
    simpa [VendorManager.new] using this (ops.map (·.name)) []
  · intro n v
    rw [h1.get_iff]
    constructor
    · rintro ⟨hv, hn⟩
      obtain ⟨i, hi, e⟩ := List.mem_iff_getElem.1 hv
      have h' : m.byId[i]? = some v := by rw [List.getElem?_eq_getElem hi, e]
      exact ⟨by rw [h1.ids i v h']; exact h', hn⟩
    · rintro ⟨hv, hn⟩
      exact ⟨List.mem_of_getElem? hv, hn⟩

/-- The value returned by `get_or_insert` is the entry of that name afterwards. -/
theorem C15_getOrInsert (ops : List VendorOp) (name : Str) :
    let m := ops.foldl VendorOp.run VendorManager.new
    (m.getOrInsert name).1.get name = some (m.getOrInsert name).2 := by
  intro m
  unfold VendorManager.getOrInsert
  split
  · rename_i v hv; exact hv
  · simp [VendorManager.get, AMap.get_insert]

/-- The table survives write and reload, whatever the hash order. -/
theorem C15_reload (t : Target) (o : HashOrd) (ops : List VendorOp) (rest : Bytes) (m : VendorManager)
    (hm : m = ops.foldl VendorOp.run VendorManager.new) (hl : Fits t m.byId.length)
    (hs : ∀ v ∈ m.byId, Carried t (byteLen v.name)) :
    deVendors t (serVendors o m ++ rest) = .ok (rest, m) := by
  obtain ⟨h1, _⟩ := vendorOps_inv ops _ VendorManager.inv_new
  rw [← hm] at h1
  exact deVendors_rt o h1 hl hs rest

/-- A run with a repeated name; the hypotheses of `C15_reload` hold for it. -/
example :
    let m := [VendorOp.insert ['b'], .getOrInsert ['a'], .insert ['b']].foldl VendorOp.run .new
    m.byId = [⟨['b'], 0⟩, ⟨['a'], 1⟩] ∧ Fits .wasm32 m.byId.length ∧
      ∀ v ∈ m.byId, Carried .wasm32 (byteLen v.name) :=
  ⟨by decide +kernel, .of_carried (by decide +kernel) fun _ _ => rfl, by decide +kernel⟩

/-! ## C45 — the numeric id -/

/-- Spec: is `c` one of `0`..`9`? -/
def isDecimal (c : Char) : Bool := '0' ≤ c && c ≤ '9'

/-- Spec: the longest all-digit suffix. -/
def trailingDigits (s : Str) : Str := (s.reverse.takeWhile isDecimal).reverse

/-- Spec: the number a digit string denotes, most significant digit first. -/
def decimalValue (s : Str) : Nat := s.foldl (fun acc c => 10 * acc + (c.toNat - 48)) 0

theorem toDigit_eq (c : Char) : toDigit c = if isDecimal c then some (c.toNat - 48) else none := by
  have h0 : '0'.toNat = 48 := rfl
  have h9 : '9'.toNat = 57 := rfl
  have e : ('0' ≤ c ∧ c ≤ '9') ↔ (48 ≤ c.toNat ∧ c.toNat ≤ 57) := by
    simp only [Char.le_def, UInt32.le_iff_toNat_le]
    rfl
  unfold toDigit isDecimal
  rw [h0, h9]
  by_cases h : 48 ≤ c.toNat ∧ c.toNat ≤ 57
  · rw [if_pos h]
    have := e.2 h
    simp [this.1, this.2]
  · rw [if_neg h, if_neg]
    intro h'
    simp only [Bool.and_eq_true, decide_eq_true_eq] at h'
    exact h (e.1 h')

/-- Value of a digit string given least significant digit first. -/
def revValue : Str → Nat
  | [] => 0
  | c :: cs => (c.toNat - 48) + 10 * revValue cs

theorem decimalValue_reverse (s : Str) : decimalValue s.reverse = revValue s := by
  unfold decimalValue
  induction s with
  | nil => rfl
  | cons c s ih =>
    rw [List.reverse_cons, List.foldl_append, ih]
    simp [revValue]; omega

theorem revValue_lt (s : Str) (h : ∀ c ∈ s, isDecimal c = true) : revValue s < 10 ^ s.length := by
  induction s with
  | nil => simp [revValue]
  | cons c s ih =>
    have hc := h c (by simp)
    have : c.toNat - 48 ≤ 9 := by
      have := toDigit_eq c
      rw [if_pos hc] at this
      unfold toDigit at this
      split at this
      · rename_i hh
        have h9 : '9'.toNat = 57 := rfl
        omega
      · simp at this
    have := ih (fun d hd => h d (by simp [hd]))
    simp only [revValue, List.length_cons, Nat.pow_succ]
    omega

/-- One iteration cannot overflow before the twentieth digit. -/
theorem getIdLoop_small (t : Target) (s : Str) : ∀ (k out : Nat), out < 10 ^ k →
    k + (s.takeWhile isDecimal).length ≤ 19 →
    getIdLoop t s out (10 ^ k) = .ok (out + 10 ^ k * revValue (s.takeWhile isDecimal)) := by
  induction s with
  | nil => intro k out _ _; simp [getIdLoop, revValue]
  | cons c s ih =>
    intro k out ho hk
    rw [getIdLoop, toDigit_eq]
    by_cases hc : isDecimal c
    · simp only [hc, if_true]
      rw [List.takeWhile_cons, if_pos hc] at hk ⊢
      simp only [List.length_cons] at hk
      have hd : c.toNat - 48 ≤ 9 := by
        have := revValue_lt [c] (by simpa using hc)
        simp [revValue] at this; omega
      have hp19 : 10 ^ (k + 1) ≤ 10 ^ 19 := Nat.pow_le_pow_right (by omega) (by omega)
      have h64 : (10 : Nat) ^ 19 < 2 ^ 64 := by decide
      have hps : 10 ^ (k + 1) = 10 ^ k * 10 := Nat.pow_succ ..
      have hmul : (c.toNat - 48) * 10 ^ k ≤ 9 * 10 ^ k := Nat.mul_le_mul_right _ hd
      generalize hP : 10 ^ k = P at *
      have a1 : (c.toNat - 48) * P < 2 ^ 64 := by omega
      have a2 : out + (c.toNat - 48) * P < P * 10 := by omega
      have a3 : out + (c.toNat - 48) * P < 2 ^ 64 := by omega
      have a4 : P * 10 < 2 ^ 64 := by omega
      simp only [u64Arith, a1, a3, a4, if_true, Res.bind_ok]
      have := ih (k + 1) (out + (c.toNat - 48) * P) (by rw [hps]; exact a2) (by omega)
      rw [hps] at this
      rw [this]
      simp only [revValue]
      congr 1
      rw [Nat.mul_add, Nat.mul_assoc, Nat.mul_comm P (c.toNat - 48)]
      omega
    · simp only [hc]
      rw [List.takeWhile_cons, if_neg hc]
      simp [revValue]

theorem u64Arith_checks {t : Target} (h : t.overflowChecks = true) (n : Nat) :
    u64Arith t n = if n < 2 ^ 64 then .ok n else .panic .overflow := by simp [u64Arith, h]

theorem u64Arith_wraps {t : Target} (h : t.overflowChecks = false) (n : Nat) :
    u64Arith t n = .ok (n % 2 ^ 64) := by
  simp only [u64Arith, h]
  split
  · rename_i hn; rw [Nat.mod_eq_of_lt hn]
  · rfl

theorem getIdLoop_big_checked (t : Target) (ht : t.overflowChecks = true) (s : Str) :
    ∀ (k out : Nat), k ≤ 19 → 20 ≤ k + (s.takeWhile isDecimal).length →
    getIdLoop t s out (10 ^ k) = .panic .overflow := by
  induction s with
  | nil => intro k out h1 h2; simp at h2; omega
  | cons c s ih =>
    intro k out hk h20
    rw [getIdLoop, toDigit_eq]
    by_cases hc : isDecimal c
    · simp only [hc, if_true]
      rw [List.takeWhile_cons, if_pos hc] at h20
      simp only [List.length_cons] at h20
      rw [u64Arith_checks ht]
      split
      · rw [Res.bind_ok, u64Arith_checks ht]
        split
        · rw [Res.bind_ok, u64Arith_checks ht, show 10 ^ k * 10 = 10 ^ (k + 1) from (Nat.pow_succ ..).symm]
          split
          · rename_i hlt
            rw [Res.bind_ok]
            refine ih (k + 1) _ ?_ (by omega)
            refine Decidable.byContradiction fun hc => ?_
            have : (10 : Nat) ^ 20 ≤ 10 ^ (k + 1) := Nat.pow_le_pow_right (by omega) (by omega)
            have : (2 : Nat) ^ 64 < 10 ^ 20 := by decide
            omega
          · rfl
        · rfl
      · rfl
    · rw [List.takeWhile_cons, if_neg hc] at h20
      simp at h20; omega

theorem getIdLoop_wraps (t : Target) (ht : t.overflowChecks = false) (s : Str) :
    ∀ (out m out' m' : Nat), out = out' % 2 ^ 64 → m = m' % 2 ^ 64 →
    getIdLoop t s out m = .ok ((out' + m' * revValue (s.takeWhile isDecimal)) % 2 ^ 64) := by
  induction s with
  | nil => intro out m out' m' h1 h2; simp [getIdLoop, revValue, h1]
  | cons c s ih =>
    intro out m out' m' h1 h2
    rw [getIdLoop, toDigit_eq]
    by_cases hc : isDecimal c
    · simp only [hc, if_true, u64Arith_wraps ht, Res.bind_ok]
      rw [ih _ _ (out' + (c.toNat - 48) * m') (m' * 10), List.takeWhile_cons, if_pos hc]
      · simp only [revValue]
        rw [Nat.mul_add, Nat.mul_assoc, Nat.mul_comm m' (c.toNat - 48), Nat.add_assoc]
      · rw [h1, h2, Nat.mul_mod, Nat.mod_mod, ← Nat.mul_mod, ← Nat.add_mod]
      · rw [h2, Nat.mul_mod, Nat.mod_mod, ← Nat.mul_mod]
    · simp only [hc]
      rw [List.takeWhile_cons, if_neg hc]
      simp [revValue, h1]

/-- The full statement of C45. -/
def C45_statement : Prop :=
  ∀ (t : Target) (p : Product), p.getId t = .ok (decimalValue (trailingDigits p.id))

/-- C45 exactly: correct up to 19 trailing digits; from 20 digits on a build with overflow checks
panics and one without returns the number modulo 2^64. -/
theorem C45_exact (t : Target) (p : Product) :
    p.getId t =
      if (trailingDigits p.id).length ≤ 19 then .ok (decimalValue (trailingDigits p.id))
      else if t.overflowChecks then .panic .overflow
      else .ok (decimalValue (trailingDigits p.id) % 2 ^ 64) := by
  have hlen : (trailingDigits p.id).length = (p.id.reverse.takeWhile isDecimal).length := by
    simp [trailingDigits]
  have hval : decimalValue (trailingDigits p.id) = revValue (p.id.reverse.takeWhile isDecimal) := by
    rw [trailingDigits, decimalValue_reverse]
  rw [hlen, hval]
  split
  · rename_i h
    have := getIdLoop_small t p.id.reverse 0 0 (by simp) (by omega)
    simpa [Product.getId] using this
  · rename_i h
    cases ht : t.overflowChecks with
    | true =>
      simpa [Product.getId] using getIdLoop_big_checked t ht p.id.reverse 0 0 (by omega) (by omega)
    | false =>
      simpa [Product.getId] using getIdLoop_wraps t ht p.id.reverse 0 1 0 1 rfl rfl

/-- C45 for ids with at most 19 trailing digits (in particular all ids whose number is below 10^19
without leading zeros). Missing: 20 digits or more, where it is false (`C45_false`). -/
theorem C45_partial (t : Target) (p : Product) (h : (trailingDigits p.id).length ≤ 19) :
    p.getId t = .ok (decimalValue (trailingDigits p.id)) := by
  rw [C45_exact, if_pos h]

/-- C45 is false, in debug and in release builds. -/
theorem C45_false (t : Target) : ∃ p : Product, p.getId t ≠ .ok (decimalValue (trailingDigits p.id)) := by
  refine ⟨⟨[], [], ⟨[], 0⟩, "99999999999999999999".toList, 0⟩, ?_⟩
  rw [C45_exact, if_neg (by decide +kernel)]
  split
  · simp
  · intro h
    injection h with h
    exact absurd h (by decide +kernel)

example : Product.getId .debug64 ⟨[], [], ⟨[], 0⟩, "gid://shop/Product/6803".toList, 0⟩ = .ok 6803 := by
  decide +kernel
example : (trailingDigits "gid://shop/Product/6803".toList).length ≤ 19 := by decide +kernel

/-! ## C46 — product equality -/

theorem isPrefixOf_refl' (a : Str) : a.isPrefixOf a = true := by
  rw [List.isPrefixOf_iff_prefix]; exact List.prefix_refl a

theorem C46_refl (p : Product) : p.eqv p = true := by
  simp [Product.eqv, descriptionEq]; omega

/-- Transitivity fails: `"a"` equals both `"ab"` and `"ac"`, which differ. -/
theorem C46_trans_false :
    ∃ p q r : Product, p.eqv q = true ∧ q.eqv r = true ∧ p.eqv r = false :=
  ⟨⟨['a', 'b'], [], ⟨[], 0⟩, [], 0⟩, ⟨['a'], [], ⟨[], 0⟩, [], 0⟩, ⟨['a', 'c'], [], ⟨[], 0⟩, [], 0⟩,
    by decide +kernel⟩

/-- What equality means exactly: all fields equal, except that one description may be a non-empty
prefix of the other. -/
theorem C46_meaning (p q : Product) :
    p.eqv q = true ↔ (p.title = q.title ∧ p.vendor = q.vendor ∧ p.id = q.id ∧ p.sid = q.sid) ∧
      (p.description = q.description ∨
        (p.description ≠ [] ∧ q.description ≠ [] ∧
          (p.description <+: q.description ∨ q.description <+: p.description))) := by
  have hpos : ∀ s : Str, s ≠ [] → 1 ≤ byteLen s := by
    intro s hs
    cases s with
    | nil => exact absurd rfl hs
    | cons c s =>
      have := c.utf8Size_pos
      simp only [byteLen, List.map_cons, List.sum_cons]; omega
  have hnil : ∀ s : Str, byteLen s = 0 ↔ s = [] := by
    intro s
    constructor
    · intro h
      refine Decidable.byContradiction fun hs => ?_
      have := hpos s hs; omega
    · rintro rfl; rfl
  have hle : ∀ a b : Str, a <+: b → byteLen a ≤ byteLen b ∧ (byteLen a = byteLen b → a = b) := by
    rintro a b ⟨c, rfl⟩
    have hl : byteLen (a ++ c) = byteLen a + byteLen c := by simp [byteLen]
    refine ⟨by omega, fun h => ?_⟩
    rw [(hnil c).1 (by omega)]; simp
  have hd : ∀ a b : Str, descriptionEq a b = true ↔
      (a = b ∨ (a ≠ [] ∧ b ≠ [] ∧ (a <+: b ∨ b <+: a))) := by
    intro a b
    simp only [descriptionEq]
    have ha := hnil a
    have hb := hnil b
    by_cases h : (byteLen a = 0 ∧ 1 ≤ byteLen b) ∨ (1 ≤ byteLen a ∧ byteLen b = 0)
    · rw [if_pos h]
      constructor
      · intro h; simp at h
      · rintro (rfl | ⟨h1, h2, _⟩)
        · omega
        · have := hpos a h1; have := hpos b h2; omega
    · rw [if_neg h]
      have hne : byteLen a ≠ byteLen b → a ≠ [] ∧ b ≠ [] := by
        intro hn
        constructor
        · intro e; have := ha.2 e; omega
        · intro e; have := hb.2 e; omega
      by_cases h1 : byteLen a > byteLen b
      · rw [if_pos h1, List.isPrefixOf_iff_prefix]
        constructor
        · intro hp; exact .inr ⟨(hne (by omega)).1, (hne (by omega)).2, .inr hp⟩
        · rintro (rfl | ⟨_, _, hp | hp⟩)
          · omega
          · have := (hle _ _ hp).1; omega
          · exact hp
      · rw [if_neg h1]
        by_cases h2 : byteLen a < byteLen b
        · rw [if_pos h2, List.isPrefixOf_iff_prefix]
          constructor
          · intro hp; exact .inr ⟨(hne (by omega)).1, (hne (by omega)).2, .inl hp⟩
          · rintro (rfl | ⟨_, _, hp | hp⟩)
            · omega
            · exact hp
            · have := (hle _ _ hp).1; omega
        · rw [if_neg h2]
          constructor
          · intro h; exact .inl (by simpa using h)
          · rintro (rfl | ⟨_, _, hp | hp⟩)
            · simp
            · simpa using (hle _ _ hp).2 (by omega)
            · have := (hle _ _ hp).2 (by omega)
              rw [this]; simp
  simp only [Product.eqv, Bool.and_eq_true, hd, beq_iff_eq]
  constructor
  · rintro ⟨⟨⟨⟨h1, h2⟩, h3⟩, h4⟩, h5⟩; exact ⟨⟨h2, h3, h4, h5⟩, h1⟩
  · rintro ⟨⟨h2, h3, h4, h5⟩, h1⟩; exact ⟨⟨⟨⟨h1, h2⟩, h3⟩, h4⟩, h5⟩

theorem C46_symm (p q : Product) (h : p.eqv q = true) : q.eqv p = true := by
  rw [C46_meaning] at *
  obtain ⟨⟨h1, h2, h3, h4⟩, h5⟩ := h
  refine ⟨⟨h1.symm, h2.symm, h3.symm, h4.symm⟩, ?_⟩
  rcases h5 with h | ⟨ha, hb, h⟩
  · exact .inl h.symm
  · exact .inr ⟨hb, ha, h.symm⟩

/-- Transitivity among products whose descriptions have the same length (Missing: different lengths,
see `C46_trans_false`). -/
theorem C46_trans_partial (p q r : Product) (h1 : p.eqv q = true) (h2 : q.eqv r = true)
    (hl : p.description.length = q.description.length) : p.eqv r = true := by
  rw [C46_meaning] at *
  have : p.description = q.description := by
    rcases h1.2 with h | ⟨_, _, h | h⟩
    · exact h
    · exact h.eq_of_length hl
    · exact (h.eq_of_length hl.symm).symm
  rw [this, h1.1.1, h1.1.2.1, h1.1.2.2.1, h1.1.2.2.2]
  exact h2

/-! ## C51 — the padded gram -/

theorem fillGram_eq {G : Type} [DecidableEq G] [RDefault G] (k : Nat) : ∀ (pos : Nat) (done tail iter : List G),
    done.length = pos → k ≤ tail.length →
    fillGram k pos (done ++ tail) iter =
      if k ≤ iter.length then (some (done ++ iter.take k ++ tail.drop k), iter.drop k) else (none, []) := by
  induction k with
  | zero => intro pos done tail iter h1 h2; simp [fillGram]
  | succ k ih =>
    intro pos done tail iter h1 h2
    cases iter with
    | nil => simp [fillGram]
    | cons g iter =>
      cases tail with
      | nil => simp at h2
      | cons x tail =>
        simp only [List.length_cons, Nat.add_le_add_iff_right] at h2
        rw [fillGram]
        have e : (done ++ x :: tail).set pos g = (done ++ [g]) ++ tail := by
          rw [List.set_append]; simp [← h1]
        rw [e, ih (pos + 1) (done ++ [g]) tail iter (by simp [h1]) h2]
        simp

/-- With at least `N - 1` grams left they are taken (the rest stays in the iterator) and followed by the
default gram; otherwise nothing is returned and the iterator is used up. -/
theorem C51 {G : Type} [DecidableEq G] [RDefault G] (n : Nat) (hn : 1 ≤ n) (iter : List G) :
    (∀ taken rest, iter = taken ++ rest → taken.length = n - 1 →
      nGramWith1Padding n iter = (some (taken ++ [dflt]), rest)) ∧
    (iter.length < n - 1 → nGramWith1Padding n iter = (none, [])) := by
  have h := fillGram_eq (n - 1) 0 [] (List.replicate n (dflt : G)) iter rfl (by simp)
  simp only [List.nil_append] at h
  have hd : (List.replicate n (dflt : G)).drop (n - 1) = [dflt] := by
    rw [List.drop_replicate, show n - (n - 1) = 1 by omega]; rfl
  rw [hd] at h
  constructor
  · rintro taken rest rfl hlen
    rw [nGramWith1Padding, h, if_pos (by simp [hlen])]
    rw [← hlen, List.take_left', List.drop_left'] <;> rfl
  · intro hlen
    rw [nGramWith1Padding, h, if_neg (by omega)]

example : nGramWith1Padding 4 "kunst".toList = (some ['k', 'u', 'n', '\x00'], ['s', 't']) := by
  decide +kernel

/-! ## C52 — feature columns -/

/-- One call of `add_int`, `add_float` or `add_string`. -/
def addFeature (s : FeatureSet) (op : Str × FeatureValue) : Res FeatureSet :=
  match op.2 with
  | .integer n => s.addInt op.1 n
  | .float x => s.addFloat op.1 x
  | .string v => s.addString op.1 v

/-- A sequence of calls, starting from `s`; stops at the first panic. -/
def addFeatures : FeatureSet → List (Str × FeatureValue) → Res FeatureSet
  | s, [] => .ok s
  | s, op :: ops => addFeature s op >>= fun s => addFeatures s ops

/-- Spec: the type of a value. -/
def FeatureValue.kind : FeatureValue → Nat
  | .string _ => 0
  | .float _ => 1
  | .integer _ => 2

/-- Spec: the values added under `key`, in order. -/
def addedUnder (key : Str) (ops : List (Str × FeatureValue)) : List FeatureValue :=
  (ops.filter fun op => op.1 = key).map (·.2)

/-- The column as a list of values. -/
def Feature.values : Feature → List FeatureValue
  | .string l => l.map .string
  | .float l => l.map .float
  | .integer l => l.map .integer

/-- The column stored under a key (empty when absent). -/
def columnOf (s : FeatureSet) (key : Str) : List FeatureValue :=
  match AMap.get s key with
  | none => []
  | some f => f.values

/-- Columns in the set are never empty (they are created by their first value). -/
def ColumnsNonempty (s : FeatureSet) : Prop := ∀ key f, AMap.get s key = some f → f.values ≠ []

theorem Feature.get_eq (f : Feature) (i : Nat) : f.get i = f.values[i]? := by
  cases f <;> simp [Feature.get, Feature.values]

theorem addFeature_spec (s : FeatureSet) (hs : ColumnsNonempty s) (op : Str × FeatureValue) :
    ((∀ v ∈ columnOf s op.1, v.kind = op.2.kind) → ∃ s', addFeature s op = .ok s' ∧ ColumnsNonempty s' ∧
      ∀ key, columnOf s' key = if op.1 = key then columnOf s key ++ [op.2] else columnOf s key) ∧
    ((∃ v ∈ columnOf s op.1, v.kind ≠ op.2.kind) → addFeature s op = .panic .explicit) := by
  obtain ⟨key, val⟩ := op
  have fresh : ∀ (f : Feature), AMap.get s key = none → f.values = [val] →
      ColumnsNonempty (AMap.insert s key f) ∧ ∀ key', columnOf (AMap.insert s key f) key' =
        if key = key' then columnOf s key' ++ [val] else columnOf s key' := by
    intro f hn hf
    constructor
    · intro k g hg
      rw [AMap.get_insert] at hg
      split at hg
      · cases hg; rw [hf]; simp
      · exact hs k g hg
    · intro k
      simp only [columnOf, AMap.get_insert]
      by_cases h : key = k
      · subst h; simp [hn, hf]
      · simp [h]
  have extend : ∀ (f g : Feature), AMap.get s key = some f → g.values = f.values ++ [val] →
      ColumnsNonempty (AMap.insert s key g) ∧ ∀ key', columnOf (AMap.insert s key g) key' =
        if key = key' then columnOf s key' ++ [val] else columnOf s key' := by
    intro f g hf hg
    constructor
    · intro k g' hg'
      rw [AMap.get_insert] at hg'
      split at hg'
      · cases hg'; rw [hg]; simp
      · exact hs k g' hg'
    · intro k
      simp only [columnOf, AMap.get_insert]
      by_cases h : key = k
      · subst h; simp [hf, hg]
      · simp [h]
  cases hget : AMap.get s key with
  | none =>
    constructor
    · intro _
      cases val with
      | integer n =>
        exact ⟨_, by simp [addFeature, FeatureSet.addInt, hget], fresh (.integer [n]) hget rfl⟩
      | float n =>
        exact ⟨_, by simp [addFeature, FeatureSet.addFloat, hget], fresh (.float [n]) hget rfl⟩
      | string n =>
        exact ⟨_, by simp [addFeature, FeatureSet.addString, hget], fresh (.string [n]) hget rfl⟩
    · rintro ⟨v, hv, _⟩
      simp [columnOf, hget] at hv
  | some f =>
    have hne := hs key f hget
    constructor
    · intro hk
      simp only [columnOf, hget] at hk
      cases val with
      | integer n =>
        cases f with
        | integer l =>
          exact ⟨_, by simp [addFeature, FeatureSet.addInt, hget],
            extend _ (.integer (l ++ [n])) hget (by simp [Feature.values])⟩
        | float l =>
          cases l with
          | nil => simp [Feature.values] at hne
          | cons x l => simp [Feature.values, FeatureValue.kind] at hk
        | string l =>
          cases l with
          | nil => simp [Feature.values] at hne
          | cons x l => simp [Feature.values, FeatureValue.kind] at hk
      | float n =>
        cases f with
        | float l =>
          exact ⟨_, by simp [addFeature, FeatureSet.addFloat, hget],
            extend _ (.float (l ++ [n])) hget (by simp [Feature.values])⟩
        | integer l =>
          cases l with
          | nil => simp [Feature.values] at hne
          | cons x l => simp [Feature.values, FeatureValue.kind] at hk
        | string l =>
          cases l with
          | nil => simp [Feature.values] at hne
          | cons x l => simp [Feature.values, FeatureValue.kind] at hk
      | string n =>
        cases f with
        | string l =>
          exact ⟨_, by simp [addFeature, FeatureSet.addString, hget],
            extend _ (.string (l ++ [n])) hget (by simp [Feature.values])⟩
        | float l =>
          cases l with
          | nil => simp [Feature.values] at hne
          | cons x l => simp [Feature.values, FeatureValue.kind] at hk
        | integer l =>
          cases l with
          | nil => simp [Feature.values] at hne
          | cons x l => simp [Feature.values, FeatureValue.kind] at hk
    · rintro ⟨v, hv, hk⟩
      simp only [columnOf, hget] at hv
      cases val <;> cases f <;>
        simp [addFeature, FeatureSet.addInt, FeatureSet.addFloat, FeatureSet.addString, hget] <;>
        (simp only [Feature.values, List.mem_map] at hv
         obtain ⟨x, _, rfl⟩ := hv
         simp [FeatureValue.kind] at hk)

/-- The invariant behind C52: columns are what they were plus what was added; the run succeeds iff no
value meets a column holding another type. -/
theorem addFeatures_spec (ops : List (Str × FeatureValue)) : ∀ (s : FeatureSet), ColumnsNonempty s →
    ((∃ s', addFeatures s ops = .ok s') ∨ addFeatures s ops = .panic .explicit) ∧
    (∀ s', addFeatures s ops = .ok s' → ∀ key, columnOf s' key = columnOf s key ++ addedUnder key ops) ∧
    ((∃ s', addFeatures s ops = .ok s') ↔
      ∀ key, ∀ v ∈ addedUnder key ops, ∀ w ∈ columnOf s key ++ addedUnder key ops, w.kind = v.kind) := by
  induction ops with
  | nil =>
    intro s _
    refine ⟨.inl ⟨s, rfl⟩, ?_, ?_⟩
    · intro s' h; cases h; simp [addedUnder]
    · simp [addFeatures, addedUnder]
  | cons op ops ih =>
    intro s hs
    obtain ⟨hok, hbad⟩ := addFeature_spec s hs op
    by_cases hk : ∀ v ∈ columnOf s op.1, v.kind = op.2.kind
    · obtain ⟨s1, e, hs1, hcol⟩ := hok hk
      obtain ⟨h1, h2, h3⟩ := ih s1 hs1
      have hrun : addFeatures s (op :: ops) = addFeatures s1 ops := by
        rw [addFeatures, e]; rfl
      have hadd : ∀ key, columnOf s1 key ++ addedUnder key ops =
          columnOf s key ++ addedUnder key (op :: ops) := by
        intro key
        rw [hcol]
        by_cases h : op.1 = key <;> simp [addedUnder, h]
      rw [hrun]
      refine ⟨h1, fun s' h' key => (h2 s' h' key).trans (hadd key), h3.trans ?_⟩
      constructor
      · intro h key v hv w hw
        rw [← hadd] at hw
        by_cases hkey : op.1 = key
        · have hv' : v = op.2 ∨ v ∈ addedUnder key ops := by
            simpa [addedUnder, hkey] using hv
          have hop : op.2 ∈ columnOf s1 key := by rw [hcol, if_pos hkey]; simp
          rcases hv' with rfl | hv'
          · -- compare through the column: all old ones have the kind of `op.2`
            rcases List.mem_append.1 hw with hw | hw
            · rw [hcol, if_pos hkey] at hw
              rcases List.mem_append.1 hw with hw | hw
              · exact hk w (hkey ▸ hw)
              · simp at hw; rw [hw]
            · exact (h key w hw op.2 (by simp [hop])).symm
          · exact h key v hv' w hw
        · have : addedUnder key (op :: ops) = addedUnder key ops := by simp [addedUnder, hkey]
          rw [this] at hv
          exact h key v hv w hw
      · intro h key v hv w hw
        rw [hadd] at hw
        refine h key v ?_ w hw
        by_cases hkey : op.1 = key
        · simp only [addedUnder, List.filter_cons, hkey, decide_true, if_true, List.map_cons,
            List.mem_cons]
          exact .inr (by simpa [addedUnder] using hv)
        · simpa [addedUnder, hkey] using hv
    · have : ∃ v ∈ columnOf s op.1, v.kind ≠ op.2.kind := by
        simpa using hk
      have hp := hbad this
      have hrun : addFeatures s (op :: ops) = .panic .explicit := by
        rw [addFeatures, hp]; rfl
      rw [hrun]
      refine ⟨.inr rfl, by simp, ?_⟩
      constructor
      · rintro ⟨s', h⟩; simp at h
      · intro h
        exfalso
        obtain ⟨v, hv, hvk⟩ := this
        exact hvk (h op.1 op.2 (by simp [addedUnder]) v (by simp [hv]))

/-- Reading position `i` of a key returns the `i`-th value ever added under that key, with its type. -/
theorem C52_read (ops : List (Str × FeatureValue)) (s : FeatureSet) (h : addFeatures [] ops = .ok s)
    (p : Product) (key : Str) : s.get p key = (addedUnder key ops)[p.sid]? := by
  have hc := (addFeatures_spec ops [] (by intro k f h; simp at h)).2.1 s h key
  simp only [columnOf, AMap.get_nil, List.nil_append] at hc
  unfold FeatureSet.get
  cases hg : AMap.get s key with
  | none => rw [hg] at hc; simp [← hc]
  | some f => rw [hg] at hc; simp only; rw [← hc, Feature.get_eq]

/-- Adding under one key leaves every other column alone. -/
theorem C52_other (ops : List (Str × FeatureValue)) (op : Str × FeatureValue) (s s' : FeatureSet)
    (h : addFeatures [] ops = .ok s) (h' : addFeature s op = .ok s') (key : Str) (hk : key ≠ op.1)
    (p : Product) : s'.get p key = s.get p key := by
  have : addFeatures [] (ops ++ [op]) = .ok s' := by
    have : ∀ (ops : List (Str × FeatureValue)) s0, addFeatures s0 ops = .ok s →
        addFeatures s0 (ops ++ [op]) = .ok s' := by
      intro ops
      induction ops with
      | nil =>
        intro s0 h
        simp only [addFeatures, Res.ok.injEq] at h
        subst h
        simp [addFeatures, h']
      | cons o ops ih =>
        intro s0 h
        simp only [addFeatures, List.cons_append] at h ⊢
        cases hs : addFeature s0 o with
        | ok s1 => rw [hs] at h; exact ih s1 h
        | none => rw [hs] at h; simp at h
        | panic w => rw [hs] at h; simp at h
    exact this ops [] h
  rw [C52_read _ _ this, C52_read _ _ h]
  simp [addedUnder, Ne.symm hk]

/-- The calls succeed iff all values added under one key have the same type; otherwise they panic. -/
theorem C52_panics (ops : List (Str × FeatureValue)) :
    ((∃ s, addFeatures [] ops = .ok s) ↔
      ∀ key, ∀ v ∈ addedUnder key ops, ∀ w ∈ addedUnder key ops, w.kind = v.kind) ∧
    ((¬ ∃ s, addFeatures [] ops = .ok s) → addFeatures [] ops = .panic .explicit) := by
  have h := addFeatures_spec ops [] (by intro k f h; simp at h)
  constructor
  · rw [h.2.2]; simp [columnOf]
  · intro hn
    rcases h.1 with h1 | h1
    · exact absurd h1 hn
    · exact h1

-- a mixed run that succeeds, one that panics
example : addFeatures [] [(['a'], .integer 1), (['b'], .string ['x']), (['a'], .integer 2)] =
    .ok [(['a'], .integer [1, 2]), (['b'], .string [['x']])] := by decide +kernel
example : addFeatures [] [(['a'], .integer 1), (['a'], .string ['x'])] = .panic .explicit := by
  decide +kernel

end Idx
