import Verif.Lemmas.Codec
import Verif.Lemmas.AMap
import Verif.Lemmas.Sort
import Verif.Lemmas.Limit
/-! # C01 – C06: the codecs of the file format -/
namespace Idx

/-! ## C01 — every u64 written is read back

False of the code for `2^56 ≤ v < 2^63`: those values take nine groups, the decoder stops its loop after
nine bytes and then always takes a tenth (src/serialize/primitives.rs:99-108), which the encoder did
not write. -/

/-- The full statement of C01. -/
def C01_statement : Prop := ∀ (v : UInt64) (rest : Bytes), deU64 (serU64 v ++ rest) = .ok (rest, v)

/-- C01 is false: 2^56 is refused at the end of the stream. -/
theorem C01_false : ¬ C01_statement := by
  intro h
  have := h (UInt64.ofNat (2 ^ 56)) []
  rw [deU64_band _ (by decide) (by decide)] at this
  simp at this

/-- C01 outside the nine-group band. Missing: `2^56 ≤ v < 2^63`, where it is false, see `C01_band`. -/
theorem C01_partial (v : UInt64) (rest : Bytes) (h : v.toNat < 2 ^ 56 ∨ 2 ^ 63 ≤ v.toNat) :
    deU64 (serU64 v ++ rest) = .ok (rest, v) := by
  rcases h with h | h
  · exact deU64_small v h rest
  · exact deU64_big v h rest

/-- What happens to every value of the band: the byte after the number is swallowed, and if it is 1
the top bit is set as well. -/
theorem C01_band (v : UInt64) (rest : Bytes) (h1 : 2 ^ 56 ≤ v.toNat) (h2 : v.toNat < 2 ^ 63) :
    deU64 (serU64 v ++ rest) =
      match rest with
      | [] => .none
      | b :: rest => .ok (rest, if b == 1 then v ||| 0x8000000000000000 else v) :=
  deU64_band v h1 h2 rest

/-- In the band the round trip never works: the statement holds exactly outside it. -/
theorem C01_iff (v : UInt64) :
    (∀ rest, deU64 (serU64 v ++ rest) = .ok (rest, v)) ↔ (v.toNat < 2 ^ 56 ∨ 2 ^ 63 ≤ v.toNat) := by
  constructor
  · intro h
    refine Decidable.byContradiction fun hc => ?_
    have := h []
    rw [deU64_band v (by omega) (by omega)] at this
    simp at this
  · intro h rest; exact C01_partial v rest h

example : (300 : UInt64).toNat < 2 ^ 56 := by decide
example : (2 : Nat) ^ 63 ≤ (0xfedcba9876543210 : UInt64).toNat := by decide
example : 2 ^ 56 ≤ (0x0123456789abcdef : UInt64).toNat ∧ (0x0123456789abcdef : UInt64).toNat < 2 ^ 63 := by
  decide

/-! ## C02 — scalars -/

theorem C02_u32 (v : UInt32) (rest : Bytes) : deU32 (serU32 v ++ rest) = .ok (rest, v) := deU32_rt v rest

theorem C02_char (c : Char) (rest : Bytes) : deChar (serChar c ++ rest) = .ok (rest, c) := deChar_rt c rest

theorem C02_bool (b : Bool) (rest : Bytes) : deBool (serBool b ++ rest) = .ok (rest, b) := deBool_rt b rest

theorem C02_u8 (b : UInt8) (rest : Bytes) : deU8 (serU8 b ++ rest) = .ok (rest, b) := deU8_rt b rest

/-- All 2^32 bit patterns, NaN payloads and both zeros included. -/
theorem C02_f32 (x : F32) (rest : Bytes) : deF32 (serF32 x ++ rest) = .ok (rest, x) := deF32_rt x rest

/-- usize: the reader's word decides. Values of the band of `C01` are excluded (see `C01_band`); no
length, id or rank of a file of fewer than 2^56 bytes is in it. -/
theorem C02_usize (t : Target) (n : Nat) (rest : Bytes) (h : n < 2 ^ 56 ∨ (2 ^ 63 ≤ n ∧ n < 2 ^ 64)) :
    deUsize t (serUsize n ++ rest) = if n < 2 ^ t.usizeBits then .ok (rest, n) else .none := by
  split
  · rename_i hn; exact deUsize_rt' t n hn h rest
  · rename_i hn
    have hu : (UInt64.ofNat n).toNat = n := by
      rw [UInt64.toNat_ofNat']; omega
    have := C01_partial (UInt64.ofNat n) rest (by omega)
    rw [serUsize, deUsize, De.bind_of_ok this, hu, if_neg hn]
    rfl

/-- A usize written by a 64-bit machine that a 32-bit reader cannot hold is refused. -/
example : deUsize .wasm32 (serUsize (2 ^ 32) ++ [7]) = .none := by
  rw [C02_usize _ _ _ (by decide)]; rfl
example : deUsize ⟨64, false, fun _ _ => true⟩ (serUsize (2 ^ 32) ++ [7]) = .ok ([7], 2 ^ 32) := by
  rw [C02_usize _ _ _ (by decide)]; rfl

/-! ## C03 — strings -/

/-- The only hypothesis is that the byte length is a number the reader's word can hold. -/
theorem C03 (t : Target) (s : Str) (rest : Bytes) (h : Carried t (byteLen s)) :
    deStr t (serStr s ++ rest) = .ok (rest, s) := deStr_rt h rest

example : Carried .wasm32 (byteLen "smørrebrød €𝄞".toList) := by decide

/-! ## C04 — collections -/

theorem C04_vec (t : Target) (ser : α → Bytes) (de : De α) (l : List α) (rest : Bytes)
    (hl : Fits t l.length) (h : ∀ a ∈ l, ∀ r, de (ser a ++ r) = .ok (r, a)) :
    deVec t de (serVec ser l ++ rest) = .ok (rest, l) := deVec_rt l hl h rest

theorem C04_array (t : Target) (n : Nat) (ser : α → Bytes) (de : De α) (l : List α) (rest : Bytes)
    (hn : l.length = n) (hl : Carried t n) (h : ∀ a ∈ l, ∀ r, de (ser a ++ r) = .ok (r, a)) :
    deArray t n de (serArray ser l ++ rest) = .ok (rest, l) := by
  subst hn; exact deArray_rt l hl h rest

/-- Whatever order the hash table iterates in, the map read back has the same entries: the
result is a permutation of the entries and answers every lookup alike. -/
theorem C04_map [DecidableEq K] {σ : Type} (t : Target) (o : HashOrd) (site : σ) (serK : K → Bytes)
    (serV : V → Bytes) (deK : De K) (deV : De V) (m : AMap K V) (rest : Bytes) (hm : AMap.Wf m)
    (hl : Fits t m.length) (hk : ∀ p ∈ m, ∀ r, deK (serK p.1 ++ r) = .ok (r, p.1))
    (hv : ∀ p ∈ m, ∀ r, deV (serV p.2 ++ r) = .ok (r, p.2)) :
    ∃ m', deMap t deK deV (serMap o site serK serV m ++ rest) = .ok (rest, m') ∧ m'.Perm m ∧
      ∀ k, AMap.get m' k = AMap.get m k := by
  have hp := o.perm site m
  have := serMapEntries_rt (f := id) (deK := deK) (deV := deV) (serK := serK) (serV := serV)
    (o.order site m) (hp.length_eq ▸ hl) (fun p hpm => hk p (hp.mem_iff.1 hpm))
    (fun p hpm => hv p (hp.mem_iff.1 hpm)) rest
  simp only [id, List.map_id'] at this
  rw [AMap.collect_of_wf (hm.perm hp)] at this
  exact ⟨_, this, hp, fun k => AMap.get_perm hm hp k⟩

example : Fits .wasm32 3 ∧ AMap.Wf ([('a', 1), ('b', 2), ('æ', 3)] : AMap Char Nat) := by
  refine ⟨.of_carried (by decide) fun _ _ => rfl, by decide⟩
/-- A reader that can reserve room for a thousand elements at most. -/
example : Fits ⟨64, false, fun _ n => decide (n ≤ 1000)⟩ 3 := ⟨by decide, fun _ m h => by simp; omega⟩

/-! ## C05 — delta-compressed id lists -/

/-- Reading back gives the ascending rearrangement of the ids, and consumes exactly what was written. -/
theorem C05 (t : Target) (ids : List Nat) (rest : Bytes) (hl : Fits t ids.length)
    (hi : ∀ i ∈ ids, Carried t i) :
    ∃ out, deSeq t (serSeq ids ++ rest) = .ok (rest, out) ∧ out.Perm ids ∧
      out.Pairwise (· ≤ ·) := by
  have hp := stableSort_perm (fun a b => decide (a ≤ b)) ids
  have hs : (stableSort (fun a b => decide (a ≤ b)) ids).Pairwise (· ≤ ·) := by
    have := stableSort_sorted (natLe_totalPreorder id) ids
    simpa using this
  refine ⟨_, ?_, hp, hs⟩
  have hlen : Fits t (stableSort (fun a b => decide (a ≤ b)) ids).length := by simpa using hl
  exact RT.bind (deLen_rt hlen _)
    (deDeltas_rt _ none (by simp) hs fun x hx => hi x (hp.mem_iff.1 hx)) rest

/-- Determinism of the result: there is only one ascending rearrangement, so multiplicities are kept. -/
theorem C05_count (t : Target) (ids : List Nat) (rest out : Bytes) (l : List Nat) (hl : Fits t ids.length)
    (hi : ∀ i ∈ ids, Carried t i) (h : deSeq t (serSeq ids ++ rest) = .ok (out, l)) (i : Nat) :
    out = rest ∧ l.count i = ids.count i := by
  obtain ⟨l', h', hp, _⟩ := C05 t ids rest hl hi
  rw [h'] at h
  cases h
  exact ⟨rfl, hp.count_eq i⟩

example : Fits .wasm32 [7, 3, 3, 300, 0].length ∧ ∀ i ∈ [7, 3, 3, 300, 0], Carried .wasm32 i :=
  ⟨.of_carried (by decide) fun _ _ => rfl, by decide⟩
example : deSeq ⟨32, true, fun _ _ => true⟩ (serSeq [7, 3, 3, 300, 0] ++ [9]) = .ok ([9], [0, 3, 3, 7, 300]) := by
  decide +kernel

/-! ## C06 — limited descriptions -/

/-- A prefix on a character boundary, at most `L + 4` bytes, the whole string if that has at most `L`
bytes. -/
theorem C06 (s : Str) (L : Nat) :
    limitStringLen s L <+: s ∧ byteLen (limitStringLen s L) ≤ L + 4 ∧
      (byteLen s ≤ L → limitStringLen s L = s) := by
  refine ⟨limit_prefix s L, limit_byteLen_le s L, fun h => ?_⟩
  rcases limit_spec s L with ⟨h', _⟩ | ⟨seen, c, rest, e, hl, _⟩
  · exact h'
  · rw [e, byteLen_append] at h; omega

/-- If the string is cut although some space starts in the first `L + 1` bytes, it is cut exactly
before the last such space. -/
theorem C06_space (s : Str) (L : Nat) (hcut : limitStringLen s L ≠ s) (pre post : Str)
    (hs : s = pre ++ ' ' :: post) (hp : byteLen pre ≤ L) :
    (∃ post', s = limitStringLen s L ++ ' ' :: post') ∧ byteLen (limitStringLen s L) ≤ L ∧
      byteLen pre ≤ byteLen (limitStringLen s L) := by
  rcases limit_spec s L with ⟨h', _⟩ | ⟨seen, c, rest, e, hl, hb, hall, h⟩
  · exact absurd h' hcut
  -- the space lies inside `seen`
  have hin : ∃ w, seen = pre ++ ' ' :: w := by
    rw [e] at hs
    rcases List.append_eq_append_iff.1 hs with ⟨w, hw1, hw2⟩ | ⟨w, hw1, hw2⟩
    · subst hw1
      rw [byteLen_append] at hp; omega
    · cases w with
      | nil => simp at hw1; subst hw1; omega
      | cons x w =>
        simp only [List.cons_append, List.cons.injEq] at hw2
        exact ⟨w, by rw [hw1, hw2.1]⟩
  obtain ⟨w, hw⟩ := hin
  rcases h with ⟨hno, _⟩ | ⟨v, vpost, hv, hvp, h⟩
  · exact absurd (by rw [hw]; simp) hno
  · rw [h]
    refine ⟨⟨vpost ++ c :: rest, by rw [e, hv]; simp⟩, hall v ' ' vpost hv, ?_⟩
    rw [hw] at hv
    rcases List.append_eq_append_iff.1 hv with ⟨u, hu1, hu2⟩ | ⟨u, hu1, hu2⟩
    · subst hu1; rw [byteLen_append]; omega
    · cases u with
      | nil => simp at hu1; subst hu1; exact Nat.le_refl _
      | cons x u =>
        simp only [List.cons_append, List.cons.injEq] at hu2
        exact absurd (by rw [hu2.2]; simp) hvp

/-- If it is cut although no space starts there, more than `L` bytes are kept. -/
theorem C06_nospace (s : Str) (L : Nat) (hcut : limitStringLen s L ≠ s)
    (hs : ∀ pre post, s = pre ++ ' ' :: post → L < byteLen pre) : L < byteLen (limitStringLen s L) := by
  rcases limit_spec s L with ⟨h', _⟩ | ⟨seen, c, rest, e, hl, hb, hall, h⟩
  · exact absurd h' hcut
  rcases h with ⟨_, h⟩ | ⟨v, vpost, hv, hvp, h⟩
  · rw [h]; exact hl
  · have h1 := hs v (vpost ++ c :: rest) (by rw [e, hv]; simp)
    have h2 := hall v ' ' vpost hv
    omega

/-- It is cut iff some character starts beyond the limit. -/
theorem C06_cut_iff (s : Str) (L : Nat) :
    limitStringLen s L ≠ s ↔ ∃ pre c post, s = pre ++ c :: post ∧ L < byteLen pre := by
  rcases limit_spec s L with ⟨h', hl'⟩ | ⟨seen, c, rest, e, hl, hb, hall, h⟩
  · constructor
    · intro h; exact absurd h' h
    · rintro ⟨pre, c, post, e, hp⟩ _
      have : limitStringLen s L = s := h'
      -- the loop would have stopped at `c`
      have : ∀ (rest seen : Str) (last : Option Str), (∀ v, last = some v → v.length < seen.length ) →
          (∃ pre c post, rest = pre ++ c :: post ∧ L < byteLen seen + byteLen pre) →
          (limitLoop L (byteLen seen) seen last rest).length < seen.length + rest.length := by
        intro rest
        induction rest with
        | nil => rintro seen last _ ⟨pre, c, post, e, _⟩; simp at e
        | cons d rest ih =>
          rintro seen last hlast ⟨pre, c, post, e, hlt⟩
          rw [limitLoop_cons]
          by_cases hc : byteLen seen > L
          · rw [if_pos hc]
            cases last with
            | none => simp
            | some v => have := hlast v rfl; simp; omega
          · rw [if_neg hc]
            cases pre with
            | nil => simp at hlt; omega
            | cons d' pre =>
              simp only [List.cons_append, List.cons.injEq] at e
              obtain ⟨rfl, e⟩ := e
              have hlen : byteLen (seen ++ [d]) = byteLen seen + d.utf8Size := by
                rw [byteLen_append, byteLen_cons]; simp
              have := ih (seen ++ [d]) (if d = ' ' then some seen else last) (by
                intro v hv
                split at hv
                · cases hv; simp
                · have := hlast v hv; simp; omega) ⟨pre, c, post, e, by
                    rw [hlen]; rw [byteLen_cons] at hlt; omega⟩
              rw [hlen] at this
              simp only [List.length_append, List.length_cons, List.length_nil] at this ⊢
              omega
      have := this s [] none (by simp) ⟨pre, c, post, e, by simpa using hp⟩
      simp only [byteLen_nil, List.length_nil, Nat.zero_add] at this
      rw [← limitStringLen, h'] at this
      omega
  · constructor
    · intro _; exact ⟨seen, c, rest, e, hl⟩
    · intro _ hcon
      rcases h with ⟨_, h⟩ | ⟨v, vpost, hv, _, h⟩
      · rw [h] at hcon; rw [hcon] at e
        have := congrArg List.length e; simp at this
      · rw [h] at hcon; rw [hv, hcon] at e
        have := congrArg List.length e; simp at this

-- hypotheses of `C06_space` are met by a string that is really cut
example : limitStringLen "en to tre fire".toList 8 = "en to".toList := by decide +kernel
example : limitStringLen "entotrefire".toList 4 = "entot".toList := by decide +kernel

end Idx
