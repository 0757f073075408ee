import Verif.Props.Reload
import Verif.Lemmas.Stream
/-! # C07, C08, C12, C13, C55: reading arbitrary bytes -/
namespace Idx

/-! ## C07 -/

/-- A target able to reserve room for two elements, written so that the test for at most two computes. -/
theorem reserves_two {t : Target} (hr : ∀ what m, m ≤ 2 → t.reserves what m = true) :
    t = ⟨t.usizeBits, t.overflowChecks, fun what m => decide (m ≤ 2) || t.reserves what m⟩ := by
  obtain ⟨bits, checks, reserves⟩ := t
  simp only [Target.mk.injEq, true_and]
  funext what m
  by_cases h : m ≤ 2
  · simpa [h] using hr what m h
  · simp [h]

/-- A string length pointing past the end of the file crashes the loader, whatever the n-gram size: the two bytes
`01 05` say "one vendor, whose name has five bytes". -/
theorem C07_false_slice (n : Nat) (t : Target) (h : t.Real) (hr : ∀ what m, m ≤ 2 → t.reserves what m = true) :
    deserializeAll t n [1, 5] = .panic .sliceOutOfRange := by
  rw [reserves_two hr]
  obtain ⟨bits, checks, reserves⟩ := t
  rcases h with h | h <;> simp only at h <;> subst h <;> rfl

/-- A posting list for grams of another length crashes it too. -/
theorem C07_false_assert (n : Nat) (t : Target) (h : t.Real) (hr : ∀ what m, m ≤ 2 → t.reserves what m = true) :
    ∃ bytes, deserializeAll t n bytes = .panic .assertFailed := by
  rw [reserves_two hr]
  obtain ⟨bits, checks, reserves⟩ := t
  rcases h with h | h <;> simp only at h <;> subst h <;> cases n
  · exact ⟨[0, 0, 0, 0, 1, 1], rfl⟩
  · exact ⟨[0, 0, 0, 0, 1, 0], rfl⟩
  · exact ⟨[0, 0, 0, 0, 1, 1], rfl⟩
  · exact ⟨[0, 0, 0, 0, 1, 0], rfl⟩

/-- So do product numbers summing past the largest `usize`, in builds that check for overflow. -/
theorem C07_false_overflow (n : Nat) (t : Target) (h : t.Real) (hr : ∀ what m, m ≤ 2 → t.reserves what m = true)
    (hc : t.overflowChecks = true) : ∃ bytes, deserializeAll t n bytes = .panic .overflow := by
  rw [reserves_two hr]
  obtain ⟨bits, checks, reserves⟩ := t
  simp only at hc; subst hc
  rcases h with h | h <;> simp only at h <;> subst h
  · exact ⟨[0, 0, 0, 0, 0, 1, 0, 0, 1, 0, 2, 1, 255, 255, 255, 255, 15], rfl⟩
  · exact ⟨[0, 0, 0, 0, 0, 1, 0, 0, 1, 0, 2, 1, 255, 255, 255, 255, 255, 255, 255, 255, 255, 1], rfl⟩

/-- So does a file of a few bytes that announces more vendors than there can be memory for: the first number of a file
is its number of vendors, and room for that many is reserved before anything else is read. -/
theorem C07_false_capacity (n : Nat) (t : Target) (k : Nat) (hk : Carried t k) (hr : t.reserves "vendors" k = false) :
    deserializeAll t n (serUsize k) = .panic .capacity := by
  have e : deUsize t (serUsize k) = .ok ([], k) := by
    have := deUsize_rt hk []
    rwa [List.append_nil] at this
  have e1 : deLen t "vendors" (serUsize k) = .panic .capacity := by
    rw [deLen, De.bind_of_ok e]
    simp [De.bind_apply, De.reserve, hr]
  unfold deserializeAll deGramIndex deContainer deVendors
  simp only [De.bind_apply, e1, Res.bind_panic]

/-- `C07_false_capacity` is not vacuous: `Vec::with_capacity` refuses more than `isize::MAX` bytes, so on wasm32 it
refuses 2³¹ - 1 vendors of any size above one byte. The file is five bytes long. -/
example : Carried ⟨32, false, fun _ m => decide (2 * m < 2 ^ 31)⟩ (2 ^ 31 - 1) ∧
    (fun (_ : String) (m : Nat) => decide (2 * m < 2 ^ 31)) "vendors" (2 ^ 31 - 1) = false ∧
    (serUsize (2 ^ 31 - 1)).length = 5 := by decide +kernel

/-- Loading any bytes gives an index, or `None`, or panics in one of these four ways; nothing else can happen. -/
theorem C56 (t : Target) (n : Nat) (bytes : Bytes) :
    (∃ ix cl, deserializeAll t n bytes = .ok (ix, cl)) ∨ deserializeAll t n bytes = .none ∨
      deserializeAll t n bytes = .panic .sliceOutOfRange ∨ deserializeAll t n bytes = .panic .assertFailed ∨
      (deserializeAll t n bytes = .panic .overflow ∧ t.overflowChecks = true) ∨
      (deserializeAll t n bytes = .panic .capacity ∧ ∃ what m, m < 2 ^ t.usizeBits ∧ t.reserves what m = false) := by
  cases h : deserializeAll t n bytes with
  | ok r => exact .inl ⟨r.1, r.2, rfl⟩
  | none => exact .inr (.inl rfl)
  | panic w =>
    refine .inr (.inr ?_)
    rw [deserializeAll_eq, Res.bind_eq_panic] at h
    rcases h with h | ⟨_, _, h⟩
    · rcases (good_both t n).panic _ _ h with rfl | rfl | ⟨rfl, hc⟩ | ⟨rfl, hc⟩
      · exact .inl rfl
      · exact .inr (.inl rfl)
      · exact .inr (.inr (.inl ⟨rfl, hc⟩))
      · exact .inr (.inr (.inr ⟨rfl, hc⟩))
    · cases h

/-- For C07 ("it does not panic") the part that holds: no panic other than these. Missing: the four panics, which do
happen (`C07_false_slice`, `C07_false_assert`, `C07_false_overflow`, `C07_false_capacity`). -/
theorem C07_partial (t : Target) (n : Nat) (bytes : Bytes) (w : Panic) (h : deserializeAll t n bytes = .panic w) :
    w = .sliceOutOfRange ∨ w = .assertFailed ∨ (w = .overflow ∧ t.overflowChecks = true) ∨
      (w = .capacity ∧ ∃ what m, m < 2 ^ t.usizeBits ∧ t.reserves what m = false) := by
  rcases C56 t n bytes with ⟨ix, cl, e⟩ | e | e | e | ⟨e, hc⟩ | ⟨e, hc⟩ <;> rw [h] at e <;> cases e
  · exact .inl rfl
  · exact .inr (.inl rfl)
  · exact .inr (.inr (.inl ⟨rfl, hc⟩))
  · exact .inr (.inr (.inr ⟨rfl, hc⟩))

/-! ## C08 -/

/-- Whatever the input, what both decoders leave unread is a suffix of what they were given. -/
theorem C08_suffix (t : Target) (n : Nat) (bytes rest : Bytes) (ix : GramIndex Char)
    (h : deGramIndex t n bytes = .ok (rest, ix)) :
    (∃ used, bytes = used ++ rest) ∧ ∀ (rest' : Bytes) (cl : Classic), deClassic t ix.container rest = .ok (rest', cl) →
      ∃ used, rest = used ++ rest' := by
  obtain ⟨h1, h2⟩ := (good_gram t n).ok _ _ _ h
  refine ⟨?_, ?_⟩
  · obtain ⟨u, e⟩ := h1; exact ⟨u, e.symm⟩
  · intro rest' cl h'
    obtain ⟨u, e⟩ := ((good_classic h2.container).ok _ _ _ h').1
    exact ⟨u, e.symm⟩

/-- A written file followed by anything loads to what the file alone loads to. -/
theorem C08_trailing {t o lower parse n input ix cl} (hn : 1 ≤ n) (h : buildAll t o lower parse n input = .ok (ix, cl))
    (o' : HashOrd) (t' : Target) (hf : Fits t' (serializeAll o' ix cl).length) (extra : Bytes) :
    deserializeAll t' n (serializeAll o' ix cl ++ extra) = deserializeAll t' n (serializeAll o' ix cl) ∧
      ∃ r, deserializeAll t' n (serializeAll o' ix cl) = .ok r := by
  have h1 := deserializeAll_fit o' (gramWf_of_built hn h) (classicWf_of_built h) hf
  have h2 := h1 []
  rw [List.append_nil] at h2
  rw [h1 extra, h2]
  exact ⟨rfl, _, rfl⟩

/-- The same for any bytes, written by this program or not: once some byte is left unread, appending more changes nothing. -/
theorem C08_trailing_any (t : Target) (n : Nat) (bytes rest₁ rest : Bytes) (ix : GramIndex Char) (cl : Classic)
    (h₁ : deGramIndex t n bytes = .ok (rest₁, ix)) (h₂ : deClassic t ix.container rest₁ = .ok (rest, cl)) (hne : rest ≠ [])
    (extra : Bytes) : deserializeAll t n (bytes ++ extra) = deserializeAll t n bytes := by
  have e : deBoth t n bytes = .ok (rest, (ix, cl)) := by
    unfold deBoth
    rw [De.bind_of_ok h₁, De.bind_of_ok h₂]; rfl
  rw [deserializeAll_eq, deserializeAll_eq, (lazy_both t n).stream _ _ _ e hne extra, e]
  rfl

/-- `C08_trailing_any` is not vacuous: an empty index followed by a byte. -/
example (b : UInt8) : deGramIndex .wasm32 3 [0, 0, 0, 0, 0, 0, 0, 0, b] = .ok ([0, 0, 0, b], ⟨[], [], ⟨[], ⟨[], []⟩, []⟩⟩) ∧
    deClassic .wasm32 ⟨[], ⟨[], []⟩, []⟩ [0, 0, 0, b] = .ok ([b], ⟨[], [], []⟩) := ⟨rfl, rfl⟩

/-- Without an unread byte it is false: the last number of a file may be cut short, and is then read as another number.
Here the single order ranks two products; its last rank is the byte `81`, to which `01` may be appended. -/
theorem C08_trailing_needed : ∃ bytes : Bytes, ∃ r r' : GramIndex Char × Classic,
    deserializeAll .wasm32 3 bytes = .ok r ∧ deserializeAll .wasm32 3 (bytes ++ [1]) = .ok r' ∧ r ≠ r' := by
  refine ⟨[0, 0, 0, 0, 0, 0, 0, 1, 0, 1, 0x81], (⟨[], [], ⟨[], ⟨[], []⟩, []⟩⟩, ⟨[], [], [([], [1])]⟩),
    (⟨[], [], ⟨[], ⟨[], []⟩, []⟩⟩, ⟨[], [], [([], [129])]⟩), rfl, rfl, ?_⟩
  intro h
  injection h with _ h
  injection h with _ _ h
  simp at h

/-! ## C12 -/

/-- Whatever bytes load, the result is consistent. -/
theorem C12 (t : Target) (n : Nat) (bytes : Bytes) (ix : GramIndex Char) (cl : Classic)
    (h : deserializeAll t n bytes = .ok (ix, cl)) :
    (∀ (k : Nat) (p : Product), ix.container.products[k]? = some p →
      p.sid = k ∧ ix.container.vendors.byId[p.vendor.id]? = some p.vendor) ∧
    (∀ (k : List Char) (l : List Product), (k, l) ∈ ix.data → k.length = n ∧ ∀ p ∈ l, ix.container.products[p.sid]? = some p) ∧
    (∀ (i : Nat) (tag : Tag), cl.tags[i]? = some tag → tag.id = i ∧
      (∀ p ∈ tag.products, ix.container.products[p.sid]? = some p) ∧
      ∀ s, s ∈ tag.ids ↔ ∃ p ∈ tag.products, p.sid = s) ∧
    (∀ cat ∈ cl.categories, ∀ op ∈ cat.options, (∀ p ∈ op.content, ix.container.products[p.sid]? = some p) ∧
      ∀ s, s ∈ op.ids ↔ ∃ p ∈ op.content, p.sid = s) ∧
    (cl.categories.flatMap fun c => c.options.map (·.sid)) =
      List.range (cl.categories.flatMap fun c => c.options.map (·.sid)).length := by
  rw [deserializeAll_eq, Res.bind_eq_ok] at h
  obtain ⟨⟨rest, r⟩, h1, h2⟩ := h
  simp only [Res.ok.injEq] at h2
  subst h2
  obtain ⟨_, hg, hc⟩ := (good_both t n).ok _ _ _ h1
  refine ⟨?_, ?_, ?_, ?_, hc.optionIds⟩
  · exact fun k p hp => ⟨hg.container.sid k p hp, hg.container.vendor p (List.mem_of_getElem? hp)⟩
  · exact fun k l hkl => hg.postings (k, l) hkl
  · exact fun i tag ht => ⟨hc.tags.id i tag ht, hc.tags.stored tag (List.mem_of_getElem? ht), hc.tags.contains tag (List.mem_of_getElem? ht)⟩
  · exact fun cat hcat op hop => ⟨(hc.options cat hcat op hop).stored, (hc.options cat hcat op hop).contains⟩

set_option maxRecDepth 20000 in
/-- `C12` is not vacuous: the file of three products loads, with two posting lists and three orders. -/
example : ∃ bytes ix cl, deserializeAll .wasm32 3 bytes = .ok (ix, cl) ∧ ix.container.products.length = 3 ∧
    ix.data.length = 2 ∧ ix.roots.length = 6 ∧ cl.order.length = 3 := by
  have h : ((runFile .debug64 parseOne 3 tied).bind fun b => match deserializeAll .wasm32 3 b with
      | .ok (ix, cl) => some (ix.container.products.length, ix.data.length, ix.roots.length, cl.order.length)
      | _ => none) = some (3, 2, 6, 3) := by decide +kernel
  obtain ⟨b, _, h2⟩ := Option.bind_eq_some_iff.1 h
  split at h2
  · rename_i ix cl e
    simp only [Option.some.injEq, Prod.mk.injEq] at h2
    exact ⟨b, ix, cl, e, h2.1, h2.2.1, h2.2.2.1, h2.2.2.2⟩
  · cases h2

/-! ## C13 -/

theorem deGramIndex_other {t : Target} {n m : Nat} (o : HashOrd) {ix : GramIndex Char} (h : GramWf n ix)
    (hf : Fits t (serGramIndex o ix).length) (hne : ix.data ≠ []) (hnm : n ≠ m) (rest : Bytes) :
    deGramIndex t m (serGramIndex o ix ++ rest) = .panic .assertFailed := by
  simp only [serGramIndex, List.length_append] at hf
  have e : serGramIndex o ix ++ rest = serContainer o ix.container ++ (serMap o "roots" serChar serNode ix.roots ++
      (serUsize ix.data.length ++ ((o.order "data" ix.data).flatMap serPosting ++ rest))) := by
    simp [serGramIndex, List.append_assoc]
  rw [e]
  unfold deGramIndex
  rw [De.bind_of_ok (deContainer_fit o h.container (hf.mono (by omega)) _)]
  have hroots : RT (serMap o "roots" serChar serNode ix.roots) (deMap t deChar (deNodeTop t)) (o.order "roots" ix.roots) := by
    have := deMap_fit (t := t) o "roots" (serK := serChar) (serV := serNode) (deK := deChar)
      (deV := deNodeTop t) (f := id) ix.roots h.roots (hf.mono (by omega))
      (fun p _ => serU64Loop_pos 9 _) (fun p _ _ => deChar_rt _) (fun p _ hh => deNodeTop_fit _ hh)
    simpa using this
  rw [De.bind_of_ok (hroots _)]
  have hpos : ∀ e : List Char × List Product, 1 ≤ (serPosting e).length := by
    intro e
    have := serProductSeq_pos e.2
    simp only [serPosting, List.length_append]; omega
  have h1 := length_flatMap_ge (l := o.order "data" ix.data) (ser := serPosting) fun a _ => hpos a
  have hperm := o.perm "data" ix.data
  have hlen := hperm.length_eq
  rw [De.bind_of_ok (deLen_rt (hf.mono (by omega)) _ _)]
  cases hd : o.order "data" ix.data with
  | nil => rw [hd] at hperm; exact absurd (List.nil_perm.1 hperm) hne
  | cons x l =>
    rw [hd] at hlen h1
    obtain ⟨hxn, _⟩ := h.grams x (hperm.mem_iff.1 (by rw [hd]; simp))
    have harr := serArray_length x.1
    have hle : (serPosting x).length ≤ ((o.order "data" ix.data).flatMap serPosting).length := by
      rw [hd]; exact length_le_flatMap (ser := serPosting) (by simp)
    simp only [serPosting, List.length_append] at hle
    rw [← hlen]
    simp only [List.length_cons, De.times, List.flatMap_cons, serPosting, serArray, List.append_assoc]
    have hu := deUsize_rt (t := t) (n := x.1.length) (hf.1.mono (by omega))
    have hu' : RT (serU64 (UInt64.ofNat x.1.length)) (deUsize t) x.1.length := hu
    rw [De.bind_apply]
    rw [De.bind_apply]
    unfold dePosting deArray
    rw [De.bind_apply, De.bind_apply, hu']
    simp only [Res.bind_ok]
    rw [if_neg (by omega)]
    rfl

/-- A file with at least one posting list, built for grams of length `n`, crashes when read as an index for another
length; it never yields an index. -/
theorem C13 {t o lower parse n input ix cl} (hn : 1 ≤ n) (h : buildAll t o lower parse n input = .ok (ix, cl))
    (hne : ix.data ≠ []) (m : Nat) (hnm : n ≠ m) (o' : HashOrd) (t' : Target) (hf : Fits t' (serializeAll o' ix cl).length)
    (rest : Bytes) : deserializeAll t' m (serializeAll o' ix cl ++ rest) = .panic .assertFailed := by
  simp only [serializeAll, List.length_append] at hf
  have := deGramIndex_other (t := t') o' (gramWf_of_built hn h) (hf.mono (by omega)) hne hnm (serClassic o' cl ++ rest)
  simp only [deserializeAll, serializeAll, List.append_assoc]
  rw [this]
  rfl

/-- Without posting lists the file loads for every gram length, to the same index: there is nothing to confuse. -/
theorem C13_empty {t o lower parse n input ix cl} (hn : 1 ≤ n) (h : buildAll t o lower parse n input = .ok (ix, cl))
    (he : ix.data = []) (m : Nat) (o' : HashOrd) (t' : Target) (hf : Fits t' (serializeAll o' ix cl).length) :
    deserializeAll t' m (serializeAll o' ix cl) = deserializeAll t' n (serializeAll o' ix cl) := by
  have hg := gramWf_of_built hn h
  have hg' : GramWf m ix := ⟨hg.container, hg.roots, hg.data, by rw [he]; simp⟩
  have h1 := deserializeAll_fit o' hg (classicWf_of_built h) hf []
  have h2 := deserializeAll_fit o' hg' (classicWf_of_built h) hf []
  rw [List.append_nil] at h1 h2
  rw [h1, h2]

set_option maxRecDepth 20000 in
/-- The hypothesis of `C13` is met by the catalogue `tied` with grams of length 3. -/
example : ∃ ix cl, buildAll .debug64 .ident (fun c => [c]) parseOne 3 tied = .ok (ix, cl) ∧ ix.data ≠ [] := by
  have h : ((runBuild .debug64 .ident parseOne 3 tied).map fun r => r.1.data.length) = some 2 := by decide +kernel
  obtain ⟨⟨ix, cl⟩, h1, h2⟩ := Option.map_eq_some_iff.1 h
  refine ⟨ix, cl, runBuild_sound h1, ?_⟩
  intro e
  simp [e] at h2

/-! ## C55: truncated files -/

theorem serUsize_one {n : Nat} (h : n < 128) : (serUsize n).length = 1 := by
  have : (UInt64.ofNat n).toNat = n := by rw [UInt64.toNat_ofNat']; exact Nat.mod_eq_of_lt (by omega)
  unfold serUsize serU64
  rw [serLoop_lt _ _ (by rw [this]; exact h)]
  rfl

theorem strict_times {ser : α → Bytes} {d : De α} (l : List α)
    (hr : ∀ a ∈ l, RT (ser a) d a) (hs : ∀ a ∈ l, Strict (ser a) d) : Strict (l.flatMap ser) (De.times l.length d) := by
  induction l with
  | nil => exact Strict.pure _
  | cons a l ih =>
    have ih := ih (fun b hb => hr b (by simp [hb])) fun b hb => hs b (by simp [hb])
    rw [List.flatMap_cons]
    exact Strict.bind_left (hr a (by simp)) (hs a (by simp)) (Strict.bind_pure ih)

theorem eats_vec (t : Target) (d : De α) (h : Good t d fun _ => True) : Eats (deVec t d) :=
  (eats_len t _).bind (Q := fun _ _ => True) (good_len t _) fun n _ => (h.times n).mono fun _ _ => trivial

theorem eats_str (t : Target) : Eats (deStr t) := by
  intro input rest a h
  unfold deStr at h
  obtain ⟨⟨r, len⟩, h1, h2⟩ := Res.bind_eq_ok.1 (show (deUsize t input >>= _) = _ from h)
  have := eats_usize t _ _ _ h1
  simp only at h2
  split at h2
  · split at h2
    · simp only [Res.ok.injEq, Prod.mk.injEq] at h2
      rw [← h2.1, List.length_drop]; omega
    · cases h2
  · cases h2

theorem strict_smallVec {t : Target} (l : List Nat) (hl : l.length < 128) (hv : ∀ v ∈ l, v < 128) (hf : ∀ n < 128, Fits t n) :
    Strict (serVec serUsize l) (deVec t (deUsize t)) := by
  refine Strict.bind_left (deLen_rt (hf _ hl) _) (Strict.of_length_one (serUsize_one hl) (eats_len t _)) ?_
  exact strict_times l (fun a ha => deUsize_rt (hf _ (hv a ha)).1)
    fun a ha => Strict.of_length_one (serUsize_one (hv a ha)) (eats_usize t)

theorem strict_orders {t : Target} (o : HashOrd) (ix : OrderIndex) (h : ix.length < 128)
    (hv : ∀ e ∈ ix, e.2.length < 128 ∧ ∀ v ∈ e.2, v < 128) (hk : ∀ e ∈ ix, RT (serStr e.1) (deStr t) e.1)
    (hf : ∀ n < 128, Fits t n) : Strict (serOrders o ix) (deOrders t) := by
  have hp := o.perm "orders" ix
  have hl : (o.order "orders" ix).length < 128 := by rw [hp.length_eq]; exact h
  refine Strict.bind_left (deLen_rt (hf _ hl) _) (Strict.of_length_one (serUsize_one hl) (eats_len t _)) ?_
  refine Strict.bind_pure (strict_times (ser := fun p : Str × List Nat => serStr p.1 ++ serVec serUsize p.2) _ ?_ ?_)
  · intro e he
    have he' := hp.mem_iff.1 he
    refine RT.bind (hk e he') (RT.bind_pure (f := fun v => (e.1, v)) ?_)
    exact deVec_rt e.2 (hf _ (hv e he').1) fun a ha => deUsize_rt (hf _ ((hv e he').2 a ha)).1
  · intro e he
    have he' := hp.mem_iff.1 he
    refine Strict.bind_eats (lazy_str t).stream (hk e he') (fun k => ?_) ?_
    · exact (eats_vec t _ ((good_usize t).mono fun _ _ => trivial)).bind (Q := fun _ _ => True) (good_vec (good_usize t))
        fun _ _ => Good.pure trivial
    · exact Strict.bind_pure (strict_smallVec e.2 (hv e he').1 (hv e he').2 hf)

theorem eats_map {K V : Type} [DecidableEq K] {t : Target} {dk : De K} {dv : De V} (hk : Good t dk fun _ => True)
    (hv : Good t dv fun _ => True) : Eats (deMap t dk dv) := by
  refine (eats_len t _).bind (Q := fun _ _ => True) (good_len t _) fun n _ => ?_
  refine Good.bind (Good.times (P := fun _ => True) ?_ n) fun l hl => Good.pure trivial
  exact hk.bind fun k _ => hv.bind fun v _ => Good.pure trivial

theorem eats_orders (t : Target) : Eats (deOrders t) :=
  eats_map (good_str t) ((good_vec (good_usize t)).mono fun _ _ => trivial)

theorem eats_tags (t : Target) (existing : List Product) : Eats (deTags t existing) := by
  refine (eats_len t _).bind (Q := fun _ _ => True) (good_len t _) fun len _ => ?_
  exact (Lazy.timesFrom (fun _ => (lazy_str t).bind fun _ _ => (lazy_productSeq t existing).bind fun _ _ => Lazy.true) len 0).good

theorem eats_classic (t : Target) (c : Container) : Eats (deClassic t c) := by
  refine Eats.bind (t := t) (P := fun _ => True) (Q := fun _ _ => True) ?_ (lazy_categories t _).good fun _ _ => ?_
  · exact (eats_len t _).bind (Q := fun _ _ => True) (good_len t _) fun n _ => (lazy_categoriesLoop t _ n 0).good
  · exact ((lazy_tags t _).bind fun _ _ => (lazy_orders t).bind (Q := fun _ => True) fun _ _ => Lazy.true).good

/-- The number of orders of a catalogue is three, each ranking all products. -/
theorem orders_small {o parse input c cl} (h : optimize o parse input = .ok (c, cl)) :
    cl.order.length = 3 ∧ ∀ e ∈ cl.order, e.2.Perm (List.range input.length) := by
  obtain ⟨prices, b⟩ := built_of_ok h
  obtain ⟨r1, r2, r3, ho, _, _, _, hperm⟩ := b.orders
  have hwf : AMap.Wf cl.order := by rw [ho]; exact ((AMap.Wf.nil.insert _ _).insert _ _).insert _ _
  constructor
  · rw [ho]; rfl
  · intro e he
    exact (orders_of h).2.2.1 e.1 e.2 (AMap.get_of_mem (k := e.1) (v := e.2) hwf he)

/-- No proper prefix of the file of a catalogue with fewer than 128 products loads. Missing for C55: larger catalogues,
whose last numbers take several bytes (`C55_false`). -/
theorem C55_partial {t o lower parse n input ix cl} (hn : 1 ≤ n) (h : buildAll t o lower parse n input = .ok (ix, cl))
    (hsmall : input.length < 128) (o' : HashOrd) (t' : Target) (hf : Fits t' (serializeAll o' ix cl).length) (h7 : Fits t' 128)
    (bytes missing : Bytes) (e : serializeAll o' ix cl = bytes ++ missing) (hne : missing ≠ []) :
    ∀ r, deserializeAll t' n bytes ≠ .ok r := by
  have hopt := buildAll_container h
  have hg := gramWf_of_built hn h
  have hc := classicWf_of_built h
  have hb := (builtAll_of_ok h).built
  obtain ⟨prices, b⟩ := hb
  obtain ⟨h3, hranks⟩ := orders_small hopt
  have hf0 := hf
  simp only [serializeAll, List.length_append] at hf
  have hpl : ix.container.products.length ≤ (serGramIndex o' ix).length := by
    have := products_le o' ix.container
    simp only [serGramIndex, List.length_append]; omega
  have hcl : Strict (serClassic o' cl) (deClassic t' (reloadGram o' ix).container) := by
    have hfc := hf
    simp only [serClassic, List.length_append] at hfc
    have e : serClassic o' cl = serCategories cl.categories ++ (serTags cl.tags ++ serOrders o' cl.order) := by
      simp [serClassic, List.append_assoc]
    rw [e]
    have hcF : Fits t' ix.container.products.length := hf.mono (by omega)
    refine Strict.bind_eats (a := reloadCategories 0 cl.categories) (lazy_categories t' _).stream ?_ (fun cats => ?_) ?_
    · have h1 := length_flatMap_ge (l := cl.categories) (ser := serCategory) fun a _ => serCategory_pos a
      simp only [serCategories, List.length_append] at hfc
      refine RT.bind (deLen_rt (hfc.mono (by omega)) _) ?_
      exact deCategoriesLoop_fit rfl hcF cl.categories 0 hc.options (hfc.mono (by omega))
    · exact (eats_tags t' _).bind (t := t') (P := fun _ => True) (Q := fun _ _ => True) (lazy_tags t' _).good fun _ _ =>
        ((lazy_orders t').bind (Q := fun _ => True) fun _ _ => Lazy.true).good
    · refine Strict.bind_eats (lazy_tags t' _).stream (deTags_fit rfl hcF hc.tags hc.tagIds (hfc.mono (by omega))) (fun _ => ?_) ?_
      · exact (eats_orders t').bind (t := t') (P := fun _ => True) (Q := fun _ _ => True) (lazy_orders t').good fun _ _ => Good.pure trivial
      · refine Strict.bind_pure (strict_orders o' cl.order (by omega) ?_ ?_ fun n hn => h7.mono (by omega))
        · intro e he
          have hp := hranks e he
          have := hp.length_eq
          rw [List.length_range] at this
          refine ⟨by omega, fun v hv => ?_⟩
          have := List.mem_range.1 (hp.mem_iff.1 hv)
          omega
        · intro e he
          refine deStr_rt' (hfc.mono ?_)
          have hm := length_le_flatMap (ser := fun p : Str × List Nat => serStr p.1 ++ serVec serUsize p.2)
            ((o'.perm "orders" cl.order).mem_iff.2 he)
          simp only [List.length_append] at hm
          simp only [serOrders, serMap, serMapEntries, List.length_append]
          omega
  have hboth : Strict (serializeAll o' ix cl) (deBoth t' n) := by
    refine Strict.bind_eats (lazy_gram t' n).stream (deGramIndex_fit o' hg (hf.mono (by omega))) (fun ix' => ?_) ?_
    · exact (eats_classic t' _).bind (t := t') (P := fun _ => True) (Q := fun _ _ => True) (lazy_classic t' _).good fun _ _ =>
        Good.pure trivial
    · exact Strict.bind_pure hcl
  intro r hr
  rw [deserializeAll_eq, Res.bind_eq_ok] at hr
  obtain ⟨⟨rest, r'⟩, h1, _⟩ := hr
  exact hboth bytes missing e hne _ _ h1

/-- 129 products without text. -/
def manyProducts : List RawProduct := List.replicate 129 (mkRaw [] [] [])

/-- Evaluates `C55_false`: length of the file, and whether it loads with another order when its last byte is missing. -/
def truncatedLoads : Option (Nat × Bool) := (runFile .debug64 parseOne 1 manyProducts).bind fun b =>
  match deserializeAll .wasm32 1 b.dropLast, deserializeAll .wasm32 1 b with
  | .ok (_, cl), .ok (_, cl') => some (b.length, cl.order == cl'.order)
  | _, _ => none

set_option maxRecDepth 100000 in
/-- The file of 129 products without its last byte loads, and the loaded order differs from the written one. -/
theorem C55_false : ∃ bytes : Bytes, indexAndSerialize .debug64 .ident (fun c => [c]) parseOne 1 manyProducts = .ok bytes ∧
    bytes ≠ [] ∧ ∃ ix cl ix' cl', deserializeAll .wasm32 1 bytes = .ok (ix, cl) ∧
      deserializeAll .wasm32 1 bytes.dropLast = .ok (ix', cl') ∧ cl'.order ≠ cl.order := by
  have h : truncatedLoads = some (1496, false) := by decide +kernel
  unfold truncatedLoads at h
  obtain ⟨b, hb, h2⟩ := Option.bind_eq_some_iff.1 h
  obtain ⟨_, _, _, _, hs⟩ := runFile_sound (by decide) (by decide) hb
  split at h2
  · rename_i ix' cl' ix cl e' e
    simp only [Option.some.injEq, Prod.mk.injEq, beq_eq_false_iff_ne] at h2
    refine ⟨b, hs, ?_, ix, cl, ix', cl', e, e', h2.2⟩
    intro hb; rw [hb] at h2; simp at h2
  · cases h2

end Idx
