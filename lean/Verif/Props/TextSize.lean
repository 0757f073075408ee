import Verif.Props.FileSize
import Verif.Props.Text

/-! # C82, for catalogue texts: the file written for a text is at most proportional to the text -/
namespace Idx

/-! ## A catalogue is no larger than a text it is read from -/

/-- The least number of bytes spelling an element of a string literal. -/
def Piece.weight : Piece → Nat
  | .plain c => c.utf8Size
  | .esc _ => 2
  | .hex _ => 6

mutual
/-- A number of bytes any text of the value has. -/
def Json.weight : Json → Nat
  | .str ps => (ps.map Piece.weight).sum + 2
  | .arr l => 2 + Json.weights l
  | .obj l => 2 + Json.weightm l
  | _ => 0

/-- The same for a list of values. -/
def Json.weights : List Json → Nat
  | [] => 0
  | v :: l => v.weight + Json.weights l

/-- The same for the values of members. -/
def Json.weightm : List (List Piece × Json) → Nat
  | [] => 0
  | (_, v) :: l => v.weight + Json.weightm l
end

theorem weights_eq (l : List Json) : Json.weights l = (l.map Json.weight).sum := by
  induction l with
  | nil => simp [Json.weights]
  | cons v l ih => simp [Json.weights, ih]

theorem weightm_eq (l : List (List Piece × Json)) : Json.weightm l = (l.map fun m => m.2.weight).sum := by
  induction l with
  | nil => simp [Json.weightm]
  | cons v l ih => simp [Json.weightm, ih]

theorem byteLen_cons' (c : Char) (s : Str) : byteLen (c :: s) = c.utf8Size + byteLen s := by
  simp [byteLen]

theorem byteLen_append' (s s' : Str) : byteLen (s ++ s') = byteLen s + byteLen s' := by
  simp [byteLen]

theorem length_le_byteLen (s : Str) : s.length ≤ byteLen s := by
  induction s with
  | nil => simp
  | cons c s ih =>
    have := c.utf8Size_pos
    rw [byteLen_cons', List.length_cons]
    omega

theorem Spelled.weight {p : Piece} {s : Str} (h : Spelled p s) : p.weight ≤ byteLen s := by
  cases h with
  | plain c => simp [Piece.weight, byteLen]
  | esc c _ =>
    have := length_le_byteLen ['\\', c]
    simpa [Piece.weight] using this
  | hex a b c d i j k l =>
    have := length_le_byteLen ['\\', 'u', a, b, c, d]
    simpa [Piece.weight] using this

theorem Literal.weight {ps : List Piece} {t : Str} (h : Literal ps t) : (ps.map Piece.weight).sum ≤ byteLen t := by
  induction h with
  | nil => simp
  | cons h _ ih =>
    have := h.weight
    rw [byteLen_append', List.map_cons, List.sum_cons]
    omega

mutual
theorem Value.weight {v : Json} {t : Str} : Value v t → v.weight ≤ byteLen t
  | .null => by simp [Json.weight]
  | .true => by simp [Json.weight]
  | .false => by simp [Json.weight]
  | .num _ _ => by simp [Json.weight]
  | .str h => by
    have := h.weight
    have e : '"'.utf8Size = 1 := by decide
    simp only [Json.weight, byteLen_cons', byteLen_append', byteLen_nil, e]
    omega
  | .arrNil (w := w) _ => by
    have e : '['.utf8Size = 1 := by decide
    have e' : ']'.utf8Size = 1 := by decide
    simp only [Json.weight, Json.weights, byteLen_cons', byteLen_append', byteLen_nil, e, e']
    omega
  | .arr h => by
    have := h.weight
    have e : '['.utf8Size = 1 := by decide
    have e' : ']'.utf8Size = 1 := by decide
    simp only [Json.weight, byteLen_cons', byteLen_append', byteLen_nil, e, e']
    omega
  | .objNil (w := w) _ => by
    have e : '{'.utf8Size = 1 := by decide
    have e' : '}'.utf8Size = 1 := by decide
    simp only [Json.weight, Json.weightm, byteLen_cons', byteLen_append', byteLen_nil, e, e']
    omega
  | .obj h => by
    have := h.weight
    have e : '{'.utf8Size = 1 := by decide
    have e' : '}'.utf8Size = 1 := by decide
    simp only [Json.weight, byteLen_cons', byteLen_append', byteLen_nil, e, e']
    omega

theorem Items.weight {l : List Json} {t : Str} : Items l t → Json.weights l ≤ byteLen t
  | .one _ hv _ => by
    have := hv.weight
    simp only [Json.weights, byteLen_append']
    omega
  | .more _ hv _ hl => by
    have := hv.weight
    have := hl.weight
    simp only [Json.weights, byteLen_append', byteLen_cons']
    omega

theorem Members.weight {l : List (List Piece × Json)} {t : Str} : Members l t → Json.weightm l ≤ byteLen t
  | .one _ _ _ _ hv _ => by
    have := hv.weight
    simp only [Json.weightm, byteLen_append', byteLen_cons']
    omega
  | .more _ _ _ _ hv _ hl => by
    have := hv.weight
    have := hl.weight
    simp only [Json.weightm, byteLen_append', byteLen_cons']
    omega
end

theorem utf8Size_of_hex {c : Char} : c.utf8Size ≤ 6 := by
  have := c.utf8Size_le_four
  omega

theorem Spells.weight {ps : List Piece} {s : Str} (h : Spells ps s) : byteLen s ≤ (ps.map Piece.weight).sum := by
  induction h with
  | nil => simp [byteLen]
  | plain c _ ih => simp only [byteLen_cons', List.map_cons, List.sum_cons, Piece.weight]; omega
  | esc c x hx _ ih =>
    have h1 : x.utf8Size = 1 := by
      rw [← escapeValue_iff] at hx
      unfold escapeValue at hx
      split at hx <;> cases hx <;> decide
    simp only [byteLen_cons', List.map_cons, List.sum_cons, Piece.weight, h1]; omega
  | code c _ ih =>
    have := @utf8Size_of_hex c
    simp only [byteLen_cons', List.map_cons, List.sum_cons, Piece.weight]; omega
  | pair c hi lo _ _ _ _ _ _ ih =>
    have := @utf8Size_of_hex c
    simp only [byteLen_cons', List.map_cons, List.sum_cons, Piece.weight]; omega

theorem Says.weight {j : Json} {s : Str} (h : Says j s) : strUnits s ≤ j.weight := by
  obtain ⟨ps, rfl, h⟩ := h
  have := h.weight
  simp only [strUnits, Json.weight]
  omega

theorem spells_plain (s : Str) : Spells (s.map .plain) s := by
  induction s with
  | nil => exact .nil
  | cons c s ih => exact .plain c ih

theorem SaysPlainly.says {j : Json} {s : Str} (h : SaysPlainly j s) : Says j s := ⟨_, h, spells_plain s⟩

theorem pointwise_weight {f : α → Nat} : ∀ (js : List Json) (l : List α), js.length = l.length →
    (∀ (i : Nat) (x : Json) (a : α), js[i]? = some x → l[i]? = some a → f a ≤ x.weight) →
    (l.map f).sum ≤ (js.map Json.weight).sum
  | [], [], _, _ => by simp
  | [], _ :: _, h, _ => by simp at h
  | _ :: _, [], h, _ => by simp at h
  | x :: js, a :: l, h, hp => by
    have h0 := hp 0 x a rfl rfl
    have h1 := pointwise_weight js l (by simpa using h) fun i y b hy hb => hp (i + 1) y b (by simpa using hy) (by simpa using hb)
    simp only [List.map_cons, List.sum_cons]
    omega

theorem SaysList.weight {P : Json → α → Prop} {f : α → Nat} (hP : ∀ j a, P j a → f a ≤ j.weight) {j : Json} {l : List α}
    (h : SaysList P j l) : (l.map f).sum + 2 ≤ j.weight := by
  obtain ⟨js, rfl, h1, h2⟩ := h
  have := pointwise_weight js l h1 fun i x a hx ha => hP x a (h2 i x a hx ha)
  rw [Json.weight, weights_eq]
  omega

theorem only_weight : ∀ (names : List Str) (vs : List Json) (members : List (List Piece × Json)), names.Nodup →
    vs.length = names.length →
    (∀ (i : Nat) (name : Str) (v : Json), names[i]? = some name → vs[i]? = some v → OnlyMember members name v) →
    (vs.map Json.weight).sum ≤ (members.map fun m => m.2.weight).sum
  | [], [], _, _, _, _ => by simp
  | [], _ :: _, _, _, h, _ => by simp at h
  | _ :: _, [], _, _, h, _ => by simp at h
  | name :: names, v :: vs, members, hd, hl, h => by
    obtain ⟨a, k, b, rfl, hk, hn⟩ := h 0 name v rfl rfl
    have h1 := only_weight names vs (a ++ b) (List.nodup_cons.1 hd).2 (by simpa using hl) fun i name' v' hn' hv' => by
      obtain ⟨a', k', b', he, hk', hne⟩ := h (i + 1) name' v' (by simpa using hn') (by simpa using hv')
      have hdiff : name ≠ name' := fun e => (List.nodup_cons.1 hd).1 (e ▸ List.mem_of_getElem? hn')
      have hf : ((a ++ (k, v) :: b).filter fun m => decide (decodePieces m.1 = some name')) = [(k', v')] :=
        (filter_single_iff _ _ _).2 ⟨a', b', he, by simpa [decodePieces_iff] using hk', fun y hy => by
          simpa [decodePieces_iff] using hne y hy⟩
      have hkv : ¬ decodePieces k = some name' := fun e => hdiff (hk.unique ((decodePieces_iff _ _).1 e))
      rw [List.filter_append, List.filter_cons_of_neg (by simpa using hkv), ← List.filter_append] at hf
      obtain ⟨a2, b2, e2, p2, n2⟩ := (filter_single_iff _ _ _).1 hf
      exact ⟨a2, k', b2, e2, by simpa [decodePieces_iff] using p2, fun m hm => by
        simpa [decodePieces_iff] using n2 m hm⟩
    simp only [List.map_cons, List.sum_cons, List.map_append, List.sum_append] at h1 ⊢
    omega

theorem Fields.weight {names : List Str} (hd : names.Nodup) {j : Json} {vs : List Json} (h : Fields names j vs) :
    (vs.map Json.weight).sum + 2 ≤ j.weight := by
  cases h with
  | arr _ => rw [Json.weight, weights_eq]; omega
  | obj _ hl h =>
    have := only_weight _ _ _ hd hl h
    rw [Json.weight, weightm_eq]
    omega

theorem SaysMedia.weight {j : Json} {url : Str} (h : SaysMedia j url) : strUnits url ≤ j.weight := by
  obtain ⟨u, h1, h2⟩ := h
  have h3 := h1.weight (by decide)
  have h4 := h2.says.weight
  simp only [List.map_cons, List.map_nil, List.sum_cons, List.sum_nil] at h3
  omega

theorem SaysOption.weight {j : Json} {x : RawOption} (h : SaysOption j x) :
    strUnits x.name + (x.values.map strUnits).sum ≤ j.weight := by
  obtain ⟨name, values, h1, h2, h3⟩ := h
  have h4 := h1.weight (by decide)
  have h5 := h2.says.weight
  have h6 := h3.weight fun _ _ h => h.says.weight
  simp only [List.map_cons, List.map_nil, List.sum_cons, List.sum_nil] at h4
  omega

theorem SaysProduct.weight {j : Json} {p : RawProduct} (h : SaysProduct j p) : rawSize p ≤ j.weight := by
  obtain ⟨description, tags, title, vendor, id, options, price, media, hf, h1, h2, h3, h4, h5, h6, _, h8⟩ := h
  have hf := hf.weight (by decide)
  have h1 := h1.weight
  have h2 := h2.weight fun _ _ h => h.says.weight
  have h3 := h3.says.weight
  have h4 := h4.says.weight
  have h5 := h5.says.weight
  have h6 := h6.weight fun _ _ h => h.weight
  have h8 := h8.weight fun _ _ h => h.weight
  simp only [List.map_cons, List.map_nil, List.sum_cons, List.sum_nil] at hf
  simp only [rawSize]
  omega

theorem text_weight {j : Json} {text : Str} (h : IsText j text) : j.weight ≤ byteLen text := by
  obtain ⟨w, t, w', _, hv, _, rfl⟩ := h
  have := hv.weight
  simp only [byteLen_append']
  omega

theorem members_weight : ∀ (members : List (List Piece × Json)) (entries : List (Str × RawProduct)),
    members.length = entries.length →
    (∀ (i : Nat) (m : List Piece × Json) (e : Str × RawProduct), members[i]? = some m → entries[i]? = some e →
      rawSize e.2 ≤ m.2.weight) →
    (entries.map fun e => rawSize e.2).sum ≤ (members.map fun m => m.2.weight).sum
  | [], [], _, _ => by simp
  | [], _ :: _, h, _ => by simp at h
  | _ :: _, [], h, _ => by simp at h
  | x :: js, a :: l, h, hp => by
    have h0 := hp 0 x a rfl rfl
    have h1 := members_weight js l (by simpa using h) fun i y b hy hb => hp (i + 1) y b (by simpa using hy) (by simpa using hb)
    simp only [List.map_cons, List.sum_cons]
    omega

theorem totalChars_le {lower : Char → List Char} {k : Nat} (hk : ∀ c, (lower c).length ≤ k) (input : List RawProduct) :
    totalChars lower input ≤ k * catalogueSize input := by
  have hflat : ∀ s : Str, (s.flatMap lower).length ≤ k * byteLen s := by
    intro s
    induction s with
    | nil => simp
    | cons c s ih =>
      have h1 := hk c
      have h2 := c.utf8Size_pos
      have h3 : k * 1 ≤ k * c.utf8Size := Nat.mul_le_mul_left k h2
      rw [byteLen_cons', List.flatMap_cons, List.length_append, Nat.mul_add]
      omega
  induction input with
  | nil => simp [totalChars]
  | cons raw input ih =>
    have h1 := hflat (raw.description ++ raw.title ++ raw.vendor)
    have h2 : byteLen (raw.description ++ raw.title ++ raw.vendor) ≤ rawSize raw := by
      simp only [byteLen_append', rawSize, strUnits]
      omega
    have h3 := Nat.mul_le_mul_left k h2
    have e1 : totalChars lower (raw :: input) = (textOf lower raw).length + totalChars lower input := by simp [totalChars]
    have e2 : catalogueSize (raw :: input) = rawSize raw + catalogueSize input := by simp [catalogueSize]
    rw [e1, e2, Nat.mul_add]
    simp only [textOf]
    omega

/-- What is kept of a catalogue text is no larger than the text. -/
theorem catalogue_le_text {text : Str} {entries last : List (Str × RawProduct)} (h1 : readEntries text = some entries)
    (h2 : LastOfKeys entries last) : catalogueSize (last.map (·.2)) ≤ (utf8 text).length := by
  obtain ⟨members, hm, hl, hs⟩ := (C63 text entries).1 h1
  have hw := text_weight hm
  have he := members_weight members entries hl fun i m e hm he => (hs i m e hm he).2.weight
  have hlast : ((last.map fun e => rawSize e.2)).sum ≤ (entries.map fun e => rawSize e.2).sum := by
    classical
    refine nodup_sum_le (f := fun e : Str × RawProduct => rawSize e.2) last entries (List.Pairwise.imp (fun h e => h (congrArg Prod.fst e)) (List.pairwise_map.1 h2.1)) fun e he => ?_
    obtain ⟨a, b, hab, _⟩ := (h2.2 e.1 e.2).1 he
    rw [hab]; simp
  rw [Json.weight, weightm_eq] at hw
  rw [catalogueSize, List.map_map, utf8_length]
  simp only [Function.comp_def]
  omega

/-- The file written for a catalogue text is at most proportional to the bytes of the text. `k` bounds how many
characters the lower case of one character has. -/
theorem C82_text {t : Target} {o : HashOrd} {lower : Char → List Char} {parse : Str → Option F32} {n k : Nat} {text : Str}
    {bytes : Bytes} (hn : 1 ≤ n) (hk : ∀ c, (lower c).length ≤ k) (h : indexText t o lower parse n text = .ok bytes) :
    bytes.length ≤ (50 + (80 * n + 30) * k) * (utf8 text).length + 1000 := by
  obtain ⟨entries, last, ix, cl, h1, h2, h3, rfl⟩ := indexText_ok h
  have hsize := catalogue_le_text h1 h2
  have hc := totalChars_le hk (last.map (·.2))
  have hb := C82 (o' := o) hn h3
  have m1 := Nat.mul_le_mul_left k hsize
  have m2 := Nat.mul_le_mul_left (80 * n + 30) (Nat.le_trans hc m1)
  rw [Nat.add_mul, Nat.mul_assoc]
  omega

theorem fits_of_small {t t' : Target} {o : HashOrd} {lower : Char → List Char} {parse : Str → Option F32} {text : Str}
    {bytes : Bytes} (hk : ∀ c, (lower c).length ≤ 3) (h : indexText t o lower parse ngramIndexSize text = .ok bytes)
    (hs : (utf8 text).length ≤ 3000000) (ht : t'.usizeBits = 32 ∨ t'.usizeBits = 64)
    (hr : ∀ what m, m ≤ 4020001000 → t'.reserves what m = true) : Fits t' bytes.length := by
  have hb := C82_text (by decide) hk h
  have hb : bytes.length ≤ 4020001000 := by
    simp only [ngramIndexSize] at hb
    omega
  refine ⟨⟨?_, by omega⟩, fun what m hm => hr what m (by omega)⟩
  rcases ht with ht | ht <;> rw [ht] <;> omega

/-- A catalogue text of at most three million bytes gives a file whose every product is read back, also where `usize`
has 32 bits, as long as the reader has the memory: the file never outgrows what the format can carry. A lower case has
at most three characters in Rust. -/
theorem C82_loads {t t' : Target} {o : HashOrd} {lower : Char → List Char} {parse : Str → Option F32} {text : Str}
    {bytes : Bytes} (hk : ∀ c, (lower c).length ≤ 3) (h : indexText t o lower parse ngramIndexSize text = .ok bytes)
    (hs : (utf8 text).length ≤ 3000000) (ht : t'.usizeBits = 32 ∨ t'.usizeBits = 64)
    (hr : ∀ what m, m ≤ 4020001000 → t'.reserves what m = true) :
    ∃ entries last ix cl, readEntries text = some entries ∧ LastOfKeys entries last ∧
      deserializeAll t' ngramIndexSize bytes = .ok (ix, cl) ∧
      ix.container.products.map (·.id) = last.map fun e => e.2.id := by
  have hf := fits_of_small hk h hs ht hr
  obtain ⟨members, entries, last, ix, cl, h1, h2, h3, h4, h5, h6⟩ := C65 (by decide) h hf
  refine ⟨entries, last, ix, cl, (C63 text entries).2 ⟨members, h1, h2⟩, h3, h4, List.ext_getElem? fun i => ?_⟩
  rw [List.getElem?_map, List.getElem?_map]
  rcases hi : last[i]? with _ | ⟨key, raw⟩
  · rw [List.getElem?_eq_none_iff] at hi
    rw [List.getElem?_eq_none_iff.2 (by omega)]
    rfl
  · obtain ⟨p, _, hp, e, _⟩ := h6 i key raw hi
    rw [hp]
    simp [e]

set_option maxRecDepth 20000 in
/-- The hypotheses of `C82_loads` are met by a text of a product. -/
example : ∃ bytes, indexText .debug64 .rev (fun c => [c]) parseOne ngramIndexSize
      ("{\"a\": ".toList ++ sampleText "T" "" "" ++ "}".toList) = .ok bytes ∧
    (utf8 ("{\"a\": ".toList ++ sampleText "T" "" "" ++ "}".toList)).length ≤ 3000000 := by
  have hc : readCatalogue ("{\"a\": ".toList ++ sampleText "T" "" "" ++ "}".toList) =
    some [("a".toList, sampleProduct "T")] := by decide +kernel
  have h : ((runFileO .debug64 .rev parseOne ngramIndexSize [sampleProduct "T"]).map fun b => decide (b.length ≤ 1000)) = some true := by
    decide +kernel
  obtain ⟨a, ha, _⟩ := Option.map_eq_some_iff.1 h
  obtain ⟨_, _, _, _, h3⟩ := runFileO_sound (by decide) (by decide) ha
  refine ⟨a, ?_, by decide +kernel⟩
  unfold indexText
  rw [hc]
  exact h3

end Idx
