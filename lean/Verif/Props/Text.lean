import Verif.Props.Catalogue
import Verif.Props.Codec
import Verif.Props.Json
/-! # C65: from the catalogue text to the loaded file -/
namespace Idx

/-- Spec: the entries of the text no later entry has the key of, each once, in some order. -/
def LastOfKeys (entries last : List (Str × RawProduct)) : Prop :=
  (last.map (·.1)).Nodup ∧
    ∀ k p, (k, p) ∈ last ↔ ∃ before later, entries = before ++ (k, p) :: later ∧ ∀ e ∈ later, e.1 ≠ k

theorem indexText_ok {t o lower parse n text} {bytes : Bytes} (h : indexText t o lower parse n text = .ok bytes) :
    ∃ entries last ix cl, readEntries text = some entries ∧ LastOfKeys entries last ∧
      buildAll t o lower parse n (last.map (·.2)) = .ok (ix, cl) ∧ bytes = serializeAll o ix cl := by
  unfold indexText at h
  split at h
  · rename_i catalogue hc
    obtain ⟨ix, cl, h1, h2⟩ := indexAndSerialize_ok h
    obtain ⟨entries, h3, h4, h5⟩ := C63_table text catalogue hc
    refine ⟨entries, o.order "catalogue" catalogue, ix, cl, h3, ⟨?_, fun k p => ?_⟩, h1, h2⟩
    · exact ((o.perm "catalogue" catalogue).map _).nodup_iff.2 h4
    · rw [(o.perm "catalogue" catalogue).mem_iff]; exact h5 k p
  · cases h

/-- The file made from a text holds, in the order of its products, exactly the entries of the text that no later entry
with the same key replaces: their ids, titles, vendors, prices, and the first bytes of their descriptions. -/
theorem C65 {t t' : Target} {o : HashOrd} {lower : Char → List Char} {parse : Str → Option F32} {n : Nat} {text : Str}
    {bytes : Bytes} (hn : 1 ≤ n) (h : indexText t o lower parse n text = .ok bytes) (hf : Fits t' bytes.length) :
    ∃ members entries last ix cl, IsText (.obj members) text ∧ SaysCatalogue members entries ∧ LastOfKeys entries last ∧
      deserializeAll t' n bytes = .ok (ix, cl) ∧ ix.container.products.length = last.length ∧
      ∀ (i : Nat) (key : Str) (raw : RawProduct), last[i]? = some (key, raw) →
        ∃ p x, ix.container.products[i]? = some p ∧ p.id = raw.id ∧ p.title = raw.title ∧ p.vendor.name = raw.vendor ∧
          (∃ cut, raw.description = p.description ++ cut) ∧
          (byteLen raw.description ≤ 100 → p.description = raw.description) ∧ parse raw.price.min.amount = some x ∧
          FeatureSet.get ix.container.extra p "price".toList = some (.float x) := by
  obtain ⟨entries, last, jx, dl, h1, h2, h3, rfl⟩ := indexText_ok h
  obtain ⟨ix, cl, h4, s⟩ := C09 hn h3 o t' hf []
  rw [List.append_nil] at h4
  obtain ⟨members, hm, hs⟩ := (C63 text entries).1 h1
  have hopt : optimize o parse (last.map (·.2)) = .ok (jx.container, dl) := by
    unfold buildAll at h3
    obtain ⟨⟨c, cl'⟩, g1, g2⟩ := Res.bind_eq_ok.1 h3
    simp only [Res.pure_eq, Res.ok.injEq, Prod.mk.injEq] at g2
    obtain ⟨rfl, rfl⟩ := g2
    exact g1
  obtain ⟨g1, g2⟩ := C14 hopt
  refine ⟨members, entries, last, ix, cl, hm, hs, h2, h4, ?_, fun i key raw hi => ?_⟩
  · rw [s.products, List.length_map, g1, List.length_map]
  · have hi' : (last.map (·.2))[i]? = some raw := by rw [List.getElem?_map, hi]; rfl
    obtain ⟨p, hp, e1, e2, e3, e4, _⟩ := g2 i raw hi'
    obtain ⟨x, hx, hx'⟩ := C16 hopt i raw hi' p hp
    refine ⟨limited p, x, by rw [s.products, List.getElem?_map, hp]; rfl, e1, e2, e4, ?_, ?_, hx, ?_⟩
    · rw [← e3]
      obtain ⟨cut, hc⟩ := limit_prefix p.description 100
      exact ⟨cut, hc.symm⟩
    · rw [← e3]
      exact (C06 p.description 100).2.2
    · change (match AMap.get ix.container.extra "price".toList with | none => none | some f => f.get p.sid) = _
      rw [s.extra]
      exact hx'

/-- What becomes of a text. One that is no catalogue is answered with nothing. Otherwise the indexer panics if the lowest
price of an entry not replaced by a later one is no number, and writes a file if all are. -/
theorem C65_outcome (t : Target) (o : HashOrd) (lower : Char → List Char) (parse : Str → Option F32) {n : Nat} (h1 : 1 ≤ n)
    (h2 : n ≤ 764) (text : Str) :
    (indexText t o lower parse n text = .none ↔
      ¬∃ members entries, IsText (.obj members) text ∧ SaysCatalogue members entries) ∧
    ((∃ w, indexText t o lower parse n text = .panic w) ↔
      ∃ members before key raw later, IsText (.obj members) text ∧ SaysCatalogue members (before ++ (key, raw) :: later) ∧
        (∀ e ∈ later, e.1 ≠ key) ∧ parse raw.price.min.amount = none) := by
  have hread : (¬∃ members entries, IsText (.obj members) text ∧ SaysCatalogue members entries) ↔ readEntries text = none := by
    constructor
    · intro h
      cases hr : readEntries text with
      | none => rfl
      | some entries =>
        obtain ⟨members, a, b⟩ := (C63 text entries).1 hr
        exact absurd ⟨members, entries, a, b⟩ h
    · rintro h ⟨members, entries, a, b⟩
      rw [(C63 text entries).2 ⟨members, a, b⟩] at h
      cases h
  rw [hread]
  cases hr : readEntries text with
  | none =>
    have : indexText t o lower parse n text = .none := by unfold indexText readCatalogue; rw [hr]; rfl
    rw [this]
    refine ⟨by simp, (fun ⟨w, h⟩ => nomatch h), ?_⟩
    rintro ⟨members, before, key, raw, later, a, b, _⟩
    rw [(C63 text _).2 ⟨members, a, b⟩] at hr
    cases hr
  | some entries =>
    have hc : readCatalogue text = some (AMap.collect entries) := by unfold readCatalogue; rw [hr]; rfl
    obtain ⟨entries', hr', _, hmem⟩ := C63_table text _ hc
    rw [hr] at hr'
    cases hr'
    have hidx : indexText t o lower parse n text = (buildAll t o lower parse n
        ((o.order "catalogue" (AMap.collect entries)).map (·.2))).bind fun r => .ok (serializeAll o r.1 r.2) := by
      unfold indexText
      rw [hc]
      exact indexAndSerialize_eq t o lower parse h1 h2 _
    generalize hin : (o.order "catalogue" (AMap.collect entries)).map (·.2) = input at hidx
    have hbad : (∃ raw ∈ input, parse raw.price.min.amount = none) ↔
        ∃ members before key raw later, IsText (.obj members) text ∧ SaysCatalogue members (before ++ (key, raw) :: later) ∧
          (∀ e ∈ later, e.1 ≠ key) ∧ parse raw.price.min.amount = none := by
      rw [← hin]
      constructor
      · rintro ⟨raw, h, hp⟩
        obtain ⟨⟨k, raw⟩, g, e⟩ := List.mem_map.1 h
        cases e
        rw [(o.perm "catalogue" _).mem_iff] at g
        obtain ⟨before, later, rfl, hl⟩ := (hmem k raw).1 g
        obtain ⟨members, a, b⟩ := (C63 text _).1 hr
        exact ⟨members, before, k, raw, later, a, b, hl, hp⟩
      · rintro ⟨members, before, k, raw, later, a, b, hl, hp⟩
        have e := (C63 text _).2 ⟨members, a, b⟩
        rw [hr, Option.some.injEq] at e
        exact ⟨raw, List.mem_map.2 ⟨(k, raw), (o.perm "catalogue" _).mem_iff.2 ((hmem k raw).2 ⟨before, later, e, hl⟩), rfl⟩, hp⟩
    rw [hidx, ← hbad]
    obtain ⟨c1, c2⟩ := C24 o parse input
    rw [← c1]
    unfold buildAll
    cases hopt : optimize o parse input with
    | none => exact absurd hopt c2
    | panic w => exact ⟨⟨(fun h => nomatch h), (fun h => nomatch h)⟩, ⟨fun _ => ⟨w, rfl⟩, fun _ => ⟨w, rfl⟩⟩⟩
    | ok r => exact ⟨⟨(fun h => nomatch h), (fun h => nomatch h)⟩, ⟨(fun ⟨_, h⟩ => nomatch h), (fun ⟨_, h⟩ => nomatch h)⟩⟩

set_option maxRecDepth 20000 in
/-- The hypotheses of `C65` are met by a text with three entries, two of them with the same key. -/
example : ∃ bytes, indexText .debug64 .rev (fun c => [c]) parseOne 3 ("{\"a\": ".toList ++ sampleText "T" "" "" ++
      ", \"b\": ".toList ++ sampleText "U" "" "" ++ ", \"\\u0061\": ".toList ++ sampleText "W" "" "" ++ "}".toList) = .ok bytes ∧
    Fits .wasm32 bytes.length := by
  have hc : readCatalogue ("{\"a\": ".toList ++ sampleText "T" "" "" ++ ", \"b\": ".toList ++ sampleText "U" "" "" ++
      ", \"\\u0061\": ".toList ++ sampleText "W" "" "" ++ "}".toList) =
    some [("a".toList, sampleProduct "W"), ("b".toList, sampleProduct "U")] := by decide +kernel
  have h : ((runFileO .debug64 .rev parseOne 3 [sampleProduct "U", sampleProduct "W"]).map fun b => decide (b.length ≤ 1000)) = some true := by
    decide +kernel
  obtain ⟨a, ha, h⟩ := Option.map_eq_some_iff.1 h
  obtain ⟨_, _, _, _, h3⟩ := runFileO_sound (by decide) (by decide) ha
  have h := of_decide_eq_true h
  refine ⟨a, ?_, .of_carried (by simp only [Carried]; omega) fun _ _ => rfl⟩
  unfold indexText
  rw [hc]
  exact h3

end Idx
