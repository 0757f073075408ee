import Verif.Props.Rewrite
import Verif.Props.Text
/-! # C84: written files are told apart -/
namespace Idx

/-- A file is determined by the index loaded from it, whatever followed it. -/
theorem C84_loaded {t₁ t₂ t' : Target} {o₁ o₂ : HashOrd} {lower₁ lower₂ : Char → List Char} {parse₁ parse₂ : Str → Option F32}
    {n : Nat} {text₁ text₂ : Str} {file₁ file₂ : Bytes} (hn : 1 ≤ n) (h₁ : indexText t₁ o₁ lower₁ parse₁ n text₁ = .ok file₁)
    (h₂ : indexText t₂ o₂ lower₂ parse₂ n text₂ = .ok file₂) (f₁ : Fits t' file₁.length) (f₂ : Fits t' file₂.length)
    (rest₁ rest₂ : Bytes) (h : deserializeAll t' n (file₁ ++ rest₁) = deserializeAll t' n (file₂ ++ rest₂)) : file₁ = file₂ := by
  obtain ⟨_, _, ix₁, cl₁, _, _, b₁, rfl⟩ := indexText_ok h₁
  obtain ⟨_, _, ix₂, cl₂, _, _, b₂, rfl⟩ := indexText_ok h₂
  obtain ⟨a₁, a₂, l, _⟩ := C09 hn b₁ o₁ t' f₁ rest₁
  rw [← C79_bytes hn b₁ f₁ rest₁ l, ← C79_bytes hn b₂ f₂ rest₂ (h ▸ l)]

/-- Where bytes begin with a written file, no other written file begins there: no file is the beginning of another, and
files written one after the other can be separated in one way only. -/
theorem C84 {t₁ t₂ t' : Target} {o₁ o₂ : HashOrd} {lower₁ lower₂ : Char → List Char} {parse₁ parse₂ : Str → Option F32}
    {n : Nat} {text₁ text₂ : Str} {file₁ file₂ : Bytes} (hn : 1 ≤ n) (h₁ : indexText t₁ o₁ lower₁ parse₁ n text₁ = .ok file₁)
    (h₂ : indexText t₂ o₂ lower₂ parse₂ n text₂ = .ok file₂) (f₁ : Fits t' file₁.length) (f₂ : Fits t' file₂.length)
    (rest₁ rest₂ : Bytes) (h : file₁ ++ rest₁ = file₂ ++ rest₂) : file₁ = file₂ ∧ rest₁ = rest₂ := by
  have e : file₁ = file₂ := C84_loaded hn h₁ h₂ f₁ f₂ rest₁ rest₂ (by rw [h])
  subst e
  exact ⟨rfl, List.append_cancel_left h⟩

/-- Texts that give the same file say the same: in some order their entries that are not replaced have the same ids, titles,
vendors and lowest prices, and descriptions of which one begins with what is stored of the other. -/
theorem C84_same {t₁ t₂ t' : Target} {o₁ o₂ : HashOrd} {lower₁ lower₂ : Char → List Char} {parse₁ parse₂ : Str → Option F32}
    {n : Nat} {text₁ text₂ : Str} {file : Bytes} (hn : 1 ≤ n) (h₁ : indexText t₁ o₁ lower₁ parse₁ n text₁ = .ok file)
    (h₂ : indexText t₂ o₂ lower₂ parse₂ n text₂ = .ok file) (f : Fits t' file.length) :
    ∃ members₁ members₂ entries₁ entries₂ last₁ last₂, IsText (.obj members₁) text₁ ∧ IsText (.obj members₂) text₂ ∧
      SaysCatalogue members₁ entries₁ ∧ SaysCatalogue members₂ entries₂ ∧ LastOfKeys entries₁ last₁ ∧
      LastOfKeys entries₂ last₂ ∧ last₁.length = last₂.length ∧
      ∀ (i : Nat) (k₁ k₂ : Str) (r₁ r₂ : RawProduct), last₁[i]? = some (k₁, r₁) → last₂[i]? = some (k₂, r₂) →
        r₁.id = r₂.id ∧ r₁.title = r₂.title ∧ r₁.vendor = r₂.vendor ∧
        parse₁ r₁.price.min.amount = parse₂ r₂.price.min.amount ∧
        ∃ kept cut₁ cut₂, r₁.description = kept ++ cut₁ ∧ r₂.description = kept ++ cut₂ ∧
          (byteLen r₁.description ≤ 100 → cut₁ = []) ∧ (byteLen r₂.description ≤ 100 → cut₂ = []) := by
  obtain ⟨m₁, e₁, l₁, ix, cl, a1, a2, a3, a4, a5, a6⟩ := C65 hn h₁ f
  obtain ⟨m₂, e₂, l₂, ix', cl', b1, b2, b3, b4, b5, b6⟩ := C65 hn h₂ f
  rw [a4] at b4
  cases b4
  refine ⟨m₁, m₂, e₁, e₂, l₁, l₂, a1, b1, a2, b2, a3, b3, by rw [← a5, b5], fun i k₁ k₂ r₁ r₂ g₁ g₂ => ?_⟩
  obtain ⟨p, x, c1, c2, c3, c4, ⟨cut₁, c5⟩, c6, c7, c8⟩ := a6 i k₁ r₁ g₁
  obtain ⟨q, y, d1, d2, d3, d4, ⟨cut₂, d5⟩, d6, d7, d8⟩ := b6 i k₂ r₂ g₂
  rw [c1] at d1
  cases d1
  rw [c8] at d8
  cases d8
  refine ⟨by rw [← c2, d2], by rw [← c3, d3], by rw [← c4, d4], by rw [c7, d7], p.description, cut₁, cut₂, c5, d5,
    fun h => ?_, fun h => ?_⟩
  · have := c6 h
    rw [← this] at c5
    exact List.self_eq_append_right.1 c5
  · have := d6 h
    rw [← this] at d5
    exact List.self_eq_append_right.1 d5

theorem sample_indexed (key : String) (hc : readCatalogue ("{\"".toList ++ key.toList ++ "\": ".toList ++ sampleText "T" "" "" ++ "}".toList) =
    some [(key.toList, sampleProduct "T")]) {bytes : Bytes}
    (h : indexAndSerialize .debug64 .rev (fun c => [c]) parseOne 3 [sampleProduct "T"] = .ok bytes) :
    indexText .debug64 .rev (fun c => [c]) parseOne 3
      ("{\"".toList ++ key.toList ++ "\": ".toList ++ sampleText "T" "" "" ++ "}".toList) = .ok bytes := by
  unfold indexText
  rw [hc]
  exact h

set_option maxRecDepth 20000 in
/-- The hypotheses of the theorems above are met by two texts with different keys, which give the same file. -/
example : ∃ text₁ text₂ file, text₁ ≠ text₂ ∧ indexText .debug64 .rev (fun c => [c]) parseOne 3 text₁ = .ok file ∧
    indexText .debug64 .rev (fun c => [c]) parseOne 3 text₂ = .ok file ∧ Fits .wasm32 file.length := by
  have h : ((runFileO .debug64 .rev parseOne 3 [sampleProduct "T"]).map fun b => decide (b.length ≤ 1000)) = some true := by
    decide +kernel
  obtain ⟨a, ha, hl⟩ := Option.map_eq_some_iff.1 h
  rw [decide_eq_true_eq] at hl
  obtain ⟨_, _, _, _, h3⟩ := runFileO_sound (by decide) (by decide) ha
  refine ⟨_, _, a, ?_, sample_indexed "a" (by decide +kernel) h3, sample_indexed "b" (by decide +kernel) h3,
    Fits.of_carried ⟨Nat.lt_of_le_of_lt hl (by decide), Nat.lt_of_le_of_lt hl (by decide)⟩ fun _ _ => rfl⟩
  decide +kernel

end Idx
