import Verif.Lemmas.Eval
import Verif.Lemmas.File
import Verif.Lemmas.Rank
/-! Running index and search on a concrete catalogue inside the kernel. -/
namespace Idx

/-- An input product with the given texts. -/
def mkRaw (description title id : List Char) : RawProduct :=
  { description, tags := [], title, vendor := [], id, options := [],
    price := ⟨⟨['1'], []⟩, ⟨['1'], []⟩⟩, media := [] }

/-- Parser reading every amount as one. -/
def parseOne : Str → Option F32 := fun _ => some F32.one

/-- Ids and confidences of the results of indexing `input` and searching it for `query`, evaluated structurally. -/
def runSearch (t : Target) (o : HashOrd) (n : Nat) (input : List RawProduct) (query : List Char) :
    Option (List (Str × F32)) :=
  match optimize o parseOne input with
  | .ok (c, _) =>
    if (((c.products.map (feedOf fun c => [c])).foldl (buildFeed n) ([], [])).1.all (MNode.shallow (n + 1))) = true then
      match (indexFromF t o n (c.products.map (feedOf fun c => [c])) c).searchF o n query with
      | .ok l => some (l.map fun r => (r.1.id, r.2))
      | _ => none
    else none
  | _ => none

theorem runSearch_sound {t : Target} {o : HashOrd} {n : Nat} {input : List RawProduct} {query : List Char}
    {l : List (Str × F32)} (h : runSearch t o n input query = some l) :
    ∃ ix cl results, buildAll t o (fun c => [c]) parseOne n input = .ok (ix, cl) ∧
      ix.search o n query = .ok results ∧ results.map (fun r => (r.1.id, r.2)) = l := by
  unfold runSearch at h
  split at h
  · rename_i c cl hopt
    split at h
    · rename_i hs
      split at h
      · rename_i results hr
        simp only [Option.some.injEq] at h
        rw [indexFromF_eq _ _ _ _ _ hs, searchF_eq] at hr
        exact ⟨_, cl, results, by unfold buildAll; rw [hopt]; rfl, hr, h⟩
      · cases h
    · cases h
  · cases h

/-- `serNode` to a given depth; nothing for deeper trees. -/
def serNodeF : Nat → GramNode Char → Option Bytes
  | 0, _ => none
  | k + 1, n => (n.byOcc.mapM (serNodeF k)).map fun l =>
    serChar n.item ++ (serF32 n.weight ++ (serUsize n.byOcc.length ++ l.flatten))

theorem mapM_flatten {α : Type} {f : α → Option Bytes} {g : α → Bytes} (l : List α) : ∀ {r : List Bytes},
    (∀ a ∈ l, ∀ b, f a = some b → g a = b) → l.mapM f = some r → r.flatten = l.flatMap g := by
  induction l with
  | nil => intro r _ h; simp at h; subst h; rfl
  | cons a l ih =>
    intro r h e
    simp only [List.mapM_cons, Option.bind_eq_bind, Option.bind_eq_some_iff, Option.pure_def, Option.some.injEq] at e
    obtain ⟨b, hb, bs, hbs, rfl⟩ := e
    simp only [List.flatten_cons, List.flatMap_cons]
    rw [ih (fun x hx => h x (by simp [hx])) hbs, h a (by simp) b hb]

theorem serNodeF_eq : ∀ (k : Nat) (n : GramNode Char) (b : Bytes), serNodeF k n = some b → serNode n = b := by
  intro k
  induction k with
  | zero => intro n b h; cases h
  | succ k ih =>
    intro n b h
    cases n with
    | mk i w l =>
      simp only [serNodeF, Option.map_eq_some_iff] at h
      obtain ⟨r, hr, rfl⟩ := h
      rw [serNode_mk, serVec]
      rw [mapM_flatten (g := serNode) _ (fun a _ b hb => ih a b hb) hr]
      rfl

/-- `serializeAll` with nodes written to a given depth. -/
def serializeAllF (o : HashOrd) (k : Nat) (ix : GramIndex Char) (cl : Classic) : Option Bytes :=
  ((o.order "roots" ix.roots).mapM fun p => (serNodeF k p.2).map fun b => serChar p.1 ++ b).map fun roots =>
    serContainer o ix.container ++ (serUsize (o.order "roots" ix.roots).length ++ roots.flatten) ++
      (serUsize ix.data.length ++ (o.order "data" ix.data).flatMap serPosting) ++ serClassic o cl

theorem serializeAllF_eq {o : HashOrd} {k : Nat} {ix : GramIndex Char} {cl : Classic} {b : Bytes}
    (h : serializeAllF o k ix cl = some b) : serializeAll o ix cl = b := by
  simp only [serializeAllF, Option.map_eq_some_iff] at h
  obtain ⟨r, hr, rfl⟩ := h
  rw [mapM_flatten (g := fun p : Char × GramNode Char => serChar p.1 ++ serNode p.2) _ ?_ hr]
  · rfl
  · intro p _ b hb
    simp only [Option.map_eq_some_iff] at hb
    obtain ⟨b', hb', rfl⟩ := hb
    rw [serNodeF_eq _ _ _ hb']

/-- Indexes of a concrete catalogue, evaluated structurally. -/
def runBuild (t : Target) (o : HashOrd) (parse : Str → Option F32) (n : Nat) (input : List RawProduct) :
    Option (GramIndex Char × Classic) :=
  match optimize o parse input with
  | .ok (c, cl) =>
    if (((c.products.map (feedOf fun c => [c])).foldl (buildFeed n) ([], [])).1.all (MNode.shallow (n + 1))) = true then
      some (indexFromF t o n (c.products.map (feedOf fun c => [c])) c, cl)
    else none
  | _ => none

theorem runBuild_sound {t : Target} {o : HashOrd} {parse : Str → Option F32} {n : Nat} {input : List RawProduct}
    {ix : GramIndex Char} {cl : Classic} (h : runBuild t o parse n input = some (ix, cl)) :
    buildAll t o (fun c => [c]) parse n input = .ok (ix, cl) := by
  unfold runBuild at h
  split at h
  · rename_i c cl' hopt
    split at h
    · rename_i hs
      rw [indexFromF_eq _ _ _ _ _ hs] at h
      simp only [Option.some.injEq, Prod.mk.injEq] at h
      unfold buildAll
      rw [hopt, ← h.1, ← h.2]
      rfl
    · cases h
  · cases h

/-- The trial search of `index_and_serialize_with_n` changes nothing when the n-grams are not absurdly long. -/
theorem indexAndSerialize_eq (t : Target) (o : HashOrd) (lower : Char → List Char) (parse : Str → Option F32) {n : Nat}
    (h1 : 1 ≤ n) (h2 : n ≤ 764) (input : List RawProduct) :
    indexAndSerialize t o lower parse n input =
      (buildAll t o lower parse n input).bind fun r => .ok (serializeAll o r.1 r.2) := by
  unfold indexAndSerialize
  change Res.bind _ _ = Res.bind _ _
  congr 1
  funext r
  simp only [search_eq o r.1 h1 h2, Res.ofExcept, Res.bind_ok, Res.pure_eq]

theorem indexAndSerialize_ok {t : Target} {o : HashOrd} {lower : Char → List Char} {parse : Str → Option F32} {n : Nat}
    {input : List RawProduct} {bytes : Bytes} (h : indexAndSerialize t o lower parse n input = .ok bytes) :
    ∃ ix cl, buildAll t o lower parse n input = .ok (ix, cl) ∧ bytes = serializeAll o ix cl := by
  unfold indexAndSerialize at h
  obtain ⟨⟨ix, cl⟩, h1, h2⟩ := Res.bind_eq_ok.1 h
  obtain ⟨_, _, h3⟩ := Res.bind_eq_ok.1 h2
  simp only [Res.pure_eq, Res.ok.injEq] at h3
  exact ⟨ix, cl, h1, h3.symm⟩

/-- The file of a concrete catalogue, evaluated structurally. -/
def runFileO (t : Target) (o : HashOrd) (parse : Str → Option F32) (n : Nat) (input : List RawProduct) : Option Bytes :=
  (runBuild t o parse n input).bind fun r => serializeAllF o (n + 1) r.1 r.2

theorem runFileO_sound {t : Target} {o : HashOrd} {parse : Str → Option F32} {n : Nat} {input : List RawProduct}
    {bytes : Bytes} (n1 : 1 ≤ n) (n2 : n ≤ 764) (h : runFileO t o parse n input = some bytes) :
    ∃ ix cl, buildAll t o (fun c => [c]) parse n input = .ok (ix, cl) ∧ serializeAll o ix cl = bytes ∧
      indexAndSerialize t o (fun c => [c]) parse n input = .ok bytes := by
  simp only [runFileO, Option.bind_eq_some_iff] at h
  obtain ⟨⟨ix, cl⟩, h1, h2⟩ := h
  have hb := runBuild_sound h1
  have hs := serializeAllF_eq h2
  refine ⟨ix, cl, hb, hs, ?_⟩
  rw [indexAndSerialize_eq _ _ _ _ n1 n2, hb, ← hs]
  rfl

/-- The same for hash tables iterating in insertion order. -/
def runFile (t : Target) (parse : Str → Option F32) (n : Nat) (input : List RawProduct) : Option Bytes :=
  runFileO t .ident parse n input

theorem runFile_sound {t : Target} {parse : Str → Option F32} {n : Nat} {input : List RawProduct} {bytes : Bytes}
    (n1 : 1 ≤ n) (n2 : n ≤ 764) (h : runFile t parse n input = some bytes) :
    ∃ ix cl, buildAll t .ident (fun c => [c]) parse n input = .ok (ix, cl) ∧ serializeAll .ident ix cl = bytes ∧
      indexAndSerialize t .ident (fun c => [c]) parse n input = .ok bytes :=
  runFileO_sound n1 n2 h

/-- The outcome of a run as an option, which is decidable. -/
def resOption {α : Type} : Res α → Option α
  | .ok a => some a
  | _ => none

theorem resOption_ok {α : Type} {r : Res α} {a : α} (h : resOption r = some a) : r = .ok a := by
  cases r with
  | ok b => exact congrArg _ (Option.some.inj h)
  | _ => cases h

end Idx
