import Verif.Lemmas.Edits
import Verif.Lemmas.NonNeg
/-! Two indexes with the same paths and weights, but perhaps differently ordered children. -/
set_option linter.unusedSectionVars false
namespace Idx
variable {G : Type} [DecidableEq G] [RDefault G]

/-- Every path of `ix` is a path of `ix'` with the same weight. -/
def PathsIn (ix ix' : GramIndex G) : Prop :=
  ∀ path m, ix.nodeAt path = some m → ∃ m', ix'.nodeAt path = some m' ∧ m'.weight = m.weight

structure Twin (ix ix' : GramIndex G) : Prop where
  keyed : ix.Keyed
  keyed' : ix'.Keyed
  fwd : PathsIn ix ix'
  bwd : PathsIn ix' ix

theorem Twin.symm {ix ix' : GramIndex G} (h : Twin ix ix') : Twin ix' ix := ⟨h.keyed', h.keyed, h.bwd, h.fwd⟩

theorem nodeAt_nonempty {ix : GramIndex G} {path : List G} {m : GramNode G} (h : ix.nodeAt path = some m) : path ≠ [] := by
  rintro rfl; simp [GramIndex.nodeAt] at h

theorem Twin.get {ix ix' : GramIndex G} (h : Twin ix ix') {path : List G} {m m' u : GramNode G} {g : G}
    (hm : ix.nodeAt path = some m) (hm' : ix'.nodeAt path = some m') (hu : AMap.get m.items g = some u) :
    ∃ u', AMap.get m'.items g = some u' ∧ u'.weight = u.weight ∧ u'.item = u.item ∧
      ix.nodeAt (path ++ [g]) = some u ∧ ix'.nodeAt (path ++ [g]) = some u' := by
  have hne := nodeAt_nonempty hm
  have e : ix.nodeAt (path ++ [g]) = some u := by
    rw [GramIndex.nodeAt_snoc _ _ hne, hm]; exact hu
  obtain ⟨u', e', hw⟩ := h.fwd _ _ e
  have hg : AMap.get m'.items g = some u' := by
    rw [GramIndex.nodeAt_snoc _ _ hne, hm'] at e'; exact e'
  exact ⟨u', hg, hw, by rw [(items_get_sound hu).2, (items_get_sound hg).2], e, e'⟩

theorem Twin.entered {ix ix' : GramIndex G} (h : Twin ix ix') {path : List G} {m m' : GramNode G}
    (hm : ix.nodeAt path = some m) (hm' : ix'.nodeAt path = some m') (input : List G) :
    (input.head?.bind fun g => AMap.get m.items g).map (·.item) =
      (input.head?.bind fun g => AMap.get m'.items g).map (·.item) := by
  cases input with
  | nil => rfl
  | cons g input =>
    simp only [List.head?_cons, Option.bind_some]
    cases hu : AMap.get m.items g with
    | some u => obtain ⟨u', e, _, e2, _⟩ := h.get hm hm' hu; rw [e]; simp [e2]
    | none =>
      cases hu' : AMap.get m'.items g with
      | none => rfl
      | some u' => obtain ⟨u, e, _⟩ := h.symm.get hm' hm hu'; rw [hu] at e; cases e

theorem Twin.byOcc {ix ix' : GramIndex G} (h : Twin ix ix') {path : List G} {m m' c : GramNode G}
    (hm : ix.nodeAt path = some m) (hm' : ix'.nodeAt path = some m') (hc : c ∈ m.byOcc) :
    ∃ c', c' ∈ m'.byOcc ∧ c'.weight = c.weight ∧ c'.item = c.item ∧
      ix.nodeAt (path ++ [c.item]) = some c ∧ ix'.nodeAt (path ++ [c.item]) = some c' := by
  have hg : AMap.get m.items c.item = some c := (items_get_iff (h.keyed.siblings _ _ hm)).2 ⟨hc, rfl⟩
  obtain ⟨c', h1, h2, h3, h4, h5⟩ := h.get hm hm' hg
  exact ⟨c', (items_get_sound h1).1, h2, h3, h4, h5⟩

/-- Nodes (or their absence) at the same place of both trees. -/
def SamePlace (ix ix' : GramIndex G) : Option (GramNode G) → Option (GramNode G) → Prop
  | none, none => True
  | some p, some p' => ∃ path, ix.nodeAt path = some p ∧ ix'.nodeAt path = some p'
  | _, _ => False

theorem Cand.transfer {ix ix' : GramIndex G} (h : Twin ix ix') {n limit : Nat} {input : List G} {node : GramNode G}
    {prev : Option (GramNode G)} {changes : Nat} {weight : F32} {buf : List G} {index : Nat} {r : List G × F32}
    (hc : Cand n limit input node prev changes weight buf index r) : ∀ (node' : GramNode G) (prev' : Option (GramNode G)),
    SamePlace ix ix' (some node) (some node') → SamePlace ix ix' prev prev' →
    Cand n limit input node' prev' changes weight buf index r := by
  induction hc with
  | done e => intro node' prev' _ _; exact .done e
  | @follow g input node prev changes weight buf index u r hlt hu hr ih =>
    intro node' prev' ⟨path, h1, h2⟩ _
    obtain ⟨u', e1, e2, e3, e4, e5⟩ := h.get h1 h2 hu
    refine .follow hlt e1 ?_
    rw [e2, e3]
    exact ih _ _ ⟨_, e4, e5⟩ ⟨_, h1, h2⟩
  | @replace input node prev changes weight buf index c r hlt hch hcm hne hr ih =>
    intro node' prev' ⟨path, h1, h2⟩ _
    obtain ⟨c', e1, e2, e3, e4, e5⟩ := h.byOcc h1 h2 hcm
    refine .replace hlt hch e1 ?_ ?_
    · rw [e3, ← h.entered h1 h2]; exact hne
    · rw [e2, e3]; exact ih _ _ ⟨_, e4, e5⟩ ⟨_, h1, h2⟩
  | @forgotten input node prev changes weight buf index c r hlt hch hcm hne hr ih =>
    intro node' prev' ⟨path, h1, h2⟩ _
    obtain ⟨c', e1, e2, e3, e4, e5⟩ := h.byOcc h1 h2 hcm
    refine .forgotten hlt hch e1 ?_ ?_
    · rw [e3, ← h.entered h1 h2]; exact hne
    · rw [e2, e3]; exact ih _ _ ⟨_, e4, e5⟩ ⟨_, h1, h2⟩
  | @ignorePrevious g input node p changes weight buf index last r hlt hch hl hr ih =>
    intro node' prev' _ hp
    cases prev' with
    | none => exact hp.elim
    | some p' =>
      obtain ⟨path, h1, h2⟩ := hp
      obtain ⟨l', e1, e2, e3, e4, e5⟩ := h.get h1 h2 hl
      refine .ignorePrevious hlt hch e1 ?_
      rw [e3]
      exact ih _ _ ⟨_, e4, e5⟩ trivial

theorem nodeAt_single {ix : GramIndex G} {q : G} : ix.nodeAt [q] = AMap.get ix.roots q := by
  simp only [GramIndex.nodeAt]
  cases AMap.get ix.roots q <;> simp [GramNode.walk]

/-- The candidates of a query n-gram are the same in both trees. -/
theorem Twin.cands {ix ix' : GramIndex G} (h : Twin ix ix') (n limit : Nat) (query : List G) (r : List G × F32) :
    (∃ q rest root, query = q :: rest ∧ AMap.get ix.roots q = some root ∧
      Cand n limit rest root none 0 F32.one ((List.replicate n dflt).set 0 q) 1 r) →
    ∃ q rest root, query = q :: rest ∧ AMap.get ix'.roots q = some root ∧
      Cand n limit rest root none 0 F32.one ((List.replicate n dflt).set 0 q) 1 r := by
  rintro ⟨q, rest, root, rfl, hr, hc⟩
  rw [← nodeAt_single] at hr
  obtain ⟨root', hr', _⟩ := h.fwd _ _ hr
  exact ⟨q, rest, root', rfl, by rw [← nodeAt_single]; exact hr', hc.transfer h _ _ ⟨_, hr, hr'⟩ trivial⟩

/-- Both trees answer a query n-gram with the same confidence (or both not at all); the n-grams found may differ. -/
theorem Twin.searchGram {ix ix' : GramIndex G} (h : Twin ix ix') {n : Nat} (h1 : 1 ≤ n) (h2 : n ≤ 764)
    (hw : ∀ path c, ix.Has path c → F32.Unit c.weight) (query : List G) :
    ∃ res res', ix.searchGram n query = .ok res ∧ ix'.searchGram n query = .ok res' ∧
      res.map (·.2) = res'.map (·.2) := by
  obtain ⟨res, e, b⟩ := searchGram_best ix h1 h2 query
  obtain ⟨res', e', b'⟩ := searchGram_best ix' h1 h2 query
  refine ⟨res, res', e, e', ?_⟩
  have b'' := b'.congr (T := _) fun r => ⟨h.symm.cands n (n / 3) query r, h.cands n (n / 3) query r⟩
  have hu : ∀ r, (∃ q rest root, query = q :: rest ∧ AMap.get ix.roots q = some root ∧
        Cand n (n / 3) rest root none 0 F32.one ((List.replicate n dflt).set 0 q) 1 r) → F32.Unit r.2 := by
    rintro r ⟨q, rest, root, rfl, hr, hc⟩
    exact hc.weight (fun _ x => F32.Unit x) (fun i x path c _ _ hx hh => hx.mul (hw path c hh)) _
      (.root (AMap.mem_of_get hr)) (by simp) (Nat.le_refl _) F32.inUnit_one.unit
  cases res with
  | none =>
    cases res' with
    | none => rfl
    | some r' => obtain ⟨r, hr⟩ := b.answered _ (b''.mem _ rfl); cases hr
  | some r =>
    cases res' with
    | none => obtain ⟨r', hr⟩ := b''.answered _ (b.mem _ rfl); cases hr
    | some r' =>
      have m := b.mem _ rfl
      have m' := b''.mem _ rfl
      have hn := fun r hr => (hu r hr).notNan
      simp only [Option.map_some]
      rw [F32.Unit.eq_of_not_lt (hu _ m) (hu _ m') (b.best hn _ m' _ rfl) (b''.best hn _ m _ rfl)]

/-- Bit-identical answers, when the children are in the same order too. -/
theorem searchGram_of_roots {ix ix' : GramIndex G} (h : ∀ g, AMap.get ix.roots g = AMap.get ix'.roots g) (n : Nat)
    (query : List G) : ix.searchGram n query = ix'.searchGram n query := by
  cases query with
  | nil => rfl
  | cons q rest => simp only [GramIndex.searchGram, h]

end Idx
