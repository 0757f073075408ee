import Verif.Lemmas.Search
import Verif.Lemmas.Index
/-! What the candidates of the fuzzy search are: paths of the tree within a number of edits. -/
set_option linter.unusedSectionVars false
namespace Idx
variable {G : Type} [DecidableEq G] [RDefault G]

/-- `Edits k a b`: `k` single-gram insertions, deletions and substitutions turn `a` into `b`. -/
inductive Edits : Nat → List G → List G → Prop where
  | nil : Edits 0 [] []
  | keep {k a b} (x : G) : Edits k a b → Edits k (x :: a) (x :: b)
  | subst {k a b} (x y : G) : Edits k a b → Edits (k + 1) (x :: a) (y :: b)
  | insert {k a b} (y : G) : Edits k a b → Edits (k + 1) a (y :: b)
  | delete {k a b} (x : G) : Edits k a b → Edits (k + 1) (x :: a) b

theorem Edits.append {k l : Nat} {a b a' b' : List G} (h : Edits k a b) (h' : Edits l a' b') :
    Edits (k + l) (a ++ a') (b ++ b') := by
  induction h with
  | nil => simpa using h'
  | keep x _ ih => exact .keep x ih
  | subst x y _ ih => rw [Nat.add_right_comm]; exact .subst x y ih
  | insert y _ ih => rw [Nat.add_right_comm]; exact .insert y ih
  | delete x _ ih => rw [Nat.add_right_comm]; exact .delete x ih

theorem Edits.snoc_keep {k : Nat} {a b : List G} (h : Edits k a b) (x : G) : Edits k (a ++ [x]) (b ++ [x]) :=
  h.append (.keep x .nil)
theorem Edits.snoc_subst {k : Nat} {a b : List G} (h : Edits k a b) (x y : G) : Edits (k + 1) (a ++ [x]) (b ++ [y]) :=
  h.append (.subst x y .nil)
theorem Edits.snoc_insert {k : Nat} {a b : List G} (h : Edits k a b) (y : G) : Edits (k + 1) a (b ++ [y]) := by
  simpa using h.append (.insert y .nil)
theorem Edits.snoc_delete {k : Nat} {a b : List G} (h : Edits k a b) (x : G) : Edits (k + 1) (a ++ [x]) b := by
  simpa using h.append (.delete x .nil)

/-- State of a candidate walk: `q` first gram, `w` the other grams of the query window, `seen` the consumed ones,
`path` the rest of the current path. -/
structure WalkInv (ix : GramIndex G) (n limit : Nat) (q : G) (w : List G) (input : List G) (node : GramNode G)
    (prev : Option (GramNode G)) (changes : Nat) (buf : List G) (index : Nat) (seen path : List G) : Prop where
  split : seen ++ input = w
  has : ix.Has (q :: path) node
  ind : index = path.length + 1
  bufTake : buf.take index = q :: path
  length : buf.length = n
  edits : ∃ e, e ≤ changes ∧ e ≤ limit ∧ Edits e seen path
  parent : ∀ p, prev = some p → ∃ init last, path = init ++ [last] ∧ ix.Has (q :: init) p ∧
    ∃ e, e ≤ changes + 1 ∧ Edits e seen init

theorem take_set_snoc {l : List G} {i : Nat} (x : G) (h : i < l.length) : (l.set i x).take (i + 1) = l.take i ++ [x] := by
  rw [List.take_succ_eq_append_getElem (by simpa using h), List.take_set_of_le (Nat.le_refl _)]
  simp

theorem items_get_sound {node c : GramNode G} {g : G} (h : AMap.get node.items g = some c) : c ∈ node.byOcc ∧ c.item = g := by
  have := AMap.mem_of_mem_collect (AMap.mem_of_get h)
  obtain ⟨c', hc, e⟩ := List.mem_map.1 this
  simp only [Prod.mk.injEq] at e
  obtain ⟨rfl, rfl⟩ := e
  exact ⟨hc, rfl⟩

theorem has_child {ix : GramIndex G} {q : G} {path : List G} {node c : GramNode G} (h : ix.Has (q :: path) node)
    (hc : c ∈ node.byOcc) : ix.Has (q :: (path ++ [c.item])) c := by
  have := GramIndex.Has.child h hc
  simpa using this

theorem take_of_take {l : List G} {i : Nat} {a : List G} {x : G} (h : l.take (i + 1) = a ++ [x]) (hl : a.length = i) :
    l.take i = a := by
  have := congrArg (List.take i) h
  rw [List.take_take, Nat.min_eq_left (by omega)] at this
  rw [this, ← hl]; simp

theorem Cand.sound {ix : GramIndex G} {n limit : Nat} {q : G} {w : List G} {input : List G} {node : GramNode G}
    {prev : Option (GramNode G)} {changes : Nat} {weight : F32} {buf : List G} {index : Nat} {r : List G × F32}
    (h : Cand n limit input node prev changes weight buf index r) : ∀ (seen path : List G),
    WalkInv ix n limit q w input node prev changes buf index seen path →
    ∃ node' seen' path', r.1 = q :: path' ∧ r.1.length = n ∧ ix.Has r.1 node' ∧ seen' <+: w ∧
      ∃ e, e ≤ limit ∧ Edits e seen' path' := by
  induction h with
  | @done input node prev changes weight buf index hi =>
    intro seen path hw
    have hb := hw.bufTake
    rw [hi, ← hw.length, List.take_length] at hb
    obtain ⟨e, _, he, hed⟩ := hw.edits
    refine ⟨node, seen, path, hb, hw.length, ?_, ⟨input, hw.split⟩, e, he, hed⟩
    show ix.Has buf node
    rw [hb]; exact hw.has
  | @follow g input node prev changes weight buf index u r hlt hget _ ih =>
    intro seen path hw
    obtain ⟨hu, rfl⟩ := items_get_sound hget
    obtain ⟨e, he, hel, hed⟩ := hw.edits
    refine ih (seen ++ [u.item]) (path ++ [u.item]) ⟨?_, has_child hw.has hu, ?_, ?_, ?_, ?_, ?_⟩
    · rw [← hw.split]; simp
    · rw [hw.ind]; simp
    · rw [take_set_snoc _ (by rw [hw.length]; exact hlt), hw.bufTake]; simp
    · simp [hw.length]
    · exact ⟨e, he, hel, hed.snoc_keep _⟩
    · intro p hp
      cases hp
      exact ⟨path, u.item, rfl, hw.has, e + 1, by omega, hed.snoc_delete _⟩
  | @replace input node prev changes weight buf index c r hlt hch hc _ _ ih =>
    intro seen path hw
    obtain ⟨e, he, hel, hed⟩ := hw.edits
    have common : (buf.set index c.item).take (index + 1) = q :: (path ++ [c.item]) := by
      rw [take_set_snoc _ (by rw [hw.length]; exact hlt), hw.bufTake]; simp
    cases input with
    | nil =>
      refine ih seen (path ++ [c.item]) ⟨?_, has_child hw.has hc, ?_, common, ?_, ?_, ?_⟩
      · exact hw.split
      · rw [hw.ind]; simp
      · simp [hw.length]
      · exact ⟨e + 1, by omega, by omega, hed.snoc_insert _⟩
      · intro p hp
        cases hp
        exact ⟨path, c.item, rfl, hw.has, e, by omega, hed⟩
    | cons g input =>
      refine ih (seen ++ [g]) (path ++ [c.item]) ⟨?_, has_child hw.has hc, ?_, common, ?_, ?_, ?_⟩
      · rw [← hw.split]; simp
      · rw [hw.ind]; simp
      · simp [hw.length]
      · exact ⟨e + 1, by omega, by omega, hed.snoc_subst _ _⟩
      · intro p hp
        cases hp
        exact ⟨path, c.item, rfl, hw.has, e + 1, by omega, hed.snoc_delete _⟩
  | @forgotten input node prev changes weight buf index c r hlt hch hc _ _ ih =>
    intro seen path hw
    obtain ⟨e, he, hel, hed⟩ := hw.edits
    refine ih seen (path ++ [c.item]) ⟨hw.split, has_child hw.has hc, ?_, ?_, ?_, ?_, ?_⟩
    · rw [hw.ind]; simp
    · rw [take_set_snoc _ (by rw [hw.length]; exact hlt), hw.bufTake]; simp
    · simp [hw.length]
    · exact ⟨e + 1, by omega, by omega, hed.snoc_insert _⟩
    · intro p hp
      cases hp
      exact ⟨path, c.item, rfl, hw.has, e, by omega, hed⟩
  | @ignorePrevious g input node p changes weight buf index last r hlt hch hget _ ih =>
    intro seen path hw
    obtain ⟨hl, rfl⟩ := items_get_sound hget
    obtain ⟨init, x, rfl, hp, e, he, hed⟩ := hw.parent p rfl
    have hind := hw.ind
    simp only [List.length_append, List.length_singleton] at hind
    refine ih (seen ++ [last.item]) (init ++ [last.item]) ⟨?_, has_child hp hl, ?_, ?_, ?_, ?_, ?_⟩
    · rw [← hw.split]; simp
    · rw [hind]; simp
    · have hb := hw.bufTake
      have hi : index = (index - 1) + 1 := by omega
      rw [hi] at hb ⊢
      rw [show index - 1 + 1 - 1 = index - 1 by omega,
        take_set_snoc _ (by rw [hw.length]; omega), take_of_take (a := q :: init) (x := x) (by simpa using hb)
        (by simp; omega)]
      simp
    · simp [hw.length]
    · exact ⟨e, by omega, by omega, hed.snoc_keep _⟩
    · intro p hp; cases hp

/-! ## Weights -/

/-- A finite float between 0 and 1. -/
def F32.Unit (x : F32) : Prop := ∃ m, x.val = .fin false m ∧ m ≤ 2 ^ 149

theorem F32.InUnit.unit {lo : Nat} {x : F32} (h : F32.InUnit lo x) : F32.Unit x := by
  obtain ⟨m, h1, _, h3⟩ := h
  exact ⟨m, h1, h3⟩

theorem F32.Unit.mul {x y : F32} (hx : F32.Unit x) (hy : F32.Unit y) : F32.Unit (F32.mul x y) := by
  obtain ⟨m, hm, h1⟩ := hx
  obtain ⟨k, hk, h2⟩ := hy
  obtain ⟨h3, h4⟩ := F32.mul_val hm hk h2
  exact ⟨_, h3, Nat.le_trans h4 h1⟩

theorem F32.Unit.notNan {x : F32} (h : F32.Unit x) : ¬ x.IsNan := by
  obtain ⟨m, h, _⟩ := h
  intro e; unfold F32.IsNan at e; rw [e] at h; cases h

/-- Weights of a candidate stay in a class closed under multiplication by the weights of the tree. -/
theorem Cand.weight {ix : GramIndex G} {n limit : Nat} (P : Nat → F32 → Prop)
    (hP : ∀ i x path c, 1 ≤ i → i < n → P i x → ix.Has path c → P (i + 1) (F32.mul x c.weight))
    {input : List G} {node : GramNode G}
    {prev : Option (GramNode G)} {changes : Nat} {weight : F32} {buf : List G} {index : Nat} {r : List G × F32}
    (h : Cand n limit input node prev changes weight buf index r) : ∀ (path : List G), ix.Has path node →
    (∀ p, prev = some p → ∃ path, ix.Has path p) → 1 ≤ index → P index weight → P n r.2 := by
  induction h with
  | done hi => intro path hh hp h1 hw; rw [← hi]; exact hw
  | @follow g input node prev changes weight buf index u r hlt hget _ ih =>
    intro path hh hp h1 hw
    have hc := GramIndex.Has.child hh (items_get_sound hget).1
    exact ih _ hc (fun p e => by cases e; exact ⟨_, hh⟩) (by omega) (hP _ _ _ _ h1 hlt hw hc)
  | @replace input node prev changes weight buf index c r hlt hch hc _ _ ih =>
    intro path hh hp h1 hw
    have hc := GramIndex.Has.child hh hc
    exact ih _ hc (fun p e => by cases e; exact ⟨_, hh⟩) (by omega) (hP _ _ _ _ h1 hlt hw hc)
  | @forgotten input node prev changes weight buf index c r hlt hch hc _ _ ih =>
    intro path hh hp h1 hw
    have hc := GramIndex.Has.child hh hc
    exact ih _ hc (fun p e => by cases e; exact ⟨_, hh⟩) (by omega) (hP _ _ _ _ h1 hlt hw hc)
  | @ignorePrevious g input node p changes weight buf index last r hlt hch hget _ ih =>
    intro path hh hp h1 hw
    obtain ⟨pp, hpp⟩ := hp p rfl
    exact ih _ (GramIndex.Has.child hpp (items_get_sound hget).1) (fun p e => by cases e) h1 hw

/-- The weight of a path below a node, multiplied up as the search does. -/
def pathWeight (node : GramNode G) (weight : F32) : List G → Option F32
  | [] => some weight
  | g :: rest => (AMap.get node.items g).bind fun c => pathWeight c (F32.mul weight c.weight) rest

/-- A path that exists is a candidate for itself. -/
theorem Cand.exact {n limit : Nat} (rest : List G) : ∀ {node : GramNode G} {prev : Option (GramNode G)} {changes : Nat}
    {weight w : F32} {buf : List G} {index : Nat}, pathWeight node weight rest = some w → index + rest.length = n →
    buf.length = n →
    Cand n limit rest node prev changes weight buf index (buf.take index ++ rest, w) := by
  induction rest with
  | nil =>
    intro node prev changes weight w buf index hw hi hb
    simp only [pathWeight, Option.some.injEq] at hw
    simp only [List.length_nil, Nat.add_zero] at hi
    subst hw
    rw [List.append_nil, hi, ← hb, List.take_length]
    exact .done (by omega)
  | cons g rest ih =>
    intro node prev changes weight w buf index hw hi hb
    simp only [pathWeight] at hw
    cases hc : AMap.get node.items g with
    | none => rw [hc] at hw; simp at hw
    | some c =>
      rw [hc] at hw
      simp only [List.length_cons] at hi
      have hitem := (items_get_sound hc).2
      have := ih (node := c) (prev := some node) (changes := changes) (buf := buf.set index c.item) (index := index + 1)
        hw (by omega) (by simpa using hb)
      rw [take_set_snoc _ (by omega), hitem, List.append_assoc] at this
      rw [← hitem] at this
      refine .follow (u := c) (by omega) hc ?_
      rw [hitem] at this ⊢
      exact this

/-! ## One n-gram -/

/-- What `search_gram` does on any index: no panic, and the best of the candidates. -/
theorem searchGram_best (ix : GramIndex G) {n : Nat} (h1 : 1 ≤ n) (h2 : n ≤ 764) (query : List G) :
    ∃ res, ix.searchGram n query = .ok res ∧
      IsBest (fun r => ∃ q rest root, query = q :: rest ∧ AMap.get ix.roots q = some root ∧
        Cand n (n / 3) rest root none 0 F32.one ((List.replicate n dflt).set 0 q) 1 r) res := by
  cases query with
  | nil => exact ⟨none, rfl, IsBest.empty.congr fun r => by simp⟩
  | cons q rest =>
    cases hr : AMap.get ix.roots q with
    | none => exact ⟨none, by simp [GramIndex.searchGram, hr], IsBest.empty.congr fun r => by simp [hr]⟩
    | some root =>
      obtain ⟨res, e, hres⟩ := recursiveSearch_best n (n / 3) (by omega) _ _ rest root none 0 F32.one
        ((List.replicate n dflt).set 0 q) 1 rfl rfl (by omega) (by omega) (by simp)
      refine ⟨res, ?_, hres.congr fun r => ?_⟩
      · simp only [GramIndex.searchGram, hr]
        rw [if_pos (by omega)]; exact e
      · constructor
        · intro h; exact ⟨q, rest, root, rfl, hr, h⟩
        · rintro ⟨q', rest', root', e', hr', hc⟩
          cases e'
          rw [hr] at hr'; cases hr'
          exact hc

/-- The start of the walk satisfies the invariant. -/
theorem walkInv_start {ix : GramIndex G} {n limit : Nat} (h1 : 1 ≤ n) {q : G} {rest : List G} {root : GramNode G}
    (hr : AMap.get ix.roots q = some root) :
    WalkInv ix n limit q rest rest root none 0 ((List.replicate n dflt).set 0 q) 1 [] [] := by
  refine ⟨rfl, .root (AMap.mem_of_get hr), rfl, ?_, by simp, ⟨0, by omega, by omega, .nil⟩, by simp⟩
  cases n with
  | zero => omega
  | succ n => simp [List.replicate_succ]

/-- Whatever `search_gram` finds is a path of the tree within N/3 edits of a prefix of the query window. -/
theorem searchGram_sound {ix : GramIndex G} {n : Nat} (h1 : 1 ≤ n) (h2 : n ≤ 764) {query found : List G} {conf : F32}
    (h : ix.searchGram n query = .ok (some (found, conf))) :
    ∃ q rest seen path node, query = q :: rest ∧ found = q :: path ∧ found.length = n ∧ ix.Has found node ∧
      seen <+: rest ∧ ∃ e, e ≤ n / 3 ∧ Edits e seen path := by
  obtain ⟨res, e, hres⟩ := searchGram_best ix h1 h2 query
  rw [h] at e
  cases e
  obtain ⟨q, rest, root, rfl, hr, hc⟩ := hres.mem _ rfl
  obtain ⟨node, seen, path, a, b, c, d, ed⟩ := hc.sound (ix := ix) (w := rest) [] [] (walkInv_start h1 hr)
  exact ⟨q, rest, seen, path, node, rfl, a, b, c, d, ed⟩

theorem searchGram_weight {ix : GramIndex G} {n : Nat} (h1 : 1 ≤ n) (h2 : n ≤ 764) (P : Nat → F32 → Prop)
    (hP : ∀ i x path c, 1 ≤ i → i < n → P i x → ix.Has path c → P (i + 1) (F32.mul x c.weight)) (h0 : P 1 F32.one)
    {query found : List G} {conf : F32}
    (h : ix.searchGram n query = .ok (some (found, conf))) : P n conf := by
  obtain ⟨res, e, hres⟩ := searchGram_best ix h1 h2 query
  rw [h] at e
  cases e
  obtain ⟨q, rest, root, rfl, hr, hc⟩ := hres.mem _ rfl
  exact hc.weight P hP _ (.root (AMap.mem_of_get hr)) (by simp) (by omega) h0

/-- An exact n-gram of the tree is answered with at least its own weight. -/
theorem searchGram_exact {ix : GramIndex G} {n : Nat} (h1 : 1 ≤ n) (h2 : n ≤ 764)
    (hw : ∀ path c, ix.Has path c → F32.Unit c.weight)
    {q : G} {rest : List G} {root : GramNode G} {w : F32} (hl : rest.length + 1 = n)
    (hr : AMap.get ix.roots q = some root) (hp : pathWeight root F32.one rest = some w) :
    ∃ found conf, ix.searchGram n (q :: rest) = .ok (some (found, conf)) ∧ F32.lt conf w = false := by
  obtain ⟨res, e, hres⟩ := searchGram_best ix h1 h2 (q :: rest)
  have hc : Cand n (n / 3) rest root none 0 F32.one ((List.replicate n dflt).set 0 q) 1
      (((List.replicate n dflt).set 0 q).take 1 ++ rest, w) := Cand.exact rest hp (by omega) (by simp)
  obtain ⟨⟨found, conf⟩, hf⟩ := hres.answered _ ⟨q, rest, root, rfl, hr, hc⟩
  refine ⟨found, conf, by rw [e, hf], ?_⟩
  refine hres.best ?_ _ ⟨q, rest, root, rfl, hr, hc⟩ _ hf
  rintro r ⟨q', rest', root', e', hr', hc'⟩
  exact (hc'.weight (fun _ x => F32.Unit x) (fun i x path c _ _ hx hh => hx.mul (hw path c hh)) _
    (.root (AMap.mem_of_get hr')) (by simp) (by omega) F32.inUnit_one.unit).notNan

end Idx
