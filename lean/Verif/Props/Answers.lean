import Verif.Props.Rank
import Verif.Props.Reload
import Verif.Props.Ordering
import Verif.Lemmas.RefEngine
/-! # C118: exactly which answers a search can give -/
namespace Idx

/-- Spec: no entry has less confidence than a later one. -/
def BestFirst (l : List (Product × F32)) : Prop := l.Pairwise fun a b => F32.lt a.2 b.2 = false

/-- Every arrangement of the results with the best first is handed out if the hash table iterates accordingly. -/
theorem answer_exists (ix : GramIndex Char) {n : Nat} (h1 : 1 ≤ n) (h2 : n ≤ 764) (o : HashOrd) (query : List Char)
    {results answer : List (Product × F32)} (hs : ix.search o n query = .ok results) (hn : ∀ x ∈ results, F32.NonNeg x.2)
    (hp : answer.Perm results) (hb : BestFirst answer) : ∃ o', ix.search o' n query = .ok answer := by
  rw [search_eq o ix h1 h2] at hs
  cases hs
  obtain ⟨table, ht, e⟩ := perm_map_back (f := Prod.snd) (hp.trans (export_perm o _)) rfl
  refine ⟨HashOrd.ident.withResults (rank (hitsOf ix n query)) table ht, ?_⟩
  rw [search_eq _ ix h1 h2]
  unfold Ranker.export
  rw [HashOrd.withResults_at, ← e]
  refine congrArg _ (stableSort_of_sorted (List.Pairwise.imp_of_mem ?_ hb))
  intro a b ha hb' hlt
  rw [bne_iff_ne]
  exact (F32.cmpOrEq_swap_ne_gt (hn a (hp.mem_iff.1 ha)).notNan (hn b (hp.mem_iff.1 hb')).notNan).2 hlt

theorem answer_iff (ix : GramIndex Char) {n : Nat} (h1 : 1 ≤ n) (h2 : n ≤ 764) (o : HashOrd) (query : List Char)
    {results : List (Product × F32)} (hs : ix.search o n query = .ok results) (hn : ∀ x ∈ results, F32.NonNeg x.2)
    (answer : List (Product × F32)) : (∃ o', ix.search o' n query = .ok answer) ↔ answer.Perm results ∧ BestFirst answer := by
  constructor
  · rintro ⟨o', h⟩
    rw [search_eq o ix h1 h2] at hs
    rw [search_eq o' ix h1 h2] at h
    cases hs; cases h
    have hp := (export_perm o' (rank (hitsOf ix n query))).trans (export_perm o (rank (hitsOf ix n query))).symm
    exact ⟨hp, export_sorted o' _ fun p c hc => (hn (p, c) (hp.mem_iff.1 hc)).notNan⟩
  · rintro ⟨hp, hb⟩
    exact answer_exists ix h1 h2 o query hs hn hp hb

/-- **C118.** Over all orders in which the table of results may be iterated, the answers to a query are exactly the arrangements of
the results with the best first: what is left open is the order of results of equal confidence, and all of it is. -/
theorem C118 {t o lower parse n input ix cl} (h : Searchable t o lower parse n input ix cl) (o₁ : HashOrd) (query : List Char)
    (results : List (Product × F32)) (hs : ix.search o₁ n query = .ok results) (answer : List (Product × F32)) :
    (∃ o', ix.search o' n query = .ok answer) ↔ answer.Perm results ∧ answer.Pairwise fun a b => F32.lt a.2 b.2 = false :=
  answer_iff ix h.pos h.le o₁ query hs (fun _ hx => h.result_nonNeg hs hx) answer

/-- The confidences come in one order only. -/
theorem confidences_eq {l m : List (Product × F32)} (hp : l.Perm m) (hl : BestFirst l) (hm : BestFirst m)
    (hn : ∀ x ∈ m, F32.NonNeg x.2) : l.map (·.2) = m.map (·.2) := by
  refine (hp.map (·.2)).eq_of_pairwise (le := fun a b => F32.lt a b = false) ?_ (List.pairwise_map.2 hl) (List.pairwise_map.2 hm)
  intro a b ha hb h1 h2
  obtain ⟨x, hx, rfl⟩ := List.mem_map.1 ha
  obtain ⟨y, hy, rfl⟩ := List.mem_map.1 hb
  exact (hn x (hp.mem_iff.1 hx)).eq_of_not_lt (hn y hy) h1 h2

/-- Two entries exchanged. -/
def exchanged (x y z : Product × F32) : Product × F32 := if z = x then y else if z = y then x else z

theorem exchanged_perm {l : List (Product × F32)} (hnd : l.Nodup) {x y : Product × F32} (hx : x ∈ l) (hy : y ∈ l) :
    (l.map (exchanged x y)).Perm l := by
  have inv : ∀ z, exchanged x y (exchanged x y z) = z := by
    intro z
    unfold exchanged
    by_cases h1 : z = x
    · subst h1
      simp only [if_true]
      split
      · rename_i h; exact h
      · rfl
    · by_cases h2 : z = y
      · subst h2; simp [h1]
      · simp [h1, h2]
  refine (List.perm_ext_iff_of_nodup ?_ hnd).2 fun z => ?_
  · exact List.pairwise_map.2 (hnd.imp fun {a b} hab e => hab (by rw [← inv a, e, inv b]))
  · have hmem : ∀ z ∈ l, exchanged x y z ∈ l := by
      intro z hz
      unfold exchanged
      split
      · exact hy
      · split
        · exact hx
        · exact hz
    constructor
    · intro hz
      obtain ⟨w, hw, rfl⟩ := List.mem_map.1 hz
      exact hmem w hw
    · intro hz
      exact List.mem_map.2 ⟨_, hmem z hz, inv z⟩

theorem exchanged_best {l : List (Product × F32)} (hl : BestFirst l) {x y : Product × F32} (e : x.2 = y.2) :
    BestFirst (l.map (exchanged x y)) := by
  have h : ∀ z, (exchanged x y z).2 = z.2 := by
    intro z
    unfold exchanged
    split
    · rename_i h; rw [h, e]
    · split
      · rename_i h; rw [h, e]
      · rfl
  unfold BestFirst
  rw [List.pairwise_map]
  simp only [h]
  exact hl

theorem nodup_results {o : HashOrd} {ix : GramIndex Char} {n : Nat} (h1 : 1 ≤ n) (h2 : n ≤ 764) {query : List Char}
    {results : List (Product × F32)} (hs : ix.search o n query = .ok results) : results.Nodup :=
  (List.pairwise_map.1 (C25_distinct o ix h1 h2 query results hs)).imp fun h e => h (by rw [e])

/-- A result has a fixed place exactly if no other result has the same confidence. -/
theorem C118_place {t o lower parse n input ix cl} (h : Searchable t o lower parse n input ix cl) (o₁ : HashOrd) (query : List Char)
    (results : List (Product × F32)) (hs : ix.search o₁ n query = .ok results) (i : Nat) (x : Product × F32) :
    (∀ o' answer, ix.search o' n query = .ok answer → answer[i]? = some x) ↔
      results[i]? = some x ∧ ∀ y ∈ results, y.2 = x.2 → y = x := by
  have hn : ∀ x ∈ results, F32.NonNeg x.2 := fun _ hx => h.result_nonNeg hs hx
  have hb := ((C118 h o₁ query results hs results).1 ⟨o₁, hs⟩).2
  constructor
  · intro hall
    have hi := hall o₁ results hs
    refine ⟨hi, fun y hy e => ?_⟩
    have hx := List.mem_of_getElem? hi
    obtain ⟨o', ho'⟩ := (C118 h o₁ query results hs (results.map (exchanged x y))).2
      ⟨exchanged_perm (nodup_results h.pos h.le hs) hx hy, exchanged_best hb e.symm⟩
    have hj := hall o' _ ho'
    rw [List.getElem?_map, hi] at hj
    simpa [exchanged] using hj
  · rintro ⟨hi, hu⟩ o' answer ha
    obtain ⟨hp, hb'⟩ := (C118 h o₁ query results hs answer).1 ⟨o', ha⟩
    have e := congrArg (·[i]?) (confidences_eq hp hb' hb hn)
    simp only [List.getElem?_map, hi, Option.map_some] at e
    obtain ⟨y, hy, e⟩ := Option.map_eq_some_iff.1 e
    rw [hy, hu y (hp.mem_iff.1 (List.mem_of_getElem? hy)) e]

theorem take_eq_filter : ∀ (l : List (Product × F32)) (k : Nat) (c : F32), (∀ x ∈ l, F32.NonNeg x.2) → F32.NonNeg c → BestFirst l →
    (∃ a, l[k]? = some a ∧ a.2 = c) → (∀ b, l[k + 1]? = some b → b.2 ≠ c) →
    l.take (k + 1) = l.filter fun x => !F32.lt x.2 c := by
  intro l
  induction l with
  | nil => rintro k c _ _ _ ⟨a, ha, _⟩ _; cases ha
  | cons y l ih =>
    intro k c hn hc hb hk hk'
    obtain ⟨hy, hb⟩ := List.pairwise_cons.1 hb
    have hnl : ∀ x ∈ l, F32.NonNeg x.2 := fun x hx => hn x (List.mem_cons_of_mem _ hx)
    cases k with
    | zero =>
      obtain ⟨a, ha, e⟩ := hk
      simp only [List.getElem?_cons_zero, Option.some.injEq] at ha
      subst ha
      rw [List.filter_cons_of_pos (by rw [e, F32.lt_self hc]; rfl)]
      rw [List.filter_eq_nil_iff.2]
      · simp
      intro x hx
      simp only [Bool.not_eq_true, Bool.not_eq_false']
      cases hl : F32.lt x.2 c with
      | true => rfl
      | false =>
        exfalso
        cases l with
        | nil => cases hx
        | cons z l =>
          refine hk' z rfl ?_
          have h1 : F32.lt c z.2 = false := e ▸ hy z (by simp)
          have h2 : F32.lt z.2 x.2 = false := by
            rcases List.mem_cons.1 hx with rfl | hx
            · exact F32.lt_self (hnl _ (by simp))
            · exact (List.pairwise_cons.1 hb).1 x hx
          have h3 : F32.lt z.2 c = false := F32.lt_false_trans hc (hnl x hx) (hnl z (by simp)) hl h2
          exact (hnl z (by simp)).eq_of_not_lt hc h3 h1
    | succ k =>
      have h := ih k c hnl hc hb hk hk'
      obtain ⟨a, ha, e⟩ := hk
      rw [List.filter_cons_of_pos, ← h]
      · rfl
      · rw [← e, hy a (List.mem_of_getElem? ha)]; rfl

/-- Which results are the first `k + 1` is fixed exactly if the next one has less confidence than they. -/
theorem C118_top {t o lower parse n input ix cl} (h : Searchable t o lower parse n input ix cl) (o₁ : HashOrd) (query : List Char)
    (results : List (Product × F32)) (hs : ix.search o₁ n query = .ok results) (k : Nat) :
    (∀ o' answer, ix.search o' n query = .ok answer → (answer.take (k + 1)).Perm (results.take (k + 1))) ↔
      ∀ a b, results[k]? = some a → results[k + 1]? = some b → a.2 ≠ b.2 := by
  have hn : ∀ x ∈ results, F32.NonNeg x.2 := fun _ hx => h.result_nonNeg hs hx
  have hb := ((C118 h o₁ query results hs results).1 ⟨o₁, hs⟩).2
  have hnd := nodup_results h.pos h.le hs
  constructor
  · intro hall a b ha hb' e
    obtain ⟨o', ho'⟩ := (C118 h o₁ query results hs (results.map (exchanged a b))).2
      ⟨exchanged_perm hnd (List.mem_of_getElem? ha) (List.mem_of_getElem? hb'), exchanged_best hb e⟩
    have hmem : b ∈ (results.map (exchanged a b)).take (k + 1) := by
      refine List.mem_of_getElem? (i := k) ?_
      rw [List.getElem?_take_of_lt (Nat.lt_succ_self k), List.getElem?_map, ha]
      simp [exchanged]
    obtain ⟨j, hj, ej⟩ := List.getElem_of_mem ((hall o' _ ho').mem_iff.1 hmem)
    rw [List.getElem_take] at ej
    rw [List.length_take] at hj
    obtain ⟨h3, e3⟩ := List.getElem?_eq_some_iff.1 hb'
    have := (List.getElem_inj hnd).1 (ej.trans e3.symm)
    omega
  · intro hstrict o' answer ha
    obtain ⟨hp, hb'⟩ := (C118 h o₁ query results hs answer).1 ⟨o', ha⟩
    have e := confidences_eq hp hb' hb hn
    have at' : ∀ i : Nat, answer[i]?.map (·.2) = results[i]?.map (·.2) := by
      intro i
      rw [← List.getElem?_map, ← List.getElem?_map, e]
    cases hk : results[k]? with
    | none =>
      have hl := List.getElem?_eq_none_iff.1 hk
      rw [List.take_of_length_le (by rw [hp.length_eq]; omega), List.take_of_length_le (by omega)]
      exact hp
    | some a =>
      have hna := hn a (List.mem_of_getElem? hk)
      rw [take_eq_filter results k a.2 hn hna hb ⟨a, hk, rfl⟩ fun b hb'' e => hstrict a b hk hb'' e.symm,
        take_eq_filter answer k a.2 (fun x hx => hn x (hp.mem_iff.1 hx)) hna hb' ?_ ?_]
      · exact hp.filter _
      · have := at' k
        rw [hk] at this
        exact Option.map_eq_some_iff.1 this
      · intro b hb'' e
        have := at' (k + 1)
        rw [hb''] at this
        obtain ⟨c, hc, e'⟩ := Option.map_eq_some_iff.1 this.symm
        exact hstrict a c hk hc (e.symm.trans e'.symm)

theorem LoadedFrom.nonNeg {lower parse input ix cl} (hl : LoadedFrom lower parse input ix cl) (hsize : totalChars lower input ≤ 2 ^ 32)
    {o : HashOrd} {query : List Char} {results : List (Product × F32)} (hs : ix.search o ngramIndexSize query = .ok results) :
    ∀ x ∈ results, F32.NonNeg x.2 := by
  obtain ⟨t₀, o₀, ix₀, cl₀, hb, hsame⟩ := hl.sameData
  have hsr : Searchable t₀ o₀ lower parse ngramIndexSize input ix₀ cl₀ := ⟨by decide, by decide, hb, hsize⟩
  have hr := search_eq o ix₀ (n := ngramIndexSize) (by decide) (by decide) query
  rw [search_eq o ix (by decide) (by decide), hitsOf_reload hsame, rank_map] at hs
  cases hs
  intro x hx
  have hx := (export_perm _ _).mem_iff.1 hx
  simp only [List.map_map, List.mem_map, Function.comp_apply] at hx
  obtain ⟨⟨id, y⟩, hy, rfl⟩ := hx
  exact hsr.result_nonNeg hr (p := y.1) (c := y.2) ((export_perm _ _).mem_iff.2 (List.mem_map.2 ⟨_, hy, rfl⟩))

open Classical in
/-- What a page shows: over all hash orders, exactly the arrangements of the results with the best first, each without the
products that are not selected. -/
theorem C118_page {lower parse input ix cl} (hl : LoadedFrom lower parse input ix cl) (hsize : totalChars lower input ≤ 2 ^ 32)
    (mode : PanicMode) (lower' : Char → List Char) (e : Engine) (hv : e.index = ⟨.free, some ix⟩) (query : Str)
    (cats : CategoryHandler) (tags : TagHandler) (hc : cats.InRange) (ht : tags.InRange) (filter : List (Str × JsValue))
    (hf : ∀ entry ∈ filter, ∃ id props, entry.2 = .obj id props) (o : HashOrd) (results : List (Product × F32))
    (hs : ix.search o ngramIndexSize (query.flatMap lower') = .ok results) (ids : List Nat) :
    (∃ o' e' found, e.search mode o' lower' query cats tags none filter = (e', .ok (some found)) ∧ found.toExport = ids) ↔
      ∃ answer : List (Product × F32), answer.Perm results ∧ (answer.Pairwise fun a b => F32.lt a.2 b.2 = false) ∧
        ids = (answer.map (·.1.sid)).filter fun sid => decide (cats.Allows sid ∧ tags.Allows sid ∧
          ∀ entry ∈ filter, EntryAccepts ix.container.extra sid entry) := by
  obtain ⟨filters, h1, h2⟩ := parseFilters_objects filter hf
  have key : ∀ o' answer, ix.search o' ngramIndexSize (query.flatMap lower') = .ok answer →
      e.search mode o' lower' query cats tags none filter = (e, .ok (some (ProductProducer.new ix.container
        ((answer.map (·.1.sid)).filter fun sid => decide (cats.Allows sid ∧ tags.Allows sid ∧
          ∀ entry ∈ filter, EntryAccepts ix.container.extra sid entry))))) := by
    intro o' answer ha
    obtain ⟨r, h3, h4⟩ := searchIds_spec o' lower' ix query cats tags hc ht filters
    rw [ha] at h3
    cases h3
    unfold Engine.search
    rw [h1, hv]
    simp only [Slot.lockOk, h4]
    simp only [Wanted, h2]
  have hiff := answer_iff ix (by decide) (by decide) o (query.flatMap lower') hs (hl.nonNeg hsize hs)
  constructor
  · rintro ⟨o', e', found, h, rfl⟩
    obtain ⟨answer, ha⟩ := C48_search_total o' ix (n := ngramIndexSize) (by decide) (by decide) (query.flatMap lower')
    rw [key o' answer ha] at h
    cases h
    obtain ⟨h5, h6⟩ := (hiff answer).1 ⟨o', ha⟩
    exact ⟨answer, h5, h6, rfl⟩
  · rintro ⟨answer, h5, h6, rfl⟩
    obtain ⟨o', ha⟩ := (hiff answer).2 ⟨h5, h6⟩
    exact ⟨o', _, _, key o' answer ha, rfl⟩

/-- With an order asked for nothing is left open: the call has the same outcome whatever the hash orders. -/
theorem C118_ordered {lower parse input ix cl} (hl : LoadedFrom lower parse input ix cl) (mode : PanicMode) (lower' : Char → List Char)
    (e : Engine) (hv : e.index = ⟨.free, some ix⟩) (hcl : e.classic = ⟨.free, some cl⟩) (query : Str) (cats : CategoryHandler)
    (tags : TagHandler) (hc : cats.InRange) (ht : tags.InRange) (filter : List (Str × JsValue)) (name : Str) (o o' : HashOrd) :
    e.search mode o lower' query cats tags (some name) filter = e.search mode o' lower' query cats tags (some name) filter := by
  cases hf : parseFilters filter with
  | none =>
    unfold Engine.search
    rw [hf]
  | some filters =>
    have plain : ∀ o, ∃ answer, ix.search o ngramIndexSize (query.flatMap lower') = .ok answer ∧
        e.search mode o lower' query cats tags none filter = (e, .ok (some (ProductProducer.new ix.container
          ((answer.map (·.1.sid)).filter fun sid => @decide (Wanted cats tags filters ix.container.extra sid) (Classical.propDecidable _))))) := by
      intro o
      obtain ⟨answer, h3, h4⟩ := searchIds_spec o lower' ix query cats tags hc ht filters
      refine ⟨answer, h3, ?_⟩
      unfold Engine.search
      rw [hf, hv]
      simp only [Slot.lockOk, h4]
    obtain ⟨r, hr, h1⟩ := plain o
    obtain ⟨r', hr', h1'⟩ := plain o'
    cases hk : cl.order.getOrders name with
    | none =>
      rw [C34_unknown mode o lower' e e query cats tags filter _ h1 cl (by rw [hcl]) (by rw [hcl]) name hk,
        C34_unknown mode o' lower' e e query cats tags filter _ h1' cl (by rw [hcl]) (by rw [hcl]) name hk]
    | some ranks =>
      obtain ⟨t₀, o₀, ix₀, cl₀, hb, hs⟩ := hl.sameData
      have hperm := (C20 (buildAll_container hb)).2.2.1 name ranks (by rw [← hs.orders]; exact hk)
      have hself : IsRanking input.length (fun i j => ∀ ri rj, ranks[i]? = some ri → ranks[j]? = some rj → ri < rj) ranks := by
        refine ⟨hperm, fun i j ri rj hi hj => ⟨fun hlt ri' rj' hi' hj' => ?_, fun hall => hall ri rj hi hj⟩⟩
        rw [hi] at hi'; rw [hj] at hj'
        cases hi'; cases hj'
        exact hlt
      obtain ⟨pp, k1, k2, k3, k4, k5⟩ := C34_ranked mode o lower lower' parse input ix cl hl e e (by rw [hv]) hcl query cats tags
        filter _ h1 name ranks hk _ hself
      obtain ⟨pp', k1', k2', k3', k4', k5'⟩ := C34_ranked mode o' lower lower' parse input ix cl hl e e (by rw [hv]) hcl query cats tags
        filter _ h1' name ranks hk _ hself
      have hrr : r.Perm r' := by
        rw [search_eq o ix (by decide) (by decide)] at hr
        rw [search_eq o' ix (by decide) (by decide)] at hr'
        cases hr; cases hr'
        exact (export_perm _ _).trans (export_perm _ _).symm
      have hpp : pp.toExport.Perm pp'.toExport := k4.trans (((hrr.map _).filter _).trans k4'.symm)
      obtain ⟨t₁, t, o₁, bytes, g1, g2, g3⟩ := hl.loaded
      have hcov : ∀ i ∈ pp.toExport, i < ranks.length := by
        intro i hi
        obtain ⟨c1, _, c3, _⟩ := C44_search t bytes ix cl g3 mode o lower' e (by rw [hv]) query cats tags (some name) filter e pp k1
        have h7 := c3 i hi
        rw [c1, hl.length] at h7
        have h8 : ranks.length = input.length := by simpa using hperm.length_eq
        omega
      have heq : pp.toExport = pp'.toExport := by
        refine hpp.eq_of_pairwise ?_ k5 k5'
        intro a b ha hb h1 h2
        have ea := List.getElem?_eq_getElem (hcov a ha)
        have eb := List.getElem?_eq_getElem (hcov b (hpp.mem_iff.2 hb))
        have := h1 _ _ ea eb
        have := h2 _ _ eb ea
        omega
      rw [k1, k1']
      obtain ⟨c, l, i⟩ := pp
      obtain ⟨c', l', i'⟩ := pp'
      simp only at k2 k3 k2' k3' heq
      rw [k2, k3, k2', k3', heq]
      rfl

set_option maxRecDepth 10000

/-- Two products with the text "abcde" and two without text. -/
def level : List RawProduct := [mkRaw ['a', 'b', 'c', 'd', 'e'] [] ['1'], mkRaw ['a', 'b', 'c', 'd', 'e'] [] ['2'],
  mkRaw [] [] ['3'], mkRaw [] [] ['4']]

/-- Searching one and the same index for one and the same text lists the two products either way round. -/
theorem C118_false : ∃ ix cl o r r', Searchable .debug64 .ident (fun c => [c]) parseOne 5 level ix cl ∧
    ix.search .ident 5 ['a', 'b', 'c', 'd', 'e'] = .ok r ∧ ix.search o 5 ['a', 'b', 'c', 'd', 'e'] = .ok r' ∧
    r.map (·.1.id) = [['1'], ['2']] ∧ r'.map (·.1.id) = [['2'], ['1']] := by
  have h1 : ((runSearch .debug64 .ident 5 level ['a', 'b', 'c', 'd', 'e']).map fun l =>
      (l.map (·.1) == [['1'], ['2']]) && l.all fun a => l.all fun b => !F32.lt a.2 b.2) = some true := by decide +kernel
  obtain ⟨l, h1, e⟩ := Option.map_eq_some_iff.1 h1
  obtain ⟨ix, cl, r, b, s, f⟩ := runSearch_sound h1
  have hs : Searchable .debug64 .ident (fun c => [c]) parseOne 5 level ix cl := ⟨by omega, by omega, b, by decide⟩
  simp only [Bool.and_eq_true, beq_iff_eq, List.all_eq_true, Bool.not_eq_true'] at e
  obtain ⟨e1, e2⟩ := e
  have hid : r.map (·.1.id) = [['1'], ['2']] := by rw [← e1, ← f]; simp
  obtain ⟨o, ho⟩ := (C118 hs .ident _ r s r.reverse).2 ⟨List.reverse_perm r, by
    refine List.Pairwise.imp_of_mem (R := fun _ _ => True) ?_ (List.pairwise_of_forall fun _ _ => trivial)
    intro x y hx hy _
    exact e2 (x.1.id, x.2) (f ▸ List.mem_map.2 ⟨x, List.mem_reverse.1 hx, rfl⟩) (y.1.id, y.2)
      (f ▸ List.mem_map.2 ⟨y, List.mem_reverse.1 hy, rfl⟩)⟩
  exact ⟨ix, cl, o, r, r.reverse, hs, s, ho, hid, by rw [List.map_reverse, hid]; rfl⟩

end Idx
