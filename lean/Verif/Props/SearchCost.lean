import Verif.Model.SearchCost
import Verif.Props.Cost
import Verif.Props.Size
import Verif.Props.Reload
import Verif.Props.FileSize

/-! How much work a call of `search` is. -/

namespace Idx
variable {G : Type} [DecidableEq G] [RDefault G]

/-! ## Counting changes nothing -/

theorem searchStepW_fst (ix : GramIndex G) (n : Nat) (st : (Ranker × List G) × Nat) (gram : G) :
    (ix.searchStepW n st gram).map (·.1) = ix.searchStep n st.1 gram := by
  unfold GramIndex.searchStepW GramIndex.searchStep
  refine counted_bind (searchGramN_fst ix n _) fun a => ?_
  obtain ⟨r, k⟩ := a
  cases r with
  | none => rfl
  | some f =>
    simp only []
    cases AMap.get ix.data f.1 <;> rfl

theorem searchW_fold (ix : GramIndex G) (n : Nat) : ∀ (input : List G) (st : (Ranker × List G) × Nat),
    (input.foldlM (ix.searchStepW n) st).map (·.1) = input.foldlM (ix.searchStep n) st.1
  | [], _ => rfl
  | g :: input, st => by
    rw [List.foldlM_cons, List.foldlM_cons]
    exact counted_bind (searchStepW_fst ix n st g) fun a => searchW_fold ix n input a

theorem searchW_fst (cmps : Nat → Nat) (o : HashOrd) (ix : GramIndex G) (n : Nat) (input : List G) :
    (ix.searchW cmps o n input).map (·.1) = ix.search o n input :=
  counted_bind (searchW_fold ix n input _) fun _ => rfl

theorem allActiveW_fst {K : Type} (contains : K → Except Panic Bool) : ∀ l : List K,
    (allActiveW contains l).map (·.1) = allActive contains l
  | [] => rfl
  | k :: l => by
    unfold allActiveW allActive
    refine counted_pass fun b => ?_
    cases b with
    | false => rfl
    | true =>
      have := allActiveW_fst contains l
      rw [if_neg (by decide), if_neg (by decide), ← this]
      cases allActiveW contains l <;> rfl

theorem keepsW_fst (features : FeatureSet) (p : Product) : ∀ filters : List FeatureFilter,
    (keepsW features p filters).1 = filters.all fun f => f.keeps features p
  | [] => rfl
  | f :: rest => by
    unfold keepsW
    rw [List.all_cons]
    cases f.keeps features p with
    | false => rfl
    | true => exact keepsW_fst features p rest

theorem keepProductW_fst (o : HashOrd) (cats : CategoryHandler) (tags : TagHandler) (filters : List FeatureFilter)
    (features : FeatureSet) (p : Product) :
    (keepProductW o cats tags filters features p).map (·.1) = keepProduct o cats tags filters features p := by
  unfold keepProductW keepProduct
  refine counted_bind (allActiveW_fst _ _) fun a => ?_
  obtain ⟨b, k⟩ := a
  cases b with
  | false => rfl
  | true =>
    refine counted_bind (allActiveW_fst _ _) fun a => ?_
    obtain ⟨b, k'⟩ := a
    cases b with
    | false => rfl
    | true => exact congrArg Except.ok (keepsW_fst features p filters)

theorem filterW_fst {α : Type} {pW : α → Except Panic (Bool × Nat)} {p : α → Except Panic Bool} (h : ∀ a, (pW a).map (·.1) = p a) :
    ∀ l : List α, (filterW pW l).map (·.1) = filterE p l
  | [] => rfl
  | a :: l => by
    unfold filterW filterE
    refine counted_bind (h a) fun b => ?_
    exact counted_bind (filterW_fst h l) fun c => rfl

theorem searchIdsW_fst (cmps : Nat → Nat) (o : HashOrd) (lower : Char → List Char) (index : GramIndex Char) (input : Str)
    (cats : CategoryHandler) (tags : TagHandler) (filters : List FeatureFilter) :
    (searchIdsW cmps o lower index input cats tags filters).map (·.1) = searchIds o lower index input cats tags filters := by
  unfold searchIdsW searchIds
  refine counted_bind (searchW_fst cmps o index _ _) fun a => ?_
  exact counted_bind (filterW_fst (keepProductW_fst o cats tags filters _) _) fun b => rfl

theorem sortByOrderW_fst (cmps : Nat → Nat) (order results : List Nat) :
    (sortByOrderW cmps order results).map (·.1) = sortByOrder order results := by
  unfold sortByOrderW sortByOrder
  split
  · rfl
  · exact counted_pass fun a => rfl

/-- Without the count this is `search`: the same result, and the same state is left. -/
theorem C104_counts (cmps : Nat → Nat) (mode : PanicMode) (o : HashOrd) (lower : Char → List Char) (e : Engine) (input : Str)
    (cats : CategoryHandler) (tags : TagHandler) (order : Option Str) (filter : List (Str × JsValue)) :
    (e.searchW cmps mode o lower input cats tags order filter).1 = (e.search mode o lower input cats tags order filter).1 ∧
    (e.searchW cmps mode o lower input cats tags order filter).2.map (·.1) = (e.search mode o lower input cats tags order filter).2 := by
  unfold Engine.searchW Engine.search
  cases parseFilters filter with
  | none => exact ⟨rfl, rfl⟩
  | some filters =>
    simp only []
    cases e.index.lockOk with
    | error w => exact ⟨rfl, rfl⟩
    | ok v =>
      cases v with
      | none => exact ⟨rfl, rfl⟩
      | some index =>
        simp only []
        have h := searchIdsW_fst cmps o lower index input cats tags filters
        cases hw : searchIdsW cmps o lower index input cats tags filters with
        | error w => rw [hw] at h; rw [← h]; exact ⟨rfl, rfl⟩
        | ok x =>
          rw [hw] at h
          rw [← h]
          obtain ⟨ids, k⟩ := x
          simp only [Except.map]
          cases order with
          | none => exact ⟨rfl, rfl⟩
          | some name =>
            simp only []
            cases e.classic.lockOk with
            | error w => exact ⟨rfl, rfl⟩
            | ok v =>
              cases v with
              | none => exact ⟨rfl, rfl⟩
              | some classic =>
                simp only []
                cases classic.order.getOrders name with
                | none => exact ⟨rfl, rfl⟩
                | some ranks =>
                  simp only []
                  have h := sortByOrderW_fst cmps ranks ids
                  cases hw : sortByOrderW cmps ranks ids with
                  | error w => rw [hw] at h; rw [← h]; exact ⟨rfl, rfl⟩
                  | ok x => rw [hw] at h; rw [← h]; exact ⟨rfl, rfl⟩

/-! ## The n-gram index, exactly -/

/-- Spec: the steps for what a window finds: one to look up its products and one for each. -/
def windowAdds (ix : GramIndex G) (n : Nat) (w : List G) : Nat :=
  match ix.searchGram n w with
  | .ok (some (found, _)) => 1 + ((AMap.get ix.data found).getD []).length
  | _ => 0

theorem searchW_fold_eq {ix : GramIndex G} {n : Nat} (hn : 1 ≤ n) :
    ∀ (rest done : List G) (r : Ranker) (k : Nat) (st : (Ranker × List G) × Nat),
    rest.foldlM (ix.searchStepW n) ((r, windowAfter n done), k) = .ok st →
    st.2 + ((paddedWindows n done).map fun w => windowCalls ix n w + windowAdds ix n w).sum =
      k + n * rest.length + ((paddedWindows n (done ++ rest)).map fun w => windowCalls ix n w + windowAdds ix n w).sum
  | [], done, r, k, st, h => by cases h; simp
  | g :: rest, done, r, k, st, h => by
    rw [List.foldlM_cons] at h
    obtain ⟨a, ha, h⟩ := bind_ok h
    unfold GramIndex.searchStepW at ha
    obtain ⟨⟨f, c⟩, hc, ha⟩ := bind_ok ha
    have h1 := searchGramN_eq _ _ hc
    have h4 := searchGramN_fst ix n (shiftIn n (windowAfter n done) g)
    simp only at ha h1 hc
    rw [hc] at h4
    rw [windowAfter_snoc n hn] at ha h1 h4
    have h2 : ∃ r', a = ((r', windowAfter n (done ++ [g])), k + n + c + windowAdds ix n (windowAfter n (done ++ [g]))) := by
      unfold windowAdds
      rw [← h4]
      simp only [Except.map]
      split at ha
      · cases ha; exact ⟨_, rfl⟩
      · split at ha
        · rename_i hg
          cases ha
          exact ⟨_, by simp only [hg]; rfl⟩
        · rename_i hg
          cases ha
          exact ⟨_, by simp only [hg]; rw [Nat.add_assoc _ 1]; rfl⟩
    obtain ⟨r', rfl⟩ := h2
    have h3 := searchW_fold_eq hn rest (done ++ [g]) _ _ _ h
    rw [paddedWindows_snoc n hn, List.map_append, List.sum_append_nat, List.append_assoc] at h3
    simp only [List.map_cons, List.map_nil, List.sum_cons, List.sum_nil, List.cons_append, List.nil_append] at h3
    simp only [List.length_cons, Nat.mul_succ]
    omega

/-- The steps of the search in the n-gram index, exactly. -/
theorem C104_exact {cmps : Nat → Nat} {o : HashOrd} {ix : GramIndex G} {n : Nat} (hn : 1 ≤ n) {input : List G}
    {out : List (Product × F32)} {steps : Nat} (h : ix.searchW cmps o n input = .ok (out, steps)) :
    steps = n * input.length + ((paddedWindows n input).map fun w => windowCalls ix n w + windowAdds ix n w).sum +
      out.length + cmps out.length := by
  unfold GramIndex.searchW at h
  obtain ⟨st, hst, h⟩ := bind_ok h
  have e0 : windowAfter n ([] : List G) = List.replicate n dflt := by simp [windowAfter]
  rw [← e0] at hst
  have := searchW_fold_eq hn input [] _ _ _ hst
  cases h
  have hl : (st.1.1.export o).length = st.1.1.length := by rw [(export_perm o st.1.1).length_eq, List.length_map]
  rw [hl]
  simp only [paddedWindows_nil, List.map_nil, List.sum_nil, List.nil_append] at this
  omega

/-! ## Bounds -/

theorem allActiveW_le {K : Type} {contains : K → Except Panic Bool} : ∀ {l : List K} {b : Bool} {k : Nat},
    allActiveW contains l = .ok (b, k) → k ≤ l.length
  | [], b, k, h => by cases h; exact Nat.le_refl _
  | a :: l, b, k, h => by
    unfold allActiveW at h
    obtain ⟨b', _, h⟩ := bind_ok h
    split at h
    · cases h; simp
    · obtain ⟨⟨r, m⟩, h1, h⟩ := bind_ok h
      have := allActiveW_le h1
      cases h
      simp only [List.length_cons]
      omega

theorem keepsW_le (features : FeatureSet) (p : Product) : ∀ filters : List FeatureFilter,
    (keepsW features p filters).2 ≤ filters.length
  | [] => Nat.le_refl _
  | f :: rest => by
    have := keepsW_le features p rest
    unfold keepsW
    split
    · simp only [List.length_cons]; omega
    · simp

theorem keepProductW_le {o : HashOrd} {cats : CategoryHandler} {tags : TagHandler} {filters : List FeatureFilter}
    {features : FeatureSet} {p : Product} {b : Bool} {k : Nat} (h : keepProductW o cats tags filters features p = .ok (b, k)) :
    k ≤ cats.active.length + tags.active.length + filters.length := by
  unfold keepProductW at h
  obtain ⟨⟨b₁, k₁⟩, h1, h⟩ := bind_ok h
  have l1 := allActiveW_le h1
  rw [List.length_map, (o.perm _ _).length_eq] at l1
  dsimp only at h
  split at h
  · cases h; omega
  · obtain ⟨⟨b₂, k₂⟩, h2, h⟩ := bind_ok h
    have l2 := allActiveW_le h2
    rw [List.length_map, (o.perm _ _).length_eq] at l2
    dsimp only at h
    split at h
    · cases h; omega
    · have l3 := keepsW_le features p filters
      cases h
      omega

theorem filterW_le {α : Type} {p : α → Except Panic (Bool × Nat)} {B : Nat} : ∀ {l out : List α} {k : Nat},
    (∀ a ∈ l, ∀ x, p a = .ok x → x.2 ≤ B) → filterW p l = .ok (out, k) → k ≤ l.length * (1 + B) ∧ out.length ≤ l.length
  | [], out, k, _, h => by cases h; simp
  | a :: l, out, k, hp, h => by
    unfold filterW at h
    obtain ⟨⟨b, k₁⟩, h1, h⟩ := bind_ok h
    obtain ⟨⟨rest, k₂⟩, h2, h⟩ := bind_ok h
    have l1 := hp a (by simp) _ h1
    have l2 := filterW_le (fun a ha => hp a (by simp [ha])) h2
    cases h
    simp only [List.length_cons, Nat.succ_mul] at *
    refine ⟨by omega, ?_⟩
    split
    · simp only [List.length_cons]; omega
    · omega

/-- Searching an index, built or loaded, in which no node has more than `w` children and no posting list more than `d` products. -/
theorem C104_index {cmps : Nat → Nat} {o : HashOrd} {ix : GramIndex Char} {n w d : Nat} (hn : 1 ≤ n) (hn' : n ≤ 764)
    (hw : ∀ path nd, ix.Has path nd → nd.byOcc.length ≤ w) (hd : ∀ k l, AMap.get ix.data k = some l → l.length ≤ d)
    {input : List Char} {out : List (Product × F32)} {steps : Nat} (h : ix.searchW cmps o n input = .ok (out, steps)) :
    steps ≤ input.length * (n + n * (n * (2 * w + 2)) ^ (n / 3) + 1 + d) + out.length + cmps out.length := by
  have e := C104_exact hn h
  have hs : ((paddedWindows n input).map fun w => windowCalls ix n w + windowAdds ix n w).sum ≤
      ((paddedWindows n input).map fun _ => n * (n * (2 * w + 2)) ^ (n / 3) + (1 + d)).sum := by
    refine sum_le_sum _ fun u _ => Nat.add_le_add ?_ ?_
    · cases hq : ix.searchGramN n u with
      | ok r =>
        have h1 := searchGramN_le hw u r hq
        rw [searchGramN_eq u r hq] at h1
        simpa only [callBound, Nat.sub_add_cancel hn] using h1
      | error p =>
        obtain ⟨found, hfound⟩ := C48_gram_total ix hn hn' u
        have := searchGramN_fst ix n u
        rw [hq, hfound] at this
        cases this
    · unfold windowAdds
      split
      · rename_i found _ _
        cases hg : AMap.get ix.data found with
        | none => simp
        | some l => have := hd _ _ hg; simp only [Option.getD_some]; omega
      · omega
  rw [sum_map_one] at hs
  have hl : (paddedWindows n input).length = input.length := by simp [paddedWindows]
  rw [hl, Nat.mul_comm] at hs
  rw [Nat.mul_comm n] at e
  have : input.length * (n + n * (n * (2 * w + 2)) ^ (n / 3) + 1 + d) =
      input.length * n + input.length * (n * (n * (2 * w + 2)) ^ (n / 3) + (1 + d)) := by
    rw [← Nat.mul_add]; congr 1; omega
  omega

/-- No more products are found than the index has, if its posting lists hold products of its own. -/
theorem results_le {o : HashOrd} {ix : GramIndex Char} {n : Nat} (hn : 1 ≤ n) (hn' : n ≤ 764)
    (hp : ∀ k l, (k, l) ∈ ix.data → ∀ p ∈ l, ix.container.products[p.sid]? = some p) {input : List Char}
    {out : List (Product × F32)} (h : ix.search o n input = .ok out) : out.length ≤ ix.container.products.length := by
  have hnd := C25_distinct o ix hn hn' input out h
  rw [search_eq o ix hn hn'] at h
  cases h
  have hm : ∀ r ∈ (rank (hitsOf ix n input)).export o, ix.container.products[r.1.sid]? = some r.1 := by
    rintro ⟨p, c⟩ hr
    obtain ⟨⟨x, hx, rfl⟩, _⟩ := mem_export_iff.1 hr
    obtain ⟨w, _, found, l, _, hg, hx⟩ := mem_hitsOf.1 (List.mem_of_find?_eq_some hx)
    exact hp _ _ (AMap.mem_of_get hg) _ hx
  generalize (rank (hitsOf ix n input)).export o = out at hnd hm
  have hnd' : (out.map fun r => r.1.sid).Nodup := by
    refine List.pairwise_map.2 ((List.pairwise_map.1 hnd).imp_of_mem ?_)
    intro a b ha hb hne e
    refine hne ?_
    have h1 := hm a ha
    have h2 := hm b hb
    rw [e, h2] at h1
    have h3 := Option.some.inj h1
    rw [h3]
  have := hnd'.length_le_of_subset (l₂ := List.range ix.container.products.length) fun s hs => by
    obtain ⟨r, hr, rfl⟩ := List.mem_map.1 hs
    exact List.mem_range.2 (List.getElem?_eq_some_iff.1 (hm r hr)).1
  simpa using this

theorem orderKeys_length {order : List Nat} : ∀ {l : List Nat} {r : List (Nat × Nat)}, orderKeys order l = .ok r → r.length = l.length
  | [], r, h => by cases h; rfl
  | a :: l, r, h => by
    unfold orderKeys at h
    obtain ⟨k, _, h⟩ := bind_ok h
    obtain ⟨rest, h1, h⟩ := bind_ok h
    have := orderKeys_length h1
    cases h
    simp [this]

/-- A call of `search` takes at most `56 + 50 w + d` steps for each lower-cased character of the query, at most one for each selection and filter
and three more for each product, and the comparisons of sorting the products twice. -/
theorem C104_bound {cmps : Nat → Nat} (hc : ∀ {a b : Nat}, a ≤ b → cmps a ≤ cmps b) {mode : PanicMode} {o : HashOrd}
    {lower : Char → List Char} {e e' : Engine} {ix : GramIndex Char} (hix : e.index.value = some ix) {w d : Nat}
    (hw : ∀ path nd, ix.Has path nd → nd.byOcc.length ≤ w) (hd : ∀ k l, AMap.get ix.data k = some l → l.length ≤ d)
    (hp : ∀ k l, (k, l) ∈ ix.data → ∀ p ∈ l, ix.container.products[p.sid]? = some p)
    {input : Str} {cats : CategoryHandler} {tags : TagHandler} {order : Option Str} {filter : List (Str × JsValue)}
    {r : Option ProductProducer} {steps : Nat} (h : e.searchW cmps mode o lower input cats tags order filter = (e', .ok (r, steps))) :
    steps ≤ (input.flatMap lower).length * (56 + 50 * w + d) +
      ix.container.products.length * (3 + cats.active.length + tags.active.length + filter.length) +
      2 * cmps ix.container.products.length + filter.length + 1 := by
  have hff : ∀ (filter : List (Str × JsValue)) (filters : List FeatureFilter), parseFilters filter = some filters → filters.length = filter.length := by
    intro filter
    induction filter with
    | nil => intro filters h; cases h; rfl
    | cons a l ih =>
      intro filters h
      obtain ⟨k, v⟩ := a
      unfold parseFilters at h
      split at h
      · cases h
      · cases hr : parseFilters l with
        | none => rw [hr] at h; cases h
        | some fs =>
          rw [hr] at h
          cases h
          simp [ih fs hr]
  have hlock : ∀ v, e.index.lockOk = .ok (some v) → v = ix := by
    intro v hv
    unfold Slot.lockOk at hv
    split at hv
    · rw [hix] at hv; cases hv; rfl
    · cases hv
    · cases hv
  unfold Engine.searchW at h
  split at h
  · cases h; omega
  · rename_i filters hfs
    have hfl := hff _ _ hfs
    split at h
    · cases h
    · cases h; omega
    · rename_i v hv
      obtain rfl := hlock v hv
      split at h
      · cases h
      · rename_i ids k hids
        have key : k + ids.length + cmps ids.length ≤ (input.flatMap lower).length * (56 + 50 * w + d) +
            v.container.products.length * (3 + cats.active.length + tags.active.length + filter.length) +
            2 * cmps v.container.products.length := by
          unfold searchIdsW at hids
          obtain ⟨⟨out, k₁⟩, h1, hids⟩ := bind_ok hids
          obtain ⟨⟨kept, k₂⟩, h2, hids⟩ := bind_ok hids
          have b1 := C104_index (by decide) (by decide) hw hd h1
          have hsr : v.search o ngramIndexSize (input.flatMap lower) = .ok out := by
            rw [← searchW_fst cmps, h1]; rfl
          have b2 := results_le (by decide) (by decide) hp hsr
          have b3 := filterW_le (B := cats.active.length + tags.active.length + filters.length)
            (fun a _ x hx => keepProductW_le (b := x.1) (k := x.2) hx) h2
          rw [List.length_map] at b3
          cases hids
          have b4 : ngramIndexSize + ngramIndexSize * (ngramIndexSize * (2 * w + 2)) ^ (ngramIndexSize / 3) + 1 + d = 56 + 50 * w + d := by
            simp only [ngramIndexSize, Nat.reduceDiv, Nat.pow_one]; omega
          rw [b4] at b1
          have b5 := hc b2
          have b6 := hc (Nat.le_trans b3.2 b2)
          have b7 : out.length * (1 + (cats.active.length + tags.active.length + filters.length)) + 2 * out.length ≤
              v.container.products.length * (3 + cats.active.length + tags.active.length + filter.length) := by
            rw [Nat.mul_comm 2, ← Nat.mul_add, hfl]
            exact Nat.le_trans (Nat.mul_le_mul_right _ b2) (Nat.mul_le_mul_left _ (by omega))
          rw [List.length_map]
          dsimp only at *
          omega
        split at h
        · cases h; omega
        · split at h
          · cases h
          · cases h; omega
          · split at h
            · cases h; omega
            · split at h
              · cases h
              · rename_i ids' k' hs
                have : k' ≤ ids.length + cmps ids.length := by
                  unfold sortByOrderW at hs
                  split at hs
                  · cases hs; omega
                  · obtain ⟨keyed, _, hs⟩ := bind_ok hs
                    cases hs; omega
                cases h; omega

/-! ## What the filters look at -/

/-- How many conditions are looked at, one after the other, until one fails. -/
def looks (conditions : List Bool) : Nat := min conditions.length (conditions.findIdx (fun b => !b) + 1)

theorem looks_true (l : List Bool) : looks (true :: l) = looks l + 1 := by
  unfold looks
  rw [List.findIdx_cons]
  simp only [Bool.not_true, cond_false, List.length_cons]
  omega

theorem looks_false (l : List Bool) : looks (false :: l) = 1 := by
  unfold looks
  rw [List.findIdx_cons]
  simp only [Bool.not_false, cond_true, List.length_cons]
  omega

/-- If all of the first conditions hold the others are looked at as well. -/
theorem looks_append {a : List Bool} (b : List Bool) : looks (a ++ b) = if a.all id then a.length + looks b else looks a := by
  induction a with
  | nil => simp
  | cons x a ih =>
    cases x with
    | false => simp [looks_false]
    | true =>
      rw [List.cons_append, looks_true, looks_true, ih]
      simp only [List.all_cons, id_eq, Bool.true_and, List.length_cons]
      split <;> omega

theorem looks_all {a : List Bool} (h : a.all id = true) : looks a = a.length := by
  have := looks_append (a := a) []
  rw [List.append_nil, if_pos h] at this
  simpa [looks] using this

/-- Whether a product satisfies one condition; a condition that panics does not hold. -/
def holds : Except Panic Bool → Bool
  | .ok b => b
  | .error _ => false

/-- What one product has to satisfy, in the order of the code: selected options, selected tags, filters. -/
def conditionsOf (o : HashOrd) (cats : CategoryHandler) (tags : TagHandler) (filters : List FeatureFilter) (features : FeatureSet)
    (p : Product) : List Bool :=
  ((o.order "active categories" cats.active).map fun e => holds (do
    let category ← indexChecked cats.handle.categories e.1.1
    let option ← indexChecked category.options e.1.2
    .ok (option.contains p))) ++
  (((o.order "active tags" tags.active).map fun e => ((tags.handle.tags[e.1]?).map fun tag => tag.contains p) == some true) ++
  filters.map fun f => f.keeps features p)

theorem allActiveW_looks {K : Type} (contains : K → Except Panic Bool) : ∀ (l : List K) {b : Bool} {k : Nat},
    allActiveW contains l = .ok (b, k) → b = (l.map fun x => holds (contains x)).all id ∧ k = looks (l.map fun x => holds (contains x))
  | [], b, k, h => by cases h; exact ⟨rfl, rfl⟩
  | x :: l, b, k, h => by
    unfold allActiveW at h
    obtain ⟨c, hc, h⟩ := bind_ok h
    rw [List.map_cons, hc]
    cases c with
    | false =>
      cases h
      exact ⟨rfl, (looks_false _).symm⟩
    | true =>
      rw [if_neg (by decide)] at h
      obtain ⟨⟨b', k'⟩, h', h⟩ := bind_ok h
      have := allActiveW_looks contains l h'
      cases h
      obtain ⟨h1, h2⟩ := this
      refine ⟨?_, ?_⟩
      · rw [h1]; rfl
      · rw [h2]; exact (looks_true _).symm

theorem keepsW_looks (features : FeatureSet) (p : Product) : ∀ filters : List FeatureFilter,
    (keepsW features p filters).2 = looks (filters.map fun f => f.keeps features p)
  | [] => rfl
  | f :: rest => by
    unfold keepsW
    rw [List.map_cons]
    cases f.keeps features p with
    | false => exact (looks_false _).symm
    | true =>
      rw [looks_true, ← keepsW_looks features p rest]
      rfl

/-- The selections and filters are looked at one after the other until one fails; the product is kept if none does. -/
theorem C104_conditions {o : HashOrd} {cats : CategoryHandler} {tags : TagHandler} {filters : List FeatureFilter} {features : FeatureSet}
    {p : Product} {b : Bool} {k : Nat} (h : keepProductW o cats tags filters features p = .ok (b, k)) :
    b = (conditionsOf o cats tags filters features p).all id ∧ k = looks (conditionsOf o cats tags filters features p) := by
  unfold keepProductW at h
  obtain ⟨⟨b₁, k₁⟩, h1, h⟩ := bind_ok h
  unfold CategoryHandler.isValidW at h1
  have l1 := allActiveW_looks _ _ h1
  rw [List.map_map] at l1
  unfold conditionsOf
  rw [looks_append, List.all_append]
  have e1 : ((o.order "active categories" cats.active).map fun e => holds (do
      let category ← indexChecked cats.handle.categories e.1.1
      let option ← indexChecked category.options e.1.2
      .ok (option.contains p))).all id = b₁ := l1.1.symm
  rw [e1]
  cases b₁ with
  | false =>
    dsimp only at h
    rw [if_pos rfl] at h
    cases h
    exact ⟨by simp, by rw [if_neg (by decide)]; exact l1.2⟩
  | true =>
    dsimp only at h
    rw [if_neg (by decide)] at h
    rw [if_pos rfl, Bool.true_and]
    have e1' := looks_all e1
    obtain ⟨⟨b₂, k₂⟩, h2, h⟩ := bind_ok h
    unfold TagHandler.isValidW at h2
    have l2 := allActiveW_looks _ _ h2
    have ef : ((o.order "active tags" tags.active).map (·.1)).map (fun x => holds (match tags.handle.tags[x]? with
        | some tag => .ok (tag.contains p)
        | none => .error .unwrapNone)) =
        (o.order "active tags" tags.active).map fun e => ((tags.handle.tags[e.1]?).map fun tag => tag.contains p) == some true := by
      rw [List.map_map]
      refine List.map_congr_left fun e _ => ?_
      dsimp only [Function.comp]
      cases tags.handle.tags[e.1]? with
      | none => rfl
      | some t => cases hc : t.contains p <;> simp [holds, hc]
    replace l2 : b₂ = ((o.order "active tags" tags.active).map fun e => ((tags.handle.tags[e.1]?).map fun tag => tag.contains p) == some true).all id ∧
        k₂ = looks ((o.order "active tags" tags.active).map fun e => ((tags.handle.tags[e.1]?).map fun tag => tag.contains p) == some true) := by
      rw [← ef]; exact l2
    rw [looks_append, List.all_append, ← l2.1, ← e1', ← l2.2]
    have l1' : k₁ = _ := l1.2
    cases b₂ with
    | false =>
      dsimp only at h
      rw [if_pos rfl] at h
      cases h
      exact ⟨by simp, by rw [if_neg (by decide), l1']; rfl⟩
    | true =>
      dsimp only at h
      rw [if_neg (by decide)] at h
      cases h
      have e3 := looks_all l2.1.symm
      refine ⟨?_, ?_⟩
      · rw [keepsW_fst, Bool.true_and, List.all_map]; rfl
      · rw [if_pos rfl, keepsW_looks, ← e3, ← l2.2, l1', Nat.add_assoc]; rfl

theorem filterW_looks {α : Type} {p : α → Except Panic (Bool × Nat)} {f : α → Bool} {g : α → Nat}
    (hp : ∀ a x, p a = .ok x → x.1 = f a ∧ x.2 = g a) : ∀ {l : List α} {r : List α × Nat}, filterW p l = .ok r →
    r.1 = l.filter f ∧ r.2 = l.length + (l.map g).sum
  | [], r, h => by cases h; exact ⟨rfl, rfl⟩
  | a :: l, r, h => by
    unfold filterW at h
    obtain ⟨⟨b, k⟩, h1, h⟩ := bind_ok h
    obtain ⟨⟨rest, k'⟩, h2, h⟩ := bind_ok h
    have i1 := hp a _ h1
    have i2 := filterW_looks hp h2
    cases h
    dsimp only at i1 i2 ⊢
    obtain ⟨rfl, rfl⟩ := i1
    obtain ⟨rfl, rfl⟩ := i2
    refine ⟨?_, ?_⟩
    · rw [List.filter_cons]
    · rw [List.map_cons, List.sum_cons, List.length_cons]; omega

/-- All steps of finding and filtering: those of the index, one for each product found and those looked at for it. -/
theorem C104_ids {cmps : Nat → Nat} {o : HashOrd} {lower : Char → List Char} {ix : GramIndex Char} {input : Str}
    {cats : CategoryHandler} {tags : TagHandler} {filters : List FeatureFilter} {ids : List Nat} {steps : Nat}
    (h : searchIdsW cmps o lower ix input cats tags filters = .ok (ids, steps)) :
    ∃ out, ix.search o ngramIndexSize (input.flatMap lower) = .ok out ∧
      ids = ((out.map (·.1)).filter fun p => (conditionsOf o cats tags filters ix.container.extra p).all id).map (·.sid) ∧
      steps = ngramIndexSize * (input.flatMap lower).length +
        ((paddedWindows ngramIndexSize (input.flatMap lower)).map fun w => windowCalls ix ngramIndexSize w + windowAdds ix ngramIndexSize w).sum +
        2 * out.length + cmps out.length + (out.map fun r => looks (conditionsOf o cats tags filters ix.container.extra r.1)).sum := by
  unfold searchIdsW at h
  obtain ⟨⟨out, k₁⟩, h1, h⟩ := bind_ok h
  obtain ⟨⟨kept, k₂⟩, h2, h⟩ := bind_ok h
  have hsr : ix.search o ngramIndexSize (input.flatMap lower) = .ok out := by
    rw [← searchW_fst cmps, h1]; rfl
  have b1 := C104_exact (by decide) h1
  have b2 := filterW_looks (fun a x hx => C104_conditions (b := x.1) (k := x.2) hx) h2
  refine ⟨out, hsr, ?_, ?_⟩
  · cases h
    have := b2.1
    dsimp only at this
    rw [this]
  · cases h
    have := b2.2
    dsimp only at this
    rw [this, b1, List.length_map, List.map_map]
    simp only [Function.comp_def]
    omega

/-- The steps of a whole call that returns a producer: the filter object, finding and filtering, and, if an order is asked for, looking it
up and sorting. -/
theorem C104_call {cmps : Nat → Nat} {mode : PanicMode} {o : HashOrd} {lower : Char → List Char} {e e' : Engine} {ix : GramIndex Char}
    (hix : e.index.value = some ix) {input : Str} {cats : CategoryHandler} {tags : TagHandler} {order : Option Str}
    {filter : List (Str × JsValue)} {r : ProductProducer} {steps : Nat}
    (h : e.searchW cmps mode o lower input cats tags order filter = (e', .ok (some r, steps))) :
    ∃ filters ids k, parseFilters filter = some filters ∧ searchIdsW cmps o lower ix input cats tags filters = .ok (ids, k) ∧
      steps = filter.length + k + if order = none then 0 else if ids.length < 2 then 1 else 1 + ids.length + cmps ids.length := by
  have hlock : ∀ v, e.index.lockOk = .ok (some v) → v = ix := by
    intro v hv
    unfold Slot.lockOk at hv
    split at hv
    · rw [hix] at hv; cases hv; rfl
    · cases hv
    · cases hv
  unfold Engine.searchW at h
  split at h
  · cases h
  · rename_i filters hfs
    split at h
    · cases h
    · cases h
    · rename_i v hv
      obtain rfl := hlock v hv
      split at h
      · cases h
      · rename_i ids k hids
        refine ⟨filters, ids, k, hfs, hids, ?_⟩
        split at h
        · cases h; rfl
        · rw [if_neg (by simp)]
          split at h
          · cases h
          · cases h
          · split at h
            · cases h
            · split at h
              · cases h
              · rename_i ids' k' hs
                have : k' = if ids.length < 2 then 0 else ids.length + cmps ids.length := by
                  unfold sortByOrderW at hs
                  split at hs
                  · rename_i hlt
                    rw [if_pos hlt]
                    cases hs; rfl
                  · rename_i hlt
                    rw [if_neg hlt]
                    obtain ⟨keyed, _, hs⟩ := bind_ok hs
                    cases hs; rfl
                cases h
                rw [this]
                split <;> omega

/-- The steps of a whole call that returns nothing: only those of the filter object if that is wrong or no index can be used, otherwise
those of finding and filtering as well, which are done before it turns out that the order does not exist. -/
theorem C104_nothing {cmps : Nat → Nat} {mode : PanicMode} {o : HashOrd} {lower : Char → List Char} {e e' : Engine}
    {input : Str} {cats : CategoryHandler} {tags : TagHandler} {order : Option Str}
    {filter : List (Str × JsValue)} {steps : Nat}
    (h : e.searchW cmps mode o lower input cats tags order filter = (e', .ok (none, steps))) :
    (steps = filter.length ∧ (parseFilters filter = none ∨ e.index.value = none ∨ e.index.state = .poisoned)) ∨
    ∃ filters ix ids k, parseFilters filter = some filters ∧ e.index.value = some ix ∧
      searchIdsW cmps o lower ix input cats tags filters = .ok (ids, k) ∧
      ((steps = filter.length + k ∧ (e.classic.value = none ∨ e.classic.state = .poisoned)) ∨
        ∃ name cl, order = some name ∧ e.classic.value = some cl ∧ cl.order.getOrders name = none ∧ steps = filter.length + k + 1) := by
  have hnone : ∀ {α : Type} (s : Slot α), s.lockOk = .ok none → s.value = none ∨ s.state = .poisoned := by
    intro α s hs
    unfold Slot.lockOk at hs
    split at hs
    · exact .inl (Except.ok.inj hs)
    · rename_i e; exact .inr e
    · cases hs
  have hsome : ∀ {α : Type} (s : Slot α) (v : α), s.lockOk = .ok (some v) → s.value = some v := by
    intro α s v hs
    unfold Slot.lockOk at hs
    split at hs
    · exact Except.ok.inj hs
    · cases hs
    · cases hs
  unfold Engine.searchW at h
  split at h
  · rename_i hf
    cases h
    exact .inl ⟨rfl, .inl hf⟩
  · rename_i filters hfs
    split at h
    · cases h
    · rename_i hi
      cases h
      exact .inl ⟨rfl, .inr (hnone _ hi)⟩
    · rename_i ix hv
      split at h
      · cases h
      · rename_i ids k hids
        refine .inr ⟨filters, ix, ids, k, hfs, hsome _ _ hv, hids, ?_⟩
        split at h
        · cases h
        · rename_i name
          split at h
          · cases h
          · rename_i hc
            cases h
            exact .inl ⟨rfl, hnone _ hc⟩
          · rename_i cl hc
            split at h
            · rename_i ho
              cases h
              exact .inr ⟨name, cl, rfl, hsome _ _ hc, ho, rfl⟩
            · split at h <;> cases h

/-! ## Files -/

theorem mem_listUnits {α : Type} {f : α → Nat} {l : List α} {a : α} (h : a ∈ l) : f a + 1 ≤ listUnits f l := by
  unfold listUnits
  induction l with
  | nil => cases h
  | cons b l ih =>
    rw [List.map_cons, List.sum_cons]
    rcases List.mem_cons.1 h with rfl | h
    · omega
    · have := ih h
      omega

theorem Has.units_le {ix : GramIndex Char} {path : List Char} {nd : GramNode Char} (h : ix.Has path nd) :
    nd.units + 2 ≤ listUnits (fun e => 1 + e.2.units) ix.roots := by
  induction h with
  | root hr => have := mem_listUnits (f := fun e : Char × GramNode Char => 1 + e.2.units) hr; simp only at this; omega
  | child _ hc ih =>
    rename_i m c _
    cases m with
    | mk i wt l =>
      rw [GramNode.units_mk] at ih
      have := mem_listUnits (f := GramNode.units) (a := c) (l := l) hc
      omega

/-- Whatever file was loaded: each lower-cased character of the query takes at most nine steps for each byte of the file, and 56 more. -/
theorem C104_file {cmps : Nat → Nat} (hc : ∀ {a b : Nat}, a ≤ b → cmps a ≤ cmps b) {mode : PanicMode} {o : HashOrd} {t : Target}
    {lower : Char → List Char} {e e' : Engine} {bytes : Bytes} {ix : GramIndex Char} {cl : Classic}
    (hload : deserializeAll t ngramIndexSize bytes = .ok (ix, cl)) (hix : e.index.value = some ix)
    {input : Str} {cats : CategoryHandler} {tags : TagHandler} {order : Option Str} {filter : List (Str × JsValue)}
    {r : Option ProductProducer} {steps : Nat} (h : e.searchW cmps mode o lower input cats tags order filter = (e', .ok (r, steps))) :
    4 * steps ≤ (input.flatMap lower).length * (36 * bytes.length + 224) +
      bytes.length * (3 + cats.active.length + tags.active.length + filter.length) +
      8 * cmps bytes.length + 4 * filter.length + 4 := by
  have h62 := C62 hload
  have hprod := (C62_products hload).1
  have h12 := C12 _ _ _ _ _ hload
  unfold GramIndex.units at h62
  have hw : ∀ path nd, ix.Has path nd → nd.byOcc.length ≤ (listUnits (fun e => 1 + e.2.units) ix.roots) / 6 := by
    intro path nd hnd
    have := Has.units_le hnd
    cases nd with
    | mk i wt l =>
      rw [GramNode.units_mk] at this
      have := le_listUnits (f := GramNode.units) (k := 6) (fun c => by cases c with | mk a b l => rw [GramNode.units_mk]; unfold listUnits; omega) l
      simp only [GramNode.byOcc_mk]
      omega
  have hd : ∀ k l, AMap.get ix.data k = some l → l.length ≤
      listUnits (fun e => listUnits (fun _ => 1) e.1 + listUnits (fun _ => 1) e.2) ix.data := by
    intro k l hg
    have := mem_listUnits (f := fun e : List Char × List Product => listUnits (fun _ => 1) e.1 + listUnits (fun _ => 1) e.2)
      (AMap.mem_of_get hg)
    have h1 : listUnits (fun _ => 1) (k, l).2 = l.length + 1 := units_ones _
    dsimp only at this h1
    omega
  have hb := C104_bound hc hix hw hd (fun k l hm p hp => (h12.2.1 k l hm).2 p hp) h
  have h1 : (input.flatMap lower).length * (56 + 50 * ((listUnits (fun e => 1 + e.2.units) ix.roots) / 6) +
      listUnits (fun e => listUnits (fun _ => 1) e.1 + listUnits (fun _ => 1) e.2) ix.data) ≤
      (input.flatMap lower).length * (9 * bytes.length + 56) := Nat.mul_le_mul_left _ (by omega)
  have h2 := Nat.mul_le_mul_right (3 + cats.active.length + tags.active.length + filter.length) hprod
  have h3 : cmps ix.container.products.length ≤ cmps bytes.length := hc (by omega)
  have h4 : (input.flatMap lower).length * (36 * bytes.length + 224) = 4 * ((input.flatMap lower).length * (9 * bytes.length + 56)) := by
    rw [Nat.mul_left_comm]; congr 1; omega
  rw [Nat.mul_assoc] at h2
  omega

/-- The file of a catalogue of at most 2^20 products with `a` different characters: per character of the query `50 a + 56` steps and less than
one for each of 80 % of the products. -/
theorem C104_built {cmps : Nat → Nat} (hc : ∀ {a b : Nat}, a ≤ b → cmps a ≤ cmps b) {mode : PanicMode} {o o' o'' : HashOrd} {t t' : Target}
    (ht : t.Real) {lower : Char → List Char} {parse : Str → Option F32} {raws : List RawProduct} (hl : raws.length ≤ 2 ^ 20)
    {ix ix' : GramIndex Char} {cl cl' : Classic} (hb : buildAll t o lower parse ngramIndexSize raws = .ok (ix, cl))
    (alphabet : List Char) (ha : ∀ raw ∈ raws, ∀ c ∈ textOf lower raw, c ∈ alphabet)
    (hf : Fits t' (serializeAll o' ix cl).length) (hload : deserializeAll t' ngramIndexSize (serializeAll o' ix cl) = .ok (ix', cl'))
    {e e' : Engine} (hix : e.index.value = some ix') {input : Str} {cats : CategoryHandler} {tags : TagHandler} {order : Option Str}
    {filter : List (Str × JsValue)} {r : Option ProductProducer} {steps : Nat}
    (h : e.searchW cmps mode o'' lower input cats tags order filter = (e', .ok (r, steps))) :
    steps ≤ (input.flatMap lower).length * (56 + 50 * alphabet.length + 4 * raws.length / 5) +
      raws.length * (3 + cats.active.length + tags.active.length + filter.length) +
      2 * cmps raws.length + filter.length + 1 := by
  have h12 := C12 _ _ _ _ _ hload
  have hfit := deserializeAll_fit o' (gramWf_of_built (by decide) hb) (classicWf_of_built hb) hf []
  rw [List.append_nil, hload] at hfit
  cases hfit
  have hk : ix.Keyed := by rw [(builtAll_of_ok hb).index]; exact indexFrom_keyed t o (by decide) _ _
  have hhas : ∀ path nd, (reloadGram o' ix).Has path nd → ix.Has path nd := by
    intro path nd hnd
    induction hnd with
    | root hr => exact .root ((o'.perm _ _).mem_iff.1 hr)
    | child _ hc ih => exact ih.child hc
  have hw : ∀ path nd, (reloadGram o' ix).Has path nd → nd.byOcc.length ≤ alphabet.length := by
    intro path nd hnd
    have hnd := hhas path nd hnd
    have hs := hk.siblings path nd ((hk.has_iff _ _).1 hnd)
    rw [← List.length_map (f := GramNode.item)]
    refine hs.length_le_of_subset fun c hc => ?_
    obtain ⟨u, hu, rfl⟩ := List.mem_map.1 hc
    obtain ⟨_, raw, hraw, hin⟩ := (C21_path_iff_substring (by decide) hb (path ++ [u.item]) (by simp)).1 ⟨u, hnd.child hu⟩
    exact ha raw hraw _ (hin.subset (by simp))
  have hlen : ix.container.products.length = raws.length := by
    obtain ⟨_, b⟩ := (builtAll_of_ok hb).built
    exact b.length
  have hd : ∀ k l, AMap.get (reloadGram o' ix).data k = some l → l.length ≤ 4 * raws.length / 5 := by
    intro k l hg
    rw [(sameData_reload (by decide) hb o').postings] at hg
    obtain ⟨l₀, hg, rfl⟩ := Option.map_eq_some_iff.1 hg
    rw [C22_postings (by decide) hb] at hg
    simp only [C22_cutoff t ht _ hl] at hg
    split at hg
    · rename_i hlt
      have hg := Option.some.inj hg
      rw [List.length_map, ← List.length_map (f := limited), ← hg, List.length_map]
      omega
    · cases hg
  have hb := C104_bound hc hix hw hd (fun k l hm p hp => (h12.2.1 k l hm).2 p hp) h
  have e1 : (reloadGram o' ix).container.products.length = raws.length := by
    rw [← hlen]; exact List.length_map _
  rw [e1] at hb
  exact hb

end Idx
