import Verif.Model.IndexCost
import Verif.Props.Sizes

/-! C103: how much work indexing is. Looking for categories and their options by comparing names one after the other takes a number
of steps that can grow with the square of the catalogue; everything else but sorting is linear. -/

namespace Idx
variable {G : Type} [DecidableEq G] [RDefault G]

/-! ## Without the count -/

/-- `rN` is `r` with a count. -/
def CountedRes (rN : Res (α × Nat)) (r : Res α) : Prop := (rN >>= fun x => pure x.1) = r

theorem CountedRes.bind {rN : Res (α × Nat)} {r : Res α} {fN : α × Nat → Res (β × Nat)} {f : α → Res β}
    (h : CountedRes rN r) (hf : ∀ a k, CountedRes (fN (a, k)) (f a)) : CountedRes (rN >>= fN) (r >>= f) := by
  unfold CountedRes at *
  subst h
  cases rN with
  | ok x => obtain ⟨a, k⟩ := x; exact hf a k
  | none => rfl
  | panic w => rfl

theorem CountedRes.same {r : Res α} {fN : α → Res (β × Nat)} {f : α → Res β} (hf : ∀ a, CountedRes (fN a) (f a)) :
    CountedRes (r >>= fN) (r >>= f) := by
  unfold CountedRes at *
  cases r with
  | ok x => exact hf x
  | none => rfl
  | panic w => rfl

theorem CountedRes.of_ok {rN : Res (α × Nat)} {r : Res α} {a : α} {k : Nat} (h : CountedRes rN r) (e : rN = .ok (a, k)) : r = .ok a := by
  unfold CountedRes at h
  rw [← h, e]; rfl

theorem CountedRes.ok_of {rN : Res (α × Nat)} {r : Res α} {a : α} (h : CountedRes rN r) (e : r = .ok a) : ∃ k, rN = .ok (a, k) := by
  unfold CountedRes at h
  rw [← h] at e
  cases rN with
  | ok x => obtain ⟨b, k⟩ := x; cases e; exact ⟨k, rfl⟩
  | none => cases e
  | panic w => cases e

theorem addValuesN_fst (p : Product) : ∀ (values : List Str) (st : (List CatOption × Nat) × Nat),
    (addValuesN p values st).1 = addValues p values st.1
  | [], st => rfl
  | v :: values, st => addValuesN_fst p values _

theorem addOptionN_fst (p : Product) (st : (List Category × Nat) × Nat) (raw : RawOption) :
    (addOptionN p st raw).1 = addOption p st.1 raw := by
  simp only [addOptionN, addOption, addValuesN_fst]

theorem addOptionsN_fst (p : Product) : ∀ (l : List RawOption) (st : (List Category × Nat) × Nat),
    (l.foldl (addOptionN p) st).1 = l.foldl (addOption p) st.1
  | [], st => rfl
  | raw :: l, st => by
    rw [List.foldl_cons, List.foldl_cons, addOptionsN_fst p l, addOptionN_fst]

theorem categoriesLoopN_counts (c : Container) : ∀ (l : List (List RawOption)) (i : Nat) (st : (List Category × Nat) × Nat),
    CountedRes (categoriesLoopN c i l st) (categoriesLoop c i l st.1)
  | [], i, st => rfl
  | options :: l, i, st => by
    simp only [categoriesLoopN, categoriesLoop]
    refine CountedRes.same fun p => ?_
    rw [← addOptionsN_fst p options st]
    exact categoriesLoopN_counts c l (i + 1) _

theorem tagsLoopN_counts (c : Container) : ∀ (l : List (List Str)) (i : Nat) (st : AMap Str (List Product) × Nat),
    CountedRes (tagsLoopN c i l st) (tagsLoop c i l st.1)
  | [], i, st => rfl
  | tags :: l, i, st => by
    simp only [tagsLoopN, tagsLoop]
    exact CountedRes.same fun p => tagsLoopN_counts c l (i + 1) _

theorem tagIndexN_counts (o : HashOrd) (l : List (List Str)) (c : Container) : CountedRes (tagIndexN o l c) (tagIndex o l c) :=
  (tagsLoopN_counts c l 0 ([], 0)).bind fun _ _ => rfl

theorem addCustomCmpN_counts (cmps : Nat → Nat) (ix : OrderIndex) (c : Container) (maker : Product → Res T)
    (cmp : T → T → Ordering) (key : Str) : CountedRes (ix.addCustomCmpN cmps c maker cmp key) (ix.addCustomCmp c maker cmp key) := by
  unfold CountedRes OrderIndex.addCustomCmpN
  cases ix.addCustomCmp c maker cmp key <;> rfl

theorem buildOrdersN_counts (cmps : Nat → Nat) (c : Container) : CountedRes (buildOrdersN cmps c) (buildOrders c) := by
  have last : ∀ ix : OrderIndex, ∀ f : OrderIndex × Nat → Nat, CountedRes
      (ix.addCustomCmpN cmps c (priceMaker c.extra) (fun a b => (F32.cmpOrEq a b).swap) priceHighKey >>= fun x => pure (x.1, f x))
      (ix.addCustomCmp c (priceMaker c.extra) (fun a b => (F32.cmpOrEq a b).swap) priceHighKey) := fun ix f => by
    unfold CountedRes OrderIndex.addCustomCmpN
    cases ix.addCustomCmp c (priceMaker c.extra) (fun a b => (F32.cmpOrEq a b).swap) priceHighKey <;> rfl
  exact (addCustomCmpN_counts cmps _ c _ _ _).bind fun ix k₁ => (addCustomCmpN_counts cmps ix c _ _ _).bind fun ix k₂ =>
    last ix fun x => k₁ + k₂ + x.2

theorem productsLoopN_counts (parse : Str → Option F32) (vendors : VendorManager) : ∀ (l : List RawProduct) (i : Nat)
    (st : (List Product × FeatureSet) × Nat), CountedRes (productsLoopN parse vendors i l st) (productsLoop parse vendors i l st.1)
  | [], i, st => rfl
  | raw :: l, i, ((products, extra), k) => by
    simp only [productsLoopN, productsLoop]
    exact CountedRes.same fun _ => CountedRes.same fun _ => CountedRes.same fun _ => CountedRes.same fun _ =>
      productsLoopN_counts parse vendors l (i + 1) _

theorem optimizeN_counts (cmps : Nat → Nat) (o : HashOrd) (parse : Str → Option F32) (input : List RawProduct) :
    CountedRes (optimizeN cmps o parse input) (optimize o parse input) := by
  unfold optimizeN optimize
  refine (productsLoopN_counts parse _ input 0 (([], []), 3 * input.length)).bind fun a k₁ => ?_
  obtain ⟨products, extra⟩ := a
  refine (tagIndexN_counts o _ _).bind fun tags k₂ => ?_
  refine (buildOrdersN_counts cmps _).bind fun order k₃ => ?_
  exact (categoriesLoopN_counts _ _ 0 (([], 0), 0)).bind fun _ _ => rfl

theorem buildGramsN_fst (n : Nat) (p : Product) : ∀ (l : List G) (st : BuildState G × Nat),
    (l.foldl (buildGramN n p) st).1 = l.foldl (buildGram n p) st.1
  | [], st => rfl
  | g :: l, st => by rw [List.foldl_cons, List.foldl_cons, buildGramsN_fst n p l]; rfl

theorem buildFeedsN_fst (n : Nat) : ∀ (l : List (List G × Product)) (acc : (List (MNode G) × AMap (List G) (List Product)) × Nat),
    (l.foldl (buildFeedN n) acc).1 = l.foldl (buildFeed n) acc.1
  | [], acc => rfl
  | feed :: l, acc => by
    rw [List.foldl_cons, List.foldl_cons, buildFeedsN_fst n l]
    congr 1
    simp only [buildFeedN, buildFeed, buildGramsN_fst]

theorem indexFromN_fst (cmps : Nat → Nat) (t : Target) (o : HashOrd) (n : Nat) (feeds : List (List G × Product)) (c : Container) :
    (indexFromN cmps t o n feeds c).1 = indexFrom t o n feeds c := by
  simp only [indexFromN, indexFrom, buildFeedsN_fst]

/-- Without the count this is `buildAll`. -/
theorem C103_counts (cmps : Nat → Nat) (t : Target) (o : HashOrd) (lower : Char → List Char) (parse : Str → Option F32) (n : Nat)
    (input : List RawProduct) :
    (buildAllN cmps t o lower parse n input >>= fun r => pure r.1) = buildAll t o lower parse n input := by
  refine (optimizeN_counts cmps o parse input).bind fun a k => ?_
  obtain ⟨c, cl⟩ := a
  show Res.ok ((indexFromN cmps t o n (c.products.map (feedOf lower)) c).1, cl) = _
  rw [indexFromN_fst]; rfl

/-! ## Steps of the n-gram index -/

/-- Sorting a list takes at least as long as sorting two parts of it. -/
def Superadditive (cmps : Nat → Nat) : Prop := ∀ a b, cmps a + cmps b ≤ cmps (a + b)

theorem Superadditive.mono {cmps : Nat → Nat} (h : Superadditive cmps) {a b : Nat} (hab : a ≤ b) : cmps a ≤ cmps b := by
  have := h a (b - a)
  rw [Nat.add_sub_cancel' hab] at this
  omega

theorem Superadditive.sum {cmps : Nat → Nat} (h : Superadditive cmps) (f : α → Nat) : ∀ l : List α,
    (l.map fun a => cmps (f a)).sum ≤ cmps (l.map f).sum
  | [] => by simp
  | a :: l => by
    have := h.sum f l
    have := h (f a) (l.map f).sum
    simp only [List.map_cons, List.sum_cons]
    omega

/-- Spec: the number of nodes of a tree under construction. -/
def MNode.size : MNode G → Nat
  | .mk _ _ items => 1 + (items.attach.map fun ⟨c, _⟩ => c.size).sum

/-- Spec: the number of nodes of a forest under construction. -/
def forestSize (f : List (MNode G)) : Nat := (f.map MNode.size).sum

omit [DecidableEq G] [RDefault G] in
theorem MNode.size_mk (g : G) (occ : Nat) (items : List (MNode G)) : (MNode.mk g occ items).size = 1 + forestSize items := by
  rw [MNode.size, List.map_attach_eq_pmap, forestSize]
  congr 2
  rw [List.pmap_eq_map]

omit [DecidableEq G] [RDefault G] in
theorem MNode.size_eq (m : MNode G) : m.size = 1 + forestSize m.items := by
  cases m; exact MNode.size_mk _ _ _

omit [RDefault G] in
theorem forestSize_bumpHere (g : G) : ∀ f : List (MNode G), forestSize (bumpHere f g) ≤ forestSize f + 1
  | [] => by simp [bumpHere, forestSize, MNode.size_mk]
  | n :: rest => by
    have ih := forestSize_bumpHere g rest
    simp only [bumpHere]
    split
    · have h1 := MNode.size_mk n.item (n.occ + 1) n.items
      have h2 := MNode.size_eq n
      simp only [forestSize, List.map_cons, List.sum_cons] at *
      omega
    · simp only [forestSize, List.map_cons, List.sum_cons] at *
      omega

omit [RDefault G] in
theorem forestSize_modifyChild (g : G) (upd : List (MNode G) → List (MNode G)) (h : ∀ f, forestSize (upd f) ≤ forestSize f + 1) :
    ∀ f : List (MNode G), forestSize (modifyChild f g upd) ≤ forestSize f + 1
  | [] => by simp [modifyChild]
  | n :: rest => by
    have ih := forestSize_modifyChild g upd h rest
    simp only [modifyChild]
    split
    · have h1 := MNode.size_mk n.item n.occ (upd n.items)
      have h2 := MNode.size_eq n
      have h3 := h n.items
      simp only [forestSize, List.map_cons, List.sum_cons] at *
      omega
    · simp only [forestSize, List.map_cons, List.sum_cons] at *
      omega

omit [RDefault G] in
theorem forestSize_bumpAt (g : G) : ∀ (path : List G) (f : List (MNode G)), forestSize (bumpAt path f g) ≤ forestSize f + 1
  | [], f => forestSize_bumpHere g f
  | h :: path, f => forestSize_modifyChild h _ (fun f => forestSize_bumpAt g path f) f

omit [RDefault G] in
theorem forestSize_advanceQueue (g : G) : ∀ (queue : List (List G)) (f : List (MNode G)),
    forestSize (advanceQueue g queue f).2 ≤ forestSize f + queue.length
  | [], f => by simp [advanceQueue]
  | path :: queue, f => by
    have h1 := forestSize_bumpAt g path f
    have h2 := forestSize_advanceQueue g queue (bumpAt path f g)
    simp only [advanceQueue, List.length_cons]
    omega

theorem postings_upsert [DecidableEq κ] (k : κ) (p : Product) : ∀ m : AMap κ (List Product),
    ((AMap.upsert m k (· ++ [p]) [p]).map fun e => e.2.length).sum = (m.map fun e => e.2.length).sum + 1 ∧
      (AMap.upsert m k (· ++ [p]) [p]).length ≤ m.length + 1
  | [] => by simp [AMap.upsert]
  | (k', l) :: m => by
    have ih := postings_upsert k p m
    simp only [AMap.upsert]
    split
    · simp only [List.map_cons, List.sum_cons, List.length_append, List.length_cons, List.length_nil]; omega
    · simp only [List.map_cons, List.sum_cons, List.length_cons] at *; omega

/-- What holds of the state after some characters. -/
structure FeedBound (n done : Nat) (root : List (MNode G)) (data : AMap (List G) (List Product)) (k : Nat) : Prop where
  nodes : forestSize root ≤ n * done
  postings : (data.map fun e => e.2.length).sum = done
  lists : data.length ≤ done
  steps : k ≤ (2 * n + 3) * done

theorem buildGramN_bound {n : Nat} (hn : 1 ≤ n) (p : Product) : ∀ (l : List G) (done : Nat) (st : BuildState G × Nat),
    FeedBound n done st.1.root st.1.data st.2 → st.1.queue.length ≤ n - 1 →
    FeedBound n (done + l.length) (l.foldl (buildGramN n p) st).1.root (l.foldl (buildGramN n p) st).1.data
      (l.foldl (buildGramN n p) st).2
  | [], done, st, h, _ => h
  | g :: l, done, st, h, hq => by
    rw [List.foldl_cons, List.length_cons, ← Nat.add_assoc, Nat.add_right_comm]
    have e1 : n * (done + 1) = n * done + n := Nat.mul_succ _ _
    have e2 : (2 * n + 3) * (done + 1) = (2 * n + 3) * done + (2 * n + 3) := Nat.mul_succ _ _
    have q1 : (advanceQueue g st.1.queue (bumpHere st.1.root g)).1.length = st.1.queue.length := by
      rw [advanceQueue_fst, List.length_map]
    refine buildGramN_bound hn p l (done + 1) _ ⟨?_, ?_, ?_, ?_⟩ ?_
    · have h1 := forestSize_bumpHere g st.1.root
      have h2 := forestSize_advanceQueue g st.1.queue (bumpHere st.1.root g)
      have := h.nodes
      simp only [buildGramN, buildGram]
      omega
    · have h1 := (postings_upsert (shiftIn n st.1.lookback g) p st.1.data).1
      have := h.postings
      simp only [buildGramN, buildGram]
      omega
    · have h1 := (postings_upsert (shiftIn n st.1.lookback g) p st.1.data).2
      have := h.lists
      simp only [buildGramN, buildGram]
      omega
    · have := h.steps
      simp only [buildGramN]
      omega
    · simp only [buildGramN, buildGram]
      split
      · rename_i hl
        rw [List.length_dropLast]
        simp only [List.length_cons] at hl ⊢
        omega
      · rename_i hl
        simp only [List.length_cons] at hl ⊢
        omega

theorem buildFeedN_bound {n : Nat} (hn : 1 ≤ n) : ∀ (l : List (List G × Product)) (done : Nat)
    (acc : (List (MNode G) × AMap (List G) (List Product)) × Nat), FeedBound n done acc.1.1 acc.1.2 acc.2 →
    FeedBound n (done + (l.map fun e => e.1.length).sum) (l.foldl (buildFeedN n) acc).1.1 (l.foldl (buildFeedN n) acc).1.2
      (l.foldl (buildFeedN n) acc).2
  | [], done, acc, h => h
  | feed :: l, done, acc, h => by
    rw [List.foldl_cons, List.map_cons, List.sum_cons, ← Nat.add_assoc]
    exact buildFeedN_bound hn l _ _ (buildGramN_bound hn feed.2 feed.1 done
      ({ root := acc.1.1, data := acc.1.2, queue := [], lookback := List.replicate n dflt }, acc.2) h (by simp))

omit [DecidableEq G] [RDefault G] in
theorem immutalizeSteps_mk (cmps : Nat → Nat) (g : G) (occ : Nat) (items : List (MNode G)) :
    immutalizeSteps cmps (.mk g occ items) = 1 + 2 * items.length + cmps items.length + (items.map (immutalizeSteps cmps)).sum := by
  rw [immutalizeSteps, List.map_attach_eq_pmap]
  congr 2
  rw [List.pmap_eq_map]

omit [DecidableEq G] [RDefault G] in
theorem forestSize_ge (items : List (MNode G)) : items.length ≤ forestSize items := by
  induction items with
  | nil => simp
  | cons m items ih =>
    have := MNode.size_eq m
    simp only [forestSize, List.map_cons, List.sum_cons, List.length_cons] at *
    omega

omit [DecidableEq G] [RDefault G] in
theorem immutalizeSteps_le {cmps : Nat → Nat} (h : Superadditive cmps) : ∀ m : MNode G,
    immutalizeSteps cmps m + 2 ≤ 3 * m.size + cmps (m.size - 1)
  | .mk g occ items => by
    have key : ∀ l : List (MNode G), (∀ c ∈ l, immutalizeSteps cmps c + 2 ≤ 3 * c.size + cmps (c.size - 1)) →
        (l.map (immutalizeSteps cmps)).sum + 2 * l.length + cmps l.length ≤ 3 * forestSize l + cmps (forestSize l) := by
      intro l hl
      have h1 : (l.map (immutalizeSteps cmps)).sum + 2 * l.length ≤ 3 * forestSize l + cmps (l.map fun c => c.size - 1).sum := by
        refine Nat.le_trans ?_ (Nat.add_le_add_left (h.sum (fun c : MNode G => c.size - 1) l) _)
        clear h
        induction l with
        | nil => simp
        | cons c l ih =>
          have := hl c List.mem_cons_self
          have := ih fun x hx => hl x (List.mem_cons_of_mem _ hx)
          simp only [forestSize, List.map_cons, List.sum_cons, List.length_cons] at *
          omega
      have h2 : (l.map fun c => c.size - 1).sum + l.length = forestSize l := by
        clear hl h1
        induction l with
        | nil => rfl
        | cons c l ih =>
          have := MNode.size_eq c
          simp only [forestSize, List.map_cons, List.sum_cons, List.length_cons] at *
          omega
      have h3 := h (l.map fun c => c.size - 1).sum l.length
      rw [h2] at h3
      omega
    have := key items fun c _ => immutalizeSteps_le h c
    rw [immutalizeSteps_mk, MNode.size_mk]
    have e : 1 + forestSize items - 1 = forestSize items := by omega
    rw [e]
    omega

theorem sum_filter_le (f : α → Nat) (q : α → Bool) : ∀ l : List α, ((l.filter q).map f).sum ≤ (l.map f).sum
  | [] => by simp
  | a :: l => by
    have := sum_filter_le f q l
    simp only [List.filter_cons]
    split <;> simp only [List.map_cons, List.sum_cons] <;> omega

/-- The n-gram index takes a number of steps linear in the number of characters, and the time to sort the children of the nodes and
the posting lists. -/
theorem C103_grams {cmps : Nat → Nat} (h : Superadditive cmps) (t : Target) (o : HashOrd) {n : Nat} (hn : 1 ≤ n)
    (feeds : List (List G × Product)) (c : Container) :
    (indexFromN cmps t o n feeds c).2 ≤ (7 * n + 4) * (feeds.map fun e => e.1.length).sum +
      cmps (n * (feeds.map fun e => e.1.length).sum) + cmps (feeds.map fun e => e.1.length).sum := by
  have hb := buildFeedN_bound (G := G) hn feeds 0 (([], []), 0) ⟨by simp [forestSize], rfl, by simp, by simp⟩
  rw [Nat.zero_add] at hb
  simp only [indexFromN]
  generalize (feeds.foldl (buildFeedN n) (([], []), 0)) = r at hb
  generalize (feeds.map fun e => e.1.length).sum = T at *
  obtain ⟨⟨root, data⟩, k⟩ := r
  obtain ⟨b1, b2, b3, b4⟩ := hb
  dsimp only at b1 b2 b3 b4 ⊢
  have h1 : (root.map (immutalizeSteps cmps)).sum ≤ 3 * forestSize root + cmps (forestSize root) := by
    refine Nat.le_trans ?_ (Nat.add_le_add_left (h.sum MNode.size root) _)
    clear b1
    induction root with
    | nil => simp
    | cons m l ih =>
      have h2 := immutalizeSteps_le h m
      have h3 := h.mono (a := m.size - 1) (b := m.size) (by omega)
      simp only [forestSize, List.map_cons, List.sum_cons] at *
      omega
  have h2 := h.mono b1
  have h3 := forestSize_ge root
  have h4 : ∀ q : List G × List Product → Bool, ((data.filter q).map fun e => cmps e.2.length).sum ≤ cmps T := fun q => by
    refine Nat.le_trans (h.sum (fun e : List G × List Product => e.2.length) _) (h.mono ?_)
    rw [← b2]
    exact sum_filter_le _ q _
  have h4 := h4 fun e => decide (e.2.length < maximumProductAmount t c.products.length)
  have e1 : (7 * n + 4) * T = (2 * n + 3) * T + 5 * (n * T) + T := by
    rw [Nat.add_mul, Nat.add_mul, Nat.mul_assoc, Nat.mul_assoc]; omega
  rw [e1]
  omega

/-! ## Steps of the categories -/

/-- Spec: each name put at the end of those seen before, unless it is one of them. -/
def noted (seen : List Str) (v : Str) : List Str := if v ∈ seen then seen else seen ++ [v]

/-- Spec: how many names are looked at when each name is looked for among those seen before it, from the first on. -/
def scanNames : List Str → List Str → Nat
  | _, [] => 0
  | seen, v :: l => (if v ∈ seen then seen.idxOf v + 1 else seen.length) + scanNames (noted seen v) l

/-- Spec: each value put at the end of those seen before of the same category, unless it is one of them. -/
def notedPair (seen : Str → List Str) (e : Str × Str) : Str → List Str := fun c => if c = e.1 then noted (seen e.1) e.2 else seen c

/-- Spec: how many values are looked at when each value of a category is looked for among those of the same category seen before it,
from the first on. -/
def scanValues : (Str → List Str) → List (Str × Str) → Nat
  | _, [] => 0
  | seen, e :: l => (if e.2 ∈ seen e.1 then (seen e.1).idxOf e.2 + 1 else (seen e.1).length) + scanValues (notedPair seen e) l

theorem findSteps_eq (name : α → Str) (v : Str) : ∀ l : List α,
    findSteps (fun a => name a == v) l = if v ∈ l.map name then (l.map name).idxOf v + 1 else (l.map name).length
  | [] => by simp [findSteps]
  | a :: l => by
    have ih := findSteps_eq name v l
    by_cases h : name a = v
    · simp [findSteps, h]
    · have h' : (name a == v) = false := by simpa using h
      have h'' : ¬v = name a := fun e => h e.symm
      simp only [findSteps, h', Bool.false_eq_true, if_false, ih, List.map_cons, List.mem_cons, h'', false_or, List.length_cons,
        List.idxOf_cons, cond_false]
      split <;> omega

theorem addValuesN_steps (p : Product) (c : Str) : ∀ (values : List Str) (st : (List CatOption × Nat) × Nat) (seen : Str → List Str),
    seen c = st.1.1.map (·.name) →
      (∀ c', c' ≠ c → (values.map fun v => (c, v)).foldl notedPair seen c' = seen c') ∧
      (values.map fun v => (c, v)).foldl notedPair seen c = (addValuesN p values st).1.1.map (·.name) ∧
      ∀ l, (addValuesN p values st).2 + scanValues ((values.map fun v => (c, v)).foldl notedPair seen) l =
        st.2 + 3 * values.length + scanValues seen (values.map (fun v => (c, v)) ++ l)
  | [], st, seen, h => ⟨fun _ _ => rfl, h, fun l => by simp [addValuesN]⟩
  | v :: values, st, seen, h => by
    have hn := names_findOrPush (name := CatOption.name) (k := v) (new := CatOption.new v st.1.2) (f := fun o => o.add p)
      (by rw [CatOption.add_name]; rfl) (fun a ha => by rw [CatOption.add_name, ha]) st.1.1
    obtain ⟨h1, h2, h3⟩ := addValuesN_steps p c values
      ((findOrPush st.1.1 (fun o => o.name == v) (CatOption.new v st.1.2) (fun o => o.add p),
        if (!st.1.1.any fun o => o.name == v) then st.1.2 + 1 else st.1.2), st.2 + (findSteps (fun o => o.name == v) st.1.1 + 3))
      (notedPair seen (c, v)) (by
        simp only [notedPair, if_true, noted, h, hn])
    refine ⟨fun c' hc => (h1 c' hc).trans (by simp [notedPair, hc]), h2, fun l => ?_⟩
    have h4 := h3 l
    have h5 := findSteps_eq CatOption.name v st.1.1
    rw [← h] at h5
    simp only [addValuesN, List.foldl_cons, List.map_cons, List.cons_append, List.length_cons, scanValues] at h4 ⊢
    rw [h4, h5]
    omega

theorem currentOptions_addOption (p : Product) (st : List Category × Nat) (raw : RawOption) (name : Str) :
    currentOptions (addOption p st raw).1 name =
      if name = raw.name then (addValues p raw.values (currentOptions st.1 raw.name, st.2)).1 else currentOptions st.1 name := by
  have h := byName_findOrPush (name := Category.name) (k := raw.name) (new := Category.new raw.name)
    (f := fun c => { c with options := (addValues p raw.values (currentOptions st.1 raw.name, st.2)).1 }) rfl (fun a ha => ha) st.1 name
  simp only [byName] at h
  simp only [currentOptions, addOption] at h ⊢
  rw [h]
  by_cases e : raw.name = name
  · simp [e]
  · have e' : ¬name = raw.name := fun x => e x.symm
    simp [e, e']

/-- Spec: the pairs of category and value that raw options mention. -/
def pairsOf (l : List RawOption) : List (Str × Str) := l.flatMap fun raw => raw.values.map fun v => (raw.name, v)

/-- What has been seen of the options so far. -/
structure Seen (cats : List Category) (names : List Str) (values : Str → List Str) : Prop where
  names : names = cats.map (·.name)
  values : ∀ c, values c = (currentOptions cats c).map (·.name)

theorem addOptionsN_steps (p : Product) : ∀ (options : List RawOption) (st : (List Category × Nat) × Nat) (names : List Str)
    (values : Str → List Str), Seen st.1.1 names values →
      Seen (options.foldl (addOptionN p) st).1.1 ((options.map (·.name)).foldl noted names) ((pairsOf options).foldl notedPair values) ∧
      ∀ (l : List Str) (l' : List (Str × Str)),
        (options.foldl (addOptionN p) st).2 + scanNames ((options.map (·.name)).foldl noted names) l +
            scanValues ((pairsOf options).foldl notedPair values) l' =
          st.2 + options.length + 3 * (pairsOf options).length + scanNames names (options.map (·.name) ++ l) +
            scanValues values (pairsOf options ++ l')
  | [], st, names, values, h => ⟨h, fun l l' => by simp [pairsOf]⟩
  | raw :: options, st, names, values, h => by
    obtain ⟨hv1, hv2, hv3⟩ := addValuesN_steps p raw.name raw.values ((currentOptions st.1.1 raw.name, st.1.2), 0) values
      (h.values raw.name)
    have hseen : Seen (addOptionN p st raw).1.1 (noted names raw.name)
        ((raw.values.map fun v => (raw.name, v)).foldl notedPair values) := by
      rw [addOptionN_fst]
      constructor
      · have hn := names_findOrPush (name := Category.name) (k := raw.name) (new := Category.new raw.name)
          (f := fun c => { c with options := (addValues p raw.values (currentOptions st.1.1 raw.name, st.1.2)).1 }) rfl
          (fun a ha => ha) st.1.1
        simp only [addOption]
        rw [hn, noted, h.names]
      · intro c
        rw [currentOptions_addOption]
        by_cases e : c = raw.name
        · subst e
          rw [if_pos rfl, hv2, addValuesN_fst]
        · rw [if_neg e, hv1 c e, h.values]
    obtain ⟨h1, h2⟩ := addOptionsN_steps p options (addOptionN p st raw) _ _ hseen
    have h7 : pairsOf (raw :: options) = raw.values.map (fun v => (raw.name, v)) ++ pairsOf options := rfl
    rw [h7, List.foldl_append, List.foldl_cons, List.map_cons, List.foldl_cons]
    refine ⟨h1, fun l l' => ?_⟩
    have h3 := h2 l l'
    have h4 := hv3 (pairsOf options ++ l')
    have h5 := findSteps_eq Category.name raw.name st.1.1
    rw [← h.names] at h5
    have h6 : (addOptionN p st raw).2 = st.2 + (findSteps (fun c => c.name == raw.name) st.1.1 + 1 +
      (addValuesN p raw.values ((currentOptions st.1.1 raw.name, st.1.2), 0)).2) := rfl
    simp only [List.length_cons, List.cons_append, scanNames, List.append_assoc, List.length_append, List.length_map]
    rw [h3, h6, h5]
    omega

theorem categoriesLoopN_steps (c : Container) : ∀ (lists : List (List RawOption)) (i : Nat) (st : (List Category × Nat) × Nat)
    (names : List Str) (values : Str → List Str) (cats : List Category) (k : Nat), Seen st.1.1 names values →
    categoriesLoopN c i lists st = .ok (cats, k) →
    Seen cats ((lists.flatten.map (·.name)).foldl noted names) ((pairsOf lists.flatten).foldl notedPair values) ∧
    k = st.2 + lists.flatten.length + 3 * (pairsOf lists.flatten).length + scanNames names (lists.flatten.map (·.name)) +
      scanValues values (pairsOf lists.flatten)
  | [], i, st, names, values, cats, k, hs, h => by
    simp only [categoriesLoopN, Res.ok.injEq, Prod.mk.injEq] at h
    rw [← h.2, ← h.1]
    exact ⟨hs, by simp [pairsOf, scanNames, scanValues]⟩
  | options :: lists, i, st, names, values, cats, k, hs, h => by
    simp only [categoriesLoopN] at h
    obtain ⟨p, _, h⟩ := Res.bind_eq_ok.1 h
    obtain ⟨h1, h2⟩ := addOptionsN_steps p options st names values hs
    obtain ⟨h0, h3⟩ := categoriesLoopN_steps c lists (i + 1) _ _ _ cats k h1 h
    have h4 := h2 (lists.flatten.map (·.name)) (pairsOf lists.flatten)
    have e1 : pairsOf (options ++ lists.flatten) = pairsOf options ++ pairsOf lists.flatten := List.flatMap_append
    simp only [List.flatten_cons, List.map_append, List.length_append, e1, List.foldl_append]
    exact ⟨h0, by omega⟩

/-- The steps of the categories, exactly. -/
theorem C103_categories {lists : List (List RawOption)} {c : Container} {cats : List Category} {k : Nat}
    (h : categoryIndexN lists c = .ok (cats, k)) :
    k = lists.flatten.length + 3 * (pairsOf lists.flatten).length + scanNames [] (lists.flatten.map (·.name)) +
      scanValues (fun _ => []) (pairsOf lists.flatten) := by
  have := (categoriesLoopN_steps c lists 0 (([], 0), 0) [] (fun _ => []) cats k ⟨rfl, fun _ => rfl⟩ h).2
  simpa using this

/-- Names that are all different are compared with all before them. -/
theorem scanValues_nodup (c : Str) : ∀ (vs seen : List Str) (values : Str → List Str), values c = seen → (seen ++ vs).Nodup →
    2 * scanValues values (vs.map fun v => (c, v)) = vs.length * (2 * seen.length + vs.length - 1)
  | [], seen, values, _, _ => by simp [scanValues]
  | v :: vs, seen, values, hs, hnd => by
    have hv : v ∉ seen := fun hm => (List.nodup_append.1 hnd).2.2 v hm v List.mem_cons_self rfl
    have ih := scanValues_nodup c vs (seen ++ [v]) (notedPair values (c, v))
      (by simp [notedPair, noted, hs, hv]) (by rwa [List.append_assoc])
    simp only [List.map_cons, scanValues, hs, hv, if_false, List.length_cons] at ih ⊢
    rw [Nat.mul_add, ih, List.length_append, List.length_singleton]
    generalize seen.length = a
    generalize vs.length = b
    have e1 : 2 * (a + 1) + b - 1 = 2 * a + b + 1 := by omega
    have e2 : 2 * a + (b + 1) - 1 = 2 * a + b := by omega
    rw [e1, e2, Nat.mul_add, Nat.add_mul]
    omega

theorem length_le_noted (seen : List Str) (v : Str) : seen.length ≤ (noted seen v).length := by
  unfold noted; split <;> simp

theorem length_le_foldl_noted : ∀ (l seen : List Str), seen.length ≤ (l.foldl noted seen).length
  | [], seen => Nat.le_refl _
  | v :: l, seen => Nat.le_trans (length_le_noted seen v) (length_le_foldl_noted l _)

theorem looked_le (seen : List Str) (v : Str) : (if v ∈ seen then seen.idxOf v + 1 else seen.length) ≤ seen.length := by
  split
  · rename_i h
    exact List.idxOf_lt_length_of_mem h
  · exact Nat.le_refl _

theorem scanNames_le {d : Nat} : ∀ (l seen : List Str), (l.foldl noted seen).length ≤ d → scanNames seen l ≤ l.length * d
  | [], seen, _ => by simp [scanNames]
  | v :: l, seen, h => by
    have h1 := scanNames_le l (noted seen v) h
    have h2 := looked_le seen v
    have h3 := length_le_foldl_noted l (noted seen v)
    have h4 := length_le_noted seen v
    rw [List.foldl_cons] at h
    simp only [scanNames, List.length_cons, Nat.succ_mul]
    omega

theorem length_le_notedPair (seen : Str → List Str) (e : Str × Str) (c : Str) : (seen c).length ≤ (notedPair seen e c).length := by
  unfold notedPair
  split
  · rename_i h
    subst h
    exact length_le_noted _ _
  · exact Nat.le_refl _

theorem length_le_foldl_notedPair (c : Str) : ∀ (l : List (Str × Str)) (seen : Str → List Str),
    (seen c).length ≤ (l.foldl notedPair seen c).length
  | [], seen => Nat.le_refl _
  | e :: l, seen => Nat.le_trans (length_le_notedPair seen e c) (length_le_foldl_notedPair c l _)

theorem scanValues_le {d : Nat} : ∀ (l : List (Str × Str)) (seen : Str → List Str), (∀ c, (l.foldl notedPair seen c).length ≤ d) →
    scanValues seen l ≤ l.length * d
  | [], seen, _ => by simp [scanValues]
  | e :: l, seen, h => by
    have h1 := scanValues_le l (notedPair seen e) h
    have h2 := looked_le (seen e.1) e.2
    have h3 := length_le_foldl_notedPair e.1 l (notedPair seen e)
    have h4 := length_le_notedPair seen e e.1
    have h := h e.1
    rw [List.foldl_cons] at h
    simp only [scanValues, List.length_cons, Nat.succ_mul]
    omega

theorem categoryIndexN_le {lists : List (List RawOption)} {c : Container} {cats : List Category} {k e : Nat}
    (h : categoryIndexN lists c = .ok (cats, k)) (he : ∀ cat ∈ cats, cat.options.length ≤ e) :
    k ≤ lists.flatten.length * (cats.length + 1) + (pairsOf lists.flatten).length * (e + 3) := by
  obtain ⟨h1, h2⟩ := categoriesLoopN_steps c lists 0 (([], 0), 0) [] (fun _ => []) cats k ⟨rfl, fun _ => rfl⟩ h
  have h3 := scanNames_le (d := cats.length) (lists.flatten.map (·.name)) [] (by rw [h1.names, List.length_map]; exact Nat.le_refl _)
  have h4 := scanValues_le (d := e) (pairsOf lists.flatten) (fun _ => []) (fun c => by
    rw [h1.values, List.length_map]
    simp only [currentOptions]
    split
    · rename_i cat hc
      exact he cat (List.mem_of_find?_eq_some hc)
    · simp)
  rw [List.length_map] at h3
  rw [h2, Nat.mul_add, Nat.mul_add]
  simp only
  omega

/-! ## All steps -/

theorem tagMap_upsert (k : Str) (p : Product) : ∀ m : AMap Str (List Product),
    ((AMap.upsert m k (· ++ [p]) [p]).map fun e => 1 + e.2.length).sum ≤ (m.map fun e => 1 + e.2.length).sum + 2
  | [] => by simp [AMap.upsert]
  | (k', l) :: m => by
    have ih := tagMap_upsert k p m
    simp only [AMap.upsert]
    split <;> simp only [List.map_cons, List.sum_cons, List.length_append, List.length_cons, List.length_nil] at * <;> omega

theorem tagMap_product (p : Product) : ∀ (tags : List Str) (m : AMap Str (List Product)),
    ((tagsOfProduct m p tags).map fun e => 1 + e.2.length).sum ≤ (m.map fun e => 1 + e.2.length).sum + 2 * tags.length
  | [], m => by simp [tagsOfProduct]
  | tag :: tags, m => by
    have h1 := tagMap_upsert tag p m
    have h2 := tagMap_product p tags (AMap.upsert m tag (· ++ [p]) [p])
    simp only [tagsOfProduct, List.foldl_cons, List.length_cons] at *
    omega

theorem tagsLoopN_steps (c : Container) : ∀ (l : List (List Str)) (i : Nat) (st : AMap Str (List Product) × Nat)
    (m : AMap Str (List Product)) (k : Nat), tagsLoopN c i l st = .ok (m, k) → k = st.2 + 2 * l.flatten.length ∧
      (m.map fun e => 1 + e.2.length).sum ≤ (st.1.map fun e => 1 + e.2.length).sum + 2 * l.flatten.length
  | [], i, st, m, k, h => by
    simp only [tagsLoopN, Res.ok.injEq] at h
    rw [h]; simp
  | tags :: l, i, st, m, k, h => by
    simp only [tagsLoopN] at h
    obtain ⟨p, _, h⟩ := Res.bind_eq_ok.1 h
    obtain ⟨h1, h2⟩ := tagsLoopN_steps c l (i + 1) _ m k h
    have h3 := tagMap_product p tags st.1
    simp only [List.flatten_cons, List.length_append] at *
    omega

/-- The steps of the tags, exactly: two for each mention, one for each tag, and one for each product of it. -/
theorem tagIndexN_steps {o : HashOrd} {l : List (List Str)} {c : Container} {tags : List Tag} {k : Nat}
    (h : tagIndexN o l c = .ok (tags, k)) : k = 2 * l.flatten.length + (tags.map fun t => 1 + t.products.length).sum ∧
      (tags.map fun t => 1 + t.products.length).sum ≤ 2 * l.flatten.length := by
  unfold tagIndexN at h
  obtain ⟨⟨m, k'⟩, h1, h⟩ := Res.bind_eq_ok.1 h
  simp only [Res.pure_eq, Res.ok.injEq, Prod.mk.injEq] at h
  obtain ⟨h2, h3⟩ := tagsLoopN_steps c l 0 _ m k' h1
  have e : tags.map (fun t => 1 + t.products.length) = (o.order "tags" m).map fun e => 1 + e.2.length := by
    rw [← h.1]
    apply List.ext_getElem?
    intro i
    simp only [List.getElem?_mapIdx, List.getElem?_map]
    cases (o.order "tags" m)[i]? <;> rfl
  have e' := ((o.perm "tags" m).map fun e => 1 + e.2.length).sum_nat
  rw [e, e', ← h.2]
  simp only [List.map_nil, List.sum_nil] at h3
  omega

theorem buildOrdersN_steps {cmps : Nat → Nat} {c : Container} {order : OrderIndex} {k : Nat}
    (h : buildOrdersN cmps c = .ok (order, k)) : k = 3 * (2 * c.products.length + cmps c.products.length + 1) := by
  have one : ∀ {T : Type} {ix : OrderIndex} {maker : Product → Res T} {cmp key order k},
      ix.addCustomCmpN cmps c maker cmp key = .ok (order, k) → k = 2 * c.products.length + cmps c.products.length + 1 := by
    intro T ix maker cmp key order k h
    unfold OrderIndex.addCustomCmpN at h
    obtain ⟨_, _, h⟩ := Res.bind_eq_ok.1 h
    simp only [Res.pure_eq, Res.ok.injEq, Prod.mk.injEq] at h
    omega
  unfold buildOrdersN at h
  obtain ⟨⟨_, k₁⟩, h1, h⟩ := Res.bind_eq_ok.1 h
  obtain ⟨⟨_, k₂⟩, h2, h⟩ := Res.bind_eq_ok.1 h
  obtain ⟨⟨_, k₃⟩, h3, h⟩ := Res.bind_eq_ok.1 h
  simp only [Res.pure_eq, Res.ok.injEq, Prod.mk.injEq] at h
  have h1 := one h1
  have h2 := one h2
  have h3 := one h3
  omega

theorem productsLoopN_steps (parse : Str → Option F32) (vendors : VendorManager) : ∀ (l : List RawProduct) (i : Nat)
    (st r : (List Product × FeatureSet) × Nat), productsLoopN parse vendors i l st = .ok r →
    r.2 = st.2 + 6 * l.length + 2 * (l.filter fun raw => !raw.media.isEmpty).length
  | [], i, st, r, h => by
    simp only [productsLoopN, Res.ok.injEq] at h
    rw [h]; simp
  | raw :: l, i, ((products, extra), k), r, h => by
    simp only [productsLoopN] at h
    obtain ⟨others, h1, h⟩ := Res.bind_eq_ok.1 h
    obtain ⟨_, _, h⟩ := Res.bind_eq_ok.1 h
    obtain ⟨_, _, h⟩ := Res.bind_eq_ok.1 h
    obtain ⟨_, _, h⟩ := Res.bind_eq_ok.1 h
    have ih := productsLoopN_steps parse vendors l (i + 1) _ r h
    unfold toIntermediate at h1
    obtain ⟨price, _, h1⟩ := Res.bind_eq_ok.1 h1
    simp only [Res.pure_eq, Res.ok.injEq] at h1
    subst h1
    rw [ih]
    cases hm : raw.media <;> simp [mediaStrings, hm, AMap.insert, AMap.upsert] <;> omega

/-- The steps of everything but the n-gram index, exactly. -/
theorem C103_classic {cmps : Nat → Nat} {o : HashOrd} {parse : Str → Option F32} {input : List RawProduct} {c : Container}
    {cl : Classic} {k : Nat} (h : optimizeN cmps o parse input = .ok ((c, cl), k)) :
    k = 15 * input.length + 3 + 2 * (input.filter fun raw => !raw.media.isEmpty).length + 3 * cmps input.length +
      2 * (input.flatMap (·.tags)).length + (cl.tags.map fun t => 1 + t.products.length).sum +
      (input.flatMap (·.options)).length + 3 * (pairsOf (input.flatMap (·.options))).length +
      scanNames [] ((input.flatMap (·.options)).map (·.name)) + scanValues (fun _ => []) (pairsOf (input.flatMap (·.options))) := by
  obtain ⟨prices, b⟩ := built_of_ok ((optimizeN_counts cmps o parse input).of_ok h)
  have hlen := b.length
  unfold optimizeN at h
  obtain ⟨⟨⟨products, extra⟩, k₁⟩, h1, h⟩ := Res.bind_eq_ok.1 h
  obtain ⟨⟨tags, k₂⟩, h2, h⟩ := Res.bind_eq_ok.1 h
  obtain ⟨⟨order, k₃⟩, h3, h⟩ := Res.bind_eq_ok.1 h
  obtain ⟨⟨categories, k₄⟩, h4, h⟩ := Res.bind_eq_ok.1 h
  simp only [Res.pure_eq, Res.ok.injEq, Prod.mk.injEq] at h
  obtain ⟨⟨hc, hcl⟩, hk⟩ := h
  subst hc hcl
  have h1 := productsLoopN_steps parse _ input 0 _ _ h1
  obtain ⟨h2, _⟩ := tagIndexN_steps h2
  have h3 := buildOrdersN_steps h3
  have h4 := C103_categories h4
  simp only [List.flatMap_def] at *
  rw [hlen] at h3
  omega

/-- Spec: the steps for one text: each character is counted with the (at most `n - 1`) before it, moves `n` cells, and four more. -/
def textSteps (n len : Nat) : Nat := ((List.range len).map fun i => min i (n - 1) + n + 4).sum

/-- Spec: the steps of a finished tree: each node, and each child twice and sorted. -/
def GramNode.steps (cmps : Nat → Nat) : GramNode G → Nat
  | .mk _ _ l => 1 + 2 * l.length + cmps l.length + (l.attach.map fun ⟨c, _⟩ => c.steps cmps).sum

omit [DecidableEq G] [RDefault G] in
theorem GramNode.steps_eq (cmps : Nat → Nat) (nd : GramNode G) :
    nd.steps cmps = 1 + 2 * nd.byOcc.length + cmps nd.byOcc.length + (nd.byOcc.map (GramNode.steps cmps)).sum := by
  cases nd with
  | mk g w l =>
    rw [GramNode.steps, List.map_attach_eq_pmap]
    congr 2
    rw [List.pmap_eq_map]; rfl

theorem immutalize_steps (cmps : Nat → Nat) (o : HashOrd) : ∀ (m : MNode G) (path : List G) (k : Nat),
    (immutalize o path k m).steps cmps = immutalizeSteps cmps m
  | .mk g occ items, path, k => by
    have h := immutalize_byOcc o path k (.mk g occ items)
    simp only [MNode.items_mk, MNode.item_mk, MNode.occ_mk] at h
    have h1 := h.length_eq
    have h2 := (h.map (GramNode.steps cmps)).sum_nat
    rw [List.length_map] at h1
    have h3 : (items.map (immutalize o (path ++ [g]) occ)).map (GramNode.steps cmps) = items.map (immutalizeSteps cmps) := by
      rw [List.map_map]
      exact List.map_congr_left fun c hc => immutalize_steps cmps o c (path ++ [g]) occ
    rw [GramNode.steps_eq, immutalizeSteps_mk, h1, h2, h3]

theorem buildGramN_steps {n : Nat} (hn : 1 ≤ n) (p : Product) : ∀ (l : List G) (i : Nat) (st : BuildState G × Nat),
    st.1.queue.length = min i (n - 1) →
    (l.foldl (buildGramN n p) st).2 = st.2 + ((List.range' i l.length).map fun i => min i (n - 1) + n + 4).sum
  | [], i, st, _ => by simp
  | g :: l, i, st, h => by
    rw [List.foldl_cons, buildGramN_steps hn p l (i + 1), List.length_cons, List.range'_succ, List.map_cons, List.sum_cons]
    · simp only [buildGramN]; omega
    · have q1 : (advanceQueue g st.1.queue (bumpHere st.1.root g)).1.length = st.1.queue.length := by
        rw [advanceQueue_fst, List.length_map]
      simp only [buildGramN, buildGram]
      split
      · rename_i hl
        rw [List.length_dropLast]
        simp only [List.length_cons] at hl ⊢
        omega
      · rename_i hl
        simp only [List.length_cons] at hl ⊢
        omega

theorem buildFeedN_steps {n : Nat} (hn : 1 ≤ n) : ∀ (l : List (List G × Product))
    (acc : (List (MNode G) × AMap (List G) (List Product)) × Nat),
    (l.foldl (buildFeedN n) acc).2 = acc.2 + (l.map fun e => textSteps n e.1.length).sum
  | [], acc => by simp
  | feed :: l, acc => by
    rw [List.foldl_cons, buildFeedN_steps hn l, List.map_cons, List.sum_cons]
    have := buildGramN_steps hn feed.2 feed.1 0
      ({ root := acc.1.1, data := acc.1.2, queue := [], lookback := List.replicate n dflt }, acc.2) (by simp)
    rw [← List.range_eq_range'] at this
    simp only [buildFeedN, textSteps] at this ⊢
    omega

/-- The steps of the n-gram index, exactly: those of the texts, of the finished tree, one for each n-gram that occurs, and sorting the
posting lists that are kept. -/
theorem C103_index (cmps : Nat → Nat) (t : Target) (o : HashOrd) {n : Nat} (hn : 1 ≤ n) (feeds : List (List G × Product)) (c : Container)
    (grams : List (List G)) (hnd : grams.Nodup) (hg : ∀ k, k ∈ grams ↔ ∃ feed ∈ feeds, k ∈ paddedWindows n feed.1) :
    (indexFromN cmps t o n feeds c).2 = (feeds.map fun e => textSteps n e.1.length).sum +
      ((indexFrom t o n feeds c).roots.map fun e => 2 + e.2.steps cmps).sum + grams.length +
      ((indexFrom t o n feeds c).data.map fun e => cmps e.2.length).sum := by
  have hf := feedsInv (G := G) hn feeds
  have h1 := buildFeedN_steps (G := G) hn feeds (([], []), 0)
  have h2 := buildFeedsN_fst (G := G) n feeds (([], []), 0)
  rw [Nat.zero_add] at h1
  simp only [indexFromN, indexFrom]
  dsimp only at h2
  generalize feeds.foldl (buildFeedN n) (([], []), 0) = s at h1 h2
  generalize feeds.foldl (buildFeed n) ([], []) = r at hf h2
  obtain ⟨s, k⟩ := s
  dsimp only at h1 h2 ⊢
  subst h1
  obtain rfl := h2.symm
  have h3 : grams.length = r.2.length := by
    have hw : (r.2.map fun e => e.1).Nodup := hf.wf
    have hmem : ∀ k, k ∈ (r.2.map fun e => e.1) ↔ k ∈ grams := by
      intro k
      rw [hg]
      have hk := hf.data k
      constructor
      · intro hm
        obtain ⟨e, he, rfl⟩ := List.mem_map.1 hm
        rw [AMap.get_of_mem hf.wf he] at hk
        cases hp : postings n feeds e.1 with
        | nil => rw [hp] at hk; simp [asPosting] at hk
        | cons p l =>
          obtain ⟨feed, h1, _, h2⟩ := mem_postings.1 (hp ▸ List.mem_cons_self : p ∈ postings n feeds e.1)
          exact ⟨feed, h1, h2⟩
      · rintro ⟨feed, h1, h2⟩
        have hp : feed.2 ∈ postings n feeds k := mem_postings.2 ⟨feed, h1, rfl, h2⟩
        cases hp' : postings n feeds k with
        | nil => rw [hp'] at hp; cases hp
        | cons p l =>
          rw [hp'] at hk
          simp only [asPosting] at hk
          exact List.mem_map.2 ⟨_, AMap.mem_of_get hk, rfl⟩
    have := (List.perm_ext_iff_of_nodup hw hnd).2 hmem
    rw [← this.length_eq, List.length_map]
  have h4 := ((o.perm "roots" (r.1.map fun m => (m.item, immutalize o [] (r.1.map (·.occ)).sum m))).map
    fun e => 2 + e.2.steps cmps).sum_nat
  rw [h4, h3]
  have h5 : ∀ total, ((r.1.map fun m => (m.item, immutalize o [] total m)).map fun e => 2 + e.2.steps cmps).sum =
      2 * r.1.length + (r.1.map (immutalizeSteps cmps)).sum := fun total => by
    rw [List.map_map]
    simp only [Function.comp_def, immutalize_steps]
    rw [sum_map_add, sum_map_one]
  have h6 : ((r.2.filter fun e => decide (e.2.length < maximumProductAmount t c.products.length)).map fun e =>
      (e.1, stableSort (fun a b : Product => decide (a.sid ≤ b.sid)) e.2)).map (fun e => cmps e.2.length) =
      (r.2.filter fun e => decide (e.2.length < maximumProductAmount t c.products.length)).map fun e => cmps e.2.length := by
    rw [List.map_map]
    exact List.map_congr_left fun e _ => by simp only [Function.comp_apply, (stableSort_perm _ e.2).length_eq]
  rw [h5, h6]
  omega

/-! ## The whole -/

theorem strUnits_sum (l : List Str) : l.length ≤ (l.map strUnits).sum := by
  induction l with
  | nil => simp
  | cons s l ih =>
    have := strUnits_pos s
    simp only [List.length_cons, List.map_cons, List.sum_cons]
    omega

theorem size_parts (raw : RawProduct) :
    4 + raw.tags.length + raw.options.length + (pairsOf raw.options).length + raw.media.length ≤ rawSize raw := by
  have h1 := strUnits_pos raw.description
  have h2 := strUnits_pos raw.title
  have h3 := strUnits_pos raw.vendor
  have h4 := strUnits_pos raw.id
  have h5 := strUnits_sum raw.tags
  have h6 := strUnits_sum raw.media
  have h7 : raw.options.length + (pairsOf raw.options).length ≤
      (raw.options.map fun r => strUnits r.name + (r.values.map strUnits).sum).sum := by
    generalize raw.options = l
    induction l with
    | nil => simp [pairsOf]
    | cons r l ih =>
      have := strUnits_pos r.name
      have := strUnits_sum r.values
      have e : pairsOf (r :: l) = r.values.map (fun v => (r.name, v)) ++ pairsOf l := rfl
      simp only [e, List.length_cons, List.length_append, List.length_map, List.map_cons, List.sum_cons]
      omega
  unfold rawSize
  omega

theorem size_all : ∀ input : List RawProduct, 4 * input.length + (input.flatMap (·.tags)).length + (input.flatMap (·.options)).length +
    (pairsOf (input.flatMap (·.options))).length + (input.filter fun raw => !raw.media.isEmpty).length ≤ catalogueSize input
  | [] => by simp [pairsOf, catalogueSize]
  | raw :: input => by
    have ih := size_all input
    have h := size_parts raw
    have hm : (if (!raw.media.isEmpty) = true then 1 else 0) ≤ raw.media.length := by
      cases raw.media <;> simp
    have e : pairsOf ((raw :: input).flatMap (·.options)) = pairsOf raw.options ++ pairsOf (input.flatMap (·.options)) := by
      rw [List.flatMap_cons]; exact List.flatMap_append
    rw [e]
    simp only [catalogueSize, List.flatMap_cons, List.length_append, List.length_cons, List.map_cons, List.sum_cons,
      List.filter_cons] at *
    split <;> simp_all only [if_true, List.length_cons] <;> omega

/-- Indexing takes a number of steps that is linear in the catalogue, but for looking for every option among those of its category
and every category among all, and for sorting. -/
theorem C103_bound {cmps : Nat → Nat} (hc : Superadditive cmps) {t : Target} {o : HashOrd} {lower : Char → List Char}
    {parse : Str → Option F32} {n : Nat} (hn : 1 ≤ n) {input : List RawProduct} {ix : GramIndex Char} {cl : Classic} {k e : Nat}
    (h : buildAllN cmps t o lower parse n input = .ok ((ix, cl), k)) (he : ∀ cat ∈ cl.categories, cat.options.length ≤ e) :
    k ≤ 4 * catalogueSize input + (7 * n + 4) * totalChars lower input +
      (input.flatMap (·.options)).length * cl.categories.length + (pairsOf (input.flatMap (·.options))).length * e +
      (3 * cmps input.length + cmps (n * totalChars lower input) + cmps (totalChars lower input)) + 3 := by
  unfold buildAllN at h
  obtain ⟨⟨⟨c, cl'⟩, k₁⟩, h1, h⟩ := Res.bind_eq_ok.1 h
  simp only [Res.pure_eq, Res.ok.injEq, Prod.mk.injEq] at h
  obtain ⟨⟨_, rfl⟩, rfl⟩ := h
  obtain ⟨prices, b⟩ := built_of_ok ((optimizeN_counts cmps o parse input).of_ok h1)
  have hg := C103_grams (G := Char) hc t o hn (c.products.map (feedOf lower)) c
  have ht : ((c.products.map (feedOf lower)).map fun e => e.1.length).sum = totalChars lower input := by
    have e := congrArg (fun l => (l.map List.length).sum) (b.texts lower)
    simpa only [totalChars, List.map_map, Function.comp_def] using e
  rw [ht] at hg
  have hk := C103_classic h1
  have hsz := size_all input
  unfold optimizeN at h1
  obtain ⟨⟨⟨products, extra⟩, _⟩, h2, h1⟩ := Res.bind_eq_ok.1 h1
  obtain ⟨⟨tags, _⟩, h3, h1⟩ := Res.bind_eq_ok.1 h1
  obtain ⟨⟨order, _⟩, _, h1⟩ := Res.bind_eq_ok.1 h1
  obtain ⟨⟨categories, k₄⟩, h4, h1⟩ := Res.bind_eq_ok.1 h1
  simp only [Res.pure_eq, Res.ok.injEq, Prod.mk.injEq] at h1
  obtain ⟨⟨_, rfl⟩, _⟩ := h1
  have h5 := categoryIndexN_le h4 he
  have h6 := C103_categories h4
  have h7 := (tagIndexN_steps h3).2
  simp only [← List.flatMap_def] at h5 h6 h7
  rw [Nat.mul_add, Nat.mul_add] at h5
  dsimp only at *
  omega

/-- Sorting with at most `d · k · log k` comparisons meets the condition of `C103_bound`. -/
theorem C103_sorting (d : Nat) : Superadditive fun k => d * k * (Nat.log2 k + 1) := by
  intro a b
  have mono : ∀ {a b : Nat}, a ≤ b → a.log2 ≤ b.log2 := by
    intro a b hab
    rcases Nat.eq_zero_or_pos a with rfl | ha
    · simp
    · rw [Nat.le_log2 (by omega)]
      exact Nat.le_trans (Nat.log2_self_le (by omega)) hab
  have h1 := Nat.mul_le_mul_left (d * a) (Nat.add_le_add_right (mono (Nat.le_add_right a b)) 1)
  have h2 := Nat.mul_le_mul_left (d * b) (Nat.add_le_add_right (mono (Nat.le_add_left b a)) 1)
  show d * a * (a.log2 + 1) + d * b * (b.log2 + 1) ≤ d * (a + b) * ((a + b).log2 + 1)
  rw [Nat.mul_add d, Nat.add_mul]
  omega

/-- A catalogue in which every product has another value of the same category: the steps grow with the square of its length. -/
theorem C103_quadratic {cmps : Nat → Nat} {t : Target} {o : HashOrd} {lower : Char → List Char} {parse : Str → Option F32} {n : Nat}
    {input : List RawProduct} {r : GramIndex Char × Classic} {k : Nat} (h : buildAllN cmps t o lower parse n input = .ok (r, k))
    {name : Str} {values : List Str} (hnd : values.Nodup) (hv : input.map (·.options) = values.map fun v => [⟨name, [v]⟩]) :
    input.length * (input.length - 1) ≤ 2 * k := by
  unfold buildAllN at h
  obtain ⟨⟨⟨c, cl'⟩, k₁⟩, h1, h⟩ := Res.bind_eq_ok.1 h
  simp only [Res.pure_eq, Res.ok.injEq, Prod.mk.injEq] at h
  obtain ⟨_, rfl⟩ := h
  have hk := C103_classic h1
  have hf : input.flatMap (·.options) = values.map fun v => ⟨name, [v]⟩ := by
    rw [List.flatMap_def, hv, ← List.flatMap_def]
    clear hv hnd
    induction values with
    | nil => rfl
    | cons v l ih => simp [ih]
  have hp : pairsOf (values.map fun v => (⟨name, [v]⟩ : RawOption)) = values.map fun v => (name, v) := by
    clear hv hnd hf
    induction values with
    | nil => rfl
    | cons v l ih =>
      have e : ∀ (r : RawOption) l, pairsOf (r :: l) = r.values.map (fun v => (r.name, v)) ++ pairsOf l := fun _ _ => rfl
      rw [List.map_cons, e, ih]; rfl
  have hl : input.length = values.length := by simpa using congrArg List.length hv
  have := scanValues_nodup name values [] (fun _ => []) rfl (by simpa using hnd)
  rw [hf, hp] at hk
  simp only [List.length_nil, Nat.mul_zero, Nat.zero_add] at this
  rw [hl]
  omega

/-- All words of a length in two letters. -/
def binaryWords : Nat → List Str
  | 0 => [[]]
  | k + 1 => (binaryWords k).map ('0' :: ·) ++ (binaryWords k).map ('1' :: ·)

/-- A catalogue of products that differ in one option. -/
def sizesOnly (k : Nat) : List RawProduct :=
  (binaryWords k).map fun w => { mkRaw [] [] [] with options := [⟨[], [w]⟩] }

theorem binaryWords_spec : ∀ k, (binaryWords k).length = 2 ^ k ∧ (binaryWords k).Nodup ∧ ∀ w ∈ binaryWords k, byteLen w = k
  | 0 => by simp [binaryWords, byteLen]
  | k + 1 => by
    obtain ⟨h1, h2, h3⟩ := binaryWords_spec k
    refine ⟨?_, ?_, ?_⟩
    · simp only [binaryWords, List.length_append, List.length_map, h1, Nat.pow_succ]; omega
    · simp only [binaryWords]
      rw [List.nodup_append]
      refine ⟨?_, ?_, ?_⟩
      · exact List.pairwise_map.2 (h2.imp fun hne e => hne (List.cons.inj e).2)
      · exact List.pairwise_map.2 (h2.imp fun hne e => hne (List.cons.inj e).2)
      · intro a ha b hb e
        obtain ⟨x, _, rfl⟩ := List.mem_map.1 ha
        obtain ⟨y, _, rfl⟩ := List.mem_map.1 hb
        exact absurd (List.cons.inj e).1 (by decide)
    · intro w hw
      simp only [binaryWords, List.mem_append, List.mem_map] at hw
      rcases hw with ⟨x, hx, rfl⟩ | ⟨x, hx, rfl⟩
      · have := h3 x hx
        have e : byteLen ('0' :: x) = 1 + byteLen x := by simp [byteLen]; decide
        omega
      · have := h3 x hx
        have e : byteLen ('1' :: x) = 1 + byteLen x := by simp [byteLen]; decide
        omega

/-- There are such catalogues of any length, almost as small as they are long. -/
theorem C103_family (cmps : Nat → Nat) (t : Target) (o : HashOrd) (lower : Char → List Char) (parse : Str → Option F32) (n k : Nat)
    (hp : (parse ['1']).isSome) : (sizesOnly k).length = 2 ^ k ∧ catalogueSize (sizesOnly k) = 2 ^ k * (k + 6) ∧
      ∃ r steps, buildAllN cmps t o lower parse n (sizesOnly k) = .ok (r, steps) ∧ 2 ^ k * (2 ^ k - 1) ≤ 2 * steps := by
  obtain ⟨h1, h2, h3⟩ := binaryWords_spec k
  have hlen : (sizesOnly k).length = 2 ^ k := by simp [sizesOnly, h1]
  refine ⟨hlen, ?_, ?_⟩
  · rw [← h1, catalogueSize, sizesOnly, List.map_map, Nat.mul_comm, ← sum_map_one]
    congr 1
    refine List.map_congr_left fun w hw => ?_
    have := h3 w hw
    simp [rawSize, mkRaw, strUnits, byteLen] at *
    omega
  · obtain ⟨v, hv⟩ := Option.isSome_iff_exists.1 hp
    obtain ⟨ix, cl, hb⟩ := buildAll_ok t o lower parse n (sizesOnly k) (List.replicate (2 ^ k) v) (by
      rw [← h1]
      simp only [sizesOnly, List.map_map]
      generalize binaryWords k = l
      induction l with
      | nil => rfl
      | cons w l ih =>
        simp only [List.map_cons, List.length_cons, List.replicate_succ]
        rw [ih]
        exact congrArg (· :: _) hv)
    obtain ⟨steps, hs⟩ := CountedRes.ok_of (C103_counts cmps t o lower parse n (sizesOnly k)) hb
    refine ⟨(ix, cl), steps, hs, ?_⟩
    rw [← hlen]
    exact C103_quadratic hs (name := []) h2 (by simp [sizesOnly, List.map_map])

end Idx
