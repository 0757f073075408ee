import Verif.Model.RefEngine
import Verif.Lemmas.Arena
import Verif.Lemmas.Sort
import Verif.Lemmas.AMap

/-! Searching through references finds what searching the trees finds. -/

namespace Idx

/-! ## Optional references -/

/-- No reference for no value, or a reference to the value. -/
def OptMeans (f : β → Option α) : Option β → Option α → Prop
  | none, none => True
  | some b, some a => f b = some a
  | _, _ => False

theorem OptMeans.of_bind {f : β → Option α} {b : Option β} {a : Option α} (h : b.bind f = a) (hf : ∀ x, b = some x → ∃ y, f x = some y) :
    OptMeans f b a := by
  cases b with
  | none => cases h; trivial
  | some x =>
    obtain ⟨y, hy⟩ := hf x rfl
    rw [Option.bind_some, hy] at h
    cases h; exact hy

theorem readValues_means [DecidableEq K] {f : β → Option α} {k : K} : ∀ {l : AMap K β} {r : AMap K α}, readValues f l = some r →
    OptMeans f (AMap.get l k) (AMap.get r k) := by
  intro l
  induction l with
  | nil => intro r h; rw [mapM_some_nil.1 h]; trivial
  | cons e l ih =>
    intro r h
    obtain ⟨x, xs, h1, h2, rfl⟩ := mapM_some_cons.1 h
    obtain ⟨a, h3, rfl⟩ := Option.map_eq_some_iff.1 h1
    show OptMeans f (AMap.get (e :: l) k) (AMap.get ((e.1, a) :: xs) k)
    rw [AMap.get_cons, AMap.get_cons]
    by_cases hk : e.1 = k
    · simp only [hk, if_true]; exact h3
    · simp only [hk, if_false]; exact ih h2

theorem mapM_means {f : β → Option α} {l : List β} : ∀ {r : List α}, l.mapM f = some r → ∀ i : Nat, OptMeans f l[i]? r[i]? := by
  induction l with
  | nil => intro r h i; rw [mapM_some_nil.1 h]; simp [OptMeans]
  | cons b l ih =>
    intro r h i
    obtain ⟨x, xs, h1, h2, rfl⟩ := mapM_some_cons.1 h
    cases i with
    | zero => exact h1
    | succ i => exact ih h2 i

theorem OptMeans.bind {f : β → Option α} {h : Option δ} {b : δ → Option β} {a : δ → Option α}
    (hb : ∀ d, OptMeans f (b d) (a d)) : OptMeans f (h.bind b) (h.bind a) := by
  cases h with
  | none => trivial
  | some d => exact hb d

theorem OptMeans.mono {f g : β → Option α} (hfg : ∀ b a, f b = some a → g b = some a) {b : Option β} {a : Option α}
    (h : OptMeans f b a) : OptMeans g b a := by
  cases b <;> cases a <;> first | exact h | exact hfg _ _ h

theorem bind_congr_ok {x y : Except Panic α} {f g : α → Except Panic β} (h : x = y) (hf : ∀ a, f a = g a) :
    (x >>= f) = (y >>= g) := by
  subst h
  cases x with
  | error w => rfl
  | ok a => exact hf a

/-! ## Nodes -/

variable {m : Memory}

/-- A node through its cell. -/
theorem Memory.Wf.cell (hm : m.Wf) {a : Nat} {nd : GramNode Char} (h : m.node a = some nd) :
    ∃ c, m.nodes[a]? = some c ∧ m.followNode a = .ok c ∧ c.item = nd.item ∧ c.weight = nd.weight ∧
      c.byOcc.mapM m.node = some nd.byOcc ∧ readValues m.node c.items = some nd.items := by
  obtain ⟨c, kids, h1, h2, rfl⟩ := Memory.nodeWithin_iff.1 h
  obtain ⟨h3, h4⟩ := hm a c h1
  have hlt := (List.getElem?_eq_some_iff.1 h1).1
  have h5 : c.byOcc.mapM m.node = some kids := by
    refine mapM_some_mono (fun k hk x hx => ?_) h2
    obtain ⟨x', hx'⟩ := hm.node (k + 1) k (by omega) (Nat.lt_trans (h3 k hk) hlt)
    have := Memory.nodeWithin_mono (Memory.Le.refl m) (show k + 1 ≤ a by have := h3 k hk; omega) hx'
    rw [hx] at this
    cases this
    exact hx'
  refine ⟨c, h1, by unfold Memory.followNode; rw [h1], rfl, rfl, h5, ?_⟩
  rw [h4]
  show readValues m.node (AMap.collect _) = some (AMap.collect (kids.map fun c => (c.item, c)))
  refine readValues_collect ?_
  clear h h2 h3 h4
  generalize c.byOcc = l at h5 ⊢
  induction l generalizing kids with
  | nil => rw [mapM_some_nil.1 h5]; exact mapM_some_nil.2 rfl
  | cons k l ih =>
    obtain ⟨x, xs, h6, h7, rfl⟩ := mapM_some_cons.1 h5
    refine mapM_some_cons.2 ⟨(x.item, x), _, ?_, ih xs h7, rfl⟩
    obtain ⟨c', kids', h8, _, rfl⟩ := Memory.nodeWithin_iff.1 h6
    show (m.node k).map (fun a => (m.itemAt k, a)) = some _
    rw [h6]
    simp [Memory.itemAt, h8, GramNode.item]

theorem ifRef_eq (hm : m.Wf) {a : Option Nat} {nd : Option (GramNode Char)} (h : OptMeans m.node a nd) (ow : Found Char)
    {f : Nat → NodeCell → Except Panic (Found Char)} {g : GramNode Char → Except Panic (Found Char)}
    (hf : ∀ a c x, m.node a = some x → c.item = x.item → c.weight = x.weight → f a c = g x) :
    m.ifRef a ow f = ifNode nd ow g := by
  cases a with
  | none => cases nd with
    | none => rfl
    | some x => exact h.elim
  | some a => cases nd with
    | none => exact h.elim
    | some x =>
      obtain ⟨c, _, h1, h2, h3, _⟩ := hm.cell h
      unfold Memory.ifRef ifNode
      simp only [h1]
      exact hf a c x h h2 h3

theorem others_eq (hm : m.Wf) (gram : Option Char) : ∀ {l : List Nat} {kids : List (GramNode Char)}, l.mapM m.node = some kids →
    ∃ l', m.others gram l = .ok l' ∧ l'.mapM m.node = some (kids.filter fun c => decide (some c.item ≠ gram)) := by
  intro l
  induction l with
  | nil => intro kids h; rw [mapM_some_nil.1 h]; exact ⟨[], rfl, mapM_some_nil.2 rfl⟩
  | cons a l ih =>
    intro kids h
    obtain ⟨x, xs, h1, h2, rfl⟩ := mapM_some_cons.1 h
    obtain ⟨l', h3, h4⟩ := ih h2
    obtain ⟨c, _, h5, h6, _⟩ := hm.cell h1
    refine ⟨if some c.item ≠ gram then a :: l' else l', ?_, ?_⟩
    · unfold Memory.others
      rw [h5, h3]
      rfl
    · rw [h6]
      by_cases hg : some x.item ≠ gram
      · rw [if_pos hg, List.filter_cons_of_pos (by simp only [decide_eq_true_eq]; exact hg)]
        exact mapM_some_cons.2 ⟨x, _, h1, h4, rfl⟩
      · rw [if_neg hg, List.filter_cons_of_neg (by simp only [decide_eq_true_eq]; exact hg)]
        exact h4

theorem refLoop_eq (hm : m.Wf) {f : Nat → NodeCell → Except Panic (Found Char × Found Char)}
    {g : GramNode Char → Except Panic (Found Char × Found Char)}
    (hf : ∀ a c x, m.node a = some x → c.item = x.item → c.weight = x.weight → f a c = g x) :
    ∀ {l : List Nat} {kids : List (GramNode Char)} (best : Found Char), l.mapM m.node = some kids →
    m.refLoop f l best = popularLoop g kids best := by
  intro l
  induction l with
  | nil => intro kids best h; rw [mapM_some_nil.1 h]; rfl
  | cons a l ih =>
    intro kids best h
    obtain ⟨x, xs, h1, h2, rfl⟩ := mapM_some_cons.1 h
    obtain ⟨c, _, h5, h6, h7, _⟩ := hm.cell h1
    unfold Memory.refLoop popularLoop
    rw [h5]
    exact bind_congr_ok (hf a c x h1 h6 h7) fun r => ih _ h2

theorem fromPrevious_eq (hm : m.Wf) {p : Option Nat} {nd : Option (GramNode Char)} (h : OptMeans m.node p nd) (gram : Option Char) :
    ∃ r, m.fromPrevious p gram = .ok r ∧ OptMeans m.node r (gram.bind fun g => nd.bind fun p => AMap.get p.items g) := by
  cases gram with
  | none => exact ⟨none, rfl, trivial⟩
  | some g =>
    cases p with
    | none => cases nd with
      | none => exact ⟨none, rfl, trivial⟩
      | some x => exact h.elim
    | some p => cases nd with
      | none => exact h.elim
      | some x =>
        obtain ⟨c, _, h1, _, _, _, h2⟩ := hm.cell h
        refine ⟨AMap.get c.items g, ?_, readValues_means h2⟩
        unfold Memory.fromPrevious
        simp only [h1]
        rfl

theorem itemOf_eq (hm : m.Wf) {a : Option Nat} {nd : Option (GramNode Char)} (h : OptMeans m.node a nd) :
    m.itemOf a = .ok (nd.map (·.item)) := by
  cases a with
  | none => cases nd with
    | none => rfl
    | some x => exact h.elim
  | some a => cases nd with
    | none => exact h.elim
    | some x =>
      obtain ⟨c, _, h1, h2, _⟩ := hm.cell h
      unfold Memory.itemOf
      simp only [h1]
      show Except.ok (some c.item) = Except.ok (some x.item)
      rw [h2]

theorem refSearch_eq (hm : m.Wf) (n : Nat) : ∀ (l k : Nat) (input : List Char) (a : Nat) (node : GramNode Char) (p : Option Nat)
    (previousNode : Option (GramNode Char)) (changes changesLimit : Nat) (weight : F32) (previousInput : List Char) (index : Nat),
    changesLimit - changes = l → n - index = k → m.node a = some node → OptMeans m.node p previousNode →
    m.refSearch n input a p changes changesLimit weight previousInput index =
      recursiveSearch n input node previousNode changes changesLimit weight previousInput index := by
  intro l
  induction l using Nat.strongRecOn with
  | ind l ihl =>
    intro k
    induction k with
    | zero =>
      intro input a node p previousNode changes changesLimit weight previousInput index hl hk ha hp
      unfold Memory.refSearch recursiveSearch
      split
      · rfl
      · rw [if_pos (by omega), if_pos (by omega)]
    | succ k ihk =>
      intro input a node p previousNode changes changesLimit weight previousInput index hl hk ha hp
      obtain ⟨c, _, h1, h2, h3, h4, h5⟩ := hm.cell ha
      have hu : OptMeans m.node (input.head?.bind fun gram => AMap.get c.items gram) (input.head?.bind fun gram => AMap.get node.items gram) :=
        OptMeans.bind fun g => readValues_means h5
      unfold Memory.refSearch recursiveSearch
      rw [if_neg (by omega), if_neg (by omega), if_neg (by omega), if_neg (by omega), h1]
      show (m.itemOf (input.head?.bind fun gram => AMap.get c.items gram) >>= fun userEnteredGram => _) = _
      rw [itemOf_eq hm hu]
      refine bind_congr_ok (ifRef_eq hm hu none fun a' c' x hx h6 h7 => ?_) fun best => ?_
      · rw [h6, h7]
        refine bind_congr_ok rfl fun pi => bind_congr_ok (ihk _ _ _ _ _ _ _ _ _ _ hl (by omega) hx ha) fun r => rfl
      · by_cases hlim : changes < changesLimit
        · rw [dif_pos hlim, dif_pos hlim]
          refine bind_congr_ok rfl fun changes1 => ?_
          obtain ⟨l', h6, h7⟩ := others_eq hm ((input.head?.bind fun gram => AMap.get node.items gram).map (·.item)) h4
          rw [h6]
          refine bind_congr_ok (refLoop_eq hm (fun a' c' x hx h8 h9 => ?_) best h7) fun best => ?_
          · rw [h8, h9]
            refine bind_congr_ok rfl fun pi => bind_congr_ok (ihl _ (by omega) _ _ _ _ _ _ _ _ _ _ _ rfl rfl hx ha) fun r =>
              bind_congr_ok rfl fun _ => bind_congr_ok (ihl _ (by omega) _ _ _ _ _ _ _ _ _ _ _ rfl rfl hx ha) fun r => rfl
          · obtain ⟨r, h8, h9⟩ := fromPrevious_eq hm hp input.head?
            rw [h8]
            refine ifRef_eq hm h9 best fun a' c' x hx h10 _ => ?_
            rw [h10]
            refine bind_congr_ok rfl fun pi => bind_congr_ok (ihl _ (by omega) _ _ _ _ _ _ _ _ _ _ _ rfl rfl hx trivial) fun r => rfl
        · rw [dif_neg hlim, dif_neg hlim]

theorem refSearchGram_eq (hm : m.Wf) {r : IndexRef} {ix : GramIndex Char} (h : m.gramIndex r = some ix) (n : Nat) (query : List Char) :
    m.refSearchGram r n query = ix.searchGram n query := by
  have hroots := (Memory.gramIndex_iff.1 h).2.1
  unfold Memory.refSearchGram GramIndex.searchGram
  cases query with
  | nil => rfl
  | cons q rest =>
    have hq := readValues_means (k := q) hroots
    simp only
    revert hq
    cases AMap.get r.roots q with
    | none => cases AMap.get ix.roots q with
      | none => intro _; rfl
      | some x => exact fun h => h.elim
    | some a => cases AMap.get ix.roots q with
      | none => exact fun h => h.elim
      | some x =>
        intro hx
        simp only
        split
        · exact refSearch_eq hm n _ _ _ _ _ _ _ _ _ _ _ _ rfl rfl hx trivial
        · rfl

/-! ## Ranking -/

/-- A reference with its confidence. -/
def Memory.ranked (m : Memory) (e : ProductRef × F32) : Option (Product × F32) := (m.product e.1).map fun p => (p, e.2)

/-- A product through its cell. -/
theorem product_cell {r : ProductRef} {p : Product} (h : m.product r = some p) :
    ∃ c, m.followProduct r = .ok c ∧ m.cellProduct c = some p ∧ c.id = p.id ∧ c.sid = p.sid := by
  unfold Memory.product at h
  unfold Memory.followProduct
  split at h
  · rename_i k hk
    obtain ⟨c, h1, h2⟩ := Option.bind_eq_some_iff.1 h
    simp only [hk, h1]
    refine ⟨c, rfl, h2, ?_⟩
    obtain ⟨v, _, rfl⟩ := Option.map_eq_some_iff.1 h2
    exact ⟨rfl, rfl⟩
  · cases h

theorem readValues_upsert [DecidableEq K] {f : β → Option α} {u : β → β} {u' : α → α} (hu : ∀ b a, f b = some a → f (u b) = some (u' a))
    {k : K} {b : β} {a : α} (hb : f b = some a) : ∀ {l : AMap K β} {r : AMap K α}, readValues f l = some r →
    readValues f (AMap.upsert l k u b) = some (AMap.upsert r k u' a) := by
  intro l
  induction l with
  | nil =>
    intro r h
    rw [mapM_some_nil.1 h]
    exact mapM_some_cons.2 ⟨(k, a), [], by simp [hb], mapM_some_nil.2 rfl, rfl⟩
  | cons e l ih =>
    intro r h
    obtain ⟨x, xs, h1, h2, rfl⟩ := mapM_some_cons.1 h
    obtain ⟨k', b'⟩ := e
    obtain ⟨a', h3, h4⟩ := Option.map_eq_some_iff.1 h1
    subst h4
    by_cases hk : k' = k
    · have e1 : AMap.upsert ((k', b') :: l) k u b = (k', u b') :: l := by simp [AMap.upsert, hk]
      have e2 : AMap.upsert ((k', a') :: xs) k u' a = (k', u' a') :: xs := by simp [AMap.upsert, hk]
      rw [e1]; show _ = some (AMap.upsert ((k', a') :: xs) k u' a); rw [e2]
      exact mapM_some_cons.2 ⟨(k', u' a'), xs, by simp [hu _ _ h3], h2, rfl⟩
    · have e1 : AMap.upsert ((k', b') :: l) k u b = (k', b') :: AMap.upsert l k u b := by simp [AMap.upsert, hk]
      have e2 : AMap.upsert ((k', a') :: xs) k u' a = (k', a') :: AMap.upsert xs k u' a := by simp [AMap.upsert, hk]
      rw [e1]; show _ = some (AMap.upsert ((k', a') :: xs) k u' a); rw [e2]
      exact mapM_some_cons.2 ⟨(k', a'), _, by simp [h3], ih h2, rfl⟩

theorem rank_eq (confidence : F32) : ∀ {l : List ProductRef} {ps : List Product} {r : RefRanker} {r' : Ranker},
    l.mapM m.product = some ps → readValues m.ranked r = some r' →
    ∃ s, m.rank confidence l r = .ok s ∧ readValues m.ranked s = some (ps.foldl (fun r p => r.add p confidence) r') := by
  intro l
  induction l with
  | nil => intro ps r r' h hr; rw [mapM_some_nil.1 h]; exact ⟨r, rfl, hr⟩
  | cons a l ih =>
    intro ps r r' h hr
    obtain ⟨x, xs, h1, h2, rfl⟩ := mapM_some_cons.1 h
    obtain ⟨c, h3, _, h4, _⟩ := product_cell h1
    have h5 : readValues m.ranked (AMap.upsert r c.id (fun e => (e.1, F32.add e.2 confidence)) (a, confidence)) =
        some (Ranker.add r' x confidence) := by
      rw [h4]
      refine readValues_upsert (fun b a hb => ?_) (by unfold Memory.ranked; simp [h1]) hr
      obtain ⟨p, hp, rfl⟩ := Option.map_eq_some_iff.1 hb
      unfold Memory.ranked
      simp [hp]
    obtain ⟨s, h6, h7⟩ := ih h2 h5
    refine ⟨s, ?_, h7⟩
    unfold Memory.rank
    rw [h3]
    exact h6

/-- Both panic alike, or both come to an end, related. -/
def ESim (R : β → α → Prop) : Except Panic β → Except Panic α → Prop
  | .ok b, .ok a => R b a
  | .error w, .error w' => w = w'
  | _, _ => False

theorem ESim.of_eq {R : β → α → Prop} {x : Except Panic β} {y : Except Panic α} (b : β) (a : α) (hx : x = .ok b) (hy : y = .ok a)
    (h : R b a) : ESim R x y := by subst hx hy; exact h

theorem ESim.bind {R : β → α → Prop} {S : δ → γ → Prop} {x : Except Panic β} {y : Except Panic α} {f : β → Except Panic δ}
    {g : α → Except Panic γ} (h : ESim R x y) (hf : ∀ b a, R b a → ESim S (f b) (g a)) : ESim S (x >>= f) (y >>= g) := by
  cases x <;> cases y <;> first | exact hf _ _ h | exact h.elim | exact h

theorem ESim.refl (x : Except Panic α) : ESim (fun b a => b = a) x x := by cases x <;> rfl

/-- The state of a search: rankers that mean each other, and the same window. -/
def Memory.SearchSt (m : Memory) (s : RefRanker × List Char) (s' : Ranker × List Char) : Prop :=
  readValues m.ranked s.1 = some s'.1 ∧ s.2 = s'.2

theorem refSearchStep_sim (hm : m.Wf) {r : IndexRef} {ix : GramIndex Char} (h : m.gramIndex r = some ix) (n : Nat)
    {s : RefRanker × List Char} {s' : Ranker × List Char} (hs : m.SearchSt s s') (gram : Char) :
    ESim m.SearchSt (m.refSearchStep r n s gram) (ix.searchStep n s' gram) := by
  unfold Memory.refSearchStep GramIndex.searchStep
  simp only [hs.2, refSearchGram_eq hm h]
  refine (ESim.refl _).bind fun b a e => ?_
  subst e
  cases b with
  | none => exact ⟨hs.1, rfl⟩
  | some x =>
    obtain ⟨found, confidence⟩ := x
    have hd := readValues_means (k := found) (Memory.gramIndex_iff.1 h).2.2
    simp only
    revert hd
    cases AMap.get r.data found with
    | none => cases AMap.get ix.data found with
      | none => exact fun _ => ⟨hs.1, rfl⟩
      | some _ => exact fun h => h.elim
    | some l => cases AMap.get ix.data found with
      | none => exact fun h => h.elim
      | some ps =>
        intro hl
        obtain ⟨s, h1, h2⟩ := rank_eq confidence hl hs.1
        simp only [h1]
        exact ⟨h2, rfl⟩

theorem refSearchFold_sim (hm : m.Wf) {r : IndexRef} {ix : GramIndex Char} (h : m.gramIndex r = some ix) (n : Nat) :
    ∀ (input : List Char) {s : RefRanker × List Char} {s' : Ranker × List Char}, m.SearchSt s s' →
    ESim m.SearchSt (input.foldlM (m.refSearchStep r n) s) (input.foldlM (ix.searchStep n) s') := by
  intro input
  induction input with
  | nil => intro s s' hs; exact hs
  | cons g input ih =>
    intro s s' hs
    rw [List.foldlM_cons, List.foldlM_cons]
    exact (refSearchStep_sim hm h n hs g).bind fun b a hba => ih hba

/-! ## Exporting -/

/-- References and values side by side. -/
theorem mapM_zip {f : β → Option α} : ∀ {l : List β} {r : List α}, l.mapM f = some r →
    ∃ z : List (β × α), l = z.map (·.1) ∧ r = z.map (·.2) ∧ ∀ e ∈ z, f e.1 = some e.2 := by
  intro l
  induction l with
  | nil => intro r h; rw [mapM_some_nil.1 h]; exact ⟨[], rfl, rfl, by simp⟩
  | cons b l ih =>
    intro r h
    obtain ⟨x, xs, h1, h2, rfl⟩ := mapM_some_cons.1 h
    obtain ⟨z, h3, h4, h5⟩ := ih h2
    refine ⟨(b, x) :: z, by rw [h3]; rfl, by rw [h4]; rfl, fun e he => ?_⟩
    rcases List.mem_cons.1 he with rfl | he
    · exact h1
    · exact h5 e he

theorem zip_mapM {f : β → Option α} : ∀ {z : List (β × α)}, (∀ e ∈ z, f e.1 = some e.2) → (z.map (·.1)).mapM f = some (z.map (·.2)) := by
  intro z
  induction z with
  | nil => intro _; exact mapM_some_nil.2 rfl
  | cons e z ih =>
    intro h
    exact mapM_some_cons.2 ⟨e.2, _, h e (by simp), ih fun e he => h e (by simp [he]), rfl⟩

theorem perm_map_back {f : β → α} {l : List β} : ∀ {p q : List α}, p.Perm q → q = l.map f → ∃ l' : List β, l'.Perm l ∧ p = l'.map f := by
  intro p q h
  induction h generalizing l with
  | nil => intro e; exact ⟨l, List.Perm.refl l, e⟩
  | cons x _ ih =>
    intro e
    cases l with
    | nil => cases e
    | cons b l =>
      simp only [List.map_cons, List.cons.injEq] at e
      obtain ⟨l', h1, h2⟩ := ih e.2
      exact ⟨b :: l', h1.cons b, by rw [h2, e.1]; rfl⟩
  | swap x y t =>
    intro e
    cases l with
    | nil => cases e
    | cons b l => cases l with
      | nil => simp at e
      | cons c l =>
        simp only [List.map_cons, List.cons.injEq] at e
        exact ⟨c :: b :: l, List.Perm.swap _ _ _, by rw [e.1, e.2.1, e.2.2]; rfl⟩
  | trans _ _ ih1 ih2 =>
    intro e
    obtain ⟨l1, h1, h2⟩ := ih2 e
    obtain ⟨l2, h3, h4⟩ := ih1 h2
    exact ⟨l2, h3.trans h1, h4⟩

theorem stableSort_map {f : β → α} {le : α → α → Bool} {le' : β → β → Bool} (h : ∀ a b, le' a b = le (f a) (f b)) (l : List β) :
    (stableSort le' l).map f = stableSort le (l.map f) := by
  have hi : ∀ (x : β) (l : List β), (insertSorted le' x l).map f = insertSorted le (f x) (l.map f) := by
    intro x l
    induction l with
    | nil => rfl
    | cons y l ih =>
      simp only [insertSorted, List.map_cons, h]
      split
      · rfl
      · rw [List.map_cons, ih]
  induction l with
  | nil => rfl
  | cons x l ih =>
    simp only [stableSort, List.map_cons] at *
    rw [← ih]
    exact hi x _

end Idx
