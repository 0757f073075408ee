import Verif.Model.Cost
import Verif.Props.Extent
import Verif.Props.Search
import Verif.Lemmas.Run

/-! How much work a search is: the number of calls of `recursive_search`. -/

namespace Idx
variable {G : Type} [DecidableEq G] [RDefault G]

/-! ## Counting changes nothing -/

theorem counted_bind {α β ι κ : Type} {x : Except Panic (α × ι)} {y : Except Panic α} {fN : α × ι → Except Panic (β × κ)}
    {f : α → Except Panic β} (hx : x.map (·.1) = y) (h : ∀ a, (fN a).map (·.1) = f a.1) :
    (x >>= fN).map (·.1) = y >>= f := by
  subst hx
  cases x with
  | error w => rfl
  | ok a => exact h a

theorem counted_pass {α β κ : Type} {x : Except Panic α} {fN : α → Except Panic (β × κ)}
    {f : α → Except Panic β} (h : ∀ a, (fN a).map (·.1) = f a) :
    (x >>= fN).map (·.1) = x >>= f := by
  cases x with
  | error w => rfl
  | ok a => exact h a

omit [DecidableEq G] [RDefault G] in
theorem popularLoopN_fst {stepN : GramNode G → Except Panic ((Found G × Found G) × Nat)}
    {step : GramNode G → Except Panic (Found G × Found G)} (l : List (GramNode G))
    (h : ∀ c, (stepN c).map (·.1) = step c) : ∀ best : Found G × Nat,
    (popularLoopN stepN l best).map (·.1) = popularLoop step l best.1 := by
  induction l with
  | nil => intro best; rfl
  | cons c l ih => intro best; exact counted_bind (h c) fun a => ih _

omit [DecidableEq G] [RDefault G] in
theorem ifNodeN_fst {node : Option (GramNode G)} {otherwise : Found G × Nat} {fN : GramNode G → Except Panic (Found G × Nat)}
    {f : GramNode G → Except Panic (Found G)} (h : ∀ u, (fN u).map (·.1) = f u) :
    (ifNodeN node otherwise fN).map (·.1) = ifNode node otherwise.1 f := by
  cases node with
  | none => rfl
  | some u => exact h u

omit [RDefault G] in
theorem recursiveSearchN_fst (n : Nat) : ∀ (l m : Nat) (input : List G) (node : GramNode G) (previousNode : Option (GramNode G))
    (changes changesLimit : Nat) (weight : F32) (previousInput : List G) (index : Nat),
    changesLimit - changes = l → n - index = m →
    (recursiveSearchN n input node previousNode changes changesLimit weight previousInput index).map (·.1) =
      recursiveSearch n input node previousNode changes changesLimit weight previousInput index := by
  intro l
  induction l using Nat.strongRecOn with
  | ind l ihl =>
    intro m
    induction m with
    | zero =>
      intro input node previousNode changes changesLimit weight previousInput index hl hm
      unfold recursiveSearchN recursiveSearch
      split
      · rfl
      · rw [if_pos (by omega), if_pos (by omega)]; rfl
    | succ m ihm =>
      intro input node previousNode changes changesLimit weight previousInput index hl hm
      unfold recursiveSearchN recursiveSearch
      rw [if_neg (by omega), if_neg (by omega), if_neg (by omega), if_neg (by omega)]
      refine counted_bind (ifNodeN_fst (otherwise := (none, 1)) fun u => counted_pass fun pi =>
        counted_bind (ihm _ _ _ _ _ _ _ _ hl (by omega)) fun a => rfl) fun best => ?_
      by_cases hlim : changes < changesLimit
      · rw [dif_pos hlim, dif_pos hlim]
        refine counted_pass fun changes1 => counted_bind (popularLoopN_fst _ (fun c => counted_pass fun pi =>
          counted_bind (ihl _ (by omega) _ _ _ _ _ _ _ _ _ rfl rfl) fun a => counted_pass fun _ =>
          counted_bind (ihl _ (by omega) _ _ _ _ _ _ _ _ _ rfl rfl) fun b => rfl) _) fun best => ?_
        exact ifNodeN_fst fun last => counted_pass fun pi =>
          counted_bind (ihl _ (by omega) _ _ _ _ _ _ _ _ _ rfl rfl) fun a => rfl
      · rw [dif_neg hlim, dif_neg hlim]; rfl

theorem searchGramN_fst (ix : GramIndex G) (n : Nat) (query : List G) :
    (ix.searchGramN n query).map (·.1) = ix.searchGram n query := by
  unfold GramIndex.searchGramN GramIndex.searchGram
  cases query with
  | nil => rfl
  | cons q rest =>
    simp only []
    cases AMap.get ix.roots q with
    | none => rfl
    | some root =>
      simp only []
      split
      · exact recursiveSearchN_fst n _ _ _ _ _ _ _ _ _ _ rfl rfl
      · rfl

theorem searchStepN_fst (ix : GramIndex G) (n : Nat) (st : (Ranker × List G) × Nat) (gram : G) :
    (ix.searchStepN n st gram).map (·.1) = ix.searchStep n st.1 gram := by
  unfold GramIndex.searchStepN GramIndex.searchStep
  refine counted_bind (searchGramN_fst ix n _) fun a => ?_
  obtain ⟨r, k⟩ := a
  cases r with
  | none => rfl
  | some f =>
    simp only []
    cases AMap.get ix.data f.1 <;> rfl

theorem searchN_fold (ix : GramIndex G) (n : Nat) : ∀ (input : List G) (st : (Ranker × List G) × Nat),
    (input.foldlM (ix.searchStepN n) st).map (·.1) = input.foldlM (ix.searchStep n) st.1
  | [], _ => rfl
  | g :: input, st => by
    rw [List.foldlM_cons, List.foldlM_cons]
    exact counted_bind (searchStepN_fst ix n st g) fun a => searchN_fold ix n input a

/-- Counting the calls changes nothing: without the count the search is the search. -/
theorem C81_counts (o : HashOrd) (ix : GramIndex G) (n : Nat) (input : List G) :
    (ix.searchN o n input).map (·.1) = ix.search o n input :=
  counted_bind (searchN_fold ix n input _) fun _ => rfl

/-! ## How many calls there are -/

omit [RDefault G] in
theorem mem_of_items {nd u : GramNode G} {g : G} (h : AMap.get nd.items g = some u) : u ∈ nd.byOcc := by
  have := AMap.mem_of_mem_collect (AMap.mem_of_get h)
  obtain ⟨c, hc, e⟩ := List.mem_map.1 this
  have : c = u := congrArg Prod.snd e
  exact this ▸ hc

omit [DecidableEq G] [RDefault G] in
theorem popularLoopN_le {step : GramNode G → Except Panic ((Found G × Found G) × Nat)} {B : Nat} :
    ∀ (l : List (GramNode G)) (best r : Found G × Nat),
    (∀ c ∈ l, ∀ x, step c = .ok x → x.2 ≤ B) → popularLoopN step l best = .ok r → r.2 ≤ best.2 + l.length * B
  | [], best, r, _, h => by cases h; simp
  | c :: l, best, r, hs, h => by
    simp only [popularLoopN] at h
    cases hc : step c with
    | error w => rw [hc] at h; cases h
    | ok x =>
      rw [hc] at h
      have h1 := hs c (by simp) x hc
      have h2 := popularLoopN_le l _ r (fun c hc => hs c (by simp [hc])) h
      simp only [List.length_cons, Nat.succ_mul] at *
      omega

theorem bind_ok {α β : Type} {x : Except Panic α} {f : α → Except Panic β} {b : β} (h : (x >>= f) = .ok b) :
    ∃ a, x = .ok a ∧ f a = .ok b := by
  cases x with
  | error w => cases h
  | ok a => exact ⟨a, rfl, h⟩

/-- The bound on the calls: `w` children at most, `l` changes left, `m` characters left. -/
def callBound (w l m : Nat) : Nat := (m + 1) * ((m + 1) * (2 * w + 2)) ^ l

theorem callBound_pos (w l m : Nat) : 1 ≤ callBound w l m :=
  Nat.mul_pos (by omega) (Nat.pow_pos (Nat.mul_pos (by omega) (by omega)))

theorem callBound_mono {w l l' m m' : Nat} (hl : l ≤ l') (hm : m ≤ m') : callBound w l m ≤ callBound w l' m' := by
  refine Nat.mul_le_mul (by omega) (Nat.le_trans (Nat.pow_le_pow_left (Nat.mul_le_mul_right _ (by omega)) _)
    (Nat.pow_le_pow_right (Nat.mul_pos (by omega) (by omega)) hl))

theorem callBound_zero (w m : Nat) : callBound w 0 m = m + 1 := by simp [callBound]

theorem callBound_step (w l m : Nat) :
    1 + callBound w (l + 1) m + (2 * w + 1) * callBound w l (m + 1) ≤ callBound w (l + 1) (m + 1) := by
  have h1 : callBound w (l + 1) m ≤ (m + 1) * ((m + 2) * (2 * w + 2)) ^ (l + 1) :=
    Nat.mul_le_mul_left _ (Nat.pow_le_pow_left (Nat.mul_le_mul_right _ (by omega)) _)
  have h2 : callBound w (l + 1) (m + 1) = (m + 1) * ((m + 2) * (2 * w + 2)) ^ (l + 1) + ((m + 2) * (2 * w + 2)) ^ (l + 1) := by
    simp only [callBound]
    rw [← Nat.succ_mul]
  have h3 : ((m + 2) * (2 * w + 2)) ^ (l + 1) = (2 * w + 1) * callBound w l (m + 1) + callBound w l (m + 1) := by
    rw [← Nat.succ_mul]
    simp only [callBound, Nat.pow_succ]
    rw [Nat.mul_comm _ ((m + 2) * (2 * w + 2)), Nat.mul_comm (m + 2), Nat.mul_assoc]
  have h4 := callBound_pos w l (m + 1)
  omega

omit [RDefault G] in
theorem recursiveSearchN_le {n w : Nat} {P : GramNode G → Prop}
    (hP : ∀ nd, P nd → nd.byOcc.length ≤ w ∧ ∀ c ∈ nd.byOcc, P c) :
    ∀ (l m : Nat) (input : List G) (node : GramNode G) (previousNode : Option (GramNode G))
    (changes changesLimit : Nat) (weight : F32) (previousInput : List G) (index : Nat) (r : Found G × Nat),
    changesLimit - changes = l → n - index = m → P node → (∀ p, previousNode = some p → P p) →
    recursiveSearchN n input node previousNode changes changesLimit weight previousInput index = .ok r →
    r.2 ≤ callBound w l m := by
  intro l
  induction l using Nat.strongRecOn with
  | ind l ihl =>
    intro m
    induction m with
    | zero =>
      intro input node previousNode changes changesLimit weight previousInput index r hl hm hn hp h
      unfold recursiveSearchN at h
      split at h
      · cases h; exact callBound_pos _ _ _
      · rw [if_pos (by omega)] at h; cases h
    | succ m ihm =>
      intro input node previousNode changes changesLimit weight previousInput index r hl hm hn hp h
      unfold recursiveSearchN at h
      rw [if_neg (by omega), if_neg (by omega)] at h
      obtain ⟨first, hfirst, h⟩ := bind_ok h
      have h1 : first.2 ≤ 1 + callBound w l m := by
        revert hfirst
        cases hu : (input.head?.bind fun gram => AMap.get node.items gram) with
        | none => intro hfirst; cases hfirst; simp
        | some u =>
          intro hfirst
          have hmem : u ∈ node.byOcc := by
            cases hh : input.head? with
            | none => rw [hh] at hu; cases hu
            | some g => rw [hh] at hu; exact mem_of_items hu
          obtain ⟨pi, _, hfirst⟩ := bind_ok hfirst
          obtain ⟨x, hx, hfirst⟩ := bind_ok hfirst
          have := ihm _ _ _ _ _ _ _ _ x hl (by omega) ((hP node hn).2 u hmem) (fun p hp => by cases hp; exact hn) hx
          cases hfirst
          simp only
          omega
      by_cases hlim : changes < changesLimit
      · rw [dif_pos hlim] at h
        obtain ⟨changes1, _, h⟩ := bind_ok h
        obtain ⟨best, hbest, h⟩ := bind_ok h
        obtain ⟨l', rfl⟩ : ∃ l', l = l' + 1 := ⟨l - 1, by omega⟩
        have h2 : best.2 ≤ first.2 + w * (2 * callBound w l' (m + 1)) := by
          refine Nat.le_trans (popularLoopN_le (B := 2 * callBound w l' (m + 1)) _ _ _ ?_ hbest) ?_
          · intro c hc x hx
            have hc := (List.mem_filter.1 hc).1
            obtain ⟨pi, _, hx⟩ := bind_ok hx
            obtain ⟨a, ha, hx⟩ := bind_ok hx
            obtain ⟨_, _, hx⟩ := bind_ok hx
            obtain ⟨b, hb, hx⟩ := bind_ok hx
            have ha := ihl (changesLimit - (changes + 1)) (by omega) (n - (index + 1)) _ _ _ _ _ _ _ _ a rfl rfl
              ((hP node hn).2 c hc) (fun p hp => by cases hp; exact hn) ha
            have hb := ihl (changesLimit - (changes + 2)) (by omega) (n - (index + 1)) _ _ _ _ _ _ _ _ b rfl rfl
              ((hP node hn).2 c hc) (fun p hp => by cases hp; exact hn) hb
            have ma : callBound w (changesLimit - (changes + 1)) (n - (index + 1)) ≤ callBound w l' (m + 1) :=
              callBound_mono (by omega) (by omega)
            have mb : callBound w (changesLimit - (changes + 2)) (n - (index + 1)) ≤ callBound w l' (m + 1) :=
              callBound_mono (by omega) (by omega)
            cases hx
            simp only
            omega
          · refine Nat.add_le_add_left (Nat.mul_le_mul_right _ ?_) _
            exact Nat.le_trans (List.length_filter_le _ _) (hP node hn).1
        have h3 : r.2 ≤ best.2 + callBound w l' (m + 1) := by
          revert h
          cases hu : (input.head?.bind fun gram => previousNode.bind fun p => AMap.get p.items gram) with
          | none => intro h; cases h; omega
          | some u =>
            intro h
            have hmem : P u := by
              cases hh : input.head? with
              | none => rw [hh] at hu; cases hu
              | some g =>
                rw [hh] at hu
                cases hq : previousNode with
                | none => rw [hq] at hu; cases hu
                | some q => rw [hq] at hu; exact (hP q (hp q hq)).2 u (mem_of_items hu)
            obtain ⟨pi, _, h⟩ := bind_ok h
            obtain ⟨a, ha, h⟩ := bind_ok h
            have ha := ihl (changesLimit - (changes + 1)) (by omega) (n - index) _ _ _ _ _ _ _ _ a rfl rfl hmem
              (fun p hp => by cases hp) ha
            have ma : callBound w (changesLimit - (changes + 1)) (n - index) ≤ callBound w l' (m + 1) :=
              callBound_mono (by omega) (by omega)
            cases h
            simp only
            omega
        have h4 := callBound_step w l' m
        have h5 : (2 * w + 1) * callBound w l' (m + 1) = w * (2 * callBound w l' (m + 1)) + callBound w l' (m + 1) := by
          rw [Nat.succ_mul, Nat.mul_comm 2 w, Nat.mul_assoc]
        omega
      · rw [dif_neg hlim] at h
        cases h
        have : l = 0 := by omega
        subst this
        rw [callBound_zero] at h1 ⊢
        omega

theorem searchGramN_le {ix : GramIndex G} {n w : Nat} (hw : ∀ path nd, ix.Has path nd → nd.byOcc.length ≤ w)
    (query : List G) (r : Found G × Nat) (h : ix.searchGramN n query = .ok r) :
    r.2 ≤ callBound w (n / 3) (n - 1) := by
  unfold GramIndex.searchGramN at h
  cases query with
  | nil => cases h; omega
  | cons q rest =>
    simp only [] at h
    cases hr : AMap.get ix.roots q with
    | none => rw [hr] at h; cases h; simp
    | some root =>
      rw [hr] at h
      simp only [] at h
      split at h
      · exact recursiveSearchN_le (P := fun nd => ∃ path, ix.Has path nd)
          (fun nd ⟨path, hnd⟩ => ⟨hw path nd hnd, fun c hc => ⟨_, hnd.child hc⟩⟩) _ _ _ _ _ _ _ _ _ _ r rfl rfl
          ⟨_, .root (AMap.mem_of_get hr)⟩ (fun p hp => by cases hp) h
      · cases h

theorem searchStepN_le {ix : GramIndex G} {n w : Nat} (hw : ∀ path nd, ix.Has path nd → nd.byOcc.length ≤ w)
    (st : (Ranker × List G) × Nat) (gram : G) (r : (Ranker × List G) × Nat) (h : ix.searchStepN n st gram = .ok r) :
    r.2 ≤ st.2 + callBound w (n / 3) (n - 1) := by
  unfold GramIndex.searchStepN at h
  obtain ⟨⟨f, k⟩, hk, h⟩ := bind_ok h
  have := searchGramN_le hw _ _ hk
  simp only at h this
  split at h
  · cases h; simp only; omega
  · split at h <;> (cases h; simp only; omega)

theorem searchN_fold_le {ix : GramIndex G} {n w : Nat} (hw : ∀ path nd, ix.Has path nd → nd.byOcc.length ≤ w) :
    ∀ (input : List G) (st r : (Ranker × List G) × Nat), input.foldlM (ix.searchStepN n) st = .ok r →
    r.2 ≤ st.2 + input.length * callBound w (n / 3) (n - 1)
  | [], st, r, h => by cases h; simp
  | g :: input, st, r, h => by
    rw [List.foldlM_cons] at h
    obtain ⟨a, ha, h⟩ := bind_ok h
    have h1 := searchStepN_le hw st g a ha
    have h2 := searchN_fold_le hw input a r h
    simp only [List.length_cons, Nat.succ_mul]
    omega

omit [DecidableEq G] [RDefault G] in
theorem popularLoopN_ge {step : GramNode G → Except Panic ((Found G × Found G) × Nat)} {B : Nat} :
    ∀ (l : List (GramNode G)) (best r : Found G × Nat),
    (∀ c ∈ l, ∀ x, step c = .ok x → B ≤ x.2) → popularLoopN step l best = .ok r → best.2 + l.length * B ≤ r.2
  | [], best, r, _, h => by cases h; simp
  | c :: l, best, r, hs, h => by
    simp only [popularLoopN] at h
    cases hc : step c with
    | error w => rw [hc] at h; cases h
    | ok x =>
      rw [hc] at h
      have h1 := hs c (by simp) x hc
      have h2 := popularLoopN_ge l _ r (fun c hc => hs c (by simp [hc])) h
      simp only [List.length_cons, Nat.succ_mul] at *
      omega

omit [RDefault G] in
/-- A call counts itself, and twice every child other than the character searched for if a change is left. -/
theorem recursiveSearchN_ge {n : Nat} : ∀ (l m : Nat) (input : List G) (node : GramNode G) (previousNode : Option (GramNode G))
    (changes changesLimit : Nat) (weight : F32) (previousInput : List G) (index : Nat) (r : Found G × Nat),
    changesLimit - changes = l → n - index = m →
    recursiveSearchN n input node previousNode changes changesLimit weight previousInput index = .ok r →
    1 ≤ r.2 ∧ (index < n → changes < changesLimit →
      1 + 2 * (node.byOcc.filter fun c => decide (some c.item ≠ (input.head?.bind fun gram => AMap.get node.items gram).map (·.item))).length ≤ r.2) := by
  intro l
  induction l using Nat.strongRecOn with
  | ind l ihl =>
    intro m
    induction m with
    | zero =>
      intro input node previousNode changes changesLimit weight previousInput index r hl hm h
      unfold recursiveSearchN at h
      split at h
      · cases h; exact ⟨Nat.le_refl 1, fun h => by omega⟩
      · rw [if_pos (by omega)] at h; cases h
    | succ m ihm =>
      intro input node previousNode changes changesLimit weight previousInput index r hl hm h
      unfold recursiveSearchN at h
      rw [if_neg (by omega), if_neg (by omega)] at h
      obtain ⟨first, hfirst, h⟩ := bind_ok h
      have h1 : 1 ≤ first.2 := by
        revert hfirst
        cases hu : (input.head?.bind fun gram => AMap.get node.items gram) with
        | none => intro hfirst; cases hfirst; simp
        | some u =>
          intro hfirst
          obtain ⟨pi, _, hfirst⟩ := bind_ok hfirst
          obtain ⟨x, hx, hfirst⟩ := bind_ok hfirst
          cases hfirst
          simp only
          omega
      by_cases hlim : changes < changesLimit
      · rw [dif_pos hlim] at h
        obtain ⟨changes1, _, h⟩ := bind_ok h
        obtain ⟨best, hbest, h⟩ := bind_ok h
        have h2 := popularLoopN_ge (B := 2) _ _ _ (by
          intro c hc x hx
          obtain ⟨pi, _, hx⟩ := bind_ok hx
          obtain ⟨a, ha, hx⟩ := bind_ok hx
          obtain ⟨_, _, hx⟩ := bind_ok hx
          obtain ⟨b, hb, hx⟩ := bind_ok hx
          have ha := (ihl (changesLimit - (changes + 1)) (by omega) (n - (index + 1)) _ _ _ _ _ _ _ _ a rfl rfl ha).1
          have hb := (ihl (changesLimit - (changes + 2)) (by omega) (n - (index + 1)) _ _ _ _ _ _ _ _ b rfl rfl hb).1
          cases hx
          simp only
          omega) hbest
        have h3 : best.2 ≤ r.2 := by
          revert h
          cases hu : (input.head?.bind fun gram => previousNode.bind fun p => AMap.get p.items gram) with
          | none => intro h; cases h; omega
          | some u =>
            intro h
            obtain ⟨pi, _, h⟩ := bind_ok h
            obtain ⟨a, ha, h⟩ := bind_ok h
            cases h
            simp only
            omega
        refine ⟨by omega, fun _ _ => ?_⟩
        rw [Nat.mul_comm] at h2
        omega
      · rw [dif_neg hlim] at h
        cases h
        exact ⟨h1, fun _ h => absurd h hlim⟩

theorem filter_ne_length {α β : Type} [DecidableEq β] (f : α → β) (x : Option β) : ∀ (l : List α), (l.map f).Nodup →
    l.length ≤ (l.filter fun c => decide (some (f c) ≠ x)).length + 1
  | [], _ => by simp
  | a :: l, h => by
    rw [List.map_cons, List.nodup_cons] at h
    obtain ⟨h1, h2⟩ := h
    by_cases hx : some (f a) = x
    · have e : l.filter (fun c => decide (some (f c) ≠ x)) = l := by
        refine List.filter_eq_self.2 fun c hc => ?_
        simp only [decide_eq_true_eq]
        intro e
        rw [← hx] at e
        simp only [Option.some.injEq] at e
        exact h1 (List.mem_map.2 ⟨c, hc, e⟩)
      rw [List.filter_cons_of_neg (by simpa using hx), e]
      simp
    · have := filter_ne_length f x l h2
      rw [List.filter_cons_of_pos (by simpa using hx)]
      simp only [List.length_cons]
      omega

/-- On any index, built or loaded, in which no node has more than `w` children, searching for `q` characters makes at
most `q * N * (N * (2 w + 2)) ^ (N / 3)` calls of `recursive_search`. -/
theorem C81_any {o : HashOrd} {ix : GramIndex Char} {n w : Nat} (hn : 1 ≤ n) (hn' : n ≤ 764)
    (hw : ∀ path nd, ix.Has path nd → nd.byOcc.length ≤ w) (input : List Char) :
    ∃ out calls, ix.searchN o n input = .ok (out, calls) ∧ ix.search o n input = .ok out ∧
      calls ≤ input.length * (n * (n * (2 * w + 2)) ^ (n / 3)) := by
  obtain ⟨out, hout⟩ := C48_search_total o ix hn hn' input
  have hc := C81_counts o ix n input
  rw [hout] at hc
  cases h : ix.searchN o n input with
  | error e => rw [h] at hc; cases hc
  | ok x =>
    rw [h] at hc
    cases hc
    refine ⟨x.1, x.2, rfl, hout, ?_⟩
    obtain ⟨st, hst, h⟩ := bind_ok h
    have := searchN_fold_le hw _ _ _ hst
    cases h
    simp only [callBound, Nat.sub_add_cancel hn, Nat.zero_add] at this
    exact this

/-- On a built index the bound depends on the number of different characters in the catalogue and not on the number of
products or the length of their texts. -/
theorem C81_built {t : Target} {o o' : HashOrd} {lower : Char → List Char} {parse : Str → Option F32} {n : Nat}
    {raws : List RawProduct} {ix : GramIndex Char} {cl : Classic} (hn : 1 ≤ n) (hn' : n ≤ 764)
    (hb : buildAll t o lower parse n raws = .ok (ix, cl)) (alphabet : List Char)
    (ha : ∀ raw ∈ raws, ∀ c ∈ textOf lower raw, c ∈ alphabet) (input : List Char) :
    ∃ out calls, ix.searchN o' n input = .ok (out, calls) ∧ ix.search o' n input = .ok out ∧
      calls ≤ input.length * (n * (n * (2 * alphabet.length + 2)) ^ (n / 3)) := by
  have hk : ix.Keyed := by rw [(builtAll_of_ok hb).index]; exact indexFrom_keyed t o hn _ _
  refine C81_any hn hn' (fun path nd hnd => ?_) input
  have hs := hk.siblings path nd ((hk.has_iff _ _).1 hnd)
  rw [← List.length_map (f := GramNode.item)]
  refine hs.length_le_of_subset fun c hc => ?_
  obtain ⟨u, hu, rfl⟩ := List.mem_map.1 hc
  obtain ⟨_, raw, hraw, hin⟩ := (C21_path_iff_substring hn hb (path ++ [u.item]) (by simp)).1 ⟨u, hnd.child hu⟩
  exact ha raw hraw _ (hin.subset (by simp))

/-- With the length the program uses, N = 5: at most `50 (a + 1)` calls per character searched for, where `a` is the
number of different characters of the catalogue. -/
theorem C81_five {t : Target} {o o' : HashOrd} {lower : Char → List Char} {parse : Str → Option F32}
    {raws : List RawProduct} {ix : GramIndex Char} {cl : Classic}
    (hb : buildAll t o lower parse ngramIndexSize raws = .ok (ix, cl)) (alphabet : List Char)
    (ha : ∀ raw ∈ raws, ∀ c ∈ textOf lower raw, c ∈ alphabet) (input : List Char) :
    ∃ out calls, ix.searchN o' ngramIndexSize input = .ok (out, calls) ∧ ix.search o' ngramIndexSize input = .ok out ∧
      calls ≤ 50 * (alphabet.length + 1) * input.length := by
  obtain ⟨out, calls, h1, h2, h3⟩ := C81_built (o' := o') (by decide) (by decide) hb alphabet ha input
  refine ⟨out, calls, h1, h2, ?_⟩
  have e : ngramIndexSize * (ngramIndexSize * (2 * alphabet.length + 2)) ^ (ngramIndexSize / 3) = 50 * (alphabet.length + 1) := by
    simp only [ngramIndexSize, Nat.reduceDiv, Nat.pow_one]
    omega
  rw [e, Nat.mul_comm] at h3
  exact h3

/-- The bound has to grow with the alphabet: looking up a window with a first character after which `followers` occur
in the catalogue makes at least `2 * followers - 1` calls. -/
theorem C81_least {t : Target} {o : HashOrd} {lower : Char → List Char} {parse : Str → Option F32} {n : Nat}
    {raws : List RawProduct} {ix : GramIndex Char} {cl : Classic} (hn : 3 ≤ n) (hn' : n ≤ 764)
    (hb : buildAll t o lower parse n raws = .ok (ix, cl)) (q : Char) (rest : List Char) (followers : List Char)
    (hf : followers.Nodup) (hf' : ∀ c ∈ followers, ∃ raw ∈ raws, [q, c] <:+: textOf lower raw) (hne : followers ≠ []) :
    ∃ found calls, ix.searchGramN n (q :: rest) = .ok (found, calls) ∧ ix.searchGram n (q :: rest) = .ok found ∧
      2 * followers.length ≤ calls + 1 := by
  have hk : ix.Keyed := by rw [(builtAll_of_ok hb).index]; exact indexFrom_keyed t o (by omega) _ _
  obtain ⟨found, hfound⟩ := C48_gram_total ix (by omega) hn' (q :: rest)
  have hc := searchGramN_fst ix n (q :: rest)
  rw [hfound] at hc
  cases h : ix.searchGramN n (q :: rest) with
  | error e => rw [h] at hc; cases hc
  | ok x =>
    rw [h] at hc
    cases hc
    refine ⟨x.1, x.2, rfl, hfound, ?_⟩
    have hasc : ∀ c ∈ followers, ∃ node, ix.Has [q, c] node := fun c hc =>
      (C21_path_iff_substring (by omega) hb [q, c] (by simp)).2 ⟨by simp only [List.length_cons, List.length_nil]; omega, hf' c hc⟩
    have hroot : ∃ root, AMap.get ix.roots q = some root ∧ ∀ c ∈ followers, c ∈ root.byOcc.map (·.item) := by
      have hsp : ∀ c node, ix.Has [q, c] node → ∃ root, AMap.get ix.roots q = some root ∧ c ∈ root.byOcc.map (·.item) := by
        intro c node hh
        generalize hp : [q, c] = p at hh
        cases hh with
        | root hr => cases hp
        | child hpar hmem =>
          rename_i path m
          have hlen := congrArg List.length hp
          cases path with
          | nil => exact absurd rfl hpar.ne_nil
          | cons a path =>
            cases path with
            | cons b path => simp at hlen
            | nil =>
              simp only [List.cons_append, List.nil_append, List.cons.injEq, and_true] at hp
              obtain ⟨rfl, rfl⟩ := hp
              refine ⟨m, ?_, List.mem_map.2 ⟨_, hmem, rfl⟩⟩
              have := (hk.has_iff _ _).1 hpar
              simpa [GramIndex.nodeAt, GramNode.walk] using this
      obtain ⟨c0, l, e⟩ := List.exists_cons_of_ne_nil hne
      obtain ⟨nd0, h0⟩ := hasc c0 (by simp [e])
      obtain ⟨root, hr, _⟩ := hsp c0 nd0 h0
      refine ⟨root, hr, fun c hc => ?_⟩
      obtain ⟨nd, hnd⟩ := hasc c hc
      obtain ⟨root', hr', hm⟩ := hsp c nd hnd
      rw [hr] at hr'
      cases hr'
      exact hm
    obtain ⟨root, hr, hmem⟩ := hroot
    have hlen : followers.length ≤ root.byOcc.length := by
      rw [← List.length_map (f := GramNode.item) (as := root.byOcc)]
      exact hf.length_le_of_subset hmem
    have hsib := hk.siblings [q] root ((hk.has_iff _ _).1 (.root (AMap.mem_of_get hr)))
    unfold GramIndex.searchGramN at h
    simp only [hr] at h
    rw [if_pos (by omega)] at h
    have := (recursiveSearchN_ge _ _ _ _ _ _ _ _ _ _ _ rfl rfl h).2 (by omega) (by omega)
    have h2 := filter_ne_length GramNode.item ((rest.head?.bind fun gram => AMap.get root.items gram).map (·.item)) root.byOcc hsib
    omega

/-! ## Exactly -/

/-- Spec: the calls for `m` letters to go with `b` changes left. The letter wanted, if the node has it, costs no change.
With a change left every other child is tried in place of the letter (one change) and before it (two), and the letter
before the last one (one). -/
def countCalls (b m : Nat) (node : GramNode G) (previous : Option (GramNode G)) (input : List G) : Nat :=
  match m with
  | 0 => 1
  | m + 1 =>
    let wanted := input.head?.bind fun g => AMap.get node.items g
    let exact := 1 + (match wanted with | none => 0 | some u => countCalls b m u (some node) input.tail)
    match b with
    | 0 => exact
    | b + 1 =>
      let others := (node.byOcc.filter fun c => decide (some c.item ≠ wanted.map (·.item))).map fun c =>
        countCalls b m c (some node) input.tail + countCalls (b - 1) m c (some node) input
      let swapped := match input.head?.bind fun g => previous.bind fun p => AMap.get p.items g with
        | none => 0
        | some last => countCalls b (m + 1) last none input.tail
      exact + others.sum + swapped
  termination_by (b, m)
  decreasing_by all_goals (first | (apply Prod.Lex.right; omega) | (apply Prod.Lex.left; omega))

omit [DecidableEq G] [RDefault G] in
theorem popularLoopN_eq {step : GramNode G → Except Panic ((Found G × Found G) × Nat)} {f : GramNode G → Nat} :
    ∀ (l : List (GramNode G)) (best r : Found G × Nat),
    (∀ c ∈ l, ∀ x, step c = .ok x → x.2 = f c) → popularLoopN step l best = .ok r → r.2 = best.2 + (l.map f).sum
  | [], best, r, _, h => by cases h; simp
  | c :: l, best, r, hs, h => by
    simp only [popularLoopN] at h
    cases hc : step c with
    | error w => rw [hc] at h; cases h
    | ok x =>
      rw [hc] at h
      have h1 := hs c (by simp) x hc
      have h2 := popularLoopN_eq l _ r (fun c hc => hs c (by simp [hc])) h
      simp only [List.map_cons, List.sum_cons] at *
      omega

omit [RDefault G] in
theorem recursiveSearchN_eq {n : Nat} : ∀ (b m : Nat) (input : List G) (node : GramNode G) (previousNode : Option (GramNode G))
    (changes changesLimit : Nat) (weight : F32) (previousInput : List G) (index : Nat) (r : Found G × Nat),
    changesLimit - changes = b → n - index = m →
    recursiveSearchN n input node previousNode changes changesLimit weight previousInput index = .ok r →
    r.2 = countCalls b m node previousNode input := by
  intro l
  induction l using Nat.strongRecOn with
  | ind l ihl =>
    intro m
    induction m with
    | zero =>
      intro input node previousNode changes changesLimit weight previousInput index r hl hm h
      unfold recursiveSearchN at h
      split at h
      · cases h; rw [countCalls]
      · rw [if_pos (by omega)] at h; cases h
    | succ m ihm =>
      intro input node previousNode changes changesLimit weight previousInput index r hl hm h
      unfold recursiveSearchN at h
      rw [if_neg (by omega), if_neg (by omega)] at h
      obtain ⟨first, hfirst, h⟩ := bind_ok h
      have h1 : first.2 = 1 + (match input.head?.bind fun g => AMap.get node.items g with
          | none => 0 | some u => countCalls l m u (some node) input.tail) := by
        revert hfirst
        cases hu : (input.head?.bind fun gram => AMap.get node.items gram) with
        | none => intro hfirst; cases hfirst; simp
        | some u =>
          intro hfirst
          obtain ⟨pi, _, hfirst⟩ := bind_ok hfirst
          obtain ⟨x, hx, hfirst⟩ := bind_ok hfirst
          have := ihm _ _ _ _ _ _ _ _ x hl (by omega) hx
          cases hfirst
          simp only
          omega
      by_cases hlim : changes < changesLimit
      · rw [dif_pos hlim] at h
        obtain ⟨changes1, _, h⟩ := bind_ok h
        obtain ⟨best, hbest, h⟩ := bind_ok h
        obtain ⟨l', rfl⟩ : ∃ l', l = l' + 1 := ⟨l - 1, by omega⟩
        have h2 := popularLoopN_eq (f := fun c => countCalls l' m c (some node) input.tail +
            countCalls (l' - 1) m c (some node) input) _ _ _ (by
          intro c hc x hx
          obtain ⟨pi, _, hx⟩ := bind_ok hx
          obtain ⟨a, ha, hx⟩ := bind_ok hx
          obtain ⟨_, _, hx⟩ := bind_ok hx
          obtain ⟨b, hb, hx⟩ := bind_ok hx
          have ha := ihl l' (by omega) m _ _ _ _ _ _ _ _ a (by omega) (by omega) ha
          have hb := ihl (l' - 1) (by omega) m _ _ _ _ _ _ _ _ b (by omega) (by omega) hb
          cases hx
          simp only
          omega) hbest
        have h3 : r.2 = best.2 + (match input.head?.bind fun g => previousNode.bind fun p => AMap.get p.items g with
            | none => 0 | some last => countCalls l' (m + 1) last none input.tail) := by
          revert h
          cases hu : (input.head?.bind fun gram => previousNode.bind fun p => AMap.get p.items gram) with
          | none => intro h; cases h; rfl
          | some u =>
            intro h
            obtain ⟨pi, _, h⟩ := bind_ok h
            obtain ⟨a, ha, h⟩ := bind_ok h
            have ha := ihl l' (by omega) (m + 1) _ _ _ _ _ _ _ _ a (by omega) (by omega) ha
            cases h
            simp only
            omega
        rw [countCalls]
        rw [h3, h2, h1]
      · rw [dif_neg hlim] at h
        cases h
        obtain rfl : l = 0 := by omega
        rw [countCalls]
        exact h1

/-- Spec: the calls for one window of the query. -/
def windowCalls (ix : GramIndex G) (n : Nat) (w : List G) : Nat :=
  match w.head?.bind fun q => AMap.get ix.roots q with
  | none => 0
  | some root => countCalls (n / 3) (n - 1) root none w.tail

theorem searchGramN_eq {ix : GramIndex G} {n : Nat} (query : List G) (r : Found G × Nat) (h : ix.searchGramN n query = .ok r) :
    r.2 = windowCalls ix n query := by
  unfold GramIndex.searchGramN at h
  cases query with
  | nil => cases h; rfl
  | cons q rest =>
    simp only [] at h
    unfold windowCalls
    rw [List.head?_cons, Option.bind_some]
    cases hr : AMap.get ix.roots q with
    | none => rw [hr] at h; cases h; rfl
    | some root =>
      rw [hr] at h
      simp only [] at h
      split at h
      · exact recursiveSearchN_eq _ _ _ _ _ _ _ _ _ _ r rfl rfl h
      · cases h

theorem searchN_fold_eq {ix : GramIndex G} {n : Nat} (hn : 1 ≤ n) :
    ∀ (rest done : List G) (r : Ranker) (k : Nat) (st : (Ranker × List G) × Nat),
    rest.foldlM (ix.searchStepN n) ((r, windowAfter n done), k) = .ok st →
    st.2 + ((paddedWindows n done).map (windowCalls ix n)).sum = k + ((paddedWindows n (done ++ rest)).map (windowCalls ix n)).sum
  | [], done, r, k, st, h => by cases h; simp
  | g :: rest, done, r, k, st, h => by
    rw [List.foldlM_cons] at h
    obtain ⟨a, ha, h⟩ := bind_ok h
    unfold GramIndex.searchStepN at ha
    obtain ⟨⟨f, c⟩, hc, ha⟩ := bind_ok ha
    have h1 := searchGramN_eq _ _ hc
    simp only at ha h1 hc
    rw [windowAfter_snoc n hn] at ha h1
    have h2 : ∃ r', a = ((r', windowAfter n (done ++ [g])), k + c) := by
      split at ha
      · cases ha; exact ⟨_, rfl⟩
      · split at ha <;> (cases ha; exact ⟨_, rfl⟩)
    obtain ⟨r', rfl⟩ := h2
    have h3 := searchN_fold_eq hn rest (done ++ [g]) _ _ _ h
    rw [paddedWindows_snoc n hn, List.map_append, List.sum_append_nat, List.append_assoc] at h3
    simp only [List.map_cons, List.map_nil, List.sum_cons, List.sum_nil, List.cons_append, List.nil_append] at h3
    omega

/-- The calls of a whole search are those of the windows of the query, which depend on nothing but the letters of the tree. -/
theorem C81_exact {o : HashOrd} {ix : GramIndex G} {n : Nat} (hn : 1 ≤ n) {input : List G} {out : List (Product × F32)} {calls : Nat}
    (h : ix.searchN o n input = .ok (out, calls)) : calls = ((paddedWindows n input).map (windowCalls ix n)).sum := by
  unfold GramIndex.searchN at h
  obtain ⟨st, hst, h⟩ := bind_ok h
  have e0 : windowAfter n ([] : List G) = List.replicate n dflt := by simp [windowAfter]
  rw [← e0] at hst
  have := searchN_fold_eq hn input [] _ _ _ hst
  cases h
  simpa [paddedWindows_nil] using this

/-! ## A case -/

/-- One product whose text is "abac". -/
def abac : List RawProduct := [mkRaw ['a', 'b', 'a'] ['c'] ['1']]

/-- The hypotheses of the theorems above are met by "abac": three characters, and after a come b and c. -/
example : ∃ ix cl, buildAll .debug64 .ident (fun c => [c]) parseOne ngramIndexSize abac = .ok (ix, cl) ∧
    (∃ out calls, ix.searchN .rev ngramIndexSize ['a', 'b'] = .ok (out, calls) ∧
      ix.search .rev ngramIndexSize ['a', 'b'] = .ok out ∧ calls ≤ 400) ∧
    (∃ found calls, ix.searchGramN ngramIndexSize ['a', 'x', 'b', 'a', 'c'] = .ok (found, calls) ∧
      ix.searchGram ngramIndexSize ['a', 'x', 'b', 'a', 'c'] = .ok found ∧ 4 ≤ calls + 1) := by
  obtain ⟨ix, cl, h⟩ := buildAll_ok .debug64 .ident (fun c => [c]) parseOne ngramIndexSize abac [F32.one] rfl
  have ht : textOf (fun c => [c]) (mkRaw ['a', 'b', 'a'] ['c'] ['1']) = ['a', 'b', 'a', 'c'] := by decide
  refine ⟨ix, cl, h, ?_, ?_⟩
  · refine C81_five h ['a', 'b', 'c'] ?_ ['a', 'b']
    intro raw hraw c hc
    simp only [abac, List.mem_singleton] at hraw
    subst hraw
    rw [ht] at hc
    simp only [List.mem_cons, List.not_mem_nil, or_false] at hc ⊢
    rcases hc with h | h | h | h <;> simp [h]
  · refine C81_least (by decide) (by decide) h 'a' _ ['b', 'c'] (by decide) ?_ (by simp)
    intro c hc
    refine ⟨_, List.mem_singleton.2 rfl, ?_⟩
    rw [ht]
    simp only [List.mem_cons, List.not_mem_nil, or_false] at hc
    rcases hc with rfl | rfl
    · exact ⟨[], ['a', 'c'], rfl⟩
    · exact ⟨['a', 'b'], [], rfl⟩

end Idx
