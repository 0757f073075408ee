import Verif.Model.Basic
/-! Association lists behave like maps. -/
set_option linter.unusedSectionVars false
namespace Idx
namespace AMap
variable {K V W : Type} [DecidableEq K]

@[simp] theorem get_nil (k : K) : get ([] : AMap K V) k = none := rfl
theorem get_cons (p : K × V) (m : AMap K V) (k : K) :
    get (p :: m) k = if p.1 = k then some p.2 else get m k := rfl

theorem get_upsert (m : AMap K V) (k k' : K) (f : V → V) (v : V) :
    get (upsert m k f v) k' =
      if k = k' then some ((get m k).elim v f) else get m k' := by
  induction m with
  | nil => simp [upsert, get]
  | cons p m ih =>
    simp only [upsert, get]
    by_cases h : p.1 = k
    · subst h
      by_cases h' : p.1 = k' <;> simp [get, h']
    · simp only [h, if_false, get]
      by_cases h' : p.1 = k'
      · subst h'
        simp [Ne.symm h]
      · simp [h', ih]

theorem get_insert (m : AMap K V) (k k' : K) (v : V) :
    get (insert m k v) k' = if k = k' then some v else get m k' := by
  rw [insert, get_upsert]
  cases get m k <;> rfl

theorem keys_upsert (m : AMap K V) (k : K) (f : V → V) (v : V) :
    (upsert m k f v).map (·.1) = if k ∈ m.map (·.1) then m.map (·.1) else m.map (·.1) ++ [k] := by
  induction m with
  | nil => simp [upsert]
  | cons p m ih =>
    simp only [upsert]
    by_cases h : p.1 = k
    · simp [h]
    · simp only [h, if_false, List.map_cons, ih, List.mem_cons, Ne.symm h, false_or]
      split <;> simp

instance (m : AMap K V) : Decidable (Wf m) := inferInstanceAs (Decidable (m.map (·.1)).Nodup)

theorem Wf.nil : Wf ([] : AMap K V) := List.nodup_nil

theorem Wf.upsert {m : AMap K V} (h : Wf m) (k : K) (f : V → V) (v : V) : Wf (upsert m k f v) := by
  simp only [Wf, keys_upsert] at *
  split
  · exact h
  · rename_i hk
    rw [List.nodup_append]
    refine ⟨h, by simp, ?_⟩
    intro a ha b hb
    simp only [List.mem_singleton] at hb
    subst hb
    intro e; subst e; exact hk ha

theorem Wf.insert {m : AMap K V} (h : Wf m) (k : K) (v : V) : Wf (insert m k v) := h.upsert k _ v

theorem get_eq_none_iff (m : AMap K V) (k : K) : get m k = none ↔ k ∉ m.map (·.1) := by
  induction m with
  | nil => simp
  | cons p m ih =>
    simp only [get_cons, List.map_cons, List.mem_cons]
    by_cases h : p.1 = k
    · simp [h]
    · simp [h, ih, Ne.symm h]

theorem get_isSome_iff (m : AMap K V) (k : K) : (get m k).isSome ↔ k ∈ m.map (·.1) := by
  have := get_eq_none_iff m k
  cases h : get m k <;> simp_all

theorem mem_of_get {m : AMap K V} {k : K} {v : V} (h : get m k = some v) : (k, v) ∈ m := by
  induction m with
  | nil => simp at h
  | cons p m ih =>
    rw [get_cons] at h
    by_cases hp : p.1 = k
    · simp only [hp, if_true, Option.some.injEq] at h
      subst hp; subst h; simp
    · simp only [hp, if_false] at h
      exact List.mem_cons_of_mem _ (ih h)

theorem get_of_mem {m : AMap K V} (hm : Wf m) {k : K} {v : V} (h : (k, v) ∈ m) : get m k = some v := by
  induction m with
  | nil => simp at h
  | cons p m ih =>
    simp only [Wf, List.map_cons, List.nodup_cons] at hm
    rw [get_cons]
    rcases List.mem_cons.1 h with h | h
    · subst h; simp
    · have : p.1 ≠ k := by
        rintro rfl
        exact hm.1 (List.mem_map_of_mem (f := (·.1)) h)
      simp [this, ih hm.2 h]

theorem mem_iff_get {m : AMap K V} (hm : Wf m) {k : K} {v : V} : (k, v) ∈ m ↔ get m k = some v :=
  ⟨get_of_mem hm, mem_of_get⟩

theorem Wf.perm {m m' : AMap K V} (h : Wf m) (p : m'.Perm m) : Wf m' :=
  (List.Perm.map (fun x : K × V => x.1) p).nodup_iff.2 h

theorem get_perm {m m' : AMap K V} (h : Wf m) (p : m'.Perm m) (k : K) : get m' k = get m k := by
  cases hg : get m k with
  | some v => exact get_of_mem (h.perm p) (p.mem_iff.2 (mem_of_get hg))
  | none =>
    rw [get_eq_none_iff] at *
    exact fun hk => hg ((p.map (·.1)).mem_iff.1 hk)

theorem upsert_of_not_mem {m : AMap K V} {k : K} (h : k ∉ m.map (·.1)) (f : V → V) (v : V) :
    AMap.upsert m k f v = m ++ [(k, v)] := by
  induction m with
  | nil => rfl
  | cons p m ih =>
    simp only [List.map_cons, List.mem_cons, not_or] at h
    simp [AMap.upsert, Ne.symm h.1, ih h.2]

theorem foldl_insert_of_nodup (l : List (K × V)) : ∀ (m : AMap K V),
    ((m ++ l).map (·.1)).Nodup → l.foldl (fun m p => insert m p.1 p.2) m = m ++ l := by
  induction l with
  | nil => intro m _; simp
  | cons p l ih =>
    intro m h
    have hp : p.1 ∉ m.map (·.1) := by
      simp only [List.map_append, List.map_cons] at h
      rw [List.nodup_append] at h
      intro hk
      exact h.2.2 _ hk p.1 (by simp) rfl
    rw [List.foldl_cons, insert, upsert_of_not_mem hp, ih]
    · simp
    · simpa using h

/-- Collecting pairs with distinct keys changes nothing. -/
theorem collect_of_wf {l : List (K × V)} (h : Wf l) : collect l = l := by
  rw [collect, foldl_insert_of_nodup]
  · simp
  · simpa [Wf] using h

theorem foldl_insert_wf (l : List (K × V)) : ∀ (m : AMap K V), Wf m →
    Wf (l.foldl (fun m p => insert m p.1 p.2) m) := by
  induction l with
  | nil => intro m h; exact h
  | cons p l ih => intro m h; exact ih _ (h.insert p.1 p.2)

theorem collect_wf (l : List (K × V)) : Wf (collect l) := foldl_insert_wf l [] Wf.nil

/-- `get` after collecting: the last pair with that key. -/
theorem get_foldl_insert (l : List (K × V)) : ∀ (m : AMap K V) (k : K),
    get (l.foldl (fun m p => insert m p.1 p.2) m) k = (get l.reverse k).or (get m k) := by
  induction l with
  | nil => intro m k; simp
  | cons p l ih =>
    intro m k
    rw [List.foldl_cons, ih, get_insert, List.reverse_cons]
    have : ∀ (a : AMap K V), get (a ++ [p]) k = (get a k).or (if p.1 = k then some p.2 else none) := by
      intro a
      induction a with
      | nil => simp [get_cons]
      | cons q a iha =>
        simp only [List.cons_append, get_cons, iha]
        by_cases hq : q.1 = k <;> simp [hq]
    rw [this]
    cases get l.reverse k <;> by_cases hp : p.1 = k <;> simp [hp]

theorem get_collect (l : List (K × V)) (k : K) : get (collect l) k = get l.reverse k := by
  rw [collect, get_foldl_insert]; simp

theorem mem_of_mem_collect {l : List (K × V)} {p : K × V} (h : p ∈ collect l) : p ∈ l := by
  have := get_of_mem (collect_wf l) (k := p.1) (v := p.2) h
  rw [get_collect] at this
  simpa using mem_of_get this

theorem get_map (m : AMap K V) (f : K → V → W) (k : K) :
    get (m.map fun p => (p.1, f p.1 p.2)) k = (get m k).map (f k) := by
  induction m with
  | nil => rfl
  | cons p m ih =>
    simp only [List.map_cons, get_cons, ih]
    by_cases h : p.1 = k
    · subst h; simp
    · simp [h]

theorem Wf.map {m : AMap K V} (h : Wf m) (f : K → V → W) : Wf (m.map fun p => (p.1, f p.1 p.2)) := by
  simpa [Wf, List.map_map, Function.comp_def] using h

theorem Wf.filter {m : AMap K V} (h : Wf m) (q : K × V → Bool) : Wf (m.filter q) :=
  h.sublist (List.filter_sublist.map _)

theorem get_filter {m : AMap K V} (h : Wf m) (q : K × V → Bool) (k : K) :
    get (m.filter q) k = (get m k).filter fun v => q (k, v) := by
  cases hg : get m k with
  | some v =>
    by_cases hq : q (k, v)
    · rw [get_of_mem (h.filter q) (List.mem_filter.2 ⟨mem_of_get hg, hq⟩), Option.filter_some, if_pos hq]
    · rw [Option.filter_some, if_neg hq, get_eq_none_iff]
      intro hm
      obtain ⟨p, hp, he⟩ := List.mem_map.1 hm
      have hp' := List.mem_filter.1 hp
      have : get m p.1 = some p.2 := get_of_mem h hp'.1
      rw [he, hg] at this
      cases p; simp_all
  | none =>
    rw [get_eq_none_iff] at hg
    simp only [Option.filter_none]
    rw [get_eq_none_iff]
    intro hm
    obtain ⟨p, hp, he⟩ := List.mem_map.1 hm
    exact hg (he ▸ List.mem_map_of_mem (List.mem_filter.1 hp).1)

theorem get_remove {m : AMap K V} (h : Wf m) (k k' : K) :
    get (remove m k) k' = if k = k' then none else get m k' := by
  induction m with
  | nil => simp [remove]
  | cons p m ih =>
    simp only [Wf, List.map_cons, List.nodup_cons] at h
    simp only [remove]
    by_cases hp : p.1 = k
    · subst hp
      simp only [if_true, get_cons]
      by_cases hk : p.1 = k'
      · subst hk
        simp only [if_true]
        exact (get_eq_none_iff _ _).2 h.1
      · simp [hk]
    · simp only [hp, if_false, get_cons, ih h.2]
      by_cases hk : p.1 = k'
      · subst hk; simp [Ne.symm hp]
      · simp [hk]

theorem remove_sublist (m : AMap K V) (k : K) : (remove m k).Sublist m := by
  induction m with
  | nil => exact List.Sublist.refl _
  | cons p m ih =>
    simp only [remove]
    split
    · exact List.sublist_cons_self _ _
    · exact ih.cons_cons _

theorem Wf.remove {m : AMap K V} (h : Wf m) (k : K) : Wf (remove m k) :=
  List.Nodup.sublist ((remove_sublist m k).map _) h

end AMap

/-! ### sets as lists -/

theorem mem_setInsert [DecidableEq α] (s : List α) (a b : α) : b ∈ setInsert s a ↔ b ∈ s ∨ b = a := by
  unfold setInsert
  split
  · rename_i h
    constructor
    · exact Or.inl
    · rintro (h' | rfl) <;> assumption
  · simp

theorem nodup_setInsert [DecidableEq α] {s : List α} (h : s.Nodup) (a : α) : (setInsert s a).Nodup := by
  unfold setInsert
  split
  · exact h
  · rename_i ha
    rw [List.nodup_append]
    refine ⟨h, by simp, ?_⟩
    intro x hx y hy
    simp only [List.mem_singleton] at hy
    subst hy
    rintro rfl; exact ha hx

theorem foldl_setInsert [DecidableEq α] (l : List α) : ∀ (s : List α), s.Nodup →
    (l.foldl setInsert s).Nodup ∧ ∀ b, b ∈ l.foldl setInsert s ↔ b ∈ s ∨ b ∈ l := by
  induction l with
  | nil => intro s h; simp [h]
  | cons a l ih =>
    intro s h
    obtain ⟨h1, h2⟩ := ih _ (nodup_setInsert h a)
    refine ⟨h1, fun b => ?_⟩
    rw [List.foldl_cons, h2, mem_setInsert, List.mem_cons, or_assoc]

theorem mem_setCollect [DecidableEq α] (l : List α) (b : α) : b ∈ setCollect l ↔ b ∈ l := by
  simpa [setCollect] using (foldl_setInsert l [] List.nodup_nil).2 b

theorem nodup_setCollect [DecidableEq α] (l : List α) : (setCollect l).Nodup :=
  (foldl_setInsert l [] List.nodup_nil).1

theorem setCollect_of_nodup [DecidableEq α] {l : List α} (h : l.Nodup) : setCollect l = l := by
  have : ∀ (l s : List α), (s ++ l).Nodup → l.foldl setInsert s = s ++ l := by
    intro l
    induction l with
    | nil => intro s _; simp
    | cons a l ih =>
      intro s hs
      have ha : a ∉ s := by
        rw [List.nodup_append] at hs
        intro hk
        exact hs.2.2 _ hk a (by simp) rfl
      rw [List.foldl_cons, setInsert, if_neg ha, ih]
      · simp
      · simpa using hs
  simpa [setCollect] using this l [] (by simpa using h)

end Idx
