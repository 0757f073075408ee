import Verif.Lemmas.Edits
/-! The whole search: windows of the query, contributions, ranking. -/
set_option linter.unusedSectionVars false
namespace Idx
variable {G : Type} [DecidableEq G] [RDefault G]

/-! ## Ranking -/

/-- Contributions of one product id. -/
def scoresOf (id : Str) (hits : List (Product × F32)) : List F32 := (hits.filter fun h => h.1.id = id).map (·.2)

/-- Left-to-right float sum. -/
def sumScores : List F32 → Option F32
  | [] => none
  | x :: xs => some (xs.foldl F32.add x)

theorem sumScores_snoc (l : List F32) (x : F32) : sumScores (l ++ [x]) = some (((sumScores l).map fun s => F32.add s x).getD x) := by
  cases l with
  | nil => rfl
  | cons a l => simp [sumScores, List.foldl_append]

structure RankInv (hits : List (Product × F32)) (r : Ranker) : Prop where
  wf : AMap.Wf r
  entry : ∀ id, AMap.get r id = ((hits.find? fun h => h.1.id = id).bind fun h =>
    (sumScores (scoresOf id hits)).map fun s => (h.1, s))

theorem rankInv_nil : RankInv [] ([] : Ranker) := ⟨AMap.Wf.nil, fun _ => rfl⟩

theorem rankInv_add {hits : List (Product × F32)} {r : Ranker} (h : RankInv hits r) (p : Product) (c : F32) :
    RankInv (hits ++ [(p, c)]) (r.add p c) := by
  refine ⟨h.wf.upsert _ _ _, ?_⟩
  intro id
  rw [Ranker.add, AMap.get_upsert, List.find?_append]
  simp only [scoresOf, List.filter_append, List.map_append]
  by_cases e : p.id = id
  · subst e
    rw [h.entry]
    have hs : (List.filter (fun h => decide (h.1.id = p.id)) [(p, c)]).map (·.2) = [c] := by simp
    rw [hs, sumScores_snoc]
    cases hf : hits.find? fun h => h.1.id = p.id with
    | none =>
      have : hits.filter (fun h => h.1.id = p.id) = [] := by
        rw [List.filter_eq_nil_iff]; exact List.find?_eq_none.1 hf
      simp [this, sumScores]
    | some x =>
      have hx := List.find?_some hf
      have hm := List.mem_of_find?_eq_some hf
      have hne : hits.filter (fun h => h.1.id = p.id) ≠ [] := by
        intro he
        rw [List.filter_eq_nil_iff] at he
        exact he x hm hx
      cases hsc : sumScores (List.map (fun x => x.snd) (hits.filter (fun h => h.1.id = p.id))) with
      | none =>
        cases hl : hits.filter (fun h => h.1.id = p.id) with
        | nil => exact absurd hl hne
        | cons a l => rw [hl] at hsc; simp [sumScores] at hsc
      | some s => simp [scoresOf, hsc]
  · have hs : List.filter (fun h : Product × F32 => decide (h.1.id = id)) [(p, c)] = [] := by simp [e]
    simp [hs, e, h.entry, scoresOf]

theorem rankInv_foldl (more : List (Product × F32)) : ∀ {hits : List (Product × F32)} {r : Ranker}, RankInv hits r →
    RankInv (hits ++ more) (more.foldl (fun r h => r.add h.1 h.2) r) := by
  induction more with
  | nil => intro hits r h; simpa using h
  | cons x more ih =>
    intro hits r h
    have := ih (rankInv_add h x.1 x.2)
    simpa using this

/-- The table of scores of a list of contributions. -/
def rank (hits : List (Product × F32)) : Ranker := hits.foldl (fun r h => r.add h.1 h.2) []

theorem rank_inv (hits : List (Product × F32)) : RankInv hits (rank hits) := by
  have := rankInv_foldl hits rankInv_nil
  rw [List.nil_append] at this
  exact this

theorem mem_rank_iff {hits : List (Product × F32)} {id : Str} {p : Product} {c : F32} :
    (id, (p, c)) ∈ rank hits ↔
      (∃ x, hits.find? (fun h => h.1.id = id) = some x ∧ x.1 = p) ∧ sumScores (scoresOf id hits) = some c := by
  have h := rank_inv hits
  rw [AMap.mem_iff_get h.wf, h.entry]
  cases hits.find? (fun h => h.1.id = id) with
  | none => simp
  | some x =>
    cases sumScores (scoresOf id hits) with
    | none => simp
    | some s => simp

theorem rank_id {hits : List (Product × F32)} {id : Str} {p : Product} {c : F32} (h : (id, (p, c)) ∈ rank hits) :
    p.id = id := by
  obtain ⟨⟨x, hx, rfl⟩, _⟩ := mem_rank_iff.1 h
  simpa using List.find?_some hx

theorem export_perm (o : HashOrd) (r : Ranker) : (r.export o).Perm (r.map (·.2)) :=
  (stableSort_perm _ _).trans ((o.perm _ _).map _)

theorem export_ids (o : HashOrd) (hits : List (Product × F32)) : (((rank hits).export o).map (·.1.id)).Nodup := by
  refine (((export_perm o (rank hits)).map (·.1.id)).nodup_iff).2 ?_
  rw [List.map_map]
  have : (rank hits).map ((fun x : Product × F32 => x.1.id) ∘ (·.2)) = (rank hits).map (·.1) := by
    apply List.map_congr_left
    rintro ⟨id, p, c⟩ h
    exact rank_id h
  rw [this]
  exact (rank_inv hits).wf

theorem mem_export_iff {o : HashOrd} {hits : List (Product × F32)} {p : Product} {c : F32} :
    (p, c) ∈ (rank hits).export o ↔
      (∃ x, hits.find? (fun h => h.1.id = p.id) = some x ∧ x.1 = p) ∧ sumScores (scoresOf p.id hits) = some c := by
  rw [(export_perm o _).mem_iff, List.mem_map]
  constructor
  · rintro ⟨⟨id, x⟩, h, e⟩
    simp only at e
    subst e
    have hid := rank_id h
    subst hid
    exact mem_rank_iff.1 h
  · intro h
    exact ⟨(p.id, (p, c)), mem_rank_iff.2 h, rfl⟩

theorem export_sorted (o : HashOrd) (hits : List (Product × F32))
    (h : ∀ p c, (p, c) ∈ (rank hits).export o → ¬ c.IsNan) :
    ((rank hits).export o).Pairwise fun a b => F32.lt a.2 b.2 = false := by
  have key : ∀ a b : Product × F32, ¬ a.2.IsNan → ¬ b.2.IsNan →
      ((((F32.cmpOrEq a.2 b.2).swap != .gt) = true) ↔ F32.lt a.2 b.2 = false) := by
    intro a b ha hb
    rw [bne_iff_ne]; exact F32.cmpOrEq_swap_ne_gt ha hb
  have hs := stableSort_sorted_on (le := fun a b : Product × F32 => (F32.cmpOrEq a.2 b.2).swap != .gt)
    (fun c => ¬ c.2.IsNan)
    (by
      intro a b ha hb
      rw [key a b ha hb, key b a hb ha]
      cases h1 : F32.lt a.2 b.2 with
      | false => exact .inl rfl
      | true => exact .inr (F32.lt_asymm h1))
    (by
      intro a b c ha hb hc
      rw [key a b ha hb, key b c hb hc, key a c ha hc]
      intro h1 h2
      exact F32.le_trans hc hb ha h2 h1)
    ((o.order "results" (rank hits)).map (·.2)) (by
      rintro ⟨p, c⟩ hm
      exact h p c (mem_stableSort.2 hm))
  refine hs.imp_of_mem (fun {a b} ha hb hab => (key _ _ ?_ ?_).1 hab)
  · exact h a.1 a.2 ha
  · exact h b.1 b.2 hb

theorem sumScores_pos {l : List F32} (h : ∀ x ∈ l, F32.Pos x) {s : F32} (hs : sumScores l = some s) : F32.Pos s := by
  cases l with
  | nil => simp [sumScores] at hs
  | cons a l =>
    simp only [sumScores, Option.some.injEq] at hs
    subst hs
    have : ∀ (l : List F32) (a : F32), F32.Pos a → (∀ x ∈ l, F32.Pos x) → F32.Pos (l.foldl F32.add a) := by
      intro l
      induction l with
      | nil => intro a ha _; exact ha
      | cons b l ih =>
        intro a ha hl
        exact ih _ (ha.add (hl b (by simp))) (fun x hx => hl x (by simp [hx]))
    exact this l a (h a (by simp)) (fun x hx => h x (by simp [hx]))

/-! ## The search -/

/-- What one window of the query contributes. -/
def hitsOfWindow (ix : GramIndex G) (n : Nat) (w : List G) : List (Product × F32) :=
  match ix.searchGram n w with
  | .ok (some (found, conf)) => ((AMap.get ix.data found).getD []).map fun p => (p, conf)
  | _ => []

/-- All contributions, window by window. -/
def hitsOf (ix : GramIndex G) (n : Nat) (query : List G) : List (Product × F32) :=
  (paddedWindows n query).flatMap (hitsOfWindow ix n)

theorem mem_hitsOf {ix : GramIndex G} {n : Nat} {query : List G} {p : Product} {c : F32} :
    (p, c) ∈ hitsOf ix n query ↔ ∃ w ∈ paddedWindows n query, ∃ found l, ix.searchGram n w = .ok (some (found, c)) ∧
      AMap.get ix.data found = some l ∧ p ∈ l := by
  simp only [hitsOf, List.mem_flatMap]
  constructor
  · rintro ⟨w, hw, h⟩
    refine ⟨w, hw, ?_⟩
    unfold hitsOfWindow at h
    split at h
    · rename_i found conf e
      cases hg : AMap.get ix.data found with
      | none => simp [hg] at h
      | some l =>
        simp only [hg, Option.getD_some, List.mem_map, Prod.mk.injEq] at h
        obtain ⟨p', hp', rfl, rfl⟩ := h
        exact ⟨found, l, e, hg, hp'⟩
    · simp at h
  · rintro ⟨w, hw, found, l, e, hg, hp⟩
    refine ⟨w, hw, ?_⟩
    unfold hitsOfWindow
    rw [e]
    simp only [hg, Option.getD_some, List.mem_map, Prod.mk.injEq]
    exact ⟨p, hp, rfl, trivial⟩

theorem searchStep_eq (ix : GramIndex G) {n : Nat} (h1 : 1 ≤ n) (h2 : n ≤ 764) (done : List G) (g : G) (r : Ranker) :
    ix.searchStep n (r, windowAfter n done) g =
      .ok ((hitsOfWindow ix n (windowAfter n (done ++ [g]))).foldl (fun r h => r.add h.1 h.2) r,
        windowAfter n (done ++ [g])) := by
  have hw : shiftIn n (windowAfter n done) g = windowAfter n (done ++ [g]) := by
    exact windowAfter_snoc n h1 done g
  obtain ⟨res, e, _⟩ := searchGram_best ix h1 h2 (windowAfter n (done ++ [g]))
  unfold GramIndex.searchStep hitsOfWindow
  simp only [hw, e, except_bind_ok]
  cases res with
  | none => rfl
  | some x =>
    obtain ⟨found, conf⟩ := x
    simp only
    cases hg : AMap.get ix.data found with
    | none => rfl
    | some l => simp [List.foldl_map]

theorem hitsOf_snoc (ix : GramIndex G) {n : Nat} (h1 : 1 ≤ n) (done : List G) (g : G) :
    hitsOf ix n (done ++ [g]) = hitsOf ix n done ++ hitsOfWindow ix n (windowAfter n (done ++ [g])) := by
  simp [hitsOf, paddedWindows_snoc n h1]

theorem search_loop (ix : GramIndex G) {n : Nat} (h1 : 1 ≤ n) (h2 : n ≤ 764) (rest : List G) : ∀ (done : List G),
    rest.foldlM (ix.searchStep n) (rank (hitsOf ix n done), windowAfter n done) =
      .ok (rank (hitsOf ix n (done ++ rest)), windowAfter n (done ++ rest)) := by
  induction rest with
  | nil => intro done; rw [List.append_nil]; rfl
  | cons g rest ih =>
    intro done
    have e : (hitsOfWindow ix n (windowAfter n (done ++ [g]))).foldl (fun r h => r.add h.1 h.2) (rank (hitsOf ix n done)) =
        rank (hitsOf ix n (done ++ [g])) := by
      rw [hitsOf_snoc ix h1, rank, rank, List.foldl_append]
    rw [List.foldlM_cons, searchStep_eq ix h1 h2, except_bind_ok, e, ih]
    simp

/-- The search never panics; it ranks the contributions of the windows of the query. -/
theorem search_eq (o : HashOrd) (ix : GramIndex G) {n : Nat} (h1 : 1 ≤ n) (h2 : n ≤ 764) (query : List G) :
    ix.search o n query = .ok ((rank (hitsOf ix n query)).export o) := by
  have := search_loop ix h1 h2 query []
  have e0 : windowAfter n ([] : List G) = List.replicate n dflt := by simp [windowAfter]
  have e1 : rank (hitsOf ix n ([] : List G)) = [] := rfl
  rw [e0, e1, List.nil_append] at this
  unfold GramIndex.search
  rw [this]; rfl

end Idx
