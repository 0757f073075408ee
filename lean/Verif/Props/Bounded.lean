import Verif.Props.Rank
/-! # C110: how large a confidence can be -/
set_option exponentiation.threshold 300
namespace Idx

namespace F32

/-- Between 0 and `k`, or between 0 and 2^24 if that is less. -/
def UpTo (k : Nat) (x : F32) : Prop := ∃ m, x.val = .fin false m ∧ m ≤ min k (2 ^ 24) * 2 ^ 149

theorem round_top : roundMag ((2 ^ 24 + 1) * 2 ^ 149) 1 = 2 ^ 24 * 2 ^ 149 := by decide +kernel

theorem top_lt : 2 ^ 24 * 2 ^ 149 < 2 ^ 277 := by decide +kernel

theorem round_step {U T L : Nat} (hT : roundMag ((T + 1) * U) 1 = T * U) (hrep : ∀ q, q ≤ T → Rep (q * U)) {k m n : Nat}
    (hm : m ≤ min k T * U) (hn : n ≤ U) (hL : T * U < L) :
    roundMag (m + n) 1 ≤ min (k + 1) T * U ∧ roundMag (m + n) 1 < L := by
  have hle : roundMag (m + n) 1 ≤ min (k + 1) T * U := by
    by_cases hk : k + 1 ≤ T
    · rw [Nat.min_eq_left hk]
      apply roundMag_le Nat.one_pos (hrep _ hk)
      rw [Nat.min_eq_left (by omega)] at hm
      rw [Nat.mul_one, Nat.succ_mul]
      exact Nat.add_le_add hm hn
    · rw [Nat.min_eq_right (by omega), ← hT]
      apply roundMag_mono Nat.one_pos Nat.one_pos
      rw [Nat.min_eq_right (by omega)] at hm
      rw [Nat.mul_one, Nat.mul_one, Nat.succ_mul]
      exact Nat.add_le_add hm hn
  refine ⟨hle, Nat.lt_of_le_of_lt hle (Nat.lt_of_le_of_lt ?_ hL)⟩
  exact Nat.mul_le_mul_right _ (Nat.min_le_right _ _)

theorem rep_ones (q : Nat) (h : q ≤ 2 ^ 24) : Rep (q * 2 ^ 149) := rep_mul h

/-- Adding a number between 0 and 1. -/
theorem UpTo.add {k : Nat} {x y : F32} (hx : UpTo k x) (hy : Unit y) : UpTo (k + 1) (F32.add x y) := by
  obtain ⟨m, hm, hmk⟩ := hx
  obtain ⟨n, hn, hn1⟩ := hy
  have e : F32.add x y = ofRatio false (m + n) 1 := by simp only [F32.add, hm, hn, if_true]
  have h := round_step round_top rep_ones hmk hn1 top_lt
  rw [e]
  exact ⟨_, val_ofRatio false _ _ h.2, h.1⟩

theorem min_one : min 1 (2 ^ 24) = 1 := by decide

theorem Unit.upTo {x : F32} (h : Unit x) : UpTo 1 x := by
  obtain ⟨m, hm, h1⟩ := h
  refine ⟨m, hm, ?_⟩
  rw [min_one, Nat.one_mul]
  exact h1

theorem UpTo.mono {k k' : Nat} {x : F32} (h : UpTo k x) (hk : k ≤ k') : UpTo k' x := by
  obtain ⟨m, hm, h1⟩ := h
  refine ⟨m, hm, Nat.le_trans h1 (Nat.mul_le_mul_right _ ?_)⟩
  generalize 2 ^ 24 = T
  omega

theorem upTo_sum : ∀ (l : List F32) (k : Nat) (x : F32), UpTo k x → (∀ y ∈ l, Unit y) → UpTo (k + l.length) (l.foldl F32.add x)
  | [], _, _, hx, _ => hx
  | y :: l, k, x, hx, hl => by
    have := upTo_sum l (k + 1) (F32.add x y) (hx.add (hl y (by simp))) fun z hz => hl z (by simp [hz])
    rw [List.length_cons, Nat.add_comm l.length, ← Nat.add_assoc]
    exact this

end F32

/-- How many scores are added up for an id. -/
def scoreCount (t : Target) (lower : Char → List Char) (n : Nat) (input : List RawProduct) (ix : GramIndex Char) (query : List Char)
    (id : Str) : Nat :=
  ((paddedWindows n query).map fun w =>
    match lookup ix n w with
    | none => 0
    | some (k, _) => if occurrencesAll lower n input k < maximumProductAmount t input.length then occurrencesFor lower n input id k else 0).sum

/-- A confidence is a finite number, at most the number of scores that were added, and at most 2^24 = 16777216. -/
theorem C110_bound {t o lower parse n input ix cl} (h : Searchable t o lower parse n input ix cl) (o' : HashOrd) (query : List Char)
    (r : List (Product × F32)) (hr : ix.search o' n query = .ok r) (p : Product) (c : F32) (hp : (p, c) ∈ r) :
    F32.UpTo (scoreCount t lower n input ix query p.id) c := by
  obtain ⟨x, xs, e, rfl⟩ := (C60 h.pos h.le h.built o' query r hr p.id c).1 (List.mem_map.2 ⟨_, hp, rfl⟩)
  have key : ∀ ws : List (List Char),
      (∀ y ∈ ws.flatMap fun w => windowScores t lower n input p.id (lookup ix n w), F32.Unit y) ∧
      (ws.flatMap fun w => windowScores t lower n input p.id (lookup ix n w)).length = (ws.map fun w =>
        match lookup ix n w with
        | none => 0
        | some (k, _) => if occurrencesAll lower n input k < maximumProductAmount t input.length then
            occurrencesFor lower n input p.id k else 0).sum := by
    intro ws
    induction ws with
    | nil => exact ⟨(fun y hy => nomatch hy), rfl⟩
    | cons w ws ih =>
      rw [List.flatMap_cons, List.map_cons, List.sum_cons, List.length_append, ih.2]
      obtain ⟨res, hres⟩ := C48_gram_total ix h.pos h.le w
      have hl : lookup ix n w = res := by unfold lookup; rw [hres]
      rw [hl]
      cases res with
      | none => exact ⟨fun y hy => ih.1 y (by simpa [windowScores] using hy), by simp [windowScores]⟩
      | some kc =>
        obtain ⟨k, conf⟩ := kc
        refine ⟨fun y hy => ?_, ?_⟩
        · rcases List.mem_append.1 hy with hy | hy
          · unfold windowScores at hy
            simp only at hy
            split at hy
            · rw [List.mem_replicate] at hy
              rw [hy.2]
              exact h.conf_unit hres
            · cases hy
          · exact ih.1 y hy
        · congr 1
          simp only [windowScores]
          split <;> simp
  have hk := key (paddedWindows n query)
  rw [e] at hk
  have hs := F32.upTo_sum xs 1 x (hk.1 x (by simp)).upTo fun y hy => hk.1 y (by simp [hy])
  refine hs.mono ?_
  have hlen := hk.2
  rw [List.length_cons] at hlen
  unfold scoreCount
  omega

theorem occurrencesFor_le (lower : Char → List Char) (n : Nat) (input : List RawProduct) (id : Str) (k : List Char) :
    occurrencesFor lower n input id k ≤ occurrencesAll lower n input k := by
  unfold occurrencesFor occurrencesAll
  induction input with
  | nil => exact Nat.le_refl _
  | cons raw input ih =>
    rw [List.filter_cons]
    split
    · rw [List.map_cons, List.map_cons, List.sum_cons, List.sum_cons]; omega
    · rw [List.map_cons, List.sum_cons]; omega

/-- Each character of the query adds fewer scores than the cut-off of posting lists. -/
theorem C110_count (t : Target) (lower : Char → List Char) (n : Nat) (input : List RawProduct) (ix : GramIndex Char) (query : List Char)
    (id : Str) : scoreCount t lower n input ix query id ≤ query.length * (maximumProductAmount t input.length - 1) := by
  have : ∀ ws : List (List Char), (ws.map fun w =>
      match lookup ix n w with
      | none => 0
      | some (k, _) => if occurrencesAll lower n input k < maximumProductAmount t input.length then
          occurrencesFor lower n input id k else 0).sum ≤ ws.length * (maximumProductAmount t input.length - 1) := by
    intro ws
    induction ws with
    | nil => simp
    | cons w ws ih =>
      rw [List.map_cons, List.sum_cons, List.length_cons, Nat.succ_mul, Nat.add_comm]
      refine Nat.add_le_add ih ?_
      split
      · exact Nat.zero_le _
      · split
        · rename_i k _ _ hlt
          have := occurrencesFor_le lower n input id k
          omega
        · exact Nat.zero_le _
  have := this (paddedWindows n query)
  rwa [show (paddedWindows n query).length = query.length by simp [paddedWindows]] at this

/-- So no confidence is infinite; the largest is 2^24. -/
theorem C32_finite {t o lower parse n input ix cl} (h : Searchable t o lower parse n input ix cl) (h5 : n ≤ 5)
    (o' : HashOrd) (query : List Char) (results : List (Product × F32)) (hs : ix.search o' n query = .ok results)
    (p : Product) (c : F32) (hp : (p, c) ∈ results) :
    ∃ m, c.val = .fin false m ∧ 1 ≤ m ∧ m ≤ 2 ^ 24 * 2 ^ 149 := by
  obtain ⟨m, hm, hle⟩ := C110_bound h o' query results hs p c hp
  refine ⟨m, hm, ?_, Nat.le_trans hle (Nat.mul_le_mul_right _ (Nat.min_le_right _ _))⟩
  rcases C32_results h h5 o' query results hs p c hp with ⟨m', hm', h1⟩ | hinf
  · rw [hm] at hm'; cases hm'; exact h1
  · rw [hm] at hinf; cases hinf

/-! ## The largest confidence is never left -/

theorem round_stays {U T : Nat} (hT : F32.roundMag ((T + 1) * U) 1 = T * U) (hrep : F32.Rep (T * U)) {n : Nat} (hn : n ≤ U) :
    F32.roundMag (T * U + n) 1 = T * U := by
  apply Nat.le_antisymm
  · calc F32.roundMag (T * U + n) 1 ≤ F32.roundMag ((T + 1) * U) 1 := by
          apply F32.roundMag_mono Nat.one_pos Nat.one_pos
          rw [Nat.mul_one, Nat.mul_one, Nat.succ_mul]
          exact Nat.add_le_add_left hn _
      _ = T * U := hT
  · exact F32.le_roundMag Nat.one_pos hrep (by rw [Nat.mul_one]; exact Nat.le_add_right _ _)

/-- Once a sum has reached 2^24, further scores change nothing: products with more of them are no longer told apart. -/
theorem C110_stays (x y : F32) (hx : x.val = .fin false (2 ^ 24 * 2 ^ 149)) (hy : F32.Unit y) : F32.add x y = x := by
  obtain ⟨n, hn, hn1⟩ := hy
  have e : F32.add x y = F32.ofRatio false (2 ^ 24 * 2 ^ 149 + n) 1 := by simp only [F32.add, hx, hn, if_true]
  have hr := round_stays F32.round_top (F32.rep_ones _ (Nat.le_refl _)) hn1
  have hv := F32.val_ofRatio false (2 ^ 24 * 2 ^ 149 + n) 1 (by rw [hr]; exact F32.top_lt)
  rw [e]
  rw [hr, ← hx] at hv
  refine F32.eq_of_val hv ?_
  exact (F32.NonNeg.notNan (.inl ⟨_, hv.trans hx⟩))

theorem round_exact {r : Nat} (h : F32.Rep r) : F32.roundMag r 1 = r :=
  Nat.le_antisymm (F32.roundMag_le Nat.one_pos h (by rw [Nat.mul_one]; exact Nat.le_refl _))
    (F32.le_roundMag Nat.one_pos h (by rw [Nat.mul_one]; exact Nat.le_refl _))

theorem ones_step {U T k : Nat} (h : k < T) : min k T * U + U = (k + 1) * U ∧ min (k + 1) T = k + 1 := by
  rw [Nat.min_eq_left (Nat.le_of_lt h), Nat.min_eq_left h, Nat.succ_mul]
  exact ⟨rfl, rfl⟩

theorem ones_top {T k : Nat} (h : T ≤ k) : min k T = T ∧ min (k + 1) T = T := by omega

/-- Both bounds are met: `k` scores of 1 add up to exactly `k`, and from 2^24 scores on to 2^24. -/
theorem C110_ones (one : F32) (h1 : one.val = .fin false (2 ^ 149)) : ∀ (k j : Nat) (x : F32),
    x.val = .fin false (min j (2 ^ 24) * 2 ^ 149) →
    ((List.replicate k one).foldl F32.add x).val = .fin false (min (j + k) (2 ^ 24) * 2 ^ 149)
  | 0, _, _, hx => hx
  | k + 1, j, x, hx => by
    have hone : F32.Unit one := ⟨_, h1, Nat.le_refl _⟩
    have hstep : (F32.add x one).val = .fin false (min (j + 1) (2 ^ 24) * 2 ^ 149) := by
      rcases Nat.lt_or_ge j (2 ^ 24) with hj | hj
      · have e : F32.add x one = F32.ofRatio false (min j (2 ^ 24) * 2 ^ 149 + 2 ^ 149) 1 := by
          simp only [F32.add, hx, h1, if_true]
        obtain ⟨e1, e2⟩ := ones_step (U := 2 ^ 149) hj
        have hr := round_exact (F32.rep_ones (j + 1) hj)
        have hlt : F32.roundMag ((j + 1) * 2 ^ 149) 1 < 2 ^ 277 := by
          rw [hr]
          exact Nat.lt_of_le_of_lt (Nat.mul_le_mul_right _ hj) F32.top_lt
        rw [e, e1, e2]
        have := F32.val_ofRatio false _ _ hlt
        rw [hr] at this
        exact this
      · obtain ⟨e1, e2⟩ := ones_top hj
        rw [e1] at hx
        rw [e2, C110_stays x one hx hone]
        exact hx
    have := C110_ones one h1 k (j + 1) (F32.add x one) hstep
    rw [List.replicate_succ, List.foldl_cons, Nat.add_comm k 1, ← Nat.add_assoc]
    exact this

end Idx
