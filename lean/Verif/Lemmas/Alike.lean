import Verif.Lemmas.Eval
import Verif.Lemmas.RefSearch
import Verif.Lemmas.Rank
/-! Indexes that `==` calls equal: floats equal as numbers, maps with equal entries, nodes, searches. -/
namespace Idx

namespace F32

/-- The same number: same value, or two zeros (of any signs), or both NaN. -/
def Like (x y : F32) : Prop := x.val = y.val ∨ ∃ s t, x.val = .fin s 0 ∧ y.val = .fin t 0

theorem Like.refl (x : F32) : Like x x := .inl rfl

theorem Like.symm {x y : F32} (h : Like x y) : Like y x := by
  rcases h with h | ⟨s, t, h1, h2⟩
  · exact .inl h.symm
  · exact .inr ⟨t, s, h2, h1⟩

theorem Like.trans {x y z : F32} (h : Like x y) (h' : Like y z) : Like x z := by
  rcases h with h | ⟨s, t, h1, h2⟩ <;> rcases h' with h' | ⟨s', t', h3, h4⟩
  · exact .inl (h.trans h')
  · exact .inr ⟨s', t', h.trans h3, h4⟩
  · exact .inr ⟨s, t, h1, h' ▸ h2⟩
  · exact .inr ⟨s, t', h1, h4⟩

theorem like_of_feq {x y : F32} (h : feq x y = true) : Like x y := by
  unfold feq lt at h
  unfold Like
  generalize x.val = a at *
  generalize y.val = b at *
  cases a with
  | nan => simp at h
  | inf s => cases b with
    | nan => simp at h
    | inf t => cases s <;> cases t <;> simp_all [Val.lt]
    | fin t n => cases s <;> simp_all [Val.lt]
  | fin s m => cases b with
    | nan => simp at h
    | inf t => cases t <;> simp_all [Val.lt]
    | fin t n =>
      simp only [Val.lt, Bool.and_eq_true, Bool.not_eq_true', decide_eq_false_iff_not] at h
      obtain ⟨h1, h2⟩ := h
      cases s <;> cases t
      · left; simp only [Bool.false_eq_true, if_false] at h1 h2; congr 1; omega
      · right
        simp only [Bool.false_eq_true, if_false, if_true] at h1 h2
        have e1 : m = 0 := by omega
        have e2 : n = 0 := by omega
        exact ⟨_, _, by rw [e1], by rw [e2]⟩
      · right
        simp only [Bool.false_eq_true, if_false, if_true] at h1 h2
        have e1 : m = 0 := by omega
        have e2 : n = 0 := by omega
        exact ⟨_, _, by rw [e1], by rw [e2]⟩
      · left; simp only [if_true] at h1 h2; congr 1; omega

theorem feq_of_like {x y : F32} (h : Like x y) (hx : x.val ≠ .nan) : feq x y = true := by
  unfold feq lt
  unfold Like at h
  generalize x.val = a at *
  generalize y.val = b at *
  rcases h with h | ⟨s, t, h1, h2⟩
  · subst h
    cases a with
    | nan => exact absurd rfl hx
    | inf s => cases s <;> rfl
    | fin s n => simp [Val.lt]
  · subst h1 h2
    cases s <;> cases t <;> simp [Val.lt]

theorem Like.nan_iff {x y : F32} (h : Like x y) : x.val = .nan ↔ y.val = .nan := by
  rcases h with h | ⟨s, t, h1, h2⟩
  · rw [h]
  · rw [h1, h2]; simp

theorem val_ofRatio_zero (s : Bool) (b : Nat) : (ofRatio s 0 b).val = .fin s 0 := by
  have h1 : roundMag 0 b = 0 := by
    unfold roundMag
    simp [dropBits]
  have h2 : bitsOfMag 0 = 0 := by decide +kernel
  unfold ofRatio
  rw [h1, h2, val_pack s 0 (by decide)]
  congr 1

theorem val_pack_zero (s : Bool) : (pack s 0).val = .fin s 0 := by
  rw [val_pack s 0 (by decide)]
  congr 1

theorem like_zero {x y : F32} {s t : Bool} (h1 : x.val = .fin s 0) (h2 : y.val = .fin t 0) : Like x y := .inr ⟨s, t, h1, h2⟩

theorem Like.mul {x x' y y' : F32} (hx : Like x x') (hy : Like y y') : Like (mul x y) (mul x' y') := by
  unfold F32.mul
  rcases hx with hx | ⟨s, t, h1, h2⟩ <;> rcases hy with hy | ⟨s', t', h3, h4⟩
  · rw [hx, hy]; exact .refl _
  · rw [hx, h3, h4]
    cases x'.val with
    | nan => exact .refl _
    | inf s => exact .inl rfl
    | fin s n => simp only [Nat.mul_zero]; exact like_zero (val_ofRatio_zero _ _) (val_ofRatio_zero _ _)
  · rw [hy, h1, h2]
    cases y'.val with
    | nan => exact .refl _
    | inf s => exact .inl rfl
    | fin s n => simp only [Nat.zero_mul]; exact like_zero (val_ofRatio_zero _ _) (val_ofRatio_zero _ _)
  · rw [h1, h2, h3, h4]
    simp only [Nat.mul_zero]; exact like_zero (val_ofRatio_zero _ _) (val_ofRatio_zero _ _)

theorem add_zero_val {s t : Bool} {x y : F32} (hx : x.val = .fin s 0) (hy : y.val = .fin t 0) : ∃ u, (add x y).val = .fin u 0 := by
  unfold add
  rw [hx, hy]
  simp only [Nat.add_zero, if_true]
  split
  · exact ⟨_, val_ofRatio_zero _ _⟩
  · exact ⟨_, val_pack_zero _⟩

theorem Like.add {x x' y y' : F32} (hx : Like x x') (hy : Like y y') : Like (add x y) (add x' y') := by
  rcases hx with hx | ⟨s, t, h1, h2⟩ <;> rcases hy with hy | ⟨s', t', h3, h4⟩
  · unfold F32.add; rw [hx, hy]; exact .refl _
  · by_cases hz : ∃ u, x'.val = .fin u 0
    · obtain ⟨u, hu⟩ := hz
      obtain ⟨a, ha⟩ := add_zero_val (hx.trans hu) h3
      obtain ⟨b, hb⟩ := add_zero_val hu h4
      exact like_zero ha hb
    · unfold F32.add
      rw [hx, h3, h4]
      cases hv : x'.val with
      | nan => exact .refl _
      | inf s => exact .refl _
      | fin u n =>
        have hn : n ≠ 0 := by rintro rfl; exact hz ⟨u, hv⟩
        simp only [Nat.add_zero, Nat.sub_zero, if_neg hn, if_pos (Nat.pos_of_ne_zero hn), ite_self]
        exact .refl _
  · by_cases hz : ∃ u, y'.val = .fin u 0
    · obtain ⟨u, hu⟩ := hz
      obtain ⟨a, ha⟩ := add_zero_val h1 (hy.trans hu)
      obtain ⟨b, hb⟩ := add_zero_val h2 hu
      exact like_zero ha hb
    · unfold F32.add
      rw [hy, h1, h2]
      cases hv : y'.val with
      | nan => exact .refl _
      | inf s => exact .refl _
      | fin u n =>
        have hn : n ≠ 0 := by rintro rfl; exact hz ⟨u, hv⟩
        have h0 : ¬ 0 = n := fun e => hn e.symm
        simp only [Nat.zero_add, Nat.sub_zero, if_neg h0, if_neg (Nat.not_lt_zero n)]
        have e : ∀ s : Bool, (if s = u then ofRatio s n 1 else ofRatio u n 1) = ofRatio u n 1 := by
          intro s; by_cases h : s = u <;> simp [h]
        rw [e, e]
        exact .refl _
  · obtain ⟨a, ha⟩ := add_zero_val h1 h3
    obtain ⟨b, hb⟩ := add_zero_val h2 h4
    exact like_zero ha hb

theorem Like.lt {x x' y y' : F32} (hx : Like x x') (hy : Like y y') : lt x y = lt x' y' := by
  unfold F32.lt
  rcases hx with hx | ⟨s, t, h1, h2⟩ <;> rcases hy with hy | ⟨s', t', h3, h4⟩
  · rw [hx, hy]
  · rw [hx, h3, h4]
    cases x'.val <;> cases s' <;> cases t' <;> simp [Val.lt]
  · rw [hy, h1, h2]
    cases y'.val <;> cases s <;> cases t <;> simp [Val.lt]
  · rw [h1, h2, h3, h4]
    cases s <;> cases t <;> cases s' <;> cases t' <;> simp [Val.lt]

end F32

/-! ## Lists and maps with related elements -/

/-- Lists of one length with related elements. -/
def Both (R : α → β → Prop) : List α → List β → Prop
  | [], [] => True
  | a :: as, b :: bs => R a b ∧ Both R as bs
  | _, _ => False

/-- Both missing, or both there and related. -/
def OptRel (R : α → β → Prop) : Option α → Option β → Prop
  | none, none => True
  | some a, some b => R a b
  | _, _ => False

/-- Entries with the same key and related values. -/
def EntryR (R : V → W → Prop) (p : K × V) (q : K × W) : Prop := p.1 = q.1 ∧ R p.2 q.2

theorem Both.mono {R S : α → β → Prop} : ∀ {l : List α} {l' : List β}, (∀ a b, R a b → S a b) → Both R l l' → Both S l l'
  | [], [], _, _ => trivial
  | _ :: _, _ :: _, h, hb => ⟨h _ _ hb.1, hb.2.mono h⟩

theorem Both.length {R : α → β → Prop} : ∀ {l : List α} {l' : List β}, Both R l l' → l.length = l'.length
  | [], [], _ => rfl
  | _ :: _, _ :: _, hb => by simp [hb.2.length]

theorem Both.map {R : α → β → Prop} {S : γ → δ → Prop} {f : α → γ} {g : β → δ} (h : ∀ a b, R a b → S (f a) (g b)) :
    ∀ {l : List α} {l' : List β}, Both R l l' → Both S (l.map f) (l'.map g)
  | [], [], _ => trivial
  | _ :: _, _ :: _, hb => ⟨h _ _ hb.1, hb.2.map h⟩

theorem Both.map_eq {R : α → β → Prop} {f : α → γ} {g : β → γ} (h : ∀ a b, R a b → f a = g b) :
    ∀ {l : List α} {l' : List β}, Both R l l' → l.map f = l'.map g
  | [], [], _ => rfl
  | _ :: _, _ :: _, hb => by rw [List.map_cons, List.map_cons, h _ _ hb.1, hb.2.map_eq h]

theorem Both.flatMap_eq {R : α → β → Prop} {f : α → List γ} {g : β → List γ} (h : ∀ a b, R a b → f a = g b) :
    ∀ {l : List α} {l' : List β}, Both R l l' → l.flatMap f = l'.flatMap g
  | [], [], _ => rfl
  | _ :: _, _ :: _, hb => by rw [List.flatMap_cons, List.flatMap_cons, h _ _ hb.1, hb.2.flatMap_eq h]

theorem Both.filter {R : α → β → Prop} {p : α → Bool} {q : β → Bool} (h : ∀ a b, R a b → p a = q b) :
    ∀ {l : List α} {l' : List β}, Both R l l' → Both R (l.filter p) (l'.filter q)
  | [], [], _ => trivial
  | a :: _, b :: _, hb => by
    rw [List.filter_cons, List.filter_cons, h a b hb.1]
    split
    · exact ⟨hb.1, hb.2.filter h⟩
    · exact hb.2.filter h

theorem Both.getElem? {R : α → β → Prop} : ∀ {l : List α} {l' : List β}, Both R l l' → ∀ i : Nat, OptRel R l[i]? l'[i]?
  | [], [], _, _ => trivial
  | _ :: _, _ :: _, hb, 0 => hb.1
  | _ :: _, _ :: _, hb, i + 1 => by
    rw [List.getElem?_cons_succ, List.getElem?_cons_succ]
    exact hb.2.getElem? i

theorem Both.zip {R : α → β → Prop} : ∀ {l : List α} {l' : List β}, Both R l l' →
    ∃ z : List (α × β), l = z.map (·.1) ∧ l' = z.map (·.2) ∧ ∀ e ∈ z, R e.1 e.2
  | [], [], _ => ⟨[], rfl, rfl, by simp⟩
  | a :: _, b :: _, hb => by
    obtain ⟨z, h1, h2, h3⟩ := hb.2.zip
    refine ⟨(a, b) :: z, by simp [← h1], by simp [← h2], fun e he => ?_⟩
    rcases List.mem_cons.1 he with rfl | he
    · exact hb.1
    · exact h3 e he

theorem both_of_listEqv {eq : α → α → Bool} : ∀ {l l' : List α}, listEqv eq l l' = true → Both (fun a b => eq a b = true) l l'
  | [], [], _ => trivial
  | _ :: _, _ :: _, h => by
    simp only [listEqv, Bool.and_eq_true] at h
    exact ⟨h.1, both_of_listEqv h.2⟩
  | [], _ :: _, h => by simp [listEqv] at h
  | _ :: _, [], h => by simp [listEqv] at h

theorem Both.get [DecidableEq K] {R : V → W → Prop} : ∀ {m : AMap K V} {m' : AMap K W}, Both (EntryR R) m m' →
    ∀ k, OptRel R (AMap.get m k) (AMap.get m' k)
  | [], [], _, _ => trivial
  | (a, v) :: m, (b, w) :: m', h, k => by
    have e : a = b := h.1.1
    subst e
    simp only [AMap.get]
    split
    · exact h.1.2
    · exact h.2.get k

theorem Both.upsert [DecidableEq K] {R : V → W → Prop} (k : K) {f : V → V} {g : W → W} (hf : ∀ v w, R v w → R (f v) (g w))
    {d : V} {d' : W} (hd : R d d') : ∀ {m : AMap K V} {m' : AMap K W}, Both (EntryR R) m m' →
    Both (EntryR R) (AMap.upsert m k f d) (AMap.upsert m' k g d')
  | [], [], _ => ⟨⟨rfl, hd⟩, trivial⟩
  | (a, v) :: m, (b, w) :: m', h => by
    have e : a = b := h.1.1
    subst e
    simp only [AMap.upsert]
    split
    · exact ⟨⟨rfl, hf _ _ h.1.2⟩, h.2⟩
    · exact ⟨⟨rfl, h.1.2⟩, h.2.upsert k hf hd⟩

theorem Both.collect [DecidableEq K] {R : V → W → Prop} {l : List (K × V)} {l' : List (K × W)} (h : Both (EntryR R) l l') :
    Both (EntryR R) (AMap.collect l) (AMap.collect l') := by
  suffices ∀ (l : List (K × V)) (l' : List (K × W)) (m : AMap K V) (m' : AMap K W), Both (EntryR R) l l' → Both (EntryR R) m m' →
      Both (EntryR R) (l.foldl (fun m p => AMap.insert m p.1 p.2) m) (l'.foldl (fun m p => AMap.insert m p.1 p.2) m') from
    this l l' [] [] h trivial
  intro l
  induction l with
  | nil => intro l' m m' h hm; cases l' with
    | nil => exact hm
    | cons => exact h.elim
  | cons a l ih => intro l' m m' h hm; cases l' with
    | nil => exact h.elim
    | cons b l' =>
      refine ih l' _ _ h.2 ?_
      show Both (EntryR R) (AMap.insert m a.1 a.2) (AMap.insert m' b.1 b.2)
      rw [← h.1.1]
      exact hm.upsert a.1 (fun _ _ _ => h.1.2) h.1.2

/-- Equal maps hold equal values under every key. -/
theorem get_of_mapEqv [DecidableEq K] {eq : V → V → Bool} {a b : AMap K V} (ha : AMap.Wf a) (h : mapEqv eq a b = true) (k : K) :
    OptRel (fun v w => eq v w = true) (AMap.get a k) (AMap.get b k) := by
  simp only [mapEqv, Bool.and_eq_true, beq_iff_eq, List.all_eq_true] at h
  obtain ⟨hl, h⟩ := h
  cases hk : AMap.get a k with
  | some v =>
    have := h (k, v) (AMap.mem_of_get hk)
    simp only at this
    cases hb : AMap.get b k with
    | none => rw [hb] at this; cases this
    | some w => rw [hb] at this; exact this
  | none =>
    cases hb : AMap.get b k with
    | none => trivial
    | some w =>
      exfalso
      have h1 : (k :: a.map (·.1)).Nodup := List.nodup_cons.2 ⟨(AMap.get_eq_none_iff a k).1 hk, ha⟩
      have h2 : (k :: a.map (·.1)) ⊆ b.map (·.1) := by
        intro x hx
        rcases List.mem_cons.1 hx with rfl | hx
        · exact (AMap.get_isSome_iff b _).1 (by rw [hb]; rfl)
        · obtain ⟨p, hp, rfl⟩ := List.mem_map.1 hx
          have := h p hp
          refine (AMap.get_isSome_iff b _).1 ?_
          cases hg : AMap.get b p.1 with
          | none => rw [hg] at this; cases this
          | some _ => rfl
      have := h1.length_le_of_subset h2
      simp at this
      omega

theorem mem_of_setEqv [DecidableEq α] {a b : List α} (ha : a.Nodup) (h : setEqv a b = true) (x : α) : x ∈ a ↔ x ∈ b := by
  simp only [setEqv, Bool.and_eq_true, beq_iff_eq, List.all_eq_true, decide_eq_true_eq] at h
  obtain ⟨hl, h⟩ := h
  constructor
  · exact h x
  · intro hx
    refine Decidable.byContradiction fun hn => ?_
    have h1 : (x :: a).Nodup := List.nodup_cons.2 ⟨hn, ha⟩
    have := h1.length_le_of_subset (l₂ := b) fun y hy => by
      rcases List.mem_cons.1 hy with rfl | hy
      · exact hx
      · exact h y hy
    simp at this
    omega

theorem keys_of_mapEqv [DecidableEq K] {eq : V → V → Bool} {a b : AMap K V} (ha : AMap.Wf a) (h : mapEqv eq a b = true) (k : K) :
    k ∈ a.map (·.1) ↔ k ∈ b.map (·.1) := by
  rw [← AMap.get_isSome_iff, ← AMap.get_isSome_iff]
  have := get_of_mapEqv ha h k
  revert this
  cases AMap.get a k <;> cases AMap.get b k <;> intro h <;> first | exact h.elim | simp

/-! ## Nodes -/

/-- Nodes that `==` calls equal. -/
def NodeR (a b : GramNode Char) : Prop := a.eqv b = true

theorem both_go : ∀ {l l' : List (GramNode Char)}, GramNode.eqv.go l l' = true → Both NodeR l l'
  | [], [], _ => trivial
  | a :: as, b :: bs, h => by
    rw [GramNode.eqv.go, Bool.and_eq_true] at h
    exact ⟨h.1, both_go h.2⟩
  | [], _ :: _, h => by simp [GramNode.eqv.go] at h
  | _ :: _, [], h => by simp [GramNode.eqv.go] at h

theorem NodeR.parts {a b : GramNode Char} (h : NodeR a b) : a.item = b.item ∧ F32.Like a.weight b.weight ∧ Both NodeR a.byOcc b.byOcc := by
  obtain ⟨i, w, l⟩ := a
  obtain ⟨i', w', l'⟩ := b
  unfold NodeR at h
  rw [GramNode.eqv] at h
  simp only [Bool.and_eq_true, beq_iff_eq] at h
  exact ⟨h.1.1, F32.like_of_feq h.1.2, both_go h.2⟩

theorem NodeR.items {a b : GramNode Char} (h : NodeR a b) (g : Char) : OptRel NodeR (AMap.get a.items g) (AMap.get b.items g) :=
  (Both.collect (h.parts.2.2.map fun _ _ hc => ⟨hc.parts.1, hc⟩)).get g

/-- The same gram with the same confidence, or none. -/
def FoundR : Found Char → Found Char → Prop := OptRel fun a b => a.1 = b.1 ∧ F32.Like a.2 b.2

theorem FoundR.best {a a' b b' : Found Char} (ha : FoundR a a') (hb : FoundR b b') : FoundR (bestResult a b) (bestResult a' b') := by
  cases a with
  | none => cases a' with
    | some _ => exact ha.elim
    | none => cases b with
      | none => cases b' with
        | none => trivial
        | some _ => exact hb.elim
      | some _ => cases b' with
        | none => exact hb.elim
        | some _ => exact hb
  | some x => cases a' with
    | none => exact ha.elim
    | some x' => cases b with
      | none => cases b' with
        | none => exact ha
        | some _ => exact hb.elim
      | some y => cases b' with
        | none => exact hb.elim
        | some y' =>
          simp only [bestResult]
          rw [hb.2.lt ha.2]
          split
          · exact ha
          · exact hb

theorem popularLoop_alike {step step' : GramNode Char → Except Panic (Found Char × Found Char)}
    (hs : ∀ c c', NodeR c c' → ESim (fun a b => FoundR a.1 b.1 ∧ FoundR a.2 b.2) (step c) (step' c')) :
    ∀ {l l' : List (GramNode Char)} {b b' : Found Char}, Both NodeR l l' → FoundR b b' →
    ESim FoundR (popularLoop step l b) (popularLoop step' l' b')
  | [], [], _, _, _, hb => hb
  | c :: l, c' :: l', _, _, h, hb => by
    simp only [popularLoop]
    exact (hs c c' h.1).bind fun x y hxy => popularLoop_alike hs h.2 ((hxy.1.best hxy.2).best hb)

theorem ifNode_alike {n n' : Option (GramNode Char)} {d d' : Found Char} {f f' : GramNode Char → Except Panic (Found Char)}
    (hn : OptRel NodeR n n') (hd : FoundR d d') (hf : ∀ u u', NodeR u u' → ESim FoundR (f u) (f' u')) :
    ESim FoundR (ifNode n d f) (ifNode n' d' f') := by
  cases n with
  | none => cases n' with
    | none => exact hd
    | some _ => exact hn.elim
  | some u => cases n' with
    | none => exact hn.elim
    | some u' => exact hf u u' hn

theorem head_get {input : List Char} {a b : GramNode Char} (h : NodeR a b) :
    OptRel NodeR (input.head?.bind fun gram => AMap.get a.items gram) (input.head?.bind fun gram => AMap.get b.items gram) := by
  cases input with
  | nil => trivial
  | cons g _ => exact h.items g

theorem head_get_prev {input : List Char} {a b : Option (GramNode Char)} (h : OptRel NodeR a b) :
    OptRel NodeR (input.head?.bind fun gram => a.bind fun p => AMap.get p.items gram)
      (input.head?.bind fun gram => b.bind fun p => AMap.get p.items gram) := by
  cases input with
  | nil => trivial
  | cons g _ => cases a with
    | none => cases b with
      | none => trivial
      | some _ => exact h.elim
    | some a => cases b with
      | none => exact h.elim
      | some b => exact NodeR.items h g

theorem recursiveSearchF_alike (n limit : Nat) : ∀ (k : Nat) (input : List Char) {node node' : GramNode Char}
    {prev prev' : Option (GramNode Char)} (changes : Nat) {w w' : F32} (buf : List Char) (index : Nat),
    NodeR node node' → OptRel NodeR prev prev' → F32.Like w w' →
    ESim FoundR (recursiveSearchF n limit k input node prev changes w buf index)
      (recursiveSearchF n limit k input node' prev' changes w' buf index) := by
  intro k
  induction k with
  | zero => intro _ _ _ _ _ _ _ _ _ _ _ _ _; exact rfl
  | succ k ih =>
    intro input node node' prev prev' changes w w' buf index hn hp hw
    simp only [recursiveSearchF]
    by_cases h1 : index = n
    · rw [if_pos h1, if_pos h1]
      exact ⟨rfl, hw⟩
    rw [if_neg h1, if_neg h1]
    by_cases h2 : index > n
    · rw [if_pos h2, if_pos h2]; exact rfl
    rw [if_neg h2, if_neg h2]
    have hu := head_get (input := input) hn
    have hug : (input.head?.bind fun gram => AMap.get node.items gram).map (·.item) =
        (input.head?.bind fun gram => AMap.get node'.items gram).map (·.item) := by
      revert hu
      cases (input.head?.bind fun gram => AMap.get node.items gram) <;>
        cases (input.head?.bind fun gram => AMap.get node'.items gram) <;> intro h <;>
        first | exact h.elim | rfl | exact congrArg some h.parts.1
    refine (ifNode_alike hu (d := none) (d' := none) trivial fun u u' h => ?_).bind fun best best' hbest => ?_
    · rw [h.parts.1]
      refine (ESim.refl _).bind fun b b' e => ?_
      subst e
      exact (ih input.tail changes b (index + 1) h (prev := some node) (prev' := some node') hn (hw.mul h.parts.2.1)).bind
        fun x y hxy => hxy.best (b := none) (b' := none) trivial
    · by_cases h3 : changes < limit
      · rw [if_pos h3, if_pos h3]
        refine (ESim.refl _).bind fun c1 c1' e => ?_
        subst e
        refine (popularLoop_alike (fun c c' hc => ?_) (hn.parts.2.2.filter fun a b hab => by rw [hab.parts.1, hug]) hbest).bind
          fun m m' hm => ?_
        · rw [hc.parts.1]
          refine (ESim.refl _).bind fun b b' e => ?_
          subst e
          refine (ih input.tail (changes + 1) b (index + 1) hc (prev := some node) (prev' := some node') hn
            (hw.mul hc.parts.2.1)).bind fun x y hxy => ?_
          refine (ESim.refl _).bind fun _ _ _ => ?_
          refine (ih input (changes + 2) b (index + 1) hc (prev := some node) (prev' := some node') hn
            (hw.mul hc.parts.2.1)).bind fun x' y' hxy' => ?_
          exact ⟨hxy, hxy'⟩
        · refine ifNode_alike (head_get_prev hp) hm fun u u' h => ?_
          rw [h.parts.1]
          refine (ESim.refl _).bind fun b b' e => ?_
          subst e
          exact (ih input.tail (changes + 1) b index h (prev := none) (prev' := none) trivial hw).bind
            fun x y hxy => hxy.best hm
      · rw [if_neg h3, if_neg h3]
        exact hbest

/-! ## Searches -/

/-- Equal products with the same confidence. -/
def ResR (a b : Product × F32) : Prop := a.1.eqv b.1 = true ∧ F32.Like a.2 b.2

/-- The two indexes compare equal, and the hash tables of the first hold each key once. -/
structure EqIx (ix ix' : GramIndex Char) : Prop where
  roots : ∀ k, OptRel NodeR (AMap.get ix.roots k) (AMap.get ix'.roots k)
  data : ∀ k, OptRel (Both fun p q => Product.eqv p q = true) (AMap.get ix.data k) (AMap.get ix'.data k)

theorem searchGram_alike {ix ix' : GramIndex Char} (h : EqIx ix ix') (n : Nat) (query : List Char) :
    ESim FoundR (ix.searchGram n query) (ix'.searchGram n query) := by
  rw [← searchGramF_eq, ← searchGramF_eq]
  cases query with
  | nil => trivial
  | cons q rest =>
    simp only [GramIndex.searchGramF]
    have := h.roots q
    revert this
    cases AMap.get ix.roots q with
    | none => cases AMap.get ix'.roots q with
      | none => exact fun _ => trivial
      | some _ => exact fun h => h.elim
    | some r => cases AMap.get ix'.roots q with
      | none => exact fun h => h.elim
      | some r' =>
        intro hr
        simp only
        split
        · exact recursiveSearchF_alike _ _ _ _ _ _ _ hr (prev := none) (prev' := none) trivial (.refl _)
        · exact rfl

theorem add_alike {r r' : Ranker} (h : Both (EntryR ResR) r r') {p q : Product} (hp : p.eqv q = true) {c c' : F32} (hc : F32.Like c c') :
    Both (EntryR ResR) (r.add p c) (r'.add q c') := by
  have e : p.id = q.id := by
    simp only [Product.eqv, Bool.and_eq_true, beq_iff_eq] at hp
    exact hp.1.2
  unfold Ranker.add
  rw [e]
  exact h.upsert q.id (fun v w hv => ⟨hv.1, hv.2.add hc⟩) ⟨hp, hc⟩

theorem addAll_alike {c c' : F32} (hc : F32.Like c c') : ∀ {l l' : List Product} {r r' : Ranker},
    Both (fun p q => Product.eqv p q = true) l l' → Both (EntryR ResR) r r' →
    Both (EntryR ResR) (l.foldl (fun r p => Ranker.add r p c) r) (l'.foldl (fun r p => Ranker.add r p c') r')
  | [], [], _, _, _, hr => hr
  | _ :: _, _ :: _, _, _, h, hr => by
    rw [List.foldl_cons, List.foldl_cons]
    exact addAll_alike hc h.2 (add_alike hr h.1 hc)

theorem searchStep_alike {ix ix' : GramIndex Char} (h : EqIx ix ix') (n : Nat) {s s' : Ranker × List Char}
    (hs : Both (EntryR ResR) s.1 s'.1 ∧ s.2 = s'.2) (g : Char) :
    ESim (fun s s' : Ranker × List Char => Both (EntryR ResR) s.1 s'.1 ∧ s.2 = s'.2) (ix.searchStep n s g) (ix'.searchStep n s' g) := by
  unfold GramIndex.searchStep
  simp only [hs.2]
  refine (searchGram_alike h n _).bind fun x y hxy => ?_
  cases x with
  | none => cases y with
    | none => exact ⟨hs.1, rfl⟩
    | some _ => exact hxy.elim
  | some x => cases y with
    | none => exact hxy.elim
    | some y =>
      obtain ⟨f, c⟩ := x
      obtain ⟨f', c'⟩ := y
      have hf : f = f' := hxy.1
      subst hf
      have := h.data f
      simp only
      revert this
      cases AMap.get ix.data f with
      | none => cases AMap.get ix'.data f with
        | none => exact fun _ => ⟨hs.1, rfl⟩
        | some _ => exact fun h => h.elim
      | some l => cases AMap.get ix'.data f with
        | none => exact fun h => h.elim
        | some l' => exact fun hl => ⟨addAll_alike hxy.2 hl hs.1, rfl⟩

theorem searchFold_alike {ix ix' : GramIndex Char} (h : EqIx ix ix') (n : Nat) : ∀ (input : List Char) {s s' : Ranker × List Char},
    (Both (EntryR ResR) s.1 s'.1 ∧ s.2 = s'.2) →
    ESim (fun s s' : Ranker × List Char => Both (EntryR ResR) s.1 s'.1 ∧ s.2 = s'.2) (input.foldlM (ix.searchStep n) s)
      (input.foldlM (ix'.searchStep n) s') := by
  intro input
  induction input with
  | nil => intro s s' hs; exact hs
  | cons g input ih =>
    intro s s' hs
    rw [List.foldlM_cons, List.foldlM_cons]
    exact (searchStep_alike h n hs g).bind fun _ _ hx => ih hx

/-- Results of equal indexes: the same panic, or results that can be paired off. -/
theorem search_alike {ix ix' : GramIndex Char} (h : EqIx ix ix') (o o' : HashOrd) (n : Nat) (query : List Char) :
    ESim (fun l l' => ∃ z : List ((Product × F32) × (Product × F32)), l = z.map (·.1) ∧ l'.Perm (z.map (·.2)) ∧
      ∀ e ∈ z, ResR e.1 e.2) (ix.search o n query) (ix'.search o' n query) := by
  unfold GramIndex.search
  refine (searchFold_alike h n query (s := ([], List.replicate n dflt)) (s' := ([], List.replicate n dflt)) ⟨trivial, rfl⟩).bind
    fun s s' hs => ?_
  obtain ⟨z, h1, h2, h3⟩ := (hs.1.map (S := ResR) (f := (·.2)) (g := (·.2)) fun _ _ h => h.2).zip
  have p1 := export_perm o s.1
  rw [h1] at p1
  obtain ⟨z', hz, e⟩ := perm_map_back p1 rfl
  refine ⟨z', e, ?_, fun x hx => h3 x (hz.mem_iff.1 hx)⟩
  have p2 := export_perm o' s'.1
  rw [h2] at p2
  exact p2.trans (hz.map _).symm

end Idx
