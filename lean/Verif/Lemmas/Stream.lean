import Verif.Lemmas.Decode
/-! # Decoders on extended and on truncated input -/
namespace Idx

/-- If a decode leaves something unread, bytes appended to the input are left unread too and nothing else changes. -/
def Stream (d : De α) : Prop :=
  ∀ input rest a, d input = .ok (rest, a) → rest ≠ [] → ∀ extra, d (input ++ extra) = .ok (rest ++ extra, a)

theorem Stream.pure (a : α) : Stream (Pure.pure a : De α) := by
  intro input rest b h _ extra
  simp only [De.pure_apply, Res.ok.injEq, Prod.mk.injEq] at h ⊢
  simp [h]

theorem Stream.fail : Stream (De.fail : De α) := by intro input rest b h; simp at h

theorem Stream.lift (r : Res α) : Stream (De.lift r) := by
  intro input rest b h _ extra
  rw [De.lift_apply, Res.bind_eq_ok] at h
  obtain ⟨a, h1, h2⟩ := h
  simp only [Res.ok.injEq, Prod.mk.injEq] at h2
  rw [De.lift_apply, h1]
  simp [h2]

theorem Stream.bind {t : Target} {d : De α} {f : α → De β} {P : α → Prop} {Q : β → Prop} (h : Stream d) (g : Good t d P)
    (hf : ∀ a, P a → Stream (f a)) (gf : ∀ a, P a → Good t (f a) Q) : Stream (d >>= f) := by
  intro input rest b e hne extra
  rw [De.bind_apply, Res.bind_eq_ok] at e
  obtain ⟨⟨r, a⟩, h1, h2⟩ := e
  have ha := (g.ok _ _ _ h1).2
  have hr : r ≠ [] := by
    rintro rfl
    have := ((gf a ha).ok _ _ _ h2).1
    exact hne (List.suffix_nil.1 this)
  rw [De.bind_of_ok (h _ _ _ h1 hr extra)]
  exact hf a ha _ _ _ h2 hne extra

/-- `Good` with the trivial postcondition and `Stream`, which are proved together. -/
structure Lazy (t : Target) (d : De α) (P : α → Prop) : Prop where
  good : Good t d P
  stream : Stream d

namespace Lazy
variable {α β : Type} {t : Target}

theorem bind {d : De α} {f : α → De β} {P : α → Prop} {Q : β → Prop} (h : Lazy t d P) (hf : ∀ a, P a → Lazy t (f a) Q) :
    Lazy t (d >>= f) Q :=
  ⟨h.good.bind fun a ha => (hf a ha).good, h.stream.bind h.good (fun a ha => (hf a ha).stream) fun a ha => (hf a ha).good⟩

theorem pure {a : α} {P : α → Prop} (h : P a) : Lazy t (Pure.pure a : De α) P := ⟨.pure h, .pure a⟩

theorem true {a : α} : Lazy t (Pure.pure a : De α) fun _ => True := ⟨.pure trivial, .pure a⟩

theorem fail {P : α → Prop} : Lazy t (De.fail : De α) P := ⟨.fail, .fail⟩

theorem times {d : De α} (h : Lazy t d fun _ => True) : ∀ n, Lazy t (De.times n d) fun _ => True := by
  intro n
  induction n with
  | zero => exact true
  | succ n ih => exact h.bind fun _ _ => ih.bind fun _ _ => true

theorem timesFrom {d : Nat → De α} (h : ∀ i, Lazy t (d i) fun _ => True) :
    ∀ n i, Lazy t (De.timesFrom n i d) fun _ => True := by
  intro n
  induction n with
  | zero => intro i; exact true
  | succ n ih => intro i; exact (h i).bind fun _ _ => (ih _).bind fun _ _ => true

end Lazy

theorem deU64Loop_append : ∀ (input : Bytes) (out : UInt64) (eaten : Nat) (r : Bytes) (o : UInt64) (e : Nat),
    deU64Loop input out eaten = some (r, o, e) → r ≠ [] → ∀ extra, deU64Loop (input ++ extra) out eaten = some (r ++ extra, o, e) := by
  intro input
  induction input with
  | nil =>
    intro out eaten r o e h hne
    simp only [deU64Loop, Option.some.injEq, Prod.mk.injEq] at h
    exact absurd h.1.symm hne
  | cons b input ih =>
    intro out eaten r o e h hne extra
    unfold deU64Loop at h
    simp only [List.cons_append]
    unfold deU64Loop
    split at h
    · rename_i h9
      simp only [h9, if_true] at h ⊢
      split at h
      · rename_i hm
        simp only [Option.some.injEq, Prod.mk.injEq] at h
        rw [if_pos hm, ← h.1, ← h.2.1, ← h.2.2]
      · rename_i hm
        rw [if_neg hm]
        split at h
        · cases h
        · rename_i h10
          rw [if_neg h10]
          exact ih _ _ _ _ _ h hne extra
    · rename_i h9
      simp only [Option.some.injEq, Prod.mk.injEq] at h
      rw [if_neg h9, ← h.1, ← h.2.1, ← h.2.2]
      rfl

theorem lazy_u64 (t : Target) : Lazy t deU64 fun _ => True := by
  refine ⟨good_u64 t, ?_⟩
  intro input rest v h hne extra
  unfold deU64 at h ⊢
  split at h
  · cases h
  · rename_i input' out eaten he
    split at h
    · rename_i h9
      simp only at h
      split at h
      · cases h
      · rename_i b r
        have := deU64Loop_append _ _ _ _ _ _ he (by simp) extra
        simp only [Res.ok.injEq, Prod.mk.injEq] at h
        rw [this]
        simp only [h9, if_true, List.cons_append]
        rw [h.2, h.1]
    · rename_i h9
      split at h
      · cases h
      · rename_i h0
        simp only [Res.ok.injEq, Prod.mk.injEq] at h
        have := deU64Loop_append _ _ _ _ _ _ he (by rw [h.1]; exact hne) extra
        rw [this]
        simp only [h9, h0, if_false]
        rw [h.2, h.1]

theorem lazy_usize (t : Target) : Lazy t (deUsize t) fun _ => True := by
  refine (lazy_u64 t).bind fun v _ => ?_
  split
  · exact Lazy.true
  · exact Lazy.fail

theorem lazy_len (t : Target) (what : String) : Lazy t (deLen t what) fun _ => True := by
  refine ⟨(good_len t what).mono fun _ _ => trivial, ?_⟩
  refine Stream.bind (lazy_usize t).stream (good_usize t) (Q := fun _ => True) (fun n hn => ?_) fun n hn => ?_
  · intro input rest a h hne extra
    simp only [De.bind_apply, De.reserve, De.lift_apply] at h ⊢
    split at h
    · rename_i hr
      simp only [hr, if_true, Res.bind_ok, De.pure_apply, Res.ok.injEq, Prod.mk.injEq] at h ⊢
      simp [h]
    · simp at h
  · refine Good.bind (P := fun _ => True) (Good.lift (fun _ _ => trivial) fun w e => ?_) fun _ _ => Good.pure trivial
    split at e
    · cases e
    · rename_i hr
      cases e
      exact .inr (.inr (.inr ⟨rfl, what, n, hn, by simpa using hr⟩))

theorem lazy_u32 (t : Target) : Lazy t deU32 fun _ => True := by
  refine (lazy_u64 t).bind fun v _ => ?_
  split
  · exact Lazy.true
  · exact Lazy.fail

theorem lazy_char (t : Target) : Lazy t deChar fun _ => True :=
  (lazy_u32 t).bind fun _ _ => ⟨Good.ofOption fun _ _ => trivial, Stream.lift _⟩

theorem lazy_f32 (t : Target) : Lazy t deF32 fun _ => True := by
  refine ⟨good_f32 t, ?_⟩
  intro input rest a h _ extra
  unfold deF32 at h
  split at h
  · simp only [Res.ok.injEq, Prod.mk.injEq] at h
    simp only [List.cons_append, deF32, Res.ok.injEq, Prod.mk.injEq]
    exact ⟨by rw [h.1], h.2⟩
  · cases h

theorem lazy_bool (t : Target) : Lazy t deBool fun _ => True := by
  refine ⟨good_bool t, ?_⟩
  intro input rest a h _ extra
  unfold deBool at h
  split at h
  · cases h
  · simp only [Res.ok.injEq, Prod.mk.injEq] at h
    simp only [List.cons_append, deBool, Res.ok.injEq, Prod.mk.injEq]
    exact ⟨by rw [h.1], h.2⟩

theorem lazy_u8 (t : Target) : Lazy t deU8 fun _ => True := by
  refine ⟨good_u8 t, ?_⟩
  intro input rest a h _ extra
  unfold deU8 at h
  split at h
  · cases h
  · simp only [Res.ok.injEq, Prod.mk.injEq] at h
    simp only [List.cons_append, deU8, Res.ok.injEq, Prod.mk.injEq]
    exact ⟨by rw [h.1], h.2⟩

theorem lazy_str (t : Target) : Lazy t (deStr t) fun _ => True := by
  refine (lazy_usize t).bind fun len _ => ⟨⟨?_, ?_⟩, ?_⟩
  · intro input rest a h
    split at h
    · split at h
      · simp only [Res.ok.injEq, Prod.mk.injEq] at h
        exact ⟨by rw [← h.1]; exact List.drop_suffix _ _, trivial⟩
      · cases h
    · cases h
  · intro input w h
    split at h
    · split at h <;> cases h
    · cases h; exact .inl rfl
  · intro input rest a h2 hne extra
    simp only at h2
    split at h2
    · rename_i hle
      simp only [List.length_append]
      rw [if_pos (by omega), List.take_append_of_le_length hle, List.drop_append_of_le_length hle]
      split at h2
      · rename_i s hs
        simp only [Res.ok.injEq, Prod.mk.injEq] at h2
        rw [h2.1, h2.2]
      · cases h2
    · cases h2

theorem lazy_vec {t : Target} {d : De α} (h : Lazy t d fun _ => True) : Lazy t (deVec t d) fun _ => True :=
  (lazy_len t _).bind fun n _ => h.times n

theorem lazy_array {t : Target} {d : De α} (n : Nat) (h : Lazy t d fun _ => True) : Lazy t (deArray t n d) fun _ => True := by
  refine ⟨(good_array n h.good).mono fun _ _ => trivial, ?_⟩
  refine Stream.bind (lazy_usize t).stream (lazy_usize t).good (Q := fun _ => True) (fun len _ => ?_) fun len _ => ?_
  · split
    · exact (h.times n).stream
    · exact Stream.lift _
  · split
    · exact (h.times n).good
    · refine Good.lift (fun _ _ => trivial) fun w e => ?_
      cases e; exact .inr (.inl rfl)

theorem lazy_map {K V : Type} [DecidableEq K] {t : Target} {dk : De K} {dv : De V}
    (hk : Lazy t dk fun _ => True) (hv : Lazy t dv fun _ => True) : Lazy t (deMap t dk dv) fun _ => True := by
  refine (lazy_len t _).bind fun n _ => ?_
  refine Lazy.bind (Lazy.times ?_ n) fun l _ => Lazy.true
  exact hk.bind fun _ _ => hv.bind fun _ _ => Lazy.true

theorem lazy_deltas (t : Target) : ∀ (n : Nat) (prev : Option Nat), Lazy t (deDeltas t n prev) fun _ => True := by
  intro n
  induction n with
  | zero => intro prev; exact Lazy.true
  | succ n ih =>
    intro prev
    refine (lazy_usize t).bind fun parsed _ => ?_
    refine Lazy.bind (P := fun _ => True) ?_ fun item _ => (ih (some item)).bind fun l _ => Lazy.true
    cases prev with
    | none => exact Lazy.true
    | some p => exact ⟨Good.lift (fun _ _ => trivial) fun w h => addUsize_panic h, Stream.lift _⟩

theorem lazy_ofOption {t : Target} (x : Option α) : Lazy t (De.lift (Res.ofOption x)) fun _ => True :=
  ⟨Good.ofOption fun _ _ => trivial, Stream.lift _⟩

theorem lazy_productSeq (t : Target) (existing : List Product) : Lazy t (deProductSeq t existing) fun _ => True :=
  Lazy.bind ((lazy_len t _).bind fun n _ => lazy_deltas t n none) fun _ _ => (lazy_ofOption _).bind fun _ _ => Lazy.true

theorem lazy_feature (t : Target) : Lazy t (deFeature t) fun _ => True := by
  refine (lazy_u8 t).bind fun id _ => ?_
  split
  · exact (lazy_vec (lazy_str t)).bind fun _ _ => Lazy.true
  · split
    · exact (lazy_vec (lazy_f32 t)).bind fun _ _ => Lazy.true
    · split
      · exact (lazy_vec (lazy_u32 t)).bind fun _ _ => Lazy.true
      · exact Lazy.fail

theorem lazy_container (t : Target) : Lazy t (deContainer t) fun _ => True := by
  refine Lazy.bind (P := fun _ => True) ?_ fun vendors _ => (lazy_usize t).bind fun count _ => ?_
  · exact (lazy_len t _).bind fun len _ => (Lazy.timesFrom (fun _ => (lazy_str t).bind fun _ _ => Lazy.true) len 0).bind
      fun _ _ => Lazy.true
  refine Lazy.bind (Lazy.timesFrom (fun i => ?_) count 0) fun products _ =>
    (lazy_map (lazy_str t) (lazy_feature t)).bind fun _ _ => Lazy.true
  exact (lazy_str t).bind fun _ _ => (lazy_str t).bind fun _ _ => (lazy_str t).bind fun _ _ => (lazy_usize t).bind fun _ _ =>
    (lazy_ofOption _).bind fun _ _ => Lazy.true

theorem lazy_categoriesLoop (t : Target) (existing : List Product) :
    ∀ n next, Lazy t (deCategoriesLoop t existing n next) fun _ => True := by
  intro n
  induction n with
  | zero => intro next; exact Lazy.true
  | succ n ih =>
    intro next
    refine Lazy.bind (P := fun _ => True) ?_ fun c _ => (ih _).bind fun l _ => Lazy.true
    refine (lazy_bool t).bind fun _ _ => (lazy_str t).bind fun _ _ => (lazy_len t _).bind fun len _ => ?_
    exact Lazy.bind (Lazy.timesFrom (fun _ => (lazy_str t).bind fun _ _ => (lazy_productSeq t existing).bind
      fun _ _ => Lazy.true) len next) fun _ _ => Lazy.true

theorem lazy_orders (t : Target) : Lazy t (deOrders t) fun _ => True := lazy_map (lazy_str t) (lazy_vec (lazy_usize t))

theorem lazy_tags (t : Target) (existing : List Product) : Lazy t (deTags t existing) fun _ => True :=
  (lazy_len t _).bind fun len _ => Lazy.timesFrom (fun _ => (lazy_str t).bind fun _ _ => (lazy_productSeq t existing).bind
    fun _ _ => Lazy.true) len 0

theorem lazy_categories (t : Target) (existing : List Product) : Lazy t (deCategories t existing) fun _ => True :=
  (lazy_len t _).bind fun len _ => lazy_categoriesLoop t existing len 0

theorem lazy_classic (t : Target) (c : Container) : Lazy t (deClassic t c) fun _ => True :=
  (lazy_categories t _).bind fun _ _ => (lazy_tags t _).bind fun _ _ => (lazy_orders t).bind fun _ _ => Lazy.true

theorem lazy_node (t : Target) : ∀ fuel, Lazy t (deNode t fuel) fun _ => True := by
  intro fuel
  induction fuel with
  | zero => exact Lazy.fail
  | succ fuel ih =>
    exact (lazy_char t).bind fun _ _ => (lazy_f32 t).bind fun _ _ => (lazy_vec ih).bind fun _ _ => Lazy.true

theorem lazy_nodeTop (t : Target) : Lazy t (deNodeTop t) fun _ => True := by
  refine ⟨good_nodeTop t, ?_⟩
  intro input rest a h hne extra
  have h1 : deNode t (input.length + 1) input = .ok (rest, a) := h
  have h2 : deNode t ((input ++ extra).length + 1) input = .ok (rest, a) := by
    rw [← h1]
    exact deNode_fuel t _ _ (input.length + 1) (by simp only [List.length_append]; omega) (Nat.le_refl _) input (by omega)
  exact (lazy_node t _).stream _ _ _ h2 hne extra

theorem lazy_gram (t : Target) (n : Nat) : Lazy t (deGramIndex t n) fun _ => True := by
  refine (lazy_container t).bind fun c _ => (lazy_map (lazy_char t) (lazy_nodeTop t)).bind fun _ _ =>
    (lazy_len t _).bind fun len _ => Lazy.bind (Lazy.times ?_ len) fun _ _ => Lazy.true
  exact (lazy_array n (lazy_char t)).bind fun _ _ => (lazy_productSeq t _).bind fun _ _ => Lazy.true

theorem lazy_both (t : Target) (n : Nat) : Lazy t (deBoth t n) fun _ => True :=
  (lazy_gram t n).bind fun _ _ => (lazy_classic t _).bind fun _ _ => Lazy.true

/-! ## Truncated input -/

/-- `d` accepts no proper prefix of `s`. -/
def Strict (s : Bytes) (d : De α) : Prop := ∀ p q, s = p ++ q → q ≠ [] → ∀ rest a, d p ≠ .ok (rest, a)

theorem Eats.nil {d : De α} (h : Eats d) (rest : Bytes) (a : α) : d [] ≠ .ok (rest, a) := by
  intro e
  have := h _ _ _ e
  simp at this

/-- A proper prefix of the bytes of `a` that is accepted is read to its end. -/
theorem rest_of_prefix {s p q : Bytes} {d : De α} {a b : α} {rest : Bytes} (hs : Stream d) (hr : RT s d a) (e : s = p ++ q)
    (h : d p = .ok (rest, b)) : rest = [] := by
  by_cases hn : rest = []
  · exact hn
  · have h1 := hs _ _ _ h hn q
    have h2 := hr []
    rw [List.append_nil, e, h1] at h2
    simp only [Res.ok.injEq, Prod.mk.injEq, List.append_eq_nil_iff] at h2
    exact absurd h2.1.1 hn

theorem Strict.bind {s₁ s₂ : Bytes} {d : De α} {f : α → De β} {a : α} (hs : Stream d) (h1 : RT s₁ d a)
    (hf : ∀ b, b ≠ a → Eats (f b)) (hcut : Strict s₁ d ∨ Eats (f a)) (h2 : Strict s₂ (f a)) : Strict (s₁ ++ s₂) (d >>= f) := by
  intro p q e hq rest b h
  rw [De.bind_apply, Res.bind_eq_ok] at h
  obtain ⟨⟨r, a'⟩, h3, h4⟩ := h
  rcases List.append_eq_append_iff.1 e with ⟨u, rfl, hu⟩ | ⟨u, rfl, hu⟩
  · rw [h1 u] at h3
    simp only [Res.ok.injEq, Prod.mk.injEq] at h3
    obtain ⟨rfl, rfl⟩ := h3
    exact h2 _ q hu hq _ _ h4
  · by_cases hu' : u = []
    · subst hu'
      have := h1 []
      simp only [List.append_nil] at this h1 h3
      rw [this] at h3
      simp only [Res.ok.injEq, Prod.mk.injEq] at h3
      obtain ⟨rfl, rfl⟩ := h3
      refine h2 [] q ?_ hq _ _ h4
      simpa using hu.symm
    · have hr := rest_of_prefix hs h1 rfl h3
      simp only at h4
      subst hr
      rcases hcut with hc | hc
      · exact hc p u rfl hu' _ _ h3
      · by_cases hab : a' = a
        · subst hab; exact hc.nil _ _ h4
        · exact (hf a' hab).nil _ _ h4

/-- When the first part accepts none of its proper prefixes. -/
theorem Strict.bind_left {s₁ s₂ : Bytes} {d : De α} {f : α → De β} {a : α} (h1 : RT s₁ d a)
    (hc : Strict s₁ d) (h2 : Strict s₂ (f a)) : Strict (s₁ ++ s₂) (d >>= f) := by
  intro p q e hq rest b h
  rw [De.bind_apply, Res.bind_eq_ok] at h
  obtain ⟨⟨r, a'⟩, h3, h4⟩ := h
  rcases List.append_eq_append_iff.1 e with ⟨u, rfl, hu⟩ | ⟨u, rfl, hu⟩
  · rw [h1 u] at h3
    simp only [Res.ok.injEq, Prod.mk.injEq] at h3
    obtain ⟨rfl, rfl⟩ := h3
    exact h2 _ q hu hq _ _ h4
  · by_cases hu' : u = []
    · subst hu'
      have := h1 []
      simp only [List.append_nil] at this h1 h3
      rw [this] at h3
      simp only [Res.ok.injEq, Prod.mk.injEq] at h3
      obtain ⟨rfl, rfl⟩ := h3
      refine h2 [] q ?_ hq _ _ h4
      simpa using hu.symm
    · exact hc p u rfl hu' _ _ h3

/-- When whatever follows the first part consumes something. -/
theorem Strict.bind_eats {s₁ s₂ : Bytes} {d : De α} {f : α → De β} {a : α} (hs : Stream d) (h1 : RT s₁ d a)
    (hf : ∀ b, Eats (f b)) (h2 : Strict s₂ (f a)) : Strict (s₁ ++ s₂) (d >>= f) :=
  Strict.bind hs h1 (fun b _ => hf b) (.inr (hf a)) h2

theorem Strict.pure (a : α) : Strict [] (Pure.pure a : De α) := by
  intro p q e hq
  have := List.append_eq_nil_iff.1 e.symm
  exact absurd this.2 hq

theorem Strict.bind_pure {s : Bytes} {d : De α} {f : α → β} (h : Strict s d) : Strict s (d >>= fun a => Pure.pure (f a)) := by
  intro p q e hq rest b h'
  rw [De.bind_apply, Res.bind_eq_ok] at h'
  obtain ⟨⟨r, a⟩, h3, _⟩ := h'
  exact h p q e hq _ _ h3

theorem Strict.of_length_one {s : Bytes} {d : De α} (h : s.length = 1) (he : Eats d) : Strict s d := by
  intro p q e hq rest a
  have : p = [] := by
    have := congrArg List.length e
    have hq' : 0 < q.length := List.length_pos_iff.2 hq
    simp only [List.length_append] at this
    exact List.length_eq_zero_iff.1 (by omega)
  subst this
  exact he.nil _ _

end Idx
