import Verif.Lemmas.File
/-! # A small program logic for decoders run on arbitrary bytes -/
namespace Idx

/-- The ways a decoder may panic: `&input[..len]` past the end, `assert!(len == N)`, in builds with overflow checks
`parsed + previous`, and reserving room for more elements than possible. -/
def PanicOK (t : Target) (w : Panic) : Prop :=
  w = .sliceOutOfRange ∨ w = .assertFailed ∨ (w = .overflow ∧ t.overflowChecks = true) ∨
    (w = .capacity ∧ ∃ what n, n < 2 ^ t.usizeBits ∧ t.reserves what n = false)

/-- On any bytes: a successful decode leaves a suffix of the input and a value with `P`; a panic is one of `PanicOK`. -/
structure Good (t : Target) (d : De α) (P : α → Prop) : Prop where
  ok : ∀ input rest a, d input = .ok (rest, a) → rest <:+ input ∧ P a
  panic : ∀ input w, d input = .panic w → PanicOK t w

/-- A successful decode consumes at least one byte. -/
def Eats (d : De α) : Prop := ∀ input rest a, d input = .ok (rest, a) → rest.length < input.length

namespace Good
variable {α β : Type} {t : Target}

theorem mono {d : De α} {P Q : α → Prop} (h : Good t d P) (i : ∀ a, P a → Q a) : Good t d Q :=
  ⟨fun _ _ _ e => ⟨(h.ok _ _ _ e).1, i _ (h.ok _ _ _ e).2⟩, h.panic⟩

theorem pure {a : α} {P : α → Prop} (h : P a) : Good t (Pure.pure a : De α) P := by
  constructor
  · intro input rest b e
    simp only [De.pure_apply, Res.ok.injEq, Prod.mk.injEq] at e
    obtain ⟨rfl, rfl⟩ := e
    exact ⟨List.suffix_refl _, h⟩
  · intro input w e; simp at e

theorem bind {d : De α} {f : α → De β} {P : α → Prop} {Q : β → Prop} (h : Good t d P) (k : ∀ a, P a → Good t (f a) Q) :
    Good t (d >>= f) Q := by
  constructor
  · intro input rest b e
    rw [De.bind_apply, Res.bind_eq_ok] at e
    obtain ⟨⟨r, a⟩, h1, h2⟩ := e
    have := h.ok _ _ _ h1
    have h3 := (k a this.2).ok _ _ _ h2
    exact ⟨h3.1.trans this.1, h3.2⟩
  · intro input w e
    rw [De.bind_apply, Res.bind_eq_panic] at e
    rcases e with e | ⟨⟨r, a⟩, h1, h2⟩
    · exact h.panic _ _ e
    · exact (k a (h.ok _ _ _ h1).2).panic _ _ h2

theorem fail {P : α → Prop} : Good t (De.fail : De α) P :=
  ⟨fun _ _ _ e => by simp at e, fun _ _ e => by simp at e⟩

theorem lift {r : Res α} {P : α → Prop} (h : ∀ a, r = .ok a → P a) (hw : ∀ w, r = .panic w → PanicOK t w) :
    Good t (De.lift r) P := by
  constructor
  · intro input rest a e
    rw [De.lift_apply, Res.bind_eq_ok] at e
    obtain ⟨a', h1, h2⟩ := e
    simp only [Res.ok.injEq, Prod.mk.injEq] at h2
    obtain ⟨rfl, rfl⟩ := h2
    exact ⟨List.suffix_refl _, h _ h1⟩
  · intro input w e
    rw [De.lift_apply, Res.bind_eq_panic] at e
    rcases e with e | ⟨a, _, e⟩
    · exact hw _ e
    · simp at e

theorem ofOption {x : Option α} {P : α → Prop} (h : ∀ a, x = some a → P a) : Good t (De.lift (Res.ofOption x)) P := by
  refine lift (fun a e => h a (Res.ofOption_eq_ok.1 e)) ?_
  intro w e; cases x <;> simp at e

theorem times {d : De α} {P : α → Prop} (h : Good t d P) :
    ∀ n, Good t (De.times n d) fun l => l.length = n ∧ ∀ a ∈ l, P a := by
  intro n
  induction n with
  | zero => exact pure ⟨rfl, by simp⟩
  | succ n ih =>
    refine h.bind fun a ha => ih.bind fun l hl => pure ⟨by simp [hl.1], ?_⟩
    intro b hb
    rcases List.mem_cons.1 hb with rfl | hb
    · exact ha
    · exact hl.2 b hb

theorem timesFrom {d : Nat → De α} {P : Nat → α → Prop} (h : ∀ i, Good t (d i) (P i)) :
    ∀ n i, Good t (De.timesFrom n i d) fun l => l.length = n ∧ ∀ j a, l[j]? = some a → P (i + j) a := by
  intro n
  induction n with
  | zero => intro i; exact pure ⟨rfl, by simp⟩
  | succ n ih =>
    intro i
    refine (h i).bind fun a ha => (ih (i + 1)).bind fun l hl => pure ⟨by simp [hl.1], ?_⟩
    intro j b hb
    cases j with
    | zero => simp at hb; subst hb; exact ha
    | succ j => simp at hb; have := hl.2 j b hb; rwa [show i + 1 + j = i + (j + 1) by omega] at this

end Good

theorem Eats.bind {d : De α} {f : α → De β} {t : Target} {P : α → Prop} {Q : α → β → Prop} (h : Eats d) (hd : Good t d P)
    (hf : ∀ a, P a → Good t (f a) (Q a)) : Eats (d >>= f) := by
  intro input rest b e
  rw [De.bind_apply, Res.bind_eq_ok] at e
  obtain ⟨⟨r, a⟩, h1, h2⟩ := e
  have h3 := ((hf a (hd.ok _ _ _ h1).2).ok _ _ _ h2).1.length_le
  have := h _ _ _ h1
  simp only at h3
  omega

/-! ## Primitives -/

theorem deU64Loop_spec : ∀ (input : Bytes) (out : UInt64) (eaten : Nat) (r : Bytes) (o : UInt64) (e : Nat),
    deU64Loop input out eaten = some (r, o, e) → ∃ pre, input = pre ++ r ∧ e = eaten + pre.length := by
  intro input
  induction input with
  | nil =>
    intro out eaten r o e h
    simp only [deU64Loop, Option.some.injEq, Prod.mk.injEq] at h
    exact ⟨[], by simp [h.1], by simp [h.2.2]⟩
  | cons b input ih =>
    intro out eaten r o e h
    unfold deU64Loop at h
    split at h
    · simp only at h
      split at h
      · simp only [Option.some.injEq, Prod.mk.injEq] at h
        exact ⟨[b], by simp [h.1], by simp [← h.2.2]⟩
      · split at h
        · cases h
        · obtain ⟨pre, h1, h2⟩ := ih _ _ _ _ _ h
          exact ⟨b :: pre, by simp [h1], by simp [h2]; omega⟩
    · simp only [Option.some.injEq, Prod.mk.injEq] at h
      exact ⟨[], by simp [h.1], by simp [h.2.2]⟩

theorem deU64_spec {input rest : Bytes} {v : UInt64} (h : deU64 input = .ok (rest, v)) :
    rest <:+ input ∧ rest.length < input.length := by
  unfold deU64 at h
  split at h
  · cases h
  · rename_i input' out eaten he
    obtain ⟨pre, h1, h2⟩ := deU64Loop_spec _ _ _ _ _ _ he
    split at h
    · simp only at h
      split at h
      · cases h
      · rename_i b r
        simp only [Res.ok.injEq, Prod.mk.injEq] at h
        refine ⟨⟨pre ++ [b], by rw [← h.1, h1]; simp⟩, by rw [← h.1, h1]; simp; omega⟩
    · split at h
      · cases h
      · simp only [Res.ok.injEq, Prod.mk.injEq] at h
        exact ⟨⟨pre, by rw [← h.1, h1]⟩, by rw [← h.1, h1]; simp; omega⟩

theorem deU64_no_panic (input : Bytes) (w : Panic) : deU64 input ≠ .panic w := by
  intro h
  unfold deU64 at h
  split at h
  · cases h
  · split at h
    · simp only at h; split at h <;> cases h
    · split at h <;> cases h

theorem good_u64 (t : Target) : Good t deU64 fun _ => True :=
  ⟨fun _ _ _ h => ⟨(deU64_spec h).1, trivial⟩, fun _ _ h => absurd h (deU64_no_panic _ _)⟩

theorem eats_u64 : Eats deU64 := fun _ _ _ h => (deU64_spec h).2

theorem good_usize (t : Target) : Good t (deUsize t) fun n => n < 2 ^ t.usizeBits := by
  refine (good_u64 t).bind fun v _ => ?_
  split
  · exact Good.pure ‹_›
  · exact Good.fail

theorem eats_usize (t : Target) : Eats (deUsize t) := by
  refine eats_u64.bind (t := t) (P := fun _ => True) (Q := fun _ _ => True) (good_u64 t) fun v _ => ?_
  split
  · exact Good.pure trivial
  · exact Good.fail

theorem good_len (t : Target) (what : String) : Good t (deLen t what) fun n => n < 2 ^ t.usizeBits := by
  refine (good_usize t).bind fun n hn => ?_
  refine Good.bind (P := fun _ => True) (Good.lift (fun _ _ => trivial) fun w e => ?_) fun _ _ => Good.pure hn
  split at e
  · cases e
  · rename_i hr
    cases e
    exact .inr (.inr (.inr ⟨rfl, what, n, hn, by simpa using hr⟩))

theorem eats_len (t : Target) (what : String) : Eats (deLen t what) := by
  refine (eats_usize t).bind (t := t) (P := fun n => n < 2 ^ t.usizeBits) (Q := fun _ _ => True) (good_usize t) fun n hn => ?_
  refine Good.bind (P := fun _ => True) (Good.lift (fun _ _ => trivial) fun w e => ?_) fun _ _ => Good.pure trivial
  split at e
  · cases e
  · rename_i hr
    cases e
    exact .inr (.inr (.inr ⟨rfl, what, n, hn, by simpa using hr⟩))

theorem good_u32 (t : Target) : Good t deU32 fun _ => True := by
  refine (good_u64 t).bind fun v _ => ?_
  split
  · exact Good.pure trivial
  · exact Good.fail

theorem eats_u32 : Eats deU32 := by
  refine eats_u64.bind (t := .wasm32) (P := fun _ => True) (Q := fun _ _ => True) (good_u64 _) fun v _ => ?_
  split
  · exact Good.pure trivial
  · exact Good.fail

theorem good_char (t : Target) : Good t deChar fun _ => True :=
  (good_u32 t).bind fun _ _ => Good.ofOption fun _ _ => trivial

theorem eats_char : Eats deChar :=
  eats_u32.bind (t := .wasm32) (P := fun _ => True) (Q := fun _ _ => True) (good_u32 _)
    fun _ _ => Good.ofOption fun _ _ => trivial

theorem good_f32 (t : Target) : Good t deF32 fun _ => True := by
  constructor
  · intro input rest a h
    unfold deF32 at h
    split at h
    · rename_i a b c d r
      simp only [Res.ok.injEq, Prod.mk.injEq] at h
      exact ⟨⟨[a, b, c, d], by rw [← h.1]; rfl⟩, trivial⟩
    · cases h
  · intro input w h
    unfold deF32 at h
    split at h <;> cases h

theorem eats_f32 : Eats deF32 := by
  intro input rest a h
  unfold deF32 at h
  split at h
  · simp only [Res.ok.injEq, Prod.mk.injEq] at h
    rw [← h.1]; simp; omega
  · cases h

theorem good_bool (t : Target) : Good t deBool fun _ => True := by
  constructor
  · intro input rest a h
    unfold deBool at h
    split at h
    · cases h
    · rename_i b r
      simp only [Res.ok.injEq, Prod.mk.injEq] at h
      exact ⟨⟨[b], by rw [← h.1]; rfl⟩, trivial⟩
  · intro input w h
    unfold deBool at h
    split at h <;> cases h

theorem good_u8 (t : Target) : Good t deU8 fun _ => True := by
  constructor
  · intro input rest a h
    unfold deU8 at h
    split at h
    · cases h
    · rename_i b r
      simp only [Res.ok.injEq, Prod.mk.injEq] at h
      exact ⟨⟨[b], by rw [← h.1]; rfl⟩, trivial⟩
  · intro input w h
    unfold deU8 at h
    split at h <;> cases h

theorem good_str (t : Target) : Good t (deStr t) fun _ => True := by
  refine (good_usize t).bind fun len _ => ?_
  constructor
  · intro input rest a h
    split at h
    · split at h
      · simp only [Res.ok.injEq, Prod.mk.injEq] at h
        exact ⟨by rw [← h.1]; exact List.drop_suffix _ _, trivial⟩
      · cases h
    · cases h
  · intro input w h
    split at h
    · split at h <;> cases h
    · cases h; exact .inl rfl

theorem good_vec {t : Target} {d : De α} {P : α → Prop} (h : Good t d P) : Good t (deVec t d) fun l => ∀ a ∈ l, P a :=
  (good_len t _).bind fun n _ => (h.times n).mono fun _ hl => hl.2

theorem good_array {t : Target} {d : De α} {P : α → Prop} (n : Nat) (h : Good t d P) :
    Good t (deArray t n d) fun l => l.length = n ∧ ∀ a ∈ l, P a := by
  refine (good_usize t).bind fun len _ => ?_
  split
  · exact h.times n
  · refine Good.lift (fun a e => ?_) fun w e => ?_
    · cases e
    · cases e; exact .inr (.inl rfl)

theorem upsert_forall {K V : Type} [DecidableEq K] {P : K → V → Prop} {m : AMap K V} {k : K} {v : V}
    (h : ∀ e ∈ m, P e.1 e.2) (hv : P k v) : ∀ e ∈ AMap.insert m k v, P e.1 e.2 := by
  induction m with
  | nil => intro e he; simp [AMap.insert, AMap.upsert] at he; subst he; exact hv
  | cons a m ih =>
    intro e he
    obtain ⟨k', v'⟩ := a
    simp only [AMap.insert, AMap.upsert] at he
    split at he
    · rename_i hk
      rcases List.mem_cons.1 he with rfl | he
      · subst hk; exact hv
      · exact h e (by simp [he])
    · rcases List.mem_cons.1 he with rfl | he
      · exact h _ (by simp)
      · exact ih (fun e he => h e (by simp [he])) e he

theorem collect_forall {K V : Type} [DecidableEq K] {P : K → V → Prop} {l : List (K × V)}
    (h : ∀ e ∈ l, P e.1 e.2) : ∀ e ∈ AMap.collect l, P e.1 e.2 := by
  unfold AMap.collect
  suffices ∀ m : AMap K V, (∀ e ∈ m, P e.1 e.2) → ∀ e ∈ l.foldl (fun m p => AMap.insert m p.1 p.2) m, P e.1 e.2 by
    exact this [] (by simp)
  induction l with
  | nil => intro m hm; exact hm
  | cons a l ih =>
    intro m hm
    exact ih (fun e he => h e (by simp [he])) _ (upsert_forall hm (h a (by simp)))

theorem collect_wf' {K V : Type} [DecidableEq K] (l : List (K × V)) : AMap.Wf (AMap.collect l) := by
  unfold AMap.collect
  suffices ∀ m : AMap K V, AMap.Wf m → AMap.Wf (l.foldl (fun m p => AMap.insert m p.1 p.2) m) by
    exact this [] AMap.Wf.nil
  induction l with
  | nil => intro m hm; exact hm
  | cons a l ih => intro m hm; exact ih _ (hm.insert _ _)

theorem good_map {K V : Type} [DecidableEq K] {t : Target} {dk : De K} {dv : De V} {P : K → Prop} {Q : V → Prop}
    (hk : Good t dk P) (hv : Good t dv Q) :
    Good t (deMap t dk dv) fun m => AMap.Wf m ∧ ∀ e ∈ m, P e.1 ∧ Q e.2 := by
  refine (good_len t _).bind fun n _ => ?_
  refine Good.bind (Good.times (P := fun e : K × V => P e.1 ∧ Q e.2) ?_ n) fun l hl => Good.pure ⟨collect_wf' l, ?_⟩
  · exact hk.bind fun k h1 => hv.bind fun v h2 => Good.pure ⟨h1, h2⟩
  · exact collect_forall (P := fun k v => P k ∧ Q v) hl.2

theorem addUsize_panic {t : Target} {a b : Nat} {w : Panic} (h : addUsize t a b = .panic w) : PanicOK t w := by
  unfold addUsize at h
  split at h
  · cases h
  · split at h
    · cases h; exact .inr (.inr (.inl ⟨rfl, ‹_›⟩))
    · cases h

theorem good_deltas (t : Target) : ∀ (n : Nat) (prev : Option Nat), Good t (deDeltas t n prev) fun l => l.length = n := by
  intro n
  induction n with
  | zero => intro prev; exact Good.pure rfl
  | succ n ih =>
    intro prev
    refine (good_usize t).bind fun parsed _ => ?_
    refine Good.bind (P := fun _ => True) ?_ fun item _ => (ih (some item)).bind fun l hl => Good.pure (by simp [hl])
    cases prev with
    | none => exact Good.pure trivial
    | some p => exact Good.lift (fun _ _ => trivial) fun w h => addUsize_panic h

theorem good_seq (t : Target) : Good t (deSeq t) fun _ => True :=
  (good_len t _).bind fun n _ => (good_deltas t n none).mono fun _ _ => trivial

/-! ## Data -/

theorem lookupAll_spec {existing : List Product} {ids : List Nat} : ∀ {l : List Product},
    lookupAll existing ids = some l → l.length = ids.length ∧ ∀ (j : Nat) (p : Product), l[j]? = some p → ∃ id : Nat, ids[j]? = some id ∧ existing[id]? = some p := by
  induction ids with
  | nil => intro l h; simp [lookupAll] at h; subst h; simp
  | cons id ids ih =>
    intro l h
    unfold lookupAll at h
    split at h
    · cases h
    · rename_i p hp
      rw [Option.map_eq_some_iff] at h
      obtain ⟨l', h1, rfl⟩ := h
      obtain ⟨h2, h3⟩ := ih h1
      refine ⟨by simp [h2], ?_⟩
      intro j q hq
      cases j with
      | zero => simp at hq; subst hq; exact ⟨id, rfl, hp⟩
      | succ j => simp at hq; simpa using h3 j q hq

/-- `p` is the product of the container at the position it reports. -/
def Stored (products : List Product) (p : Product) : Prop := products[p.sid]? = some p

theorem good_productSeq {t : Target} {existing : List Product} (hs : ∀ (k : Nat) (p : Product), existing[k]? = some p → p.sid = k) :
    Good t (deProductSeq t existing) fun r => (∀ p ∈ r.1, Stored existing p) ∧ r.1.map (·.sid) = r.2 := by
  refine (good_seq t).bind fun ids _ => ?_
  refine Good.bind (Good.ofOption (P := fun l => lookupAll existing ids = some l) fun _ h => h) fun l hl => Good.pure ?_
  obtain ⟨h1, h2⟩ := lookupAll_spec hl
  constructor
  · intro p hp
    obtain ⟨j, hj⟩ := List.getElem?_of_mem hp
    obtain ⟨id, _, h⟩ := h2 j p hj
    unfold Stored
    rw [hs _ _ h]; exact h
  · apply List.ext_getElem?
    intro j
    rw [List.getElem?_map]
    cases hj : l[j]? with
    | none =>
      rw [List.getElem?_eq_none_iff] at hj
      simp only [Option.map_none]
      exact (List.getElem?_eq_none (by omega)).symm
    | some p =>
      obtain ⟨id, h3, h⟩ := h2 j p hj
      simp only [Option.map_some]
      rw [h3, hs _ _ h]

theorem good_vendors (t : Target) : Good t (deVendors t) fun m =>
    (∀ (i : Nat) (v : Vendor), m.byId[i]? = some v → v.id = i) ∧ m.tags = AMap.collect (m.byId.map fun v => (v.name, v)) := by
  refine (good_len t _).bind fun len _ => ?_
  refine Good.bind (Good.timesFrom (P := fun i (v : Vendor) => v.id = i) (fun i => ?_) len 0) fun vs h => Good.pure ⟨?_, rfl⟩
  · exact (good_str t).bind fun name _ => Good.pure rfl
  · intro i v hv
    have := h.2 i v hv
    omega

/-- What every container read from bytes satisfies. -/
structure ContainerOk (c : Container) : Prop where
  sid : ∀ (k : Nat) (p : Product), c.products[k]? = some p → p.sid = k
  vendorId : ∀ (i : Nat) (v : Vendor), c.vendors.byId[i]? = some v → v.id = i
  vendor : ∀ p ∈ c.products, c.vendors.byId[p.vendor.id]? = some p.vendor
  extra : AMap.Wf c.extra
  vendorTags : c.vendors.tags = AMap.collect (c.vendors.byId.map fun v => (v.name, v))

theorem good_feature (t : Target) : Good t (deFeature t) fun _ => True := by
  refine (good_u8 t).bind fun id _ => ?_
  split
  · exact (good_vec (good_str t)).bind fun _ _ => Good.pure trivial
  · split
    · exact (good_vec (good_f32 t)).bind fun _ _ => Good.pure trivial
    · split
      · exact (good_vec (good_u32 t)).bind fun _ _ => Good.pure trivial
      · exact Good.fail

theorem good_product {t : Target} {sid : Nat} {vendors : VendorManager} (h : ∀ (i : Nat) (v : Vendor), vendors.byId[i]? = some v → v.id = i) :
    Good t (deProduct t sid vendors) fun p => p.sid = sid ∧ vendors.byId[p.vendor.id]? = some p.vendor := by
  refine (good_str t).bind fun description _ => (good_str t).bind fun title _ => (good_str t).bind fun id _ =>
    (good_usize t).bind fun vendorId _ => ?_
  refine Good.bind (Good.ofOption (P := fun v => vendors.byId[vendorId]? = some v) fun _ h => h) fun v hv => Good.pure ?_
  refine ⟨rfl, ?_⟩
  simp only
  rw [h _ _ hv]; exact hv

theorem good_container (t : Target) : Good t (deContainer t) ContainerOk := by
  refine (good_vendors t).bind fun vendors hv => (good_usize t).bind fun count _ => ?_
  refine Good.bind (Good.timesFrom (P := fun i (p : Product) => p.sid = i ∧ vendors.byId[p.vendor.id]? = some p.vendor)
    (fun i => good_product hv.1) count 0) fun products hp => ?_
  refine Good.bind (good_map (good_str t) (good_feature t)) fun extra he => Good.pure ⟨?_, hv.1, ?_, he.1, hv.2⟩
  · intro k p h
    have := (hp.2 k p h).1
    omega
  · intro p h
    obtain ⟨k, hk⟩ := List.getElem?_of_mem h
    exact (hp.2 k p hk).2

/-! ## Tags, categories, orders -/

/-- What every tag list read from bytes satisfies. -/
structure TagsOk (products : List Product) (tags : List Tag) : Prop where
  id : ∀ (i : Nat) (tag : Tag), tags[i]? = some tag → tag.id = i
  stored : ∀ tag ∈ tags, ∀ p ∈ tag.products, Stored products p
  contains : ∀ tag ∈ tags, ∀ s, s ∈ tag.ids ↔ ∃ p ∈ tag.products, p.sid = s

theorem good_tags {t : Target} {existing : List Product} (hs : ∀ (k : Nat) (p : Product), existing[k]? = some p → p.sid = k) :
    Good t (deTags t existing) (TagsOk existing) := by
  refine (good_len t _).bind fun len _ => ?_
  refine (Good.timesFrom (P := fun i (tag : Tag) => tag.id = i ∧ (∀ p ∈ tag.products, Stored existing p) ∧
    ∀ s, s ∈ tag.ids ↔ ∃ p ∈ tag.products, p.sid = s) (fun i => ?_) len 0).mono fun l hl => ⟨?_, ?_, ?_⟩
  · refine (good_str t).bind fun name _ => (good_productSeq hs).bind fun r hr => Good.pure ⟨rfl, hr.1, ?_⟩
    intro s
    simp only [mem_setCollect]
    rw [← hr.2, List.mem_map]
  · intro i tag h
    have := (hl.2 i tag h).1
    omega
  · intro tag h
    obtain ⟨i, hi⟩ := List.getElem?_of_mem h
    exact (hl.2 i tag hi).2.1
  · intro tag h
    obtain ⟨i, hi⟩ := List.getElem?_of_mem h
    exact (hl.2 i tag hi).2.2

/-- What every category option read from bytes satisfies. -/
structure OptionOk (products : List Product) (op : CatOption) : Prop where
  stored : ∀ p ∈ op.content, Stored products p
  contains : ∀ s, s ∈ op.ids ↔ ∃ p ∈ op.content, p.sid = s

theorem good_option {t : Target} {existing : List Product} (hs : ∀ (k : Nat) (p : Product), existing[k]? = some p → p.sid = k) (sid : Nat) :
    Good t (deCatOption t existing sid) fun op => op.sid = sid ∧ OptionOk existing op := by
  refine (good_str t).bind fun name _ => (good_productSeq hs).bind fun r hr => Good.pure ⟨rfl, hr.1, ?_⟩
  intro s
  simp only [mem_setCollect]
  rw [← hr.2, List.mem_map]

theorem good_category {t : Target} {existing : List Product} (hs : ∀ (k : Nat) (p : Product), existing[k]? = some p → p.sid = k) (next : Nat) :
    Good t (deCategory t existing next) fun c => c.options.map (·.sid) = List.range' next c.options.length ∧
      ∀ op ∈ c.options, OptionOk existing op := by
  refine (good_bool t).bind fun exclusive _ => (good_str t).bind fun name _ => (good_len t _).bind fun len _ => ?_
  refine Good.bind (Good.timesFrom (good_option hs) len next) fun l hl => Good.pure ⟨?_, ?_⟩
  · apply List.ext_getElem?
    intro i
    simp only [List.getElem?_map]
    cases h : l[i]? with
    | none => rw [List.getElem?_eq_none_iff] at h; simp; omega
    | some op =>
      have := (List.getElem?_eq_some_iff.1 h).1
      simp [this, (hl.2 i op h).1]
  · intro op h
    obtain ⟨i, hi⟩ := List.getElem?_of_mem h
    exact (hl.2 i op hi).2

/-- All option numbers of a list of categories, in order. -/
def optionIds (cats : List Category) : List Nat := cats.flatMap fun c => c.options.map (·.sid)

theorem good_categoriesLoop {t : Target} {existing : List Product} (hs : ∀ (k : Nat) (p : Product), existing[k]? = some p → p.sid = k) :
    ∀ n next, Good t (deCategoriesLoop t existing n next) fun l =>
      optionIds l = List.range' next (optionIds l).length ∧ ∀ c ∈ l, ∀ op ∈ c.options, OptionOk existing op := by
  intro n
  induction n with
  | zero => intro next; exact Good.pure ⟨rfl, by simp⟩
  | succ n ih =>
    intro next
    refine (good_category hs next).bind fun c hc => (ih _).bind fun l hl => Good.pure ⟨?_, ?_⟩
    · have e : optionIds (c :: l) = c.options.map (·.sid) ++ optionIds l := by simp [optionIds]
      rw [e, hc.1, hl.1]
      simp only [List.length_range', List.range'_append_1]
    · intro c' h
      rcases List.mem_cons.1 h with rfl | h
      · exact hc.2
      · exact hl.2 c' h

/-- What all classic indexes read from bytes satisfy. -/
structure ClassicOk (products : List Product) (cl : Classic) : Prop where
  tags : TagsOk products cl.tags
  optionIds : optionIds cl.categories = List.range (optionIds cl.categories).length
  options : ∀ c ∈ cl.categories, ∀ op ∈ c.options, OptionOk products op
  order : AMap.Wf cl.order

theorem good_classic {t : Target} {c : Container} (h : ContainerOk c) : Good t (deClassic t c) (ClassicOk c.products) := by
  refine Good.bind ((good_len t _).bind fun len _ => good_categoriesLoop h.sid len 0) fun cats hc => ?_
  refine (good_tags h.sid).bind fun tags ht => ?_
  refine Good.bind (good_map (good_str t) (good_vec (good_usize t))) fun order ho => Good.pure ⟨ht, ?_, hc.2, ho.1⟩
  rw [List.range_eq_range']; exact hc.1

/-! ## The n-gram index -/

theorem good_node (t : Target) : ∀ fuel, Good t (deNode t fuel) fun _ => True := by
  intro fuel
  induction fuel with
  | zero => exact Good.fail
  | succ fuel ih =>
    exact (good_char t).bind fun _ _ => (good_f32 t).bind fun _ _ => (good_vec ih).bind fun _ _ => Good.pure trivial

theorem good_nodeTop (t : Target) : Good t (deNodeTop t) fun _ => True :=
  ⟨fun input rest a h => (good_node t _).ok input rest a h, fun input w h => (good_node t _).panic input w h⟩

/-- What every index read from bytes satisfies. -/
structure GramOk (n : Nat) (ix : GramIndex Char) : Prop where
  container : ContainerOk ix.container
  roots : AMap.Wf ix.roots
  data : AMap.Wf ix.data
  postings : ∀ e ∈ ix.data, e.1.length = n ∧ ∀ p ∈ e.2, Stored ix.container.products p

theorem good_gram (t : Target) (n : Nat) : Good t (deGramIndex t n) (GramOk n) := by
  refine (good_container t).bind fun c hc => ?_
  refine Good.bind (good_map (good_char t) (good_nodeTop t)) fun roots hr => ?_
  refine (good_len t _).bind fun len _ => ?_
  refine Good.bind (Good.times (P := fun e : List Char × List Product => e.1.length = n ∧ ∀ p ∈ e.2, Stored c.products p) ?_ len)
    fun l hl => Good.pure ⟨hc, hr.1, collect_wf' _, ?_⟩
  · exact Good.bind (good_array n (good_char t)) fun gram hg => (good_productSeq hc.sid).bind fun r hr =>
      Good.pure ⟨hg.1, hr.1⟩
  · exact collect_forall (P := fun (k : List Char) (v : List Product) => k.length = n ∧ ∀ p ∈ v, Stored c.products p) hl.2

/-- Both indexes as one decoder. -/
def deBoth (t : Target) (n : Nat) : De (GramIndex Char × Classic) := do
  let ix ← deGramIndex t n
  let cl ← deClassic t ix.container
  pure (ix, cl)

theorem deserializeAll_eq (t : Target) (n : Nat) (input : Bytes) :
    deserializeAll t n input = (deBoth t n input >>= fun r => .ok r.2) := by
  unfold deserializeAll deBoth
  rw [De.bind_apply]
  cases deGramIndex t n input with
  | none => rfl
  | panic w => rfl
  | ok r =>
    obtain ⟨r, ix⟩ := r
    simp only [Res.bind_ok]
    rw [De.bind_apply]
    cases deClassic t ix.container r <;> rfl

theorem good_both (t : Target) (n : Nat) :
    Good t (deBoth t n) fun r => GramOk n r.1 ∧ ClassicOk r.1.container.products r.2 :=
  (good_gram t n).bind fun _ hix => (good_classic hix.container).bind fun _ hcl => Good.pure ⟨hix, hcl⟩

/-! ## Fuel -/

/-- The two decoders agree on inputs shorter than `m`. -/
def Agree (m : Nat) (d d' : De α) : Prop := ∀ input : Bytes, input.length < m → d input = d' input

theorem Agree.bind {m : Nat} {t : Target} {d d' : De α} {f f' : α → De β} {P : α → Prop} (h : Agree m d d') (g : Good t d P)
    (hf : ∀ a, Agree m (f a) (f' a)) : Agree m (d >>= f) (d' >>= f') := by
  intro input hi
  rw [De.bind_apply, De.bind_apply, ← h input hi]
  cases e : d input with
  | none => rfl
  | panic w => rfl
  | ok r =>
    obtain ⟨r, a⟩ := r
    have := (g.ok _ _ _ e).1.length_le
    exact hf a r (by omega)

theorem Agree.times {m : Nat} {t : Target} {d d' : De α} {P : α → Prop} (h : Agree m d d') (g : Good t d P) :
    ∀ n, Agree m (De.times n d) (De.times n d') := by
  intro n
  induction n with
  | zero => intro input _; rfl
  | succ n ih => exact h.bind g fun a => ih.bind (g.times n) fun l => fun _ _ => rfl

theorem Agree.refl (m : Nat) (d : De α) : Agree m d d := fun _ _ => rfl

/-- Extra fuel makes no difference. -/
theorem deNode_fuel (t : Target) : ∀ (a b m : Nat), m ≤ a → m ≤ b → Agree m (deNode t a) (deNode t b) := by
  intro a
  induction a with
  | zero => intro b m h _ input hi; omega
  | succ a ih =>
    intro b m h1 h2 input hi
    cases b with
    | zero => omega
    | succ b =>
      unfold deNode
      rw [De.bind_apply, De.bind_apply]
      cases e : deChar input with
      | none => rfl
      | panic w => rfl
      | ok r =>
        obtain ⟨r, c⟩ := r
        have hlt := eats_char _ _ _ e
        simp only [Res.bind_ok]
        refine Agree.bind (m := r.length + 1) (t := t) (P := fun _ => True) (Agree.refl _ _) (good_f32 t) (fun w => ?_) r (by omega)
        refine Agree.bind (t := t) (P := fun _ => True) ?_ ((good_vec (good_node t a)).mono fun _ _ => trivial) fun _ => Agree.refl _ _
        refine Agree.bind (t := t) (Agree.refl _ _) (good_len t _) fun n => ?_
        exact (ih b (r.length + 1) (by omega) (by omega)).times (good_node t a) n

/-- The model of `GramNode::deserialize_arena` satisfies the recursive equation of the Rust function
(src/serialize/nodes.rs:30-54): the fuel is invisible. -/
theorem deNodeTop_eq (t : Target) : deNodeTop t = (do
    let item ← deChar
    let weight ← deF32
    let byOcc ← deVec t (deNodeTop t)
    pure (.mk item weight byOcc)) := by
  funext input
  show deNode t (input.length + 1) input = _
  unfold deNode
  rw [De.bind_apply, De.bind_apply]
  cases e : deChar input with
  | none => rfl
  | panic w => rfl
  | ok r =>
    obtain ⟨r, c⟩ := r
    have hlt := eats_char _ _ _ e
    simp only [Res.bind_ok]
    refine Agree.bind (m := r.length + 1) (t := t) (P := fun _ => True) (Agree.refl _ _) (good_f32 t) (fun w => ?_) r (by omega)
    refine Agree.bind (t := t) (P := fun _ => True) ?_ ((good_vec (good_node t _)).mono fun _ _ => trivial) fun _ => Agree.refl _ _
    refine Agree.bind (t := t) (Agree.refl _ _) (good_len t _) fun n => ?_
    refine Agree.times (fun x hx => ?_) (good_node t _) n
    exact deNode_fuel t _ _ (x.length + 1) (by omega) (by omega) x (by omega)

end Idx
